import Verif.Lemmas.RetroCoin

set_option linter.unusedSectionVars false

/-! # C115: coins on paths that are revealed where the coin needs them -/

namespace Ctb

open Classical MeasureTheory Set Filter Topology
open scoped ENNReal

variable {s : EaSkel} {n k : ℕ} {x0 T : ℝ} {disc : ℝ → ℝ} {c : ℝ}

/-- The coin looks at the points batch by batch, reveals the path at the times of each batch and stops at the first batch with a point below the graph.  It succeeds
as often as no point at all lies below the graph of a path that is revealed at the times of all points at once.  The budget `n` of proposals per gap grows. -/
theorem C115_rounds (hk : 0 < k) (hd : Measurable disc) {h : ℝ} (hh : 0 < h) (hT : 0 < T) {size : ℤ} (hsize : 0 < size) (hs : s.Plain) (hlast : s.t.getLast? = some T) :
    Tendsto (fun n => (batchCoin (skelStep (interpolateSkel n k) disc c) h T size s).prob fun r => ∃ s', r = .ok (true, s')) atTop
      (𝓝 ((sampleBatchPpp 1 [h, T] size).lexp (onOk fun bs => ⨆ n, clearProb n k disc c s (bs.flatten.map pointOf)))) ∧
    ∀ n, (batchCoin (skelStep (interpolateSkel n k) disc c) h T size s).prob (fun r => ∃ s', r = .ok (true, s')) ≤
      (sampleBatchPpp 1 [h, T] size).lexp (onOk fun bs => ⨆ n, clearProb n k disc c s (bs.flatten.map pointOf)) :=
by
  have := batchCoin_lim (skelCoin_step (k := k) (T := T) (c := c) hd) hk (measBad_disc hd) one_pos hh hT hsize hs trivial (by rw [hlast, one_mul])
  simp only [ptsOf, scaled_one] at this
  exact this

/-- The coin ends with certainty as the budget grows. -/
theorem C115_total (hk : 0 < k) (hd : Measurable disc) {h : ℝ} (hh : 0 < h) (hT : 0 < T) {size : ℤ} (hsize : 0 < size) (hs : s.Plain) (hlast : s.t.getLast? = some T) :
    Tendsto (fun n => (batchCoin (skelStep (interpolateSkel n k) disc c) h T size s).prob fun r => ∃ q, r = .ok q) atTop (𝓝 1) :=
  batchCoin_ok (skelCoin_step (k := k) (T := T) (c := c) hd) skelCoin_end hk one_pos hh hT hsize hs trivial (by rw [hlast, one_mul])

theorem flipSkelCoin_eq {ebd : ℝ → ℝ → Res DiscBounds} {size : ℤ} {l u : ℝ} (hb : ebd (min s.loose s.tight) (max s.loose s.tight) = .ok (some c, l, ((u : ℝ) : WithTop ℝ)))
    (hlast : s.t.getLast? = some T) : flipSkelCoin n k disc ebd size s = batchCoin (skelStep (interpolateSkel n k) disc c) (u - c) T size s := by
  unfold flipSkelCoin
  rw [hb, hlast]
  rfl

/-- The same of the coin of the library, whose level and height are given by the bounds on the layer. -/
theorem C115_coin (hk : 0 < k) (hd : Measurable disc) {ebd : ℝ → ℝ → Res DiscBounds} {l u : ℝ} (hb : ebd (min s.loose s.tight) (max s.loose s.tight) = .ok (some c, l, ((u : ℝ) : WithTop ℝ)))
    (hcu : c < u) (hT : 0 < T) {size : ℤ} (hsize : 0 < size) (hs : s.Plain) (hlast : s.t.getLast? = some T) :
    Tendsto (fun n => (flipSkelCoin n k disc ebd size s).prob fun r => ∃ s', r = .ok (true, s')) atTop
      (𝓝 ((sampleBatchPpp 1 [u - c, T] size).lexp (onOk fun bs => ⨆ n, clearProb n k disc c s (bs.flatten.map pointOf)))) ∧
    Tendsto (fun n => (flipSkelCoin n k disc ebd size s).prob fun r => ∃ q, r = .ok q) atTop (𝓝 1) := by
  simp only [flipSkelCoin_eq hb hlast]
  exact ⟨(C115_rounds hk hd (sub_pos.2 hcu) hT hsize hs hlast).1, C115_total hk hd (sub_pos.2 hcu) hT hsize hs hlast⟩

/-- For a path with a minimum the probability that no point lies below its graph is the integral, over the values at the times of the points, of the density of the path given what
is known. -/
theorem C115_density (hk : 0 < k) (hd : Measurable disc) (hs : s.Free) (hx : s.x.head? = some x0) {ps : List (ℝ × ℝ)} (hT : s.Times (timesOf ps)) :
    ⨆ n, clearProb n k disc c s ps =
      pinInt (edgeKer s.bound s.tight) 0 x0 (weave (timesOf ps) 0 s.points)
        (fun ws => if Clear disc c ps (0 :: (weave (timesOf ps) 0 s.points).map Prod.fst) (x0 :: ws) then 1 else 0) / pinInt (edgeKer s.bound s.tight) 0 x0 s.points fun _ => 1 := by
  obtain ⟨ts, xs, ht, hxs, hl, hp, hz, hg⟩ := hs.split hx
  have hF : ∀ t n, Measurable fun z : Fin n → ℝ => clr (belowDisc disc c) ps t (List.ofFn z) := fun t n => meas_clr (measBad_disc hd) measurable_const measurable_const (measurable_ofFn n)
  obtain ⟨hm, hsup⟩ := interp_fold (F := clr (belowDisc disc c) ps) hk hs hT hx ht hxs hF
  have hs' : (0 :: (ts.zip xs).map Prod.fst).Pairwise (· < ·) := by rw [hz, ← ht]; exact hs.valid.sorted
  have hd := known_dens (ts.zip xs) 0 x0 hs' hg
  have hpin := pin_fold hT.1 (ts.zip xs) 0 x0 hs' hg (measAll_fun (hF (0 :: weaveT (timesOf ps) 0 ts)) x0 _)
  have e : (weave (timesOf ps) 0 s.points).map Prod.fst = weaveT (timesOf ps) 0 ts := by 
    rw [hp, weave_times]
    congr 1
    refine Eq.trans ?_ hz
    rw [known, List.map_map]
    rfl
  rw [e]
  show ⨆ n, (interpolateSkel n k s (timesOf ps)).lexp (onOk fun r => clr (belowDisc disc c) ps r.1.t r.1.x) = pinInt (edgeKer s.bound s.tight) 0 x0 (weave (timesOf ps) 0 s.points)
    (fun ws => clr (belowDisc disc c) ps (0 :: weaveT (timesOf ps) 0 ts) (x0 :: ws)) / _
  rw [hsup, hp, hpin, ENNReal.mul_div_right_comm, ENNReal.div_self hd.1 hd.2, one_mul]

/-! ## Examples -/

example : ∃ L, Tendsto (fun n => (flipSkelCoin n 1 (fun x => x ^ 2) (fun l u => .ok (some 0, 0, ((9 : ℝ) : WithTop ℝ))) 3 demoFree).prob fun r => ∃ s', r = .ok (true, s')) atTop (𝓝 L) ∧
    Tendsto (fun n => (flipSkelCoin n 1 (fun x => x ^ 2) (fun l u => .ok (some 0, 0, ((9 : ℝ) : WithTop ℝ))) 3 demoFree).prob fun r => ∃ q, r = .ok q) atTop (𝓝 1) :=
  ⟨_, C115_coin (T := 1) one_pos (by fun_prop) (l := 0) (u := 9) rfl (by norm_num) one_pos (by norm_num) (Or.inl demoFree_free) rfl⟩

example : ⨆ n, clearProb n 1 (fun x => x ^ 2) 0 demoFree [(3, 1/4)] =
    pinInt (edgeKer 2 0) 0 1 [(1/4, none), (1/2, some 0), (1, some 1)] (fun ws => if ¬ (3 : ℝ) < ws.headD 0 ^ 2 then 1 else 0) / pinInt (edgeKer 2 0) 0 1 [(1/2, some 0), (1, some 1)] fun _ => 1 := by
  have ht : timesOf [((3 : ℝ), (1 / 4 : ℝ))] = [1/4] := by simp [timesOf]
  have := C115_density (k := 1) (s := demoFree) (x0 := 1) (disc := fun x => x ^ 2) (c := 0) (ps := [(3, 1/4)]) one_pos (by fun_prop) demoFree_free rfl (by rw [ht]; exact ⟨by simp, by simp [demoFree]; norm_num⟩)
  rw [this, ht]
  have e : weave [1/4] 0 demoFree.points = [(1/4, none), (1/2, some 0), (1, some 1)] := by
    simp [demoFree, EaSkel.points, weave, between]
    norm_num
  have e' : demoFree.points = [(1/2, some 0), (1, some 1)] := by simp [demoFree, EaSkel.points]
  have eb : demoFree.bound = 2 := by simp [demoFree, EaSkel.bound]
  rw [e, e', eb]
  simp [pinInt, Clear, ClearOf, demoFree]

end Ctb
