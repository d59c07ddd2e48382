import Verif.Lemmas.ForwardLaw
import Verif.Lemmas.Proper
import Verif.Lemmas.RegJump
import Verif.Lemmas.MassJump
import Verif.Spec.ChainProb
import Verif.Spec.Value

/-! # States of a simulated jump process at several times -/

set_option linter.unusedSectionVars false

namespace Ctb

open Classical MeasureTheory
open scoped ENNReal

/-! ## Exponential clocks have no memory -/

theorem holdLaw_memory {rs : List ℝ} {a : ℝ} (ha : 0 < a) {φ A B : ℕ → ℝ → ℝ≥0∞} {c c' δ : ℝ≥0∞} (hδ : δ ≠ ⊤) (h1 : ∀ k h, 0 < h → h < a → φ k h = A k h)
    (h2 : ∀ k h, a < h → φ k h = δ * B k (h - a)) (hc : c = δ * c') :
    holdLaw rs φ c = δ * (ENNReal.ofReal (Real.exp (-(rs.sum * a))) * holdLaw rs B c') +
      ∑ k ∈ Finset.range rs.length, ∫⁻ h in Set.Ioo 0 a, ENNReal.ofReal (rs.getD k 0 * Real.exp (-(rs.sum * h))) * A k h := by
  have key : ∀ k, ∫⁻ h in Set.Ioi 0, ENNReal.ofReal (rs.getD k 0 * Real.exp (-(rs.sum * h))) * φ k h =
      (∫⁻ h in Set.Ioo 0 a, ENNReal.ofReal (rs.getD k 0 * Real.exp (-(rs.sum * h))) * A k h) +
        δ * (ENNReal.ofReal (Real.exp (-(rs.sum * a))) * ∫⁻ h in Set.Ioi 0, ENNReal.ofReal (rs.getD k 0 * Real.exp (-(rs.sum * h))) * B k h) := by
    intro k
    have hset : Set.Ioi (0 : ℝ) = Set.Ioo 0 a ∪ Set.Ici a := by
      rw [Set.Ioo_union_Ici_eq_Ioi ha]
    have hd : Disjoint (Set.Ioo 0 a) (Set.Ici a) := by
      rw [Set.disjoint_left]; intro x hx hx'; exact absurd hx.2 (not_lt.2 hx')
    rw [hset, lintegral_union measurableSet_Ici hd]
    congr 1
    · exact setLIntegral_congr_fun measurableSet_Ioo fun h hh => by rw [h1 k h hh.1 hh.2]
    · rw [← hset, setLIntegral_congr Ioi_ae_eq_Ici.symm, ← lintegral_const_mul' _ _ ENNReal.ofReal_ne_top, ← lintegral_const_mul' _ _ hδ, ← lintegral_indicator measurableSet_Ioi,
        ← lintegral_indicator measurableSet_Ioi]
      refine Eq.trans ?_ (lintegral_sub_right_eq_self _ a)
      refine lintegral_congr fun h => ?_
      by_cases hh : a < h
      · rw [Set.indicator_of_mem (show h ∈ Set.Ioi a from hh), Set.indicator_of_mem (show h - a ∈ Set.Ioi 0 from sub_pos.2 hh), h2 k h hh]
        have e : ENNReal.ofReal (rs.getD k 0 * Real.exp (-(rs.sum * h))) = ENNReal.ofReal (Real.exp (-(rs.sum * a))) * ENNReal.ofReal (rs.getD k 0 * Real.exp (-(rs.sum * (h - a)))) := by
          rw [← ENNReal.ofReal_mul (Real.exp_pos _).le]
          congr 1
          rw [mul_left_comm, ← Real.exp_add]
          congr 2
          ring
        rw [e]
        ring
      · rw [Set.indicator_of_notMem (show h ∉ Set.Ioi a from hh), Set.indicator_of_notMem (show h - a ∉ Set.Ioi 0 from fun h' => hh (sub_pos.1 h'))]
  unfold holdLaw
  simp only [key, Finset.sum_add_distrib, ← Finset.mul_sum]
  rw [mul_add, mul_add, hc]
  by_cases h0 : rs.sum = 0
  · simp only [h0, zero_mul, neg_zero, Real.exp_zero, ENNReal.ofReal_one, one_mul, if_true]
    ring
  · simp only [h0, if_false, mul_zero, add_zero]
    ring

/-! ## States at given times -/

/-- One if the path is in the listed states at the listed times. -/
noncomputable def seen (cs l : List (ℝ × ℕ)) : ℝ≥0∞ := if ∀ c ∈ cs, stAt l c.1 = some c.2 then 1 else 0

theorem meas_stAt (s : ℝ) : Measurable fun l : List (ℝ × ℕ) => stAt l s := by
  unfold stAt
  refine Measurable.optionMap (f := fun _ (p : ℝ × ℕ) => p.2) ?_ (by fun_prop)
  refine Measurable.getLast? (Measurable.filter (P := fun _ (p : ℝ × ℕ) => decide (p.1 ≤ s)) measurable_id ?_)
  have h : MeasurableSet {q : List (ℝ × ℕ) × ℝ × ℕ | q.2.1 ≤ s} := measurableSet_le (by fun_prop) measurable_const
  exact Measurable.decide (P := fun q : List (ℝ × ℕ) × ℝ × ℕ => q.2.1 ≤ s) (measurableSet_setOfPred.1 h)

theorem meas_seen (cs : List (ℝ × ℕ)) : Measurable (seen cs) := by
  refine Measurable.ite ?_ measurable_const measurable_const
  induction cs with
  | nil => simp
  | cons c cs ih =>
    have : {l : List (ℝ × ℕ) | ∀ b ∈ c :: cs, stAt l b.1 = some b.2} = (fun l => stAt l c.1) ⁻¹' {some c.2} ∩ {l | ∀ b ∈ cs, stAt l b.1 = some b.2} := by
      ext l; simp
    rw [this]
    refine MeasurableSet.inter (meas_stAt c.1 ?_) ih
    exact measurableSet_option.2 (MeasurableSet.of_discrete)

variable {d : ℕ} {g : Mat} {fin : ℝ}

/-- What a finite clock contributes. -/
noncomputable def contVal (d : ℕ) (g : Mat) (fin : ℝ) (F : List (ℝ × ℕ) → ℝ≥0∞) (n : ℕ) (t : ℝ) (x k : ℕ) (h : ℝ) : ℝ≥0∞ :=
  (forwardsLoop d g fin n (t + h) (exitTo x k)).lexp (onOk fun rest => F ((t, x) :: rest))

theorem loop_cont {F : List (ℝ × ℕ) → ℝ≥0∞} (n : ℕ) {t : ℝ} (ht : t < fin) {x : ℕ} (hx : x < d) :
    (forwardsLoop d g fin (n + 1) t x).lexp (onOk F) = (Prog.mapM' drawHold (exitRates d g x)).lexp (holdVal (contVal d g fin F n t x) (F [(t, x)])) := by
  rw [forwardsLoop, if_pos ht, if_pos hx, Prog.lexp_bind]
  refine Prog.lexp_congr fun r hr => ?_
  rcases r with e | hold
  · rfl
  · rw [Prog.cont_ok, Prog.lexp_bind, holdVal]
    rcases hm : argmin hold with e | ⟨k, m⟩
    · simp [Prog.lift, minVal, onOk]
    · simp only [Prog.lift, Prog.lexp_ret, Prog.cont_ok]
      cases m using WithTop.recTopCoe with
      | top => simp [minVal, onOk]
      | coe h =>
        simp only [minVal]
        rw [contVal, Prog.lexp_bind]
        change Prog.lexp (forwardsLoop d g fin n (t + h) (exitTo x k)) _ = _
        refine Prog.lexp_congr fun r hr => ?_
        rcases r with e | rest
        · rfl
        · rfl

theorem loop_hold (hd : 2 ≤ d) (hQ : IsQMatrix (toM d g)) (cs : List (ℝ × ℕ)) (n : ℕ) {t : ℝ} (ht : t < fin) (x : Fin d) :
    (forwardsLoop d g fin (n + 1) t x).lexp (onOk (seen cs)) = holdLaw (exitRates d g x) (contVal d g fin (seen cs) n t x) (seen cs [(t, (x : ℕ))]) := by
  rw [loop_cont n ht x.2, hold_exp _ _ _ (exitRates_ne hd g x.2) (rates_nonneg hQ x)]
  intro k
  have hr : Reg fun h : ℝ => forwardsLoop d g fin n (t + h) (exitTo x k) := reg_forwardsLoop d measurable_const measurable_const (by fun_prop) measurable_const n
  refine hr.meas' (F := onOk fun rest => seen cs ((t, (x : ℕ)) :: rest)) ?_
  exact (meas_seen cs).comp (Measurable.cons measurable_const measurable_id)

theorem cont_before {cs : List (ℝ × ℕ)} {n : ℕ} {t h : ℝ} (hh : t + h < fin) {x k : ℕ} (hc : ∀ c ∈ cs, t + h ≤ c.1) :
    contVal d g fin (seen cs) n t x k h = (forwardsLoop d g fin n (t + h) (exitTo x k)).lexp (onOk (seen cs)) := by
  unfold contVal
  refine Prog.lexp_congr fun r hr => ?_
  rcases r with e | l
  · rfl
  · obtain ⟨m, rfl, -⟩ := forwardsLoop_out n _ _ _ hh hr
    simp only [onOk, seen]
    refine if_congr (forall₂_congr fun c hcs => ?_) rfl rfl
    rw [stAt_cons]
    obtain ⟨y, hy⟩ := stAt_isSome_of_mem (l := (t + h, exitTo x k) :: m) (s := c.1) (p := (t + h, exitTo x k)) (by simp) (hc c hcs)
    rw [hy]; simp

theorem cont_after {s : ℝ} {j : ℕ} {cs : List (ℝ × ℕ)} (hcs : ∀ c ∈ cs, s < c.1) {n : ℕ} {t : ℝ} (hts : t < s) {h : ℝ} (hh : s - t < h) {x k : ℕ} :
    contVal d g fin (seen ((s, j) :: cs)) n t x k h = (if x = j then 1 else 0) * contVal d g fin (seen cs) n s x k (h - (s - t)) := by
  unfold contVal
  have e : s + (h - (s - t)) = t + h := by ring
  rw [e, ← Prog.lexp_const_mul _ _ (by split_ifs <;> simp)]
  refine Prog.lexp_congr fun r hr => ?_
  rcases r with e | l
  · simp [onOk]
  · have hl : ∀ p ∈ l, s < p.1 := by
      by_cases hf : t + h < fin
      · obtain ⟨m, rfl, h2, -⟩ := forwardsLoop_out n _ _ _ hf hr
        intro p hp
        rcases List.mem_cons.1 hp with rfl | hp
        · simp only; linarith
        · have := (List.pairwise_cons.1 h2).1 p hp
          simp only at this
          linarith
      · cases n with
        | zero => simp [forwardsLoop] at hr
        | succ n =>
          simp [forwardsLoop, hf] at hr
          subst hr
          simp
    have h0 : stAt l s = none := (stAt_eq_none_iff l s).2 hl
    simp only [onOk, seen, List.forall_mem_cons]
    have h1 : stAt ((t, x) :: l) s = some x := by rw [stAt_cons, h0, if_pos hts.le]; rfl
    have h2 : ∀ c ∈ cs, stAt ((t, x) :: l) c.1 = stAt ((s, x) :: l) c.1 := fun c hc => by
      rw [stAt_cons, stAt_cons, if_pos (hts.trans (hcs c hc)).le, if_pos (hcs c hc).le]
    have h3 : (∀ c ∈ cs, stAt ((t, x) :: l) c.1 = some c.2) ↔ ∀ c ∈ cs, stAt ((s, x) :: l) c.1 = some c.2 :=
      forall₂_congr fun c hc => by rw [h2 c hc]
    simp only [h1, h3]
    by_cases hxj : x = j <;> simp [hxj]

/-- The equation of the first jump, for the paths that are in `j` at time `s` and in the listed states later. -/
theorem fdd_step (hd : 2 ≤ d) (hQ : IsQMatrix (toM d g)) {s : ℝ} (hs : s < fin) (j : Fin d) {cs : List (ℝ × ℕ)} (hcs : ∀ c ∈ cs, s < c.1) (n : ℕ) {a : ℝ} (ha : 0 < a) (x : Fin d) :
    (forwardsLoop d g fin (n + 1) (s - a) x).lexp (onOk (seen ((s, (j : ℕ)) :: cs))) =
      (if x = j then ENNReal.ofReal (Real.exp (g x x * a)) * (forwardsLoop d g fin (n + 1) s j).lexp (onOk (seen cs)) else 0) +
      ∑ y : Fin d, ∫⁻ h in Set.Ioo 0 a, ENNReal.ofReal (Real.exp (g x x * h) * offRates d g (fun _ _ => 1) x y) *
        (forwardsLoop d g fin n (s - (a - h)) y).lexp (onOk (seen ((s, (j : ℕ)) :: cs))) := by
  rw [loop_hold hd hQ _ n (by linarith) x]
  rw [holdLaw_memory (rs := exitRates d g x) ha (δ := if (x : ℕ) = j then 1 else 0) (c' := seen cs [(s, (x : ℕ))]) (B := contVal d g fin (seen cs) n s x)
    (A := fun k h => (forwardsLoop d g fin n (s - (a - h)) (exitTo x k)).lexp (onOk (seen ((s, (j : ℕ)) :: cs)))) (by split_ifs <;> simp) ?_ ?_ ?_]
  · rw [exitRates_sum hQ.row x, ← loop_hold hd hQ cs n hs x]
    congr 1
    · by_cases hxj : x = j
      · rw [if_pos (by rw [hxj]), if_pos hxj, one_mul, hxj]
        congr 3; ring
      · rw [if_neg (fun h => hxj (Fin.ext h)), if_neg hxj, zero_mul]
    · have := sum_exits g x fun q y => ∫⁻ h in Set.Ioo 0 a, ENNReal.ofReal (q * Real.exp (-(-g x x * h))) *
          (forwardsLoop d g fin n (s - (a - h)) y).lexp (onOk (seen ((s, (j : ℕ)) :: cs)))
      refine this.trans (Finset.sum_congr rfl fun y _ => ?_)
      by_cases hxy : x = y
      · simp [hxy, offRates]
      · rw [if_neg hxy]
        refine lintegral_congr fun h => ?_
        rw [offRates, if_neg hxy]
        congr 2
        rw [neg_mul, neg_neg]; ring
  · intro k h h0 h1
    rw [cont_before (by linarith)]
    · congr 2; ring
    · intro c hc
      rcases List.mem_cons.1 hc with rfl | hc
      · simp only; linarith
      · have := hcs c hc; linarith
  · intro k h h1
    rw [cont_after hcs (by linarith) (by linarith)]
    congr 2; ring
  · have e : ∀ c ∈ cs, stAt [(s - a, (x : ℕ))] c.1 = stAt [(s, (x : ℕ))] c.1 := fun c hc => by
      have := hcs c hc
      rw [stAt_cons, stAt_cons, if_pos (by simp only; linarith), if_pos this.le]
    have e2 : stAt [(s - a, (x : ℕ))] s = some (x : ℕ) := by rw [stAt_cons, if_pos (by simp only; linarith)]; rfl
    have h3 : (∀ c ∈ cs, stAt [(s - a, (x : ℕ))] c.1 = some c.2) ↔ ∀ c ∈ cs, stAt [(s, (x : ℕ))] c.1 = some c.2 :=
      forall₂_congr fun c hc => by rw [e c hc]
    simp only [seen, List.forall_mem_cons]
    simp only [e2, h3]
    by_cases hxj : (x : ℕ) = j <;> simp [hxj]

/-! ## Limit -/

/-- Iterations with a converging source. -/
theorem volterra_source {A B : Matrix (Fin d) (Fin d) ℝ} {a : Fin d → ℝ} (hA : A = Matrix.diagonal a + B) (hB : ∀ x y, 0 ≤ B x y) {j : Fin d}
    {u : ℕ → ℝ → Fin d → ℝ≥0∞} {w : ℕ → ℝ≥0∞} {W : ℝ≥0∞} (hW : W ≠ ⊤) (hw : ∀ n, w n ≤ W) (hlim : Filter.Tendsto w Filter.atTop (nhds W)) (h0 : ∀ s x, u 0 s x = 0)
    (hstep : ∀ n s, 0 < s → ∀ x, u (n + 1) s x = (if x = j then ENNReal.ofReal (Real.exp (a x * s)) * w (n + 1) else 0) +
      ∑ y, ∫⁻ h in Set.Ioo 0 s, ENNReal.ofReal (Real.exp (a x * h) * B x y) * u n (s - h) y) {s : ℝ} (hs : 0 < s) (x : Fin d) :
    (∀ n, u n s x ≤ W * ENNReal.ofReal (mexp A s x j)) ∧ Filter.Tendsto (fun n => u n s x) Filter.atTop (nhds (W * ENNReal.ofReal (mexp A s x j))) := by
  have hle : ∀ n s, 0 < s → ∀ x, u n s x ≤ W * ENNReal.ofReal (mexp A s x j) := by
    intro n
    induction n with
    | zero => intro s _ x; rw [h0]; exact zero_le
    | succ n ih =>
      intro s hs x
      rw [hstep n s hs x, exp_duhamel_ofReal hA hB hs.le x j, mul_add, Finset.mul_sum]
      refine add_le_add ?_ (Finset.sum_le_sum fun y _ => ?_)
      · split_ifs
        · rw [mul_comm]; exact mul_le_mul_left (hw _) _
        · exact zero_le
      · rw [← lintegral_const_mul' _ _ hW]
        refine setLIntegral_mono' measurableSet_Ioo fun h hh => ?_
        rw [mul_left_comm]
        exact mul_le_mul_right (ih (s - h) (by have := hh.2; linarith) y) _
  refine ⟨fun n => hle n s hs x, tendsto_of_le_liminf_of_limsup_le ?_ ?_⟩
  · have key : ∀ c < W, c * ENNReal.ofReal (mexp A s x j) ≤ Filter.liminf (fun n => u n s x) Filter.atTop := by
      intro c hc
      by_cases hc0 : c = 0
      · simp [hc0]
      have hct : c ≠ ⊤ := ne_top_of_lt hc
      obtain ⟨N, hN⟩ := (Filter.eventually_atTop.1 (hlim.eventually_const_lt hc))
      obtain ⟨C, L, hC, hL, hge⟩ := volterra_ge hA hB (T := s) (j := j) (u := fun m s x => c⁻¹ * u (m + N) s x) (fun n s' h1 _ y => by
        have e : n + 1 + N = (n + N) + 1 := by ring
        show _ ≤ c⁻¹ * u (n + 1 + N) s' y
        rw [e, hstep (n + N) s' h1 y, mul_add, Finset.mul_sum]
        refine add_le_add ?_ (Finset.sum_le_sum fun z _ => ?_)
        · split_ifs
          · have h1 : 1 ≤ c⁻¹ * w (n + N + 1) := by
              rw [← ENNReal.inv_mul_cancel hc0 hct]
              exact mul_le_mul_right (hN _ (by omega)).le _
            calc ENNReal.ofReal (Real.exp (a y * s')) = ENNReal.ofReal (Real.exp (a y * s')) * 1 := (mul_one _).symm
              _ ≤ ENNReal.ofReal (Real.exp (a y * s')) * (c⁻¹ * w (n + N + 1)) := mul_le_mul_right h1 _
              _ = _ := by ring
          · exact zero_le
        · rw [← lintegral_const_mul' _ _ (ENNReal.inv_ne_top.2 hc0)]
          refine lintegral_mono fun h => ?_
          rw [mul_left_comm])
      have hz : Filter.Tendsto (fun n : ℕ => c * ENNReal.ofReal (C * ((L * s) ^ n / n.factorial))) Filter.atTop (nhds 0) := by
        rw [← mul_zero c]
        refine ENNReal.Tendsto.const_mul ?_ (Or.inr hct)
        rw [← ENNReal.ofReal_zero]
        refine ENNReal.tendsto_ofReal ?_
        simpa using (FloorSemiring.tendsto_pow_div_factorial_atTop (L * s)).const_mul C
      have hsub := ENNReal.Tendsto.sub (tendsto_const_nhds (x := c * ENNReal.ofReal (mexp A s x j))) hz (Or.inl (ENNReal.mul_ne_top hct ENNReal.ofReal_ne_top))
      rw [tsub_zero] at hsub
      rw [← hsub.liminf_eq, ← Filter.liminf_nat_add (fun n => u n s x) N]
      refine Filter.liminf_le_liminf (Filter.Eventually.of_forall fun m => ?_)
      refine tsub_le_iff_right.2 ?_
      have := mul_le_mul_right (hge m s hs le_rfl x) c
      rw [mul_add, ← mul_assoc, ENNReal.mul_inv_cancel hc0 hct, one_mul] at this
      exact this
    exact ENNReal.mul_le_of_forall_lt fun c hc b hb => (mul_le_mul_right hb.le c).trans (key c hc)
  · exact (Filter.limsup_le_limsup (Filter.Eventually.of_forall fun n => hle n s hs x)).trans (by simp)

/-- The loop ends. -/
theorem loop_ends [NeZero d] (hd : 2 ≤ d) (hQ : IsQMatrix (toM d g)) {t : ℝ} (ht : t < fin) (x : Fin d) :
    Filter.Tendsto (fun n => (forwardsLoop d g fin n t x).lexp (onOk (seen []))) Filter.atTop (nhds 1) := by
  have h1 : Filter.Tendsto (fun n => ∑ j : Fin d, restVal d g fin (fun _ _ => 1) (fun _ => 0) j n (fin - t) x) Filter.atTop (nhds 1) := by
    have := tendsto_finsetSum Finset.univ fun (j : Fin d) _ => (restVal_tendsto hd hQ fin (θ := fun _ _ => 1) (fun _ _ => zero_le_one) (fun _ => 0) j (sub_pos.2 ht) x).2
    have ht1 : tilted d g (fun _ _ => 1) (fun _ => 0) = toM d g := by
      ext i k
      unfold tilted toM
      split_ifs with h
      · rw [h]; ring
      · ring
    have hsum : ∑ j, ENNReal.ofReal (NormedSpace.exp ((fin - t) • tilted d g (fun _ _ => 1) (fun _ => 0)) x j) = 1 := by
      rw [ht1]
      have h2 : ∑ j, ENNReal.ofReal (getTrans (fin - t) (toM d g) x j) = 1 := by
        rw [← ENNReal.ofReal_sum_of_nonneg fun j _ => hQ.getTrans_nonneg (sub_pos.2 ht).le x j, hQ.getTrans_row (fin - t) x, ENNReal.ofReal_one]
      exact h2
    rwa [hsum] at this
  rw [← Filter.tendsto_add_atTop_iff_nat 1]
  refine tendsto_of_tendsto_of_tendsto_of_le_of_le h1 tendsto_const_nhds (fun n => ?_) fun n => ?_
  · refine (Prog.lexp_sum_le _ _ _).trans ?_
    rw [sub_sub_cancel]
    refine (Prog.lexp_congr (h := onOk fun l => ∑ j : Fin d, jumpWeight (fun _ _ => 1) (fun _ => 0) fin j l) fun r hr => ?_).le.trans ?_
    · rcases r with e | l
      · simp [atJumps, onOk]
      · simp [atJumps, onOk]
    · refine Prog.lexp_mono _ fun r => ?_
      rcases r with e | l
      · simp [onOk]
      · simp only [onOk, seen, List.not_mem_nil, false_imp_iff, implies_true, if_true]
        have : ∀ (l : List (ℝ × ℕ)) (j : ℕ), jumpWeight (fun _ _ => 1) (fun _ => 0) fin j l = if (l.map Prod.snd).getLast? = some j then 1 else 0 := by
          intro l j
          induction l with
          | nil => simp [jumpWeight]
          | cons p l ih =>
            cases l with
            | nil => simp [jumpWeight]
            | cons q l => simp [jumpWeight, ih]
        simp only [this]
        rcases (l.map Prod.snd).getLast? with _ | y
        · simp
        · by_cases hy : y < d
          · rw [Finset.sum_eq_single (⟨y, hy⟩ : Fin d)]
            · split_ifs <;> simp
            · intro j _ hj
              exact if_neg fun h => hj (Fin.ext (Option.some.inj h).symm)
            · simp
          · rw [Finset.sum_eq_zero]
            · simp
            · intro j _
              exact if_neg fun h => by have := Option.some.inj h; omega
  · exact (Prog.lexp_mono _ (h := fun _ => 1) fun r => by rcases r with e | l <;> simp [onOk, seen]).trans ((mass_forwardsLoop d g fin (n + 1) t x).lexp_const 1).le

theorem fdd_tendsto [NeZero d] (hd : 2 ≤ d) (hQ : IsQMatrix (toM d g)) (cs : List (ℝ × Fin d)) : ∀ (t : ℝ) (x : Fin d), t < fin → (∀ c ∈ cs, c.1 < fin) → (t :: cs.map Prod.fst).Pairwise (· < ·) →
    0 ≤ chainProb (toM d g) t x cs ∧
    (∀ n, (forwardsLoop d g fin n t x).lexp (onOk (seen (cs.map fun c => (c.1, (c.2 : ℕ))))) ≤ ENNReal.ofReal (chainProb (toM d g) t x cs)) ∧
    Filter.Tendsto (fun n => (forwardsLoop d g fin n t x).lexp (onOk (seen (cs.map fun c => (c.1, (c.2 : ℕ)))))) Filter.atTop (nhds (ENNReal.ofReal (chainProb (toM d g) t x cs))) := by
  induction cs with
  | nil =>
    intro t x ht _ _
    refine ⟨zero_le_one, fun n => ?_, ?_⟩
    · simp only [chainProb, ENNReal.ofReal_one]
      exact (Prog.lexp_mono _ (h := fun _ => 1) fun r => by rcases r with e | l <;> simp [onOk, seen]).trans ((mass_forwardsLoop d g fin n t x).lexp_const 1).le
    · simp only [chainProb, ENNReal.ofReal_one]
      exact loop_ends hd hQ ht x
  | cons c cs ih =>
    obtain ⟨s, j⟩ := c
    intro t x ht hf hp
    rw [List.map_cons, List.pairwise_cons] at hp
    have hts : t < s := hp.1 s (by simp)
    have hsf : s < fin := hf (s, j) (by simp)
    obtain ⟨i0, i1, i2⟩ := ih s j hsf (fun c hc => hf c (by simp [hc])) hp.2
    have hB : ∀ x y : Fin d, 0 ≤ offRates d g (fun _ _ => 1) x y := by
      intro x y
      unfold offRates
      by_cases hxy : x = y
      · simp [hxy]
      · simp only [hxy, if_false, one_mul]; exact hQ.off x y hxy
    have hA : toM d g = Matrix.diagonal (fun i : Fin d => g i i) + offRates d g (fun _ _ => 1) := by
      ext i k
      rw [Matrix.add_apply, Matrix.diagonal_apply, offRates, toM]
      split_ifs with h
      · simp [h]
      · simp
    have hcs : ∀ c ∈ cs.map (fun c => (c.1, (c.2 : ℕ))), s < c.1 := by
      intro c hc
      obtain ⟨b, hb, rfl⟩ := List.mem_map.1 hc
      exact (List.pairwise_cons.1 hp.2).1 b.1 (List.mem_map_of_mem hb)
    obtain ⟨v1, v2⟩ := volterra_source hA hB (j := j) (W := ENNReal.ofReal (chainProb (toM d g) s j cs))
      (u := fun n a x => (forwardsLoop d g fin n (s - a) x).lexp (onOk (seen ((s, (j : ℕ)) :: cs.map fun c => (c.1, (c.2 : ℕ))))))
      (w := fun n => (forwardsLoop d g fin n s j).lexp (onOk (seen (cs.map fun c => (c.1, (c.2 : ℕ)))))) ENNReal.ofReal_ne_top i1 i2 (fun _ _ => rfl)
      (fun n a ha x => fdd_step hd hQ hsf j hcs n ha x) (sub_pos.2 hts) x
    simp only [sub_sub_cancel] at v1 v2
    have hE : 0 ≤ NormedSpace.exp ((s - t) • toM d g) x j := hQ.getTrans_nonneg (sub_pos.2 hts).le x j
    have e : ENNReal.ofReal (chainProb (toM d g) t x ((s, j) :: cs)) = ENNReal.ofReal (chainProb (toM d g) s j cs) * ENNReal.ofReal (mexp (toM d g) (s - t) x j) := by
      rw [chainProb, mexp_def, mul_comm, ENNReal.ofReal_mul i0]
    refine ⟨mul_nonneg hE i0, fun n => ?_, ?_⟩
    · rw [e]; exact v1 n
    · rw [e]; exact v2

end Ctb
