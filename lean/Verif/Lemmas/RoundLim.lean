import Verif.Props.Retro
import Verif.Lemmas.RegInterp

set_option linter.unusedSectionVars false

/-! # Rounds of filling in as operators on measurable functions of skeletons -/

namespace Ctb

open Classical MeasureTheory Set Filter Topology
open scoped ENNReal

variable {s : EaSkel} {A B C newT : List ℝ} {n k : ℕ} {x0 : ℝ}

/-! ## Limits under an expectation -/

section lim

variable {X α : Type} [MeasurableSpace X] [MeasurableSpace α]

/-- `0` where `P` holds, infinite elsewhere. -/
noncomputable def offInf (P : α → Prop) : Res α → ℝ≥0∞ := onOk fun a => if P a then 0 else ∞

theorem lexp_le_of_ae {p : X → Prog α} (hp : Reg p) (x : X) {P : α → Prop} (h0 : (p x).lexp (offInf P) = 0) {f g : α → ℝ≥0∞}
    (hg : Measurable g) (h : ∀ a, P a → f a ≤ g a) : (p x).lexp (onOk f) ≤ (p x).lexp (onOk g) := by
  calc (p x).lexp (onOk f) ≤ (p x).lexp (fun r => onOk g r + offInf P r) := Prog.lexp_mono _ fun r => by
        rcases r with e | a
        · simp [onOk]
        simp only [offInf, onOk]
        split_ifs with hr
        · simpa using h a hr
        · simp
    _ = (p x).lexp (onOk g) + (p x).lexp (offInf P) := hp.add x _ _ hg
    _ = (p x).lexp (onOk g) := by rw [h0, add_zero]

theorem lexp_congr_ae {p : X → Prog α} (hp : Reg p) (x : X) {P : α → Prop} (h0 : (p x).lexp (offInf P) = 0) {f g : α → ℝ≥0∞}
    (hf : Measurable f) (hg : Measurable g) (h : ∀ a, P a → f a = g a) : (p x).lexp (onOk f) = (p x).lexp (onOk g) :=
  le_antisymm (lexp_le_of_ae hp x h0 hg fun r hr => (h r hr).le) (lexp_le_of_ae hp x h0 hf fun r hr => (h r hr).ge)

theorem offInf_mono {p : Prog α} {P Q : α → Prop} (h0 : p.lexp (offInf P) = 0) (h : ∀ a, p.Out (.ok a) → P a → Q a) : p.lexp (offInf Q) = 0 := by
  refine le_antisymm (le_trans ?_ h0.le) zero_le
  have e : p.lexp (offInf P) = p.lexp fun r => max (offInf Q r) (offInf P r) := by
    refine Prog.lexp_congr ?_
    rintro (e | a) hr
    · simp [offInf, onOk]
    simp only [offInf, onOk]
    by_cases hP : P a
    · rw [if_pos hP, if_pos (h a hr hP), max_self]
    · rw [if_neg hP]
      simp
  rw [e]
  exact Prog.lexp_mono _ fun r => le_max_left _ _

theorem onOk_iSup (f : ℕ → α → ℝ≥0∞) : (onOk fun a => ⨆ n, f n a) = fun r => ⨆ n, onOk (f n) r := by
  funext r
  rcases r with e | a <;> simp [onOk]

theorem lexp_onOk_sup {p : X → Prog α} (hp : Reg p) (x : X) {f : ℕ → α → ℝ≥0∞} (hf : ∀ n, Measurable (f n)) (hm : Monotone f) :
    (p x).lexp (onOk fun a => ⨆ n, f n a) = ⨆ n, (p x).lexp (onOk (f n)) := by
  rw [onOk_iSup]
  refine hp.sup x _ hf ?_
  rintro i j hij (e | a)
  · exact le_rfl
  · exact hm hij a

theorem onOk_mono {f g : α → ℝ≥0∞} (h : ∀ a, f a ≤ g a) (r : Res α) : onOk f r ≤ onOk g r := by
  rcases r with e | a
  · exact le_rfl
  · exact h a

/-- The lower envelopes of a sequence. -/
noncomputable def lowEnv (f : ℕ → α → ℝ≥0∞) (n : ℕ) (a : α) : ℝ≥0∞ := ⨅ m : ℕ, f (n + m) a

theorem lowEnv_mono (f : ℕ → α → ℝ≥0∞) : Monotone (lowEnv f) := by
  intro i j hij r
  refine le_iInf fun m => ?_
  have := iInf_le (fun m : ℕ => f (i + m) r) (j - i + m)
  rwa [show i + (j - i + m) = j + m by omega] at this

theorem lowEnv_le (f : ℕ → α → ℝ≥0∞) {i n : ℕ} (h : i ≤ n) (r : α) : lowEnv f i r ≤ f n r := by
  have := iInf_le (fun m : ℕ => f (i + m) r) (n - i)
  rwa [show i + (n - i) = n by omega] at this

theorem lowEnv_sup (f : ℕ → α → ℝ≥0∞) {r : α} {l : ℝ≥0∞} (h : Tendsto (fun n => f n r) atTop (𝓝 l)) : l ≤ ⨆ i, lowEnv f i r := by
  refine le_of_forall_lt fun c hc => ?_
  obtain ⟨d, hcd, hdl⟩ := exists_between hc
  obtain ⟨N, hN⟩ := eventually_atTop.1 (h.eventually (lt_mem_nhds hdl))
  refine hcd.trans_le ((le_iInf fun m => (hN (N + m) (by omega)).le).trans (le_iSup (fun i => lowEnv f i r) N))

theorem lowEnv_meas {f : ℕ → α → ℝ≥0∞} (hf : ∀ n, Measurable (f n)) (i : ℕ) : Measurable (lowEnv f i) :=
  Measurable.iInf fun m => hf (i + m)

/-- Programs `p n` that grow with `n`, and functions `f n` that tend to `g` from below: the limits can be taken together. -/
theorem lexp_diag {p : ℕ → Prog α} (hp : ∀ n, Reg fun _ : Unit => p n) (hm : ∀ f : α → ℝ≥0∞, Measurable f → Monotone fun n => (p n).lexp (onOk f))
    {P : α → Prop} (h0 : ∀ n, (p n).lexp (offInf P) = 0) {f : ℕ → α → ℝ≥0∞} {g : α → ℝ≥0∞} (hf : ∀ n, Measurable (f n))
    (hg : Measurable g) (hle : ∀ n a, P a → f n a ≤ g a) (ht : ∀ a, P a → Tendsto (fun n => f n a) atTop (𝓝 (g a))) :
    Tendsto (fun n => (p n).lexp (onOk (f n))) atTop (𝓝 (⨆ n, (p n).lexp (onOk g))) ∧ ∀ n, (p n).lexp (onOk (f n)) ≤ ⨆ n, (p n).lexp (onOk g) := by
  have hup : ∀ n, (p n).lexp (onOk (f n)) ≤ ⨆ n, (p n).lexp (onOk g) := fun n =>
    (lexp_le_of_ae (hp n) () (h0 n) hg fun r hr => hle n r hr).trans (le_iSup (fun n => (p n).lexp (onOk g)) n)
  refine ⟨?_, hup⟩
  have hlow : Monotone fun n => (p n).lexp (onOk (lowEnv f n)) := fun i j hij =>
    (hm _ (lowEnv_meas hf i) hij).trans (Prog.lexp_mono _ (onOk_mono fun r => lowEnv_mono f hij r))
  have hsup : ⨆ n, (p n).lexp (onOk g) ≤ ⨆ n, (p n).lexp (onOk (lowEnv f n)) := by
    refine iSup_le fun n => ?_
    calc (p n).lexp (onOk g) ≤ (p n).lexp (onOk fun r => ⨆ i, lowEnv f i r) :=
          lexp_le_of_ae (hp n) () (h0 n) (Measurable.iSup fun i => lowEnv_meas hf i) fun r hr => lowEnv_sup f (ht r hr)
      _ = ⨆ i, (p n).lexp (onOk (lowEnv f i)) := lexp_onOk_sup (hp n) () (fun i => lowEnv_meas hf i) (lowEnv_mono f)
      _ ≤ ⨆ n, (p n).lexp (onOk (lowEnv f n)) := iSup_le fun i => by
          refine le_trans ?_ (le_iSup (fun n => (p n).lexp (onOk (lowEnv f n))) (max n i))
          exact (hm _ (lowEnv_meas hf i) (le_max_left n i)).trans (Prog.lexp_mono _ (onOk_mono fun r => lowEnv_mono f (le_max_right n i) r))
  have heq : ⨆ n, (p n).lexp (onOk (lowEnv f n)) = ⨆ n, (p n).lexp (onOk g) :=
    le_antisymm (iSup_le fun n => (Prog.lexp_mono _ (onOk_mono fun r => lowEnv_le f le_rfl r)).trans (hup n)) hsup
  have hl := tendsto_atTop_iSup hlow
  rw [heq] at hl
  exact tendsto_of_tendsto_of_tendsto_of_le_of_le hl tendsto_const_nhds (fun n => Prog.lexp_mono _ (onOk_mono fun r => lowEnv_le f le_rfl r)) hup

/-- The same for one program. -/
theorem lexp_lim {p : Prog α} (hp : Reg fun _ : Unit => p) {P : α → Prop} (h0 : p.lexp (offInf P) = 0) {f : ℕ → α → ℝ≥0∞} {g : α → ℝ≥0∞} (hf : ∀ n, Measurable (f n))
    (hg : Measurable g) (hle : ∀ n a, P a → f n a ≤ g a) (ht : ∀ a, P a → Tendsto (fun n => f n a) atTop (𝓝 (g a))) :
    Tendsto (fun n => p.lexp (onOk (f n))) atTop (𝓝 (p.lexp (onOk g))) ∧ ∀ n, p.lexp (onOk (f n)) ≤ p.lexp (onOk g) := by
  have := lexp_diag (p := fun _ => p) (fun _ => hp) (fun _ _ => monotone_const) (fun _ => h0) hf hg hle ht
  simpa only [iSup_const] using this

end lim

/-! ## One round -/

/-- The expectation of a function of the skeleton after a round of filling in; failures do not count. -/
noncomputable def roundVal (n k : ℕ) (s : EaSkel) (newT : List ℝ) (G : EaSkel → ℝ≥0∞) : ℝ≥0∞ := (interpolateSkel n k s newT).lexp (onOk fun r => G r.1)

theorem meas_next (s : EaSkel) (newT : List ℝ) : Measurable fun ws => s.next newT ws := by
  unfold EaSkel.next
  fun_prop

theorem MeasL.next {G : EaSkel → ℝ≥0∞} (hG : Measurable G) (s : EaSkel) (newT : List ℝ) (n : ℕ) : MeasL n fun _ : Unit => fun ws => G (s.next newT ws) :=
  (hG.comp (meas_next s newT)).comp ((measurable_ofFn n).comp measurable_snd)

theorem EaSkel.Free.below (h : s.Free) : ∀ v ∈ s.x, s.tight ≤ v ∧ v < s.loose := fun v hv => ⟨(h.inside v hv).1, (h.inside v hv).2.trans_le (bound_le h.hit)⟩

theorem roundVal_gaps (h : s.Free) (hT : s.Times newT) {ts xs : List ℝ} (ht : s.t = 0 :: ts) (hxs : s.x = x0 :: xs) (G : EaSkel → ℝ≥0∞) :
    roundVal n k s newT G = (gapProg n k newT s.tight s.bound 0 x0 (ts.zip xs)).lexp (onOk fun ws => G (s.next newT ws)) :=
  interp_gaps h.valid h.hit h.free h.below ht hxs hT.1 (fun r hr => (hT.2 r hr).1) (fun r hr => (hT.2 r hr).2) G

theorem roundVal_mono_free (hk : 0 < k) (h : s.Free) (hT : s.Times newT) {G : EaSkel → ℝ≥0∞} (hG : Measurable G) : Monotone fun n => roundVal n k s newT G := by
  obtain ⟨x0, hx⟩ := h.start
  obtain ⟨ts, xs, ht, hxs, hl, -, hz, hg⟩ := h.split hx
  simp only [roundVal_gaps h hT ht hxs]
  exact (gapProg_lim hk hT.1 (by rw [hz, ← ht]; exact h.valid.sorted) hg (MeasL.next hG s newT _)).1

theorem goodChain_vals {V m : ℝ} : ∀ {l : List (ℝ × ℝ)} {x : ℝ}, GoodChain V m x l → ∀ v ∈ l.map Prod.snd, m ≤ v ∧ v < V
  | [], x, _, v, hv => by simp at hv
  | q :: l, x, hc, v, hv => by
    rcases List.mem_cons.1 hv with rfl | hv
    · exact hc.1.2.1
    · exact goodChain_vals hc.2 v hv

theorem goodChain_apart {V m : ℝ} : ∀ {ts ws : List ℝ} {x : ℝ}, ws.length = ts.length → GoodChain V m x (ts.zip ws) → (x :: ws).IsChain fun a b => m < a ∨ m < b
  | _, [], x, _, _ => by simp
  | [], w :: ws, x, h, _ => by simp at h
  | t :: ts, w :: ws, x, h, hc => by
    rw [List.isChain_cons_cons]
    exact ⟨hc.1.2.2, goodChain_apart (by simpa using h) hc.2⟩

/-- The first round leaves a skeleton without set flags, about which as much is known. -/
theorem next_free (h : s.Free) (hA : s.Times A) (hflag : s.hitI = none ∨ A = [] ∨ ∃ r ∈ A, r ∉ s.t) {ts xs ws : List ℝ} (ht : s.t = 0 :: ts) (hxs : s.x = x0 :: xs)
    (hw : ws.length = (weaveT A 0 ts).length) (hc : GoodChain s.bound s.tight x0 ((weaveT A 0 ts).zip ws)) : (s.next A ws).Free := by
  have hs' : (0 :: ts).Pairwise (· < ·) := by rw [← ht]; exact h.valid.sorted
  have hl : xs.length = ts.length := by have := h.valid.len; rw [ht, hxs] at this; simpa using this
  have hnt : (s.next A ws).t = 0 :: weaveT A 0 ts := by simp [EaSkel.next, ht]
  have hnx : (s.next A ws).x = x0 :: ws := by simp [EaSkel.next, hxs]
  have hnb : (s.next A ws).bound = s.bound := by
    unfold EaSkel.bound EaSkel.next
    simp only
    rcases hflag with h1 | h1 | ⟨r, hr, hrt⟩
    · simp [h1]
    · simp [h1]
    · have h1 : A ≠ [] := List.ne_nil_of_mem hr
      have h2 : freshT A s.t ≠ [] := List.ne_nil_of_mem (a := r) (by simp [freshT, hr, hrt])
      rw [if_neg h1, if_neg h2]
      simp
  refine ⟨⟨?_, by rw [hnt]; rfl, by rw [hnt, hnx]; simp [hw], fun hs e => ?_⟩, h.hit, fun hs e => ?_, fun v hv => ?_, ?_⟩
  · rw [hnt]; exact weaveT_sorted hA.1 hs'
  · rw [hnt]
    simp only [EaSkel.next, ht] at e
    split_ifs at e with h1 h2
    · have := h.valid.flags hs e
      rw [this, ht, h1, (gapProg_nil (n := 0) (k := 0) (m := 0) (V := 0) ts xs 0 x0 hl).2]
    · rw [Option.map_eq_some_iff] at e
      obtain ⟨_, _, rfl⟩ := e
      simp
  · simp only [EaSkel.next] at e
    split_ifs at e with h1 h2
    · exact h.free hs e
    · rw [Option.map_eq_some_iff] at e
      obtain ⟨_, _, rfl⟩ := e
      simp
  · rw [hnb]
    rw [hnx] at hv
    rcases List.mem_cons.1 hv with rfl | hv
    · exact h.inside _ (by simp [hxs])
    · have := goodChain_vals hc
      rw [List.map_snd_zip hw.le] at this
      exact this v hv
  · rw [hnx]
    exact goodChain_apart hw hc

theorem fold_zero_good {U m : ℝ} : ∀ (l : List (ℝ × ℝ)) (r x : ℝ), foldOp (limOp U m newT) r x l (fun _ => 0) = 0
  | [], _, _ => rfl
  | (t, y) :: l, r, x => by
    simp only [foldOp, fold_zero_good l t y, limOp]
    split_ifs
    · rw [kerInt_zero, ENNReal.zero_div]
    · rfl

/-- Almost surely the skeleton after a round has no set flags, and as much is known about it. -/
theorem roundVal_free (hk : 0 < k) (h : s.Free) (hA : s.Times A) (hflag : s.hitI = none ∨ A = [] ∨ ∃ r ∈ A, r ∉ s.t) :
    roundVal n k s A (fun s' => if s'.Free then 0 else ∞) = 0 := by
  obtain ⟨x0, hx⟩ := h.start
  obtain ⟨ts, xs, ht, hxs, hl, -, hz, hg⟩ := h.split hx
  have hs : (0 :: (ts.zip xs).map Prod.fst).Pairwise (· < ·) := by rw [hz, ← ht]; exact h.valid.sorted
  rw [roundVal_gaps h hA ht hxs]
  set F : List ℝ → ℝ≥0∞ := fun ws => if GoodChain s.bound s.tight x0 ((weaveT A 0 ts).zip ws) then 0 else ∞ with hF
  have hFm : MeasL (weaveT A 0 ((ts.zip xs).map Prod.fst)).length fun _ : Unit => F := by
    rw [hz]
    exact MeasL.chain (f := fun _ => 0) (g := fun _ => ∞) measurable_const measurable_const
  have h1 : (gapProg n k A s.tight s.bound 0 x0 (ts.zip xs)).lexp (onOk fun ws => if (s.next A ws).Free then 0 else ∞) ≤
      (gapProg n k A s.tight s.bound 0 x0 (ts.zip xs)).lexp (onOk F) := by
    have e : (gapProg n k A s.tight s.bound 0 x0 (ts.zip xs)).lexp (onOk F) =
        (gapProg n k A s.tight s.bound 0 x0 (ts.zip xs)).lexp (onOk fun ws => max (if (s.next A ws).Free then 0 else ∞) (F ws)) := by
      refine Prog.lexp_congr ?_
      rintro (e | ws) hw
      · rfl
      have hw' := gapProg_length hw
      rw [hz] at hw'
      simp only [onOk]
      rw [max_eq_right]
      simp only [hF]
      by_cases hc : GoodChain s.bound s.tight x0 ((weaveT A 0 ts).zip ws)
      · rw [if_pos hc, if_pos (next_free h hA hflag ht hxs hw' hc)]
      · rw [if_neg hc]
        exact le_top
    rw [e]
    refine Prog.lexp_mono _ ?_
    rintro (e | ws)
    · exact le_rfl
    · exact le_max_left _ _
  have h2 := (gapProg_lim (k := k) hk hA.1 hs hg hFm).2
  have h3 : foldOp (limOp s.bound s.tight A) 0 x0 (ts.zip xs) F = 0 := by
    rw [fold_good_congr (newT := A) _ 0 x0 hs hg (G := fun _ => 0), fold_zero_good]
    intro ws _ hc
    rw [hz] at hc
    simp only [hF]
    rw [if_pos hc]
  rw [h3] at h2
  refine le_antisymm (h1.trans ?_) zero_le
  rw [← h2]
  exact le_iSup (fun n => (gapProg n k A s.tight s.bound 0 x0 (ts.zip xs)).lexp (onOk F)) n

end Ctb
