import Verif.Lemmas.RoundPlain

set_option linter.unusedSectionVars false

/-! # Two rounds, and points at different times -/

namespace Ctb

open Classical MeasureTheory ProbabilityTheory Set Filter Topology
open scoped ENNReal

variable {s : EaSkel} {A B C newT : List ℝ} {n k : ℕ} {x0 T : ℝ}

/-- A round with any budget. -/
noncomputable def roundSup (k : ℕ) (s : EaSkel) (newT : List ℝ) (G : EaSkel → ℝ≥0∞) : ℝ≥0∞ := ⨆ n, roundVal n k s newT G

theorem times_after {s' : EaSkel} {vals : List ℝ} (h : SkelStep s A s' vals) (hB : s.Times B) : s'.Times B :=
  ⟨hB.1, fun r hr => ⟨(hB.2 r hr).1, by
    obtain ⟨f, hf, hrf⟩ := (hB.2 r hr).2
    exact ⟨f, (h.refines.times f).2 (Or.inl hf), hrf⟩⟩⟩

theorem meas_roundSup {X : Type} [MeasurableSpace X] (k : ℕ) {s : X → EaSkel} {newT : X → List ℝ} (hs : Measurable s) (hn : Measurable newT) {G : X → EaSkel → ℝ≥0∞}
    (hG : Measurable fun p : X × EaSkel => G p.1 p.2) : Measurable fun y => roundSup k (s y) (newT y) (G y) :=
  Measurable.iSup fun n => meas_roundVal n k hs hn hG

theorem roundSup_two (hk : 0 < k) (h : s.Plain) (hA : s.Times A) (hB : s.Times B) (hC : s.Times C) (hABC : ∀ r, r ∈ C ↔ r ∈ A ∨ r ∈ B) (h0 : A ≠ []) (hfresh : ∃ r ∈ A, r ∉ s.t)
    {F : List ℝ → List ℝ → ℝ≥0∞} (hF : ∀ t n, Measurable fun z : Fin n → ℝ => F t (List.ofFn z)) (hG : Measurable fun s : EaSkel => F s.t s.x) :
    roundSup k s A (fun s' => roundSup k s' B fun q => F q.t q.x) = roundSup k s C fun q => F q.t q.x := by
  have hd := lexp_diag (p := fun n => roundProg n k s A) (fun n => reg_roundProg n k measurable_const measurable_const)
    (fun f hf => by simp only [roundProg_val]; exact roundVal_mono hk h hA hf) (P := AfterRound s A) (fun n => roundProg_after hk h hA h0 hfresh)
    (f := fun n s' => roundVal n k s' B fun q => F q.t q.x) (g := fun s' => roundSup k s' B fun q => F q.t q.x)
    (fun n => meas_roundVal n k measurable_id measurable_const (hG.comp measurable_snd)) (meas_roundSup k measurable_id measurable_const (hG.comp measurable_snd))
    (fun n s' _ => le_iSup (fun n => roundVal n k s' B fun q => F q.t q.x) n)
    (fun s' hs' => tendsto_atTop_iSup (roundVal_mono hk hs'.1 (by obtain ⟨v, hv⟩ := hs'.2; exact times_after hv hB) hG))
  have hone := tendsto_atTop_iSup (roundVal_mono hk h hC hG)
  have htwo : ∀ n, (roundProg n k s A).lexp (onOk fun s' => roundVal n k s' B fun q => F q.t q.x) =
      ((interpolateSkel n k s A).bind fun r => interpolateSkel n k r.1 B).lexp (onOk fun r => F r.1.t r.1.x) := by
    intro n
    rw [roundProg_val, Prog.lexp_bind, roundVal]
    congr 1
  simp only [roundProg_val] at hd htwo
  obtain ⟨L, h1, h2⟩ : ∃ L, Tendsto (fun n => ((interpolateSkel n k s A).bind fun r => interpolateSkel n k r.1 B).lexp (onOk fun r => F r.1.t r.1.x)) atTop (𝓝 L) ∧
      Tendsto (fun n => (interpolateSkel n k s C).lexp (onOk fun r => F r.1.t r.1.x)) atTop (𝓝 L) := by
    rcases h with h | h
    · exact C113_rounds hk h hA hB hC hABC (Or.inr (Or.inr hfresh)) hF
    · exact C113_rounds_max hk h hA hB hC hABC (Or.inr (Or.inr hfresh)) hF
  simp only [← htwo] at h1
  exact (tendsto_nhds_unique hd.1 h1).trans (tendsto_nhds_unique h2 hone)

/-! ## Points at different times -/

/-- The entries of `ts` differ from each other and from those of `L`. -/
def Apart (L ts : List ℝ) : Prop := ts.Nodup ∧ ∀ t ∈ ts, t ∉ L

/-- The times of the points of a batch. -/
def rowTimes (rows : List (List ℝ)) : List ℝ := rows.map fun r => (rowPoint r).2

theorem unif_avoid {T : ℝ} (hT : 0 < T) (L : List ℝ) : ∀ᵐ x ∂(RDist.uniform 0 T).law, x ∉ L := by
  rw [RDist.law, ae_map_iff (by fun_prop) (by
    have : MeasurableSet {x : ℝ | x ∈ L} := (L.finite_toSet).measurableSet
    exact this.compl)]
  refine ae_restrict_of_ae ?_
  have : (volume : Measure ℝ) {u | 0 + (T - 0) * u ∈ L} = 0 := by
    refine Set.Finite.measure_zero (Set.Finite.subset ((L.finite_toSet).image fun y => y / T) fun u hu => ?_) _
    refine ⟨0 + (T - 0) * u, hu, ?_⟩
    field_simp
    ring
  exact measure_eq_zero_iff_ae_notMem.1 this

theorem rows_apart {T : ℝ} (hT : 0 < T) : ∀ (i : ℕ) (L : List ℝ), (Prog.replicate i (drawRow [T])).lexp (offInf fun u => Apart L (u.map fun r => r.headD 0)) = 0
  | 0, L => by simp [Prog.replicate, offInf, onOk, Apart]
  | i + 1, L => by
    rw [Prog.replicate, drawRow_single]
    simp only [Prog.real_bind, Prog.ret_bind]
    rw [Prog.lexp_real]
    refine (lintegral_congr_ae ?_).trans lintegral_zero
    filter_upwards [unif_avoid hT L] with x hx
    rw [Prog.lexp_bind]
    refine le_antisymm (le_trans (le_of_eq ?_) (rows_apart hT i (x :: L)).le) zero_le
    rw [← drawRow_single]
    congr 1
    funext r
    rcases r with e | u
    · rfl
    rw [Prog.cont_ok, Prog.lexp_ret]
    simp only [offInf, onOk]
    congr 1
    simp only [Apart, List.map_cons, List.headD_cons, List.nodup_cons, List.mem_cons, List.forall_mem_cons, eq_iff_iff]
    constructor
    · rintro ⟨⟨h1, h2⟩, h4⟩
      refine ⟨h2, fun t ht => ?_⟩
      rintro (rfl | h)
      · exact h1 ht
      · exact h4 t (Or.inr ht) h
    · rintro ⟨h1, h2⟩
      exact ⟨⟨fun h => h2 x h (Or.inl rfl), h1⟩, fun t ht h => ht.elim (fun e => hx (e ▸ h)) fun ht => h2 t ht (Or.inr h)⟩

theorem Apart.sublist {L l l' : List ℝ} (h : Apart L l') (hs : l.Sublist l') : Apart L l := ⟨h.1.sublist hs, fun t ht => h.2 t (hs.subset ht)⟩

theorem zip_times : ∀ (a : List ℝ) (u : List (List ℝ)), (rowTimes (List.zipWith (fun a r => a :: r) a u)).Sublist (u.map fun r => r.headD 0)
  | [], _ => by simp [rowTimes]
  | _ :: _, [] => by simp [rowTimes]
  | a :: as, r :: u => by
    have := zip_times as u
    simp only [rowTimes, List.zipWith_cons_cons, List.map_cons, rowPoint, List.tail_cons] at this ⊢
    exact this.cons₂ _

theorem batch_apart {T : ℝ} (hT : 0 < T) (m : ℕ) (h lb : ℝ) (i : ℕ) (L : List ℝ) : (pppBatch m h [T] lb i).lexp (offInf fun r => Apart L (rowTimes r.2)) = 0 := by
  unfold pppBatch
  rw [Prog.lexp_real]
  refine (lintegral_congr fun z => ?_).trans lintegral_zero
  dsimp only
  rw [Prog.lexp_bind]
  refine (Prog.lexp_congr (h := fun _ => 0) ?_).trans (Prog.lexp_zero _)
  rintro (e | u0) _
  · rfl
  rw [Prog.cont_ok, Prog.lexp_bind]
  refine le_antisymm (le_trans (Prog.lexp_mono _ ?_) (rows_apart hT i L).le) zero_le
  rintro (e | u)
  · rfl
  rw [Prog.cont_ok, Prog.lexp_ret]
  simp only [offInf, onOk]
  by_cases hu : Apart L (u.map fun r => r.headD 0)
  · rw [if_pos (hu.sublist (zip_times u0 u))]
    exact zero_le
  · rw [if_neg hu]
    exact le_top

theorem loop_apart {T : ℝ} (hT : 0 < T) (m : ℕ) (h : ℝ) : ∀ (is : List ℕ) (lb : ℝ) (L : List ℝ), (pppLoop m h [T] lb is).lexp (offInf fun bs => Apart L (rowTimes bs.flatten)) = 0
  | [], lb, L => by simp [pppLoop, offInf, onOk, Apart, rowTimes]
  | i :: is, lb, L => by
    rw [pppLoop, Prog.lexp_bind]
    refine le_antisymm (le_trans (Prog.lexp_mono _ ?_) (batch_apart hT m h lb i L).le) zero_le
    rintro (e | r)
    · rfl
    rw [Prog.cont_ok]
    by_cases hr : Apart L (rowTimes r.2)
    · refine le_trans ?_ zero_le
      rw [← loop_apart hT m h is r.1 (rowTimes r.2 ++ L), Prog.lexp_bind]
      refine Prog.lexp_mono _ ?_
      rintro (e | bs)
      · exact le_rfl
      rw [Prog.cont_ok, Prog.lexp_ret]
      simp only [offInf, onOk]
      by_cases hb : Apart (rowTimes r.2 ++ L) (rowTimes bs.flatten)
      · rw [if_pos]
        · exact zero_le
        have e : rowTimes (r.2 :: bs).flatten = rowTimes r.2 ++ rowTimes bs.flatten := by simp [rowTimes]
        rw [e]
        refine ⟨List.nodup_append.2 ⟨hr.1, hb.1, fun a ha b hb' e => hb.2 b hb' (by simp [← e, ha])⟩, fun t ht => ?_⟩
        rcases List.mem_append.1 ht with ht | ht
        · exact hr.2 t ht
        · exact fun hL => hb.2 t ht (by simp [hL])
      · rw [if_neg hb]
        exact le_top
    · simp only [offInf, onOk]
      rw [if_neg hr]
      exact le_top

end Ctb
