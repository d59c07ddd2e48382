import Verif.Lemmas.ArsLaw

set_option linter.unusedSectionVars false

/-! # Adaptive rejection sampling is exact -/

namespace Ctb

open Set MeasureTheory
open scoped ENNReal

section
variable {f df : ℝ → ℝ} {H : Hull} {lb ub : EReal} {y : List EReal} {U v : ℝ → ℝ} {Z : ℝ}

theorem lintegral_uniform01 (g : ℝ → ℝ≥0∞) : ∫⁻ z, g z ∂(RDist.uniform 0 1).law = ∫⁻ z in Ioo (0 : ℝ) 1, g z := by
  rw [RDist.law_uniform01, Measure.restrict_congr_set Ioo_ae_eq_Ico]

theorem Env.evals (hf : StrictDiff f df (supp lb ub)) (hH : H.Good f df lb ub) (he : Env f df lb ub H y U v Z) {t : ℝ}
    (ht : t ∈ supp lb ub) : (∃ lo, evalLower H.x H.fx t = .ok lo) ∧ evalUpper H.x H.fx H.dfx y t = .ok (U t) ∧ f t ≤ U t := by
  have ht' : t ∈ suppC lb ub := ⟨ht.1, ht.2.le⟩
  obtain ⟨lo, h1, -⟩ := evalLower_spec hf.concave.conc hH.ok t
  obtain ⟨u, h2, h3⟩ := evalUpper_spec hf.concave hH.ok (hullBreaks_ok hH.ok he.breaks) ht'
  have e : u = U t := h3.unique (he.hull t ht')
  subst e
  exact ⟨⟨lo, h1⟩, h2, hull_le hf.concave hH.ok.mem ht h3⟩

/-- The hull after a rejected draw. -/
noncomputable def Hull.grow (f df : ℝ → ℝ) (maxPts : ℕ) (H : Hull) (t : ℝ) : Hull :=
  if H.x.length < maxPts then H.insert t (f t) (df t) else H

/-- One pass of the loop as an integral over the envelope draw. -/
theorem Env.step (hf : StrictDiff f df (supp lb ub)) (hH : H.Good f df lb ub) (he : Env f df lb ub H y U v Z) (maxPts : ℕ)
    (g : Res (ℝ × Bool × Hull) → ℝ≥0∞) :
    (arsStep f df lb ub maxPts H).lexp g = ∫⁻ z in Ioo (0 : ℝ) 1,
      (ENNReal.ofReal (Real.exp (f (v z) - U (v z))) * g (.ok (v z, true, H)) +
        ENNReal.ofReal (1 - Real.exp (f (v z) - U (v z))) * g (.ok (v z, false, H.grow f df maxPts (v z)))) := by
  classical
  unfold arsStep
  rw [he.breaks]
  simp only [Prog.lift, Prog.ret_bind, Prog.lexp_real]
  rw [lintegral_uniform01]
  refine setLIntegral_congr_fun measurableSet_Ioo fun z hz => ?_
  obtain ⟨h1, h2⟩ := he.draw z hz
  obtain ⟨⟨lo, h3⟩, h4, h5⟩ := he.evals hf hH h2
  simp only [h1, Prog.lift, Prog.ret_bind, h3, h4, Prog.lexp_real, Prog.lexp_ret]
  have e : ∀ᵐ u ∂(RDist.uniform 0 1).law, g (.ok (v z, arsDecide f df maxPts H (v z) lo (U (v z)) u)) =
      if u < Real.exp (f (v z) - U (v z)) then g (.ok (v z, true, H)) else g (.ok (v z, false, H.grow f df maxPts (v z))) := by
    have : ∀ᵐ x ∂(RDist.uniform 0 1).law, x ∈ (RDist.uniform 0 1).support := (RDist.uniform 0 1).law_support
    filter_upwards [this] with u hu
    rw [mem_uniform01] at hu
    rw [decide_exact maxPts hf.concave.conc hH.ok h2 h3]
    unfold arsDecide Hull.grow
    simp only [reduceCtorEq, false_and, exists_false, if_false, npLogLt_iff hu.1]
    split_ifs <;> rfl
  rw [lintegral_congr_ae e, lintegral_uniform_lt (Real.exp_pos _).le (Real.exp_le_one_iff.2 (by linarith))]

theorem supp_open (lb ub : EReal) : IsOpen (supp lb ub) := by
  have : supp lb ub = Real.toEReal ⁻¹' Ioo lb ub := rfl
  rw [this]; exact isOpen_Ioo.preimage continuous_coe_real_ereal

theorem supp_ae (lb ub : EReal) : suppC lb ub =ᵐ[volume] supp lb ub := by
  have h : suppC lb ub \ supp lb ub ⊆ {ub.toReal} := by
    rintro t ⟨⟨a, b⟩, c⟩
    have : (t : EReal) = ub := by
      by_contra h; exact c ⟨a, lt_of_le_of_ne b h⟩
    rw [mem_singleton_iff, ← this]; simp
  have h' : supp lb ub ⊆ suppC lb ub := fun t ht => ⟨ht.1, ht.2.le⟩
  rw [ae_eq_set]
  refine ⟨measure_mono_null h (by simp), ?_⟩
  rw [diff_eq_empty.2 h']; simp

/-- Probability of drawing a point of `A` and accepting it. -/
theorem Env.accept (hf : StrictDiff f df (supp lb ub)) (he : Env f df lb ub H y U v Z) {A : Set ℝ} (hA : MeasurableSet A) :
    AEMeasurable (fun z => ENNReal.ofReal (Real.exp (f (v z) - U (v z))) * A.indicator 1 (v z)) (volume.restrict (Ioo (0 : ℝ) 1)) ∧
    ∫⁻ z in Ioo (0 : ℝ) 1, ENNReal.ofReal (Real.exp (f (v z) - U (v z))) * A.indicator 1 (v z) =
      expMass f (supp lb ub) A / ENNReal.ofReal Z := by
  classical
  set S := supp lb ub with hS
  have hSm : MeasurableSet S := (supp_open lb ub).measurableSet
  have hfm : Measurable (S.piecewise f 0) := by
    refine ContinuousOn.measurable_piecewise (fun t ht => (hf.der t ht).continuousAt.continuousWithinAt) continuousOn_const hSm
  set g : ℝ → ℝ≥0∞ := fun t => ENNReal.ofReal (Real.exp (S.piecewise f 0 t - U t)) * A.indicator 1 t with hg
  have hgm : Measurable g := by
    refine Measurable.mul ?_ ((measurable_one).indicator hA)
    exact (Real.measurable_exp.comp (hfm.sub he.cont.measurable)).ennreal_ofReal
  have hcongr : EqOn (fun z => ENNReal.ofReal (Real.exp (f (v z) - U (v z))) * A.indicator 1 (v z)) (fun z => g (v z)) (Ioo 0 1) := by
    intro z hz
    simp only [hg]
    rw [piecewise_eq_of_mem _ _ _ (he.draw z hz).2]
  constructor
  · refine AEMeasurable.congr (f := fun z => g (v z)) ?_ ?_
    · exact hgm.comp_aemeasurable he.meas
    · rw [Filter.EventuallyEq, ae_restrict_iff' measurableSet_Ioo]
      exact Filter.Eventually.of_forall fun z hz => (hcongr hz).symm
  · rw [setLIntegral_congr_fun measurableSet_Ioo hcongr, he.lintegral hgm, Measure.restrict_congr_set (supp_ae lb ub)]
    unfold expMass
    rw [← lintegral_indicator (hA.inter hSm), ← lintegral_indicator hSm, ENNReal.div_eq_inv_mul]
    have hZ : ENNReal.ofReal Z ≠ 0 := by simpa using he.pos
    rw [← lintegral_const_mul' _ _ (ENNReal.inv_ne_top.2 hZ)]
    congr 1; ext t
    by_cases ht : t ∈ S
    · by_cases ht' : t ∈ A
      · rw [indicator_of_mem ht, indicator_of_mem (show t ∈ A ∩ S from ⟨ht', ht⟩)]
        simp only [hg, piecewise_eq_of_mem _ _ _ ht, indicator_of_mem ht', Pi.one_apply, mul_one]
        rw [← ENNReal.ofReal_mul (by have := he.pos; positivity), ← ENNReal.ofReal_inv_of_pos he.pos, ← ENNReal.ofReal_mul (by have := he.pos; positivity)]
        congr 1
        rw [Real.exp_sub]
        have := (Real.exp_pos (U t)).ne'
        have := he.pos.ne'
        field_simp
      · rw [indicator_of_mem ht, indicator_of_notMem (fun h : t ∈ A ∩ S => ht' h.1)]
        simp [hg, ht']
    · rw [indicator_of_notMem ht, indicator_of_notMem (fun h : t ∈ A ∩ S => ht h.2)]
      simp

/-- The mass of `exp f` is positive and finite. -/
theorem Env.mass (hf : StrictDiff f df (supp lb ub)) (hH : H.Good f df lb ub) (he : Env f df lb ub H y U v Z) :
    expMass f (supp lb ub) univ ≠ 0 ∧ expMass f (supp lb ub) univ ≠ ∞ ∧ expMass f (supp lb ub) univ ≤ ENNReal.ofReal Z := by
  have hle : expMass f (supp lb ub) univ ≤ ENNReal.ofReal Z := by
    rw [he.norm, ofReal_integral_eq_lintegral_ofReal he.int (Filter.Eventually.of_forall fun t => (Real.exp_pos _).le)]
    unfold expMass
    rw [univ_inter, Measure.restrict_congr_set (supp_ae lb ub)]
    refine setLIntegral_mono' (supp_open lb ub).measurableSet fun t ht => ?_
    exact ENNReal.ofReal_le_ofReal (Real.exp_le_exp.2 (he.evals hf hH ht).2.2)
  refine ⟨?_, ne_top_of_le_ne_top ENNReal.ofReal_ne_top hle, hle⟩
  unfold expMass
  rw [univ_inter]
  have hSm : MeasurableSet (supp lb ub) := (supp_open lb ub).measurableSet
  intro h
  have hcont : ContinuousOn (fun t => ENNReal.ofReal (Real.exp (f t))) (supp lb ub) := by
    intro t ht
    exact (ENNReal.continuous_ofReal.continuousAt.comp (Real.continuous_exp.continuousAt.comp (hf.der t ht).continuousAt)).continuousWithinAt
  rw [lintegral_eq_zero_iff' (hcont.aemeasurable hSm)] at h
  have h' : ∀ᵐ t ∂(volume.restrict (supp lb ub)), False := by
    filter_upwards [h] with t ht
    have : 0 < Real.exp (f t) := Real.exp_pos _
    simp at ht
    linarith
  rw [Filter.eventually_false_iff_eq_bot, ae_eq_bot, Measure.restrict_eq_zero] at h'
  have hne : (supp lb ub).Nonempty := by
    obtain ⟨a, ha⟩ := List.exists_mem_of_ne_nil _ hH.ok.ne
    exact ⟨a, hH.ok.mem a ha⟩
  exact ((supp_open lb ub).measure_pos volume hne).ne' h'

/-- Almost every rejected draw leaves a good hull. -/
theorem Env.grow_good (hf : StrictDiff f df (supp lb ub)) (hH : H.Good f df lb ub) (he : Env f df lb ub H y U v Z) (maxPts : ℕ) :
    ∀ᵐ z ∂(volume.restrict (Ioo (0 : ℝ) 1)), (H.grow f df maxPts (v z)).Good f df lb ub := by
  have hsub : {t | t ∈ supp lb ub ∧ df t = 0}.Subsingleton := by
    rintro a ⟨ha, ha'⟩ b ⟨hb, hb'⟩
    by_contra h
    rcases lt_or_gt_of_ne h with h | h
    · have := df_strict hf.conc hf.der ha hb h; rw [ha', hb'] at this; exact lt_irrefl _ this
    · have := df_strict hf.conc hf.der hb ha h; rw [ha', hb'] at this; exact lt_irrefl _ this
  have hfin : ({t | t ∈ supp lb ub ∧ df t = 0} ∪ {t | t ∈ H.x}).Finite := hsub.finite.union (List.finite_toSet _)
  have h1 := he.ae hfin.measurableSet (hfin.measure_zero _)
  have h2 : ∀ᵐ z ∂(volume.restrict (Ioo (0 : ℝ) 1)), z ∈ Ioo (0 : ℝ) 1 := ae_restrict_mem measurableSet_Ioo
  filter_upwards [h1, h2] with z hz hz'
  rw [mem_union, not_or] at hz
  have hs := (he.draw z hz').2
  unfold Hull.grow
  split_ifs
  · exact Hull.insert_good hH hs hz.2 fun h => hz.1 ⟨hs, h⟩
  · exact hH

end

/-! ## The whole run -/

section
variable {f df : ℝ → ℝ} {lb ub : EReal}

theorem lexp_lift_le {α β : Type} {r : Res α} {k : α → Prog β} {g : Res β → ℝ≥0∞} {c : ℝ≥0∞} (hg : ∀ e, g (.error e) ≤ c)
    (h : ∀ a, (k a).lexp g ≤ c) : ((Prog.lift r).bind k).lexp g ≤ c := by
  cases r with
  | error e => exact hg e
  | ok a => exact h a

theorem lexp_uniform_le {α : Type} {k : ℝ → Prog α} {g : Res α → ℝ≥0∞} {c : ℝ≥0∞} (h : ∀ a, (k a).lexp g ≤ c) :
    (Prog.real (.uniform 0 1) k).lexp g ≤ c := by
  rw [Prog.lexp_real]
  exact (lintegral_mono h).trans (lintegral_uniform_const c).le

theorem step_le (f df : ℝ → ℝ) (lb ub : EReal) (maxPts : ℕ) (H : Hull) {g : Res (ℝ × Bool × Hull) → ℝ≥0∞} {c : ℝ≥0∞} (hg : ∀ r, g r ≤ c) :
    (arsStep f df lb ub maxPts H).lexp g ≤ c := by
  unfold arsStep
  refine lexp_lift_le (fun e => hg _) fun y => lexp_uniform_le fun z => lexp_lift_le (fun e => hg _) fun v => ?_
  refine lexp_lift_le (fun e => hg _) fun lo => lexp_lift_le (fun e => hg _) fun up => lexp_uniform_le fun u => hg _

theorem prodInd_le (As : List (Set ℝ)) (l : List ℝ) : prodInd As l ≤ 1 := by
  induction As generalizing l with
  | nil => simp [prodInd]
  | cons A As ih =>
    cases l with
    | nil => simp [prodInd]
    | cons t l =>
      simp only [prodInd]
      have : A.indicator (1 : ℝ → ℝ≥0∞) t ≤ 1 := indicator_le (fun _ _ => le_rfl) t
      exact (mul_le_mul' this (ih l)).trans (by simp)

theorem loop_le (f df : ℝ → ℝ) (lb ub : EReal) (maxPts fuel n : ℕ) (H : Hull) {g : Res (List ℝ × Hull) → ℝ≥0∞} {c : ℝ≥0∞}
    (hg : ∀ r, g r ≤ c) : (arsLoop f df lb ub maxPts fuel n H).lexp g ≤ c := by
  induction fuel generalizing n H g with
  | zero => cases n <;> exact hg _
  | succ fuel ih =>
    cases n with
    | zero => exact hg _
    | succ n =>
      unfold arsLoop
      rw [Prog.lexp_bind]
      refine step_le _ _ _ _ _ _ fun r => ?_
      cases r with
      | error e => exact hg _
      | ok r =>
        rw [Prog.cont_ok]
        split_ifs
        · rw [Prog.lexp_bind]
          refine ih _ _ fun r => ?_
          cases r <;> exact hg _
        · exact ih _ _ hg

theorem loop_le_one (f df : ℝ → ℝ) (lb ub : EReal) (maxPts fuel n : ℕ) (H : Hull) (As : List (Set ℝ)) :
    (arsLoop f df lb ub maxPts fuel n H).lexp (drawsIn As) ≤ 1 :=
  loop_le _ _ _ _ _ _ _ _ fun r => by
    cases r with
    | error e => simp [drawsIn]
    | ok r => exact prodInd_le _ _

theorem loop_lexp_cons (hf : StrictDiff f df (supp lb ub)) {H : Hull} (hH : H.Good f df lb ub) {y : List EReal} {U v : ℝ → ℝ} {Z : ℝ}
    (he : Env f df lb ub H y U v Z) (maxPts fuel : ℕ) {A : Set ℝ} (hA : MeasurableSet A) (As : List (Set ℝ)) :
    (arsLoop f df lb ub maxPts (fuel + 1) (As.length + 1) H).lexp (drawsIn (A :: As)) =
      (arsLoop f df lb ub maxPts fuel As.length H).lexp (drawsIn As) * (expMass f (supp lb ub) A / ENNReal.ofReal Z) +
      ∫⁻ z in Ioo (0 : ℝ) 1, ENNReal.ofReal (1 - Real.exp (f (v z) - U (v z))) *
        (arsLoop f df lb ub maxPts fuel (As.length + 1) (H.grow f df maxPts (v z))).lexp (drawsIn (A :: As)) := by
  conv_lhs => unfold arsLoop
  rw [Prog.lexp_bind, he.step hf hH]
  simp only [Prog.cont_ok, if_true, Bool.false_eq_true, if_false, Prog.lexp_bind]
  have e : ∀ t, (arsLoop f df lb ub maxPts fuel As.length H).lexp
      (Prog.cont (fun q => Prog.ret (t :: q.1, q.2)) (drawsIn (A :: As)) Prog.lexp) =
      A.indicator 1 t * (arsLoop f df lb ub maxPts fuel As.length H).lexp (drawsIn As) := by
    intro t
    rw [← Prog.lexp_const_mul]
    · congr 1; ext r
      cases r with
      | error e => simp [drawsIn]
      | ok r => simp [drawsIn, prodInd]
    · exact ne_top_of_le_ne_top ENNReal.one_ne_top (indicator_le (fun _ _ => le_rfl) t)
  simp only [e]
  obtain ⟨a1, a2⟩ := he.accept hf hA
  rw [lintegral_add_left']
  · congr 1
    rw [← a2, ← lintegral_const_mul' _ _ (ne_top_of_le_ne_top ENNReal.one_ne_top (loop_le_one f df lb ub maxPts fuel _ H _))]
    refine lintegral_congr fun z => ?_
    ring
  · have := a1.mul_const ((arsLoop f df lb ub maxPts fuel As.length H).lexp (drawsIn As))
    refine this.congr (Filter.Eventually.of_forall fun z => ?_)
    simp only
    ring

/-- Accepted values are independent, each with density proportional to `exp f`. -/
theorem loop_iid (hf : StrictDiff f df (supp lb ub)) (maxPts fuel : ℕ) {H : Hull} (hH : H.Good f df lb ub) {As : List (Set ℝ)}
    (hA : ∀ A ∈ As, MeasurableSet A) :
    (arsLoop f df lb ub maxPts fuel As.length H).lexp (drawsIn As) =
      (As.map fun A => expMass f (supp lb ub) A / expMass f (supp lb ub) univ).prod *
        (arsLoop f df lb ub maxPts fuel As.length H).lexp (drawsIn (As.map fun _ => univ)) := by
  induction fuel generalizing H As with
  | zero =>
    cases As with
    | nil => simp [arsLoop, drawsIn, prodInd]
    | cons A As => simp [arsLoop, drawsIn]
  | succ fuel ih =>
    cases As with
    | nil => simp [arsLoop, drawsIn, prodInd]
    | cons A As =>
      obtain ⟨y, v, Z, he⟩ := hH.env hf
      obtain ⟨m1, m2, m3⟩ := he.mass hf hH
      have hA0 := hA A (by simp)
      have hAs : ∀ B ∈ As, MeasurableSet B := fun B hB => hA B (by simp [hB])
      simp only [List.length_cons, List.map_cons, List.prod_cons]
      rw [loop_lexp_cons hf hH he maxPts fuel hA0 As]
      have h2 := loop_lexp_cons hf hH he maxPts fuel MeasurableSet.univ (As.map fun _ => univ)
      rw [List.length_map] at h2
      rw [h2, ih hH hAs]
      have hfinite : (expMass f (supp lb ub) A / expMass f (supp lb ub) univ * (As.map fun A => expMass f (supp lb ub) A / expMass f (supp lb ub) univ).prod) ≠ ∞ := by
        have : ∀ B : Set ℝ, expMass f (supp lb ub) B / expMass f (supp lb ub) univ ≠ ∞ := by
          intro B
          refine ENNReal.div_ne_top ?_ m1
          refine ne_top_of_le_ne_top m2 ?_
          exact lintegral_mono_set (fun t ht => ⟨trivial, ht.2⟩)
        refine ENNReal.mul_ne_top (this A) ?_
        clear hA hAs h2 ih
        induction As with
        | nil => simp
        | cons B As ih => simp only [List.map_cons, List.prod_cons]; exact ENNReal.mul_ne_top (this B) ih
      have hrest : ∀ᵐ z ∂(volume.restrict (Ioo (0 : ℝ) 1)),
          ENNReal.ofReal (1 - Real.exp (f (v z) - hullFn f df H.x hH.ok.ne (v z))) *
            (arsLoop f df lb ub maxPts fuel (As.length + 1) (H.grow f df maxPts (v z))).lexp (drawsIn (A :: As)) =
          (expMass f (supp lb ub) A / expMass f (supp lb ub) univ * (As.map fun A => expMass f (supp lb ub) A / expMass f (supp lb ub) univ).prod) *
          (ENNReal.ofReal (1 - Real.exp (f (v z) - hullFn f df H.x hH.ok.ne (v z))) *
            (arsLoop f df lb ub maxPts fuel (As.length + 1) (H.grow f df maxPts (v z))).lexp (drawsIn (univ :: As.map fun _ => univ))) := by
        filter_upwards [he.grow_good hf hH maxPts] with z hz
        have := ih hz (As := A :: As) hA
        simp only [List.length_cons, List.map_cons, List.prod_cons] at this
        rw [this]; ring
      rw [lintegral_congr_ae hrest, lintegral_const_mul' _ _ hfinite, mul_add]
      congr 1
      have : expMass f (supp lb ub) A / ENNReal.ofReal Z =
          expMass f (supp lb ub) A / expMass f (supp lb ub) univ * (expMass f (supp lb ub) univ / ENNReal.ofReal Z) := by
        rw [← mul_div_assoc, ENNReal.div_mul_cancel m1 m2]
      rw [this]
      ring

/-! ## The run ends -/

theorem Env.unique {H : Hull} {y y' : List EReal} {U U' v v' : ℝ → ℝ} {Z Z' : ℝ}
    (he : Env f df lb ub H y U v Z) (he' : Env f df lb ub H y' U' v' Z') : Z = Z' := by
  rw [he.norm, he'.norm]
  refine setIntegral_congr_fun (measurableSet_suppC _ _) fun t ht => ?_
  rw [(he.hull t ht).unique (he'.hull t ht)]

theorem Env.mono {H H' : Hull} (hx : ∀ a ∈ H.x, a ∈ H'.x) {y y' : List EReal} {U U' v v' : ℝ → ℝ} {Z Z' : ℝ}
    (he : Env f df lb ub H y U v Z) (he' : Env f df lb ub H' y' U' v' Z') : Z' ≤ Z := by
  rw [he.norm, he'.norm]
  refine setIntegral_mono_on he'.int he.int (measurableSet_suppC _ _) fun t ht => Real.exp_le_exp.2 ?_
  refine (he'.hull t ht).2 ?_
  obtain ⟨⟨a, ha, e⟩, -⟩ := he.hull t ht
  exact ⟨a, hx a ha, e⟩

theorem Hull.grow_sub {H : Hull} {maxPts : ℕ} {t : ℝ} : ∀ a ∈ H.x, a ∈ (H.grow f df maxPts t).x := by
  intro a ha
  unfold Hull.grow
  split_ifs
  · exact Hull.mem_insert_x.2 (.inr ha)
  · exact ha

/-- Acceptance and rejection of one pass have total probability one. -/
theorem Env.reject (hf : StrictDiff f df (supp lb ub)) {H : Hull} (hH : H.Good f df lb ub) {y : List EReal} {U v : ℝ → ℝ} {Z : ℝ}
    (he : Env f df lb ub H y U v Z) :
    expMass f (supp lb ub) univ / ENNReal.ofReal Z +
      ∫⁻ z in Ioo (0 : ℝ) 1, ENNReal.ofReal (1 - Real.exp (f (v z) - U (v z))) = 1 := by
  obtain ⟨a1, a2⟩ := he.accept hf MeasurableSet.univ
  rw [← a2, ← lintegral_add_left' a1]
  have : ∀ z ∈ Ioo (0 : ℝ) 1, ENNReal.ofReal (Real.exp (f (v z) - U (v z))) * (univ : Set ℝ).indicator 1 (v z) +
      ENNReal.ofReal (1 - Real.exp (f (v z) - U (v z))) = 1 := by
    intro z hz
    have h := (he.evals hf hH (he.draw z hz).2).2.2
    have h1 : Real.exp (f (v z) - U (v z)) ≤ 1 := Real.exp_le_one_iff.2 (by linarith)
    simp only [indicator_univ, Pi.one_apply, mul_one]
    rw [← ENNReal.ofReal_add (Real.exp_pos _).le (by linarith)]
    simp
  rw [setLIntegral_congr_fun measurableSet_Ioo this]
  simp

theorem loop_fail (hf : StrictDiff f df (supp lb ub)) (maxPts : ℕ) {Z0 : ℝ} (fuel n : ℕ) {H : Hull} (hH : H.Good f df lb ub)
    {y : List EReal} {U v : ℝ → ℝ} {Z : ℝ} (he : Env f df lb ub H y U v Z) (hZ : Z ≤ Z0) :
    (arsLoop f df lb ub maxPts fuel n H).lexp failInd ≤
      2 ^ n * (1 - expMass f (supp lb ub) univ / ENNReal.ofReal Z0 / 2) ^ fuel := by
  induction fuel generalizing n H y U v Z with
  | zero =>
    cases n with
    | zero => simp [arsLoop, failInd]
    | succ n =>
      simp only [arsLoop, Prog.lexp_err, failInd, pow_zero, mul_one]
      exact one_le_pow₀ one_le_two
  | succ fuel ih =>
    cases n with
    | zero => simp [arsLoop, failInd]
    | succ n =>
      set p0 := expMass f (supp lb ub) univ / ENNReal.ofReal Z0 with hp0
      set ρ := 1 - p0 / 2 with hρ
      conv_lhs => unfold arsLoop
      rw [Prog.lexp_bind, he.step hf hH]
      simp only [Prog.cont_ok, if_true, Bool.false_eq_true, if_false, Prog.lexp_bind]
      have e : ∀ t, (arsLoop f df lb ub maxPts fuel n H).lexp (Prog.cont (fun q => Prog.ret (t :: q.1, q.2)) failInd Prog.lexp) =
          (arsLoop f df lb ub maxPts fuel n H).lexp failInd := by
        intro t; congr 1
      simp only [e]
      obtain ⟨a1, a2⟩ := he.accept hf MeasurableSet.univ
      simp only [indicator_univ, Pi.one_apply, mul_one] at a1 a2
      rw [lintegral_add_left' (a1.mul_const _)]
      have hfail : ∀ (m : ℕ) (H : Hull), (arsLoop f df lb ub maxPts fuel m H).lexp failInd ≤ 1 := fun m H =>
        loop_le _ _ _ _ _ _ _ _ fun r => by cases r <;> simp [failInd]
      rw [lintegral_mul_const' _ _ (ne_top_of_le_ne_top ENNReal.one_ne_top (hfail n H)), a2]
      have h1 := ih n hH he hZ
      have h2 : ∫⁻ z in Ioo (0 : ℝ) 1, ENNReal.ofReal (1 - Real.exp (f (v z) - U (v z))) *
          (arsLoop f df lb ub maxPts fuel (n + 1) (H.grow f df maxPts (v z))).lexp failInd ≤
          (∫⁻ z in Ioo (0 : ℝ) 1, ENNReal.ofReal (1 - Real.exp (f (v z) - U (v z)))) * (2 ^ (n + 1) * ρ ^ fuel) := by
        rw [← lintegral_mul_const']
        · refine lintegral_mono_ae ?_
          filter_upwards [he.grow_good hf hH maxPts] with z hz
          obtain ⟨y', v', Z', he'⟩ := hz.env hf
          exact mul_le_mul' le_rfl (ih (n + 1) hz he' ((he.mono Hull.grow_sub he').trans hZ))
        · refine ENNReal.mul_ne_top (by simp) (ENNReal.pow_ne_top ?_)
          exact ne_top_of_le_ne_top ENNReal.one_ne_top tsub_le_self
      have hq := he.reject hf hH
      set p := expMass f (supp lb ub) univ / ENNReal.ofReal Z with hp
      set q := ∫⁻ z in Ioo (0 : ℝ) 1, ENNReal.ofReal (1 - Real.exp (f (v z) - U (v z))) with hqd
      have hpp : p0 ≤ p := ENNReal.div_le_div_left (ENNReal.ofReal_le_ofReal hZ) _
      have hpt : p ≠ ∞ := ne_top_of_le_ne_top ENNReal.one_ne_top (by rw [← hq]; exact le_self_add)
      have hpq : p / 2 + q ≤ ρ := by
        rw [hρ]
        refine ENNReal.le_sub_of_add_le_right ?_ ?_
        · exact ne_top_of_le_ne_top hpt ((ENNReal.div_le_of_le_mul (by rw [mul_two]; exact le_self_add)).trans hpp)
        · calc p / 2 + q + p0 / 2 ≤ p / 2 + q + p / 2 := by gcongr
            _ = p + q := by rw [add_right_comm, ENNReal.add_halves]
            _ ≤ 1 := hq.le
      calc _ ≤ p * (2 ^ n * ρ ^ fuel) + q * (2 ^ (n + 1) * ρ ^ fuel) := by gcongr
        _ = 2 ^ (n + 1) * ρ ^ fuel * (p / 2 + q) := by
            have : p = 2 * (p / 2) := (ENNReal.mul_div_cancel two_ne_zero ENNReal.ofNat_ne_top).symm
            conv_lhs => rw [this]
            rw [pow_succ]; ring
        _ ≤ 2 ^ (n + 1) * ρ ^ fuel * ρ := by gcongr
        _ = _ := by rw [pow_succ ρ]; ring

end

end Ctb
