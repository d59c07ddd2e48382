import Verif.Lemmas.Adapt
import Verif.Lemmas.Simplex
import Mathlib.MeasureTheory.Function.Jacobian
import Mathlib.MeasureTheory.Group.LIntegral
import Mathlib.Probability.Distributions.Gaussian.Real

/-! # Law of the multivariate random-walk proposal -/

set_option linter.unusedSectionVars false

namespace Ctb

open MeasureTheory ProbabilityTheory
open scoped ENNReal

/-! ## standard normal vectors -/

/-- Law of a vector of independent standard normal draws. -/
noncomputable def stdGauss (n : ℕ) : Measure (Fin n → ℝ) := Measure.pi fun _ => gaussianReal 0 1

instance (n : ℕ) : IsProbabilityMeasure (stdGauss n) := by unfold stdGauss; infer_instance

theorem stdGauss_neg (n : ℕ) : MeasurePreserving (fun z : Fin n → ℝ => -z) (stdGauss n) (stdGauss n) :=
  measurePreserving_pi (fun _ : Fin n => gaussianReal 0 1) (fun _ : Fin n => gaussianReal 0 1) (f := fun _ x => -x) fun _ =>
    ⟨measurable_neg, by rw [gaussianReal_map_neg, neg_zero]⟩

theorem drawNormals_exp {n : ℕ} (g : Res (Fin n → ℝ) → ℝ≥0∞) (hg : Measurable fun z => g (.ok z)) :
    (drawNormals n).lexp g = ∫⁻ z, g (.ok z) ∂stdGauss n := by
  induction n with
  | zero =>
    rw [drawNormals, Prog.lexp_ret]
    have : ∀ z : Fin 0 → ℝ, g (.ok z) = g (.ok fun i => i.elim0) := fun z => by congr 2; ext i; exact i.elim0
    simp only [this]
    simp
  | succ n ih =>
    have hlaw : (RDist.normal 0 1).law = gaussianReal 0 1 := by
      have : (RDist.normal 0 1).law = gaussianReal 0 (Real.toNNReal (1 ^ 2)) := rfl
      rw [this]; simp
    rw [drawNormals, Prog.lexp_real, hlaw]
    have h1 : ∀ z, ((drawNormals n).bind fun l => Prog.ret (Fin.cons z l : Fin (n + 1) → ℝ)).lexp g =
        ∫⁻ l, g (.ok (Fin.cons z l)) ∂stdGauss n := by
      intro z
      rw [Prog.lexp_bind, ih]
      · simp only [Prog.cont_ok, Prog.lexp_ret]
      · simp only [Prog.cont_ok, Prog.lexp_ret]
        exact hg.comp ((measurable_finCons n).comp (measurable_const.prodMk measurable_id))
    simp only [h1]
    have hm : Measurable fun p : ℝ × (Fin n → ℝ) => g (.ok (Fin.cons p.1 p.2 : Fin (n + 1) → ℝ)) := hg.comp (measurable_finCons n)
    rw [← lintegral_prod _ hm.aemeasurable]
    have := (measurePreserving_piFinSuccAbove (fun _ : Fin (n + 1) => gaussianReal 0 1) 0).symm
    have h2 := this.lintegral_comp hg
    unfold stdGauss
    rw [← h2]
    refine lintegral_congr fun q => ?_
    congr 2
    ext i
    refine Fin.cases ?_ (fun j => ?_) i <;> simp [MeasurableEquiv.piFinSuccAbove, Fin.insertNthEquiv]

/-! ## reversibility of the walk on the real scale -/

theorem walk_swap {n : ℕ} (R : Matrix (Fin n) (Fin n) ℝ) (H : (Fin n → ℝ) → (Fin n → ℝ) → ℝ≥0∞)
    (hH : Measurable fun p : (Fin n → ℝ) × (Fin n → ℝ) => H p.1 p.2) :
    ∫⁻ y, ∫⁻ z, H y (y + R.mulVec z) ∂stdGauss n = ∫⁻ y, ∫⁻ z, H (y + R.mulVec z) y ∂stdGauss n := by
  have hR : Measurable fun z : Fin n → ℝ => R.mulVec z := by
    rw [measurable_pi_iff]; intro i
    simp only [Matrix.mulVec, dotProduct]
    fun_prop
  have m1 : Measurable fun p : (Fin n → ℝ) × (Fin n → ℝ) => H p.1 (p.1 + R.mulVec p.2) :=
    hH.comp (measurable_fst.prodMk (measurable_fst.add (hR.comp measurable_snd)))
  have m2 : Measurable fun p : (Fin n → ℝ) × (Fin n → ℝ) => H (p.1 + R.mulVec p.2) p.1 :=
    hH.comp ((measurable_fst.add (hR.comp measurable_snd)).prodMk measurable_fst)
  rw [lintegral_lintegral_swap (f := fun y z => H y (y + R.mulVec z)) m1.aemeasurable,
    lintegral_lintegral_swap (f := fun y z => H (y + R.mulVec z) y) m2.aemeasurable]
  have h1 : ∀ z, ∫⁻ y, H y (y + R.mulVec z) = ∫⁻ y, H (y + R.mulVec (-z)) y := by
    intro z
    rw [← lintegral_add_right_eq_self (fun y => H (y + R.mulVec (-z)) y) (R.mulVec z)]
    refine lintegral_congr fun y => ?_
    congr 1
    rw [Matrix.mulVec_neg]; abel
  simp only [h1]
  have m3 : Measurable fun z => ∫⁻ y, H (y + R.mulVec z) y :=
    Measurable.lintegral_prod_left' (f := fun p : (Fin n → ℝ) × (Fin n → ℝ) => H (p.1 + R.mulVec p.2) p.1) m2
  exact (stdGauss_neg n).lintegral_comp m3

/-! ## change of variables -/

/-- Constrained vector of a real one. -/
noncomputable def toConstVec {n : ℕ} (lb ub : Fin n → Option ℝ) (y : Fin n → ℝ) : Fin n → ℝ := fun i => (transformToConst (y i) (lb i) (ub i)).1

/-- Sum of the Jacobian terms reported on the way. -/
noncomputable def jacVec {n : ℕ} (lb ub : Fin n → Option ℝ) (y : Fin n → ℝ) : ℝ := ∑ i, (transformToConst (y i) (lb i) (ub i)).2

/-- Vectors the transforms accept. -/
def admVec {n : ℕ} (lb ub : Fin n → Option ℝ) : Set (Fin n → ℝ) := {x | ∀ i, Admissible (x i) (lb i) (ub i)}

theorem toConst_admissible (y : ℝ) (lb ub : Option ℝ) : Admissible (transformToConst y lb ub).1 lb ub := fun hi => toConst_inside y hi

theorem toConst_deriv (y : ℝ) (lb ub : Option ℝ) :
    ∃ d, HasDerivAt (fun y => (transformToConst y lb ub).1) d y ∧ |d| = Real.exp (-(transformToConst y lb ub).2) := by
  rcases lb with _ | l <;> rcases ub with _ | u
  · exact ⟨1, hasDerivAt_id y, by simp [transformToConst]⟩
  · exact ⟨-Real.exp y, by simpa [transformToConst] using (Real.hasDerivAt_exp y).const_sub u, by simp [transformToConst]⟩
  · exact ⟨Real.exp y, by simpa [transformToConst] using (Real.hasDerivAt_exp y).const_add l, by simp [transformToConst]⟩
  · exact ⟨1, hasDerivAt_id y, by simp [transformToConst]⟩

theorem toConst_inj (lb ub : Option ℝ) : Function.Injective fun y => (transformToConst y lb ub).1 := by
  rcases lb with _ | l <;> rcases ub with _ | u <;> intro a b h <;> simpa [transformToConst] using h

theorem toConst_measurable (lb ub : Option ℝ) : Measurable fun y => (transformToConst y lb ub).1 := by
  rcases lb with _ | l <;> rcases ub with _ | u <;> simp only [transformToConst] <;> fun_prop

theorem toConst_measurable' (lb ub : Option ℝ) : Measurable fun y => (transformToConst y lb ub).2 := by
  rcases lb with _ | l <;> rcases ub with _ | u <;> simp only [transformToConst] <;> fun_prop

theorem toConstVec_measurable {n : ℕ} (lb ub : Fin n → Option ℝ) : Measurable (toConstVec lb ub) := by
  rw [measurable_pi_iff]
  intro i
  exact (toConst_measurable (lb i) (ub i)).comp (measurable_pi_apply i)

theorem jacVec_measurable {n : ℕ} (lb ub : Fin n → Option ℝ) : Measurable (jacVec lb ub) := by
  unfold jacVec
  exact Finset.measurable_sum _ fun i _ => (toConst_measurable' (lb i) (ub i)).comp (measurable_pi_apply i)

theorem toConstVec_image {n : ℕ} (lb ub : Fin n → Option ℝ) : toConstVec lb ub '' Set.univ = admVec lb ub := by
  ext x
  constructor
  · rintro ⟨y, -, rfl⟩ i
    exact toConst_admissible _ _ _
  · intro hx
    choose y j _ hy using fun i => toReals_ok (hx i)
    exact ⟨y, trivial, funext fun i => by rw [toConstVec, hy i]⟩

/-- Integrating over the constrained vectors is integrating over real ones against the exponential of minus the reported terms. -/
theorem lintegral_admVec {n : ℕ} (lb ub : Fin n → Option ℝ) (F : (Fin n → ℝ) → ℝ≥0∞) :
    ∫⁻ x in admVec lb ub, F x = ∫⁻ y, ENNReal.ofReal (Real.exp (-jacVec lb ub y)) * F (toConstVec lb ub y) := by
  choose d hd hd' using fun (y : Fin n → ℝ) (i : Fin n) => toConst_deriv (y i) (lb i) (ub i)
  have hder : ∀ y ∈ Set.univ, HasFDerivWithinAt (toConstVec lb ub)
      (ContinuousLinearMap.pi fun i => (ContinuousLinearMap.toSpanSingleton ℝ (d y i)).comp (ContinuousLinearMap.proj i)) Set.univ y := by
    intro y _
    rw [hasFDerivWithinAt_univ, hasFDerivAt_pi]
    intro i
    have h1 := (hd y i).hasFDerivAt
    exact HasFDerivAt.comp (g := fun y => (transformToConst y (lb i) (ub i)).1) (f := fun f : Fin n → ℝ => f i) y h1 (hasFDerivAt_apply i y)
  have hinj : Set.InjOn (toConstVec lb ub) Set.univ := by
    intro a _ b _ h
    ext i
    exact toConst_inj (lb i) (ub i) (congrFun h i)
  rw [← toConstVec_image, lintegral_image_eq_lintegral_abs_det_fderiv_mul volume MeasurableSet.univ hder hinj, Measure.restrict_univ]
  refine lintegral_congr fun y => ?_
  rw [ContinuousLinearMap.det_pi, Finset.abs_prod]
  simp only [ContinuousLinearMap.det_toSpanSingleton, hd', jacVec]
  rw [← Finset.sum_neg_distrib, Real.exp_sum]

/-! ## law of the proposal -/

/-- Expectation over a proposal from the constrained image of `y`. -/
theorem propose_exp {n : ℕ} (root : Matrix (Fin n) (Fin n) ℝ → Matrix (Fin n) (Fin n) ℝ) (s : MvRw n) {sc : ℝ}
    (hsc : lastOf s.sched.logScale = .ok sc) {y : Fin n → ℝ} (hy : s.state = toConstVec s.lb s.ub y)
    (g : Res ((Fin n → ℝ) × ℝ × ℝ) → ℝ≥0∞) (hg : Measurable fun p : (Fin n → ℝ) × ℝ × ℝ => g (.ok p)) :
    (s.propose root).lexp g = ∫⁻ z, g (.ok (toConstVec s.lb s.ub (y + (root (Real.exp sc • s.propCov)).mulVec z),
      jacVec s.lb s.ub (y + (root (Real.exp sc • s.propCov)).mulVec z), jacVec s.lb s.ub y)) ∂stdGauss n := by
  have h1 : (allOk fun i => transformToReals (s.state i) (s.lb i) (s.ub i)) =
      .ok fun i => (y i, (transformToConst (y i) (s.lb i) (s.ub i)).2) := by
    rw [allOk_ok]
    intro i
    rw [hy, toConstVec]
    rcases s.lb i with _ | l <;> rcases s.ub i with _ | u <;>
      simp [transformToConst, transformToReals, npLog, Real.exp_pos, bind, Except.bind, pure, Except.pure]
  have hR : Measurable fun z : Fin n → ℝ => (root (Real.exp sc • s.propCov)).mulVec z := by
    rw [measurable_pi_iff]; intro i
    simp only [Matrix.mulVec, dotProduct]
    fun_prop
  unfold MvRw.propose
  simp only [h1, hsc, Prog.lift, Prog.ret_bind]
  rw [Prog.lexp_bind, drawNormals_exp]
  · simp only [Prog.cont_ok, Prog.lexp_ret]
    rfl
  · simp only [Prog.cont_ok, Prog.lexp_ret]
    have hp : Measurable fun z => y + (root (Real.exp sc • s.propCov)).mulVec z := measurable_const.add hR
    exact hg.comp (((toConstVec_measurable s.lb s.ub).comp hp).prodMk (((jacVec_measurable s.lb s.ub).comp hp).prodMk measurable_const))

end Ctb
