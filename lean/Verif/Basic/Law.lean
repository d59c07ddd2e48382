import Verif.Basic.Prog
import Mathlib.Probability.Distributions.Beta
import Mathlib.Probability.Distributions.Exponential
import Mathlib.Probability.Distributions.Gamma
import Mathlib.Probability.Distributions.Gaussian.Real
import Mathlib.Probability.Distributions.Poisson.Basic

/-!
# Exact probabilities of programs

`Prog.lexp p g` is the expectation of `g` at the result of `p` when every draw has its documented distribution and draws
are independent.  It is an iterated lower Lebesgue integral, so it is defined for every program.
-/

namespace Ctb

open MeasureTheory ProbabilityTheory Set
open scoped ENNReal NNReal

/-- Distribution of a real draw, after the numpy documentation.  `wald(μ, λ)` has the inverse Gaussian density. -/
noncomputable def RDist.law : RDist → Measure ℝ
  | .uniform lo hi => (volume.restrict (Ico (0 : ℝ) 1)).map fun u => lo + (hi - lo) * u
  | .beta a b => betaMeasure a b
  | .exponential s => expMeasure (1 / s)
  | .normal m s => gaussianReal m (Real.toNNReal (s ^ 2))
  | .wald m l => volume.withDensity fun x =>
      if 0 < x then ENNReal.ofReal (Real.sqrt (l / (2 * Real.pi * x ^ 3)) * Real.exp (-(l * (x - m) ^ 2) / (2 * m ^ 2 * x))) else 0
  | .gamma a s => gammaMeasure a (1 / s)

/-- Distribution of a natural-number draw. -/
noncomputable def NDist.law : NDist → Measure ℕ
  | .poisson lam => poissonMeasure lam.toNNReal
  | .choice n p => Measure.sum fun i : Fin n => ENNReal.ofReal (p i) • Measure.dirac (i : ℕ)

namespace Prog

variable {α β : Type}

/-- Expectation of `g` at the result. -/
noncomputable def lexp : Prog α → (Res α → ℝ≥0∞) → ℝ≥0∞
  | ret a, g => g (.ok a)
  | err e, g => g (.error e)
  | real d k, g => ∫⁻ x, (k x).lexp g ∂d.law
  | nat d k, g => ∫⁻ n, (k n).lexp g ∂d.law

open scoped Classical in
/-- Probability that the result satisfies `P`. -/
noncomputable def prob (p : Prog α) (P : Res α → Prop) : ℝ≥0∞ := p.lexp fun r => if P r then 1 else 0

@[simp] theorem lexp_ret (a : α) (g) : (ret a).lexp g = g (.ok a) := rfl
@[simp] theorem lexp_err (e : PyErr) (g : Res α → ℝ≥0∞) : (err e : Prog α).lexp g = g (.error e) := rfl
theorem lexp_real (d) (k : ℝ → Prog α) (g) : (real d k).lexp g = ∫⁻ x, (k x).lexp g ∂d.law := rfl
theorem lexp_nat (d) (k : ℕ → Prog α) (g) : (nat d k).lexp g = ∫⁻ x, (k x).lexp g ∂d.law := rfl

/-- Continue an expectation after a result. -/
def cont (f : α → Prog β) (g : Res β → ℝ≥0∞) (L : Prog β → (Res β → ℝ≥0∞) → ℝ≥0∞) : Res α → ℝ≥0∞
  | .ok a => L (f a) g
  | .error e => g (.error e)

theorem lexp_bind (p : Prog α) (f : α → Prog β) (g : Res β → ℝ≥0∞) :
    (p.bind f).lexp g = p.lexp (cont f g lexp) := by
  induction p with
  | ret a => rfl
  | err e => rfl
  | real d k ih => simp only [real_bind, lexp_real, ih]
  | nat d k ih => simp only [nat_bind, lexp_nat, ih]

@[simp] theorem cont_ok (f : α → Prog β) (g : Res β → ℝ≥0∞) (L) (a : α) : cont f g L (.ok a) = L (f a) g := rfl
@[simp] theorem cont_error (f : α → Prog β) (g : Res β → ℝ≥0∞) (L) (e : PyErr) : cont f g L (.error e : Res α) = g (.error e) := rfl

theorem lexp_mono (p : Prog α) {g h : Res α → ℝ≥0∞} (hgh : ∀ r, g r ≤ h r) : p.lexp g ≤ p.lexp h := by
  induction p with
  | ret a => exact hgh _
  | err e => exact hgh _
  | real d k ih => exact lintegral_mono ih
  | nat d k ih => exact lintegral_mono ih

theorem lexp_const_mul (p : Prog α) (g : Res α → ℝ≥0∞) {c : ℝ≥0∞} (hc : c ≠ ∞) : p.lexp (fun r => c * g r) = c * p.lexp g := by
  induction p with
  | ret a => rfl
  | err e => rfl
  | real d k ih => simp only [lexp_real, ih]; exact lintegral_const_mul' _ _ hc
  | nat d k ih => simp only [lexp_nat, ih]; exact lintegral_const_mul' _ _ hc

@[simp] theorem lexp_zero (p : Prog α) : p.lexp (fun _ => 0) = 0 := by
  induction p with
  | ret a => rfl
  | err e => rfl
  | real d k ih => simp only [lexp_real, ih, lintegral_zero]
  | nat d k ih => simp only [lexp_nat, ih, lintegral_zero]

end Prog

/-! ## The laws live on the supports -/

theorem NDist.law_support (d : NDist) : d.law d.supportᶜ = 0 := by
  cases d with
  | poisson lam =>
    by_cases h : lam = 0
    · subst h
      have e : (NDist.poisson 0).supportᶜ = ⋃ n : ℕ, {n + 1} := by
        ext n
        simp only [NDist.support, Set.mem_compl_iff, Set.mem_setOf_eq, forall_const, Set.mem_iUnion, Set.mem_singleton_iff]
        constructor
        · intro h; exact ⟨n - 1, by omega⟩
        · rintro ⟨m, rfl⟩; omega
      rw [e]
      refine measure_iUnion_null fun n => ?_
      simp only [NDist.law, Real.toNNReal_zero]
      rw [poissonMeasure_singleton]
      simp
    · have e : (NDist.poisson lam).supportᶜ = ∅ := by
        ext n; simp [NDist.support, h]
      rw [e]; simp
  | choice n p =>
    simp only [NDist.law]
    rw [Measure.sum_apply _ (MeasurableSet.of_discrete)]
    simp only [Measure.smul_apply, smul_eq_mul, ENNReal.tsum_eq_zero, mul_eq_zero]
    intro i
    by_cases hi : 0 < p i
    · right
      rw [Measure.dirac_apply' _ MeasurableSet.of_discrete]
      simp [NDist.support, hi]
    · left; simp only [ENNReal.ofReal_eq_zero]; exact not_lt.1 hi

theorem gamma_null (a r : ℝ) : gammaMeasure a r (Ioi 0)ᶜ = 0 := by
  rw [gammaMeasure, compl_Ioi, withDensity_apply _ measurableSet_Iic]
  have : ∀ᵐ x ∂(volume.restrict (Iic (0 : ℝ))), gammaPDF a r x = 0 := by
    rw [ae_restrict_iff' measurableSet_Iic]
    have h0 : ∀ᵐ x : ℝ, x ≠ 0 := by simp [ae_iff]
    filter_upwards [h0] with x hx hx'
    exact gammaPDF_of_neg (lt_of_le_of_ne hx' hx)
  rw [lintegral_congr_ae this, lintegral_zero]

theorem RDist.law_support (d : RDist) : d.law d.supportᶜ = 0 := by
  cases d with
  | uniform lo hi =>
    have hm : Measurable fun u : ℝ => lo + (hi - lo) * u := by fun_prop
    have : ∀ᵐ x ∂((volume.restrict (Ico (0 : ℝ) 1)).map fun u => lo + (hi - lo) * u), x ∈ (RDist.uniform lo hi).support := by
      by_cases h : hi = lo
      · subst h
        rw [ae_map_iff hm.aemeasurable]
        · refine Filter.Eventually.of_forall fun u => ⟨0, le_rfl, one_pos, by ring⟩
        · have : {x | x ∈ (RDist.uniform hi hi).support} = {hi} := by
            ext x; simp only [RDist.support, Set.mem_setOf_eq, Set.mem_singleton_iff]
            constructor
            · rintro ⟨u, _, _, rfl⟩; ring
            · rintro rfl; exact ⟨0, le_rfl, one_pos, by ring⟩
          rw [this]; exact measurableSet_singleton _
      · rw [ae_map_iff hm.aemeasurable]
        · rw [ae_restrict_iff' measurableSet_Ico]
          exact Filter.Eventually.of_forall fun u hu => ⟨u, hu.1, hu.2, rfl⟩
        · have h' : hi - lo ≠ 0 := sub_ne_zero.2 h
          have : {x | x ∈ (RDist.uniform lo hi).support} = (fun x => (x - lo) / (hi - lo)) ⁻¹' Ico 0 1 := by
            ext x; simp only [RDist.support, Set.mem_setOf_eq, Set.mem_preimage, Set.mem_Ico]
            constructor
            · rintro ⟨u, h0, h1, rfl⟩
              rw [add_sub_cancel_left, mul_div_cancel_left₀ _ h']; exact ⟨h0, h1⟩
            · rintro ⟨h0, h1⟩
              exact ⟨_, h0, h1, by field_simp; ring⟩
          rw [this]
          exact (by fun_prop : Measurable fun x : ℝ => (x - lo) / (hi - lo)) measurableSet_Ico
    exact this
  | beta a b =>
    simp only [RDist.law, RDist.support]
    rw [betaMeasure, withDensity_apply _ measurableSet_Ioo.compl]
    rw [setLIntegral_congr_fun measurableSet_Ioo.compl (g := fun _ => 0), lintegral_zero]
    intro x hx
    rw [Set.mem_compl_iff, Set.mem_Ioo, not_and_or, not_lt, not_lt] at hx
    rcases hx with hx | hx
    · exact betaPDF_eq_zero_of_nonpos hx
    · exact betaPDF_eq_zero_of_one_le hx
  | exponential s => exact gamma_null _ _
  | normal m s =>
    simp only [RDist.law, RDist.support]
    by_cases h : s = 0
    · subst h
      simp
    · simp [h]
  | wald m l =>
    simp only [RDist.law, RDist.support]
    rw [withDensity_apply _ measurableSet_Ioi.compl]
    rw [setLIntegral_congr_fun measurableSet_Ioi.compl (g := fun _ => 0), lintegral_zero]
    intro x hx
    rw [Set.mem_compl_iff, Set.mem_Ioi] at hx
    simp [hx]
  | gamma a s => exact gamma_null _ _

/-- Two functions that agree on every possible result have the same expectation. -/
theorem Prog.lexp_congr {α : Type} {p : Prog α} {g h : Res α → ℝ≥0∞} (hgh : ∀ r, p.Out r → g r = h r) : p.lexp g = p.lexp h := by
  induction p with
  | ret a => exact hgh _ rfl
  | err e => exact hgh _ rfl
  | real d k ih =>
    refine lintegral_congr_ae ?_
    have : ∀ᵐ x ∂d.law, x ∈ d.support := d.law_support
    filter_upwards [this] with x hx
    exact ih x fun r hr => hgh r ⟨x, hx, hr⟩
  | nat d k ih =>
    refine lintegral_congr_ae ?_
    have : ∀ᵐ x ∂d.law, x ∈ d.support := d.law_support
    filter_upwards [this] with x hx
    exact ih x fun r hr => hgh r ⟨x, hx, hr⟩

/-! ## Uniform draws -/

theorem RDist.law_uniform01 : (RDist.uniform 0 1).law = volume.restrict (Ico (0 : ℝ) 1) := by
  have : (fun u : ℝ => (0 : ℝ) + (1 - 0) * u) = id := by ext u; simp
  simp only [RDist.law, this, Measure.map_id]

/-- Branching on `u < c` for a uniform draw. -/
theorem lintegral_uniform_lt {c : ℝ} (h0 : 0 ≤ c) (h1 : c ≤ 1) (A B : ℝ≥0∞) :
    ∫⁻ u, (if u < c then A else B) ∂(RDist.uniform 0 1).law = ENNReal.ofReal c * A + ENNReal.ofReal (1 - c) * B := by
  classical
  rw [RDist.law_uniform01]
  have hms : MeasurableSet {u : ℝ | u < c} := measurableSet_Iio
  have e : (fun u : ℝ => if u < c then A else B) =
      fun u => ({u : ℝ | u < c}.indicator (fun _ => A) u) + ({u : ℝ | u < c}ᶜ.indicator (fun _ => B) u) := by
    ext u; by_cases h : u < c <;> simp [h]
  rw [e, lintegral_add_left ((measurable_const).indicator hms), lintegral_indicator hms, lintegral_indicator hms.compl,
    lintegral_const, lintegral_const, Measure.restrict_restrict hms, Measure.restrict_restrict hms.compl,
    Measure.restrict_apply_univ, Measure.restrict_apply_univ]
  have e1 : {u : ℝ | u < c} ∩ Ico 0 1 = Ico 0 c := by
    ext u; simp only [Set.mem_inter_iff, Set.mem_setOf_eq, Set.mem_Ico]
    constructor
    · rintro ⟨a, b, -⟩; exact ⟨b, a⟩
    · rintro ⟨a, b⟩; exact ⟨b, a, by linarith⟩
  have e2 : {u : ℝ | u < c}ᶜ ∩ Ico 0 1 = Ico c 1 := by
    ext u; simp only [Set.mem_inter_iff, Set.mem_compl_iff, Set.mem_setOf_eq, Set.mem_Ico, not_lt]
    constructor
    · rintro ⟨a, -, b⟩; exact ⟨a, b⟩
    · rintro ⟨a, b⟩; exact ⟨a, by linarith, b⟩
  rw [e1, e2, Real.volume_Ico, Real.volume_Ico, sub_zero, mul_comm, mul_comm (ENNReal.ofReal (1 - c))]

theorem lintegral_uniform_const (A : ℝ≥0∞) : ∫⁻ _u, A ∂(RDist.uniform 0 1).law = A := by
  rw [RDist.law_uniform01]; simp

end Ctb
