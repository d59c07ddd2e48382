import Verif.Model.McemSe
import Mathlib.Analysis.Calculus.ContDiff.Basic
import Mathlib.Analysis.Calculus.LineDeriv.Basic
import Mathlib.Analysis.SpecialFunctions.Log.Deriv
import Mathlib.Analysis.SpecialFunctions.ExpDeriv
import Mathlib.Probability.Independence.Integration
import Mathlib.Probability.Independence.Basic
import Mathlib.Probability.Moments.Covariance

set_option linter.unusedSectionVars false

namespace Ctb

open Classical MeasureTheory Filter Topology

variable {p n : ℕ}

/-- Strictly between the bounds. -/
def InsideBounds (lb ub : List (Option ℝ)) (x : Fin p → ℝ) : Prop :=
  ∀ (i : Fin p) (a : ℝ), (lb.getD i none = some a → a < x i) ∧ (ub.getD i none = some a → x i < a)

theorem clip1_inside {l u : Option ℝ} {x : ℝ} (hl : ∀ a, l = some a → a < x) (hu : ∀ a, u = some a → x < a) : ∀ᶠ y in 𝓝 x, clip1 l u y = y := by
  have h1 : ∀ᶠ y in 𝓝 x, ∀ a, l = some a → a < y := by
    rcases l with _ | a
    · simp
    · filter_upwards [lt_mem_nhds (hl a rfl)] with y hy b hb
      cases hb
      exact hy
  have h2 : ∀ᶠ y in 𝓝 x, ∀ a, u = some a → y < a := by
    rcases u with _ | a
    · simp
    · filter_upwards [gt_mem_nhds (hu a rfl)] with y hy b hb
      cases hb
      exact hy
  filter_upwards [h1, h2] with y g1 g2
  unfold clip1
  rcases l with _ | a <;> rcases u with _ | b
  · rfl
  · exact min_eq_left (g2 b rfl).le
  · exact max_eq_left (g1 a rfl).le
  · simp only
    rw [min_eq_left (g2 b rfl).le, max_eq_left (g1 a rfl).le]

theorem clipTo_inside {lb ub : List (Option ℝ)} {x : Fin p → ℝ} (h : InsideBounds lb ub x) : ∀ᶠ y in 𝓝 x, clipTo lb ub y = y := by
  have : ∀ᶠ y in 𝓝 x, ∀ i : Fin p, clip1 (lb.getD i none) (ub.getD i none) (y i) = y i := by
    rw [eventually_all]
    intro i
    exact (continuous_apply i).continuousAt.eventually (clip1_inside (fun a ha => (h i a).1 ha) fun a ha => (h i a).2 ha)
  filter_upwards [this] with y hy
  exact funext hy

theorem gradAt_congr {f g : (Fin p → ℝ) → ℝ} {x : Fin p → ℝ} (h : f =ᶠ[𝓝 x] g) : gradAt f x = gradAt g x := by
  unfold gradAt
  rw [h.fderiv_eq]

theorem hessAt_congr {f g : (Fin p → ℝ) → ℝ} {x : Fin p → ℝ} (h : f =ᶠ[𝓝 x] g) : hessAt f x = hessAt g x := by
  funext i j
  unfold hessAt
  have : (fun y => fderiv ℝ f y (Pi.single j 1)) =ᶠ[𝓝 x] fun y => fderiv ℝ g y (Pi.single j 1) := by
    filter_upwards [h.fderiv (𝕜 := ℝ)] with y hy
    rw [hy]
  rw [this.fderiv_eq]

theorem partial_diff {f : (Fin p → ℝ) → ℝ} {x : Fin p → ℝ} (h : ContDiffAt ℝ 2 f x) (v : Fin p → ℝ) :
    DifferentiableAt ℝ (fun y => fderiv ℝ f y v) x := by
  have : ContDiffAt ℝ 1 (fderiv ℝ f) x := h.fderiv_right (by norm_num)
  exact (this.differentiableAt (by norm_num)).clm_apply (differentiableAt_const v)

theorem near_diff {f : (Fin p → ℝ) → ℝ} {x : Fin p → ℝ} (h : ContDiffAt ℝ 2 f x) : ∀ᶠ y in 𝓝 x, DifferentiableAt ℝ f y := by
  filter_upwards [h.eventually (by norm_num)] with y hy
  exact hy.differentiableAt (by norm_num)

theorem hessAt_neg_mean {F : (Fin p → ℝ) → Fin n → ℝ} {x : Fin p → ℝ} (h : ∀ k, ContDiffAt ℝ 2 (fun y => F y k) x) (i j : Fin p) :
    hessAt (fun y => -((∑ k, F y k) / n)) x i j = -((∑ k, hessAt (fun y => F y k) x i j) / n) := by
  unfold hessAt
  have e : (fun y => fderiv ℝ (fun y => -((∑ k, F y k) / n)) y (Pi.single j 1)) =ᶠ[𝓝 x]
      fun y => -((∑ k, fderiv ℝ (fun y => F y k) y (Pi.single j 1)) / n) := by
    have hd : ∀ᶠ y in 𝓝 x, ∀ k, DifferentiableAt ℝ (fun y => F y k) y := eventually_all.2 fun k => near_diff (h k)
    filter_upwards [hd] with y hy
    have := (HasFDerivAt.fun_sum (u := Finset.univ) fun k _ => (hy k).hasFDerivAt).mul_const (n : ℝ)⁻¹ |>.fun_neg
    simp only [div_eq_mul_inv]
    rw [this.fderiv]
    simp [mul_comm]
  rw [e.fderiv_eq]
  have := (HasFDerivAt.fun_sum (u := Finset.univ) fun k _ => (partial_diff (h k) (Pi.single j 1)).hasFDerivAt).mul_const (n : ℝ)⁻¹ |>.fun_neg
  simp only [div_eq_mul_inv]
  rw [this.fderiv]
  simp [mul_comm]

/-- No partial derivative along a coordinate that does not matter. -/
theorem fderiv_flat {g : (Fin p → ℝ) → ℝ} {y v : Fin p → ℝ} (h : ∀ᶠ t in 𝓝 (0 : ℝ), g (y + t • v) = g y) : fderiv ℝ g y v = 0 := by
  by_cases hd : DifferentiableAt ℝ g y
  · rw [← hd.lineDeriv_eq_fderiv, lineDeriv]
    have : (fun t : ℝ => g (y + t • v)) =ᶠ[𝓝 0] fun _ => g y := h
    rw [this.deriv_eq, deriv_const]
  · simp [fderiv_zero_of_not_differentiableAt hd]

/-- Beyond a bound. -/
def BeyondBound (lb ub : List (Option ℝ)) (x : Fin p → ℝ) (j : Fin p) : Prop :=
  (∃ a, lb.getD j none = some a ∧ x j < a) ∨ ∃ a, ub.getD j none = some a ∧ a < x j

theorem clip1_beyond {l u : Option ℝ} {x : ℝ} (h : (∃ a, l = some a ∧ x < a) ∨ ∃ a, u = some a ∧ a < x) :
    ∃ c, ∀ᶠ y in 𝓝 x, clip1 l u y = c := by
  rcases h with ⟨a, rfl, ha⟩ | ⟨a, rfl, ha⟩
  · refine ⟨a, ?_⟩
    filter_upwards [gt_mem_nhds ha] with y hy
    unfold clip1
    rcases u with _ | b
    · exact max_eq_right hy.le
    · exact max_eq_right ((min_le_left _ _).trans hy.le)
  · refine ⟨clip1 l (some a) a, ?_⟩
    filter_upwards [lt_mem_nhds ha] with y hy
    unfold clip1
    simp only [min_eq_right hy.le, min_self]

theorem clipTo_beyond {lb ub : List (Option ℝ)} {x : Fin p → ℝ} {j : Fin p} (h : BeyondBound lb ub x j) (f : (Fin p → ℝ) → ℝ) :
    (fun y => fderiv ℝ (fun z => f (clipTo lb ub z)) y (Pi.single j 1)) =ᶠ[𝓝 x] fun _ => 0 := by
  obtain ⟨c, hc⟩ := clip1_beyond h
  have h2 : ∀ᶠ y in 𝓝 x, ∀ᶠ s in 𝓝 (y j), clip1 (lb.getD j none) (ub.getD j none) s = c :=
    (continuous_apply j).continuousAt.eventually (eventually_eventually_nhds.2 hc)
  filter_upwards [h2] with y hy
  refine fderiv_flat (g := fun z => f (clipTo lb ub z)) ?_
  have ht : Tendsto (fun t : ℝ => y j + t) (𝓝 0) (𝓝 (y j)) := by
    have : Continuous fun t : ℝ => y j + t := by fun_prop
    simpa using this.tendsto 0
  filter_upwards [ht.eventually hy] with t ht
  congr 1
  funext i
  unfold clipTo
  by_cases hi : i = j
  · subst hi
    simp only [Pi.add_apply, Pi.smul_apply, Pi.single_eq_same, smul_eq_mul, mul_one]
    rw [ht, hy.self_of_nhds]
  · simp [Pi.single_eq_of_ne hi]


/-- Louis' identity for a finite sum. -/
theorem louis {Z : Type} [Fintype Z] [Nonempty Z] {f : Z → (Fin p → ℝ) → ℝ} {x : Fin p → ℝ} (h : ∀ z, ContDiffAt ℝ 2 (f z) x) {w : Z → ℝ}
    (hw : ∀ z, w z = Real.exp (f z x) / ∑ z', Real.exp (f z' x)) (i j : Fin p) :
    hessAt (fun y => Real.log (∑ z, Real.exp (f z y))) x i j =
      ∑ z, w z * hessAt (f z) x i j + (∑ z, w z * (gradAt (f z) x i * gradAt (f z) x j) - (∑ z, w z * gradAt (f z) x i) * ∑ z, w z * gradAt (f z) x j) := by
  have hS : ∀ y, 0 < ∑ z, Real.exp (f z y) := fun y => Finset.sum_pos (fun z _ => Real.exp_pos _) Finset.univ_nonempty
  have hexp : ∀ y, (∀ z, DifferentiableAt ℝ (f z) y) → HasFDerivAt (fun y => ∑ z, Real.exp (f z y)) (∑ z, Real.exp (f z y) • fderiv ℝ (f z) y) y :=
    fun y hy => HasFDerivAt.fun_sum fun z _ => (hy z).hasFDerivAt.exp
  have e : (fun y => fderiv ℝ (fun y => Real.log (∑ z, Real.exp (f z y))) y (Pi.single j 1)) =ᶠ[𝓝 x]
      fun y => (∑ z, Real.exp (f z y) * fderiv ℝ (f z) y (Pi.single j 1)) * (∑ z, Real.exp (f z y))⁻¹ := by
    have hd : ∀ᶠ y in 𝓝 x, ∀ z, DifferentiableAt ℝ (f z) y := eventually_all.2 fun k => near_diff (h k)
    filter_upwards [hd] with y hy
    rw [((hexp y hy).log (hS y).ne').fderiv]
    simp [mul_comm]
  have hx : ∀ z, DifferentiableAt ℝ (f z) x := fun z => (h z).differentiableAt (by norm_num)
  have hn : HasFDerivAt (fun y => ∑ z, Real.exp (f z y) * fderiv ℝ (f z) y (Pi.single j 1)) _ x :=
    HasFDerivAt.fun_sum fun z _ => (hx z).hasFDerivAt.exp.mul (partial_diff (h z) (Pi.single j 1)).hasFDerivAt
  have hi : HasFDerivAt (fun y => (∑ z, Real.exp (f z y))⁻¹) _ x := (hasDerivAt_inv (hS x).ne').comp_hasFDerivAt x (hexp x hx)
  unfold hessAt gradAt
  rw [e.fderiv_eq, (hn.fun_mul hi).fderiv]
  simp only [ContinuousLinearMap.add_apply, ContinuousLinearMap.smul_apply, ContinuousLinearMap.sum_apply, smul_eq_mul, hw]
  set S := ∑ z, Real.exp (f z x) with hSd
  have hS0 : S ≠ 0 := (hS x).ne'
  simp only [div_mul_eq_mul_div, ← Finset.sum_div, Finset.sum_add_distrib]
  have a1 : ∑ z, fderiv ℝ (f z) x (Pi.single j 1) * (Real.exp (f z x) * fderiv ℝ (f z) x (Pi.single i 1)) =
      ∑ z, Real.exp (f z x) * (fderiv ℝ (f z) x (Pi.single i 1) * fderiv ℝ (f z) x (Pi.single j 1)) := Finset.sum_congr rfl fun z _ => by ring
  rw [a1]
  field_simp
  ring

/-- The sample covariance of independent draws is unbiased. -/
theorem npCov_unbiased {Z : Type} [MeasurableSpace Z] {μ : Measure Z} [IsProbabilityMeasure μ] {g : Z → Fin p → ℝ} (hn : 2 ≤ n)
    (hg : ∀ i, MemLp (fun z => g z i) 2 μ) (i j : Fin p) :
    ∫ z : Fin n → Z, npCov (fun k => g (z k)) i j ∂(Measure.pi fun _ => μ) = (∫ z, g z i * g z j ∂μ) - (∫ z, g z i ∂μ) * ∫ z, g z j ∂μ := by
  have hn0 : (n : ℝ) ≠ 0 := by positivity
  have hn1 : (n : ℝ) - 1 ≠ 0 := by
    have : (2 : ℝ) ≤ n := by exact_mod_cast hn
    linarith
  have hint : ∀ i, Integrable (fun z => g z i) μ := fun i => (hg i).integrable (by norm_num)
  have hprod : ∀ i j, Integrable (fun z => g z i * g z j) μ := fun i j => (hg i).integrable_mul (hg j)
  have hmp : ∀ k : Fin n, MeasurePreserving (fun z : Fin n → Z => z k) (Measure.pi fun _ => μ) μ := fun k => measurePreserving_eval (fun _ => μ) k
  have e1 : ∀ k : Fin n, ∫ z : Fin n → Z, g (z k) i * g (z k) j ∂(Measure.pi fun _ => μ) = ∫ z, g z i * g z j ∂μ := by
    intro k
    rw [← (hmp k).map_eq, integral_map (hmp k).aemeasurable (by rw [(hmp k).map_eq]; exact (hprod i j).aestronglyMeasurable)]
    rw [(hmp k).map_eq]
  have i1 : ∀ k : Fin n, ∀ a, MemLp (fun z : Fin n → Z => g (z k) a) 2 (Measure.pi fun _ => μ) := fun k a => (hg a).comp_measurePreserving (hmp k)
  have i2 : ∀ k l : Fin n, Integrable (fun z : Fin n → Z => g (z k) i * g (z l) j) (Measure.pi fun _ => μ) := fun k l => (i1 k i).integrable_mul (i1 l j)
  have e0 : ∀ (k : Fin n) a, ∫ z : Fin n → Z, g (z k) a ∂(Measure.pi fun _ => μ) = ∫ z, g z a ∂μ := by
    intro k a
    rw [← (hmp k).map_eq, integral_map (hmp k).aemeasurable (by rw [(hmp k).map_eq]; exact (hint a).aestronglyMeasurable)]
    rw [(hmp k).map_eq]
  have e2 : ∀ k l : Fin n, k ≠ l → ∫ z : Fin n → Z, g (z k) i * g (z l) j ∂(Measure.pi fun _ => μ) = (∫ z, g z i ∂μ) * ∫ z, g z j ∂μ := by
    intro k l hkl
    have hind := (ProbabilityTheory.iIndepFun_pi (μ := fun _ : Fin n => μ) (X := fun k' z => if k' = k then g z i else g z j) fun k' => by
      by_cases hk : k' = k
      · simpa only [if_pos hk] using (hint i).aemeasurable
      · simpa only [if_neg hk] using (hint j).aemeasurable).indepFun hkl
    simp only [if_true, if_neg hkl.symm] at hind
    rw [hind.integral_fun_mul_eq_mul_integral (i1 k i).aestronglyMeasurable (i1 l j).aestronglyMeasurable, e0, e0]
  have alg : ∀ z : Fin n → Z, npCov (fun k => g (z k)) i j =
      ((∑ k, g (z k) i * g (z k) j) - (∑ k, ∑ l, g (z k) i * g (z l) j) / n) / (n - 1) := by
    intro z
    unfold npCov
    congr 1
    rw [← Finset.sum_mul_sum]
    set A := ∑ k, g (z k) i
    set B := ∑ k, g (z k) j
    have : ∀ k, (g (z k) i - A / n) * (g (z k) j - B / n) = g (z k) i * g (z k) j - g (z k) i * (B / n) - A / n * g (z k) j + A / n * (B / n) := fun k => by ring
    simp only [this, Finset.sum_add_distrib, Finset.sum_sub_distrib, ← Finset.sum_mul, ← Finset.mul_sum, Finset.sum_const, Finset.card_univ, Fintype.card_fin,
      nsmul_eq_mul]
    field_simp
    ring
  simp only [alg]
  rw [integral_div, integral_sub (integrable_finset_sum _ fun k _ => i2 k k)
    ((integrable_finset_sum _ fun k _ => integrable_finset_sum _ fun l _ => i2 k l).div_const _), integral_div,
    integral_finset_sum _ fun k _ => i2 k k, integral_finset_sum _ fun k _ => integrable_finset_sum _ fun l _ => i2 k l]
  have e3 : ∀ k : Fin n, ∫ z : Fin n → Z, ∑ l, g (z k) i * g (z l) j ∂(Measure.pi fun _ => μ) =
      (∫ z, g z i * g z j ∂μ) + (n - 1) * ((∫ z, g z i ∂μ) * ∫ z, g z j ∂μ) := by
    intro k
    rw [integral_finset_sum _ fun l _ => i2 k l, ← Finset.add_sum_erase _ _ (Finset.mem_univ k), e1]
    congr 1
    rw [Finset.sum_congr rfl fun l hl => e2 k l (Finset.ne_of_mem_erase hl).symm, Finset.sum_const, Finset.card_erase_of_mem (Finset.mem_univ k),
      Finset.card_univ, Fintype.card_fin, nsmul_eq_mul, Nat.cast_sub (by omega), Nat.cast_one]
  simp only [e1, e3, Finset.sum_const, Finset.card_univ, Fintype.card_fin, nsmul_eq_mul]
  field_simp
  ring

end Ctb
