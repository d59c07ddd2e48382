import Verif.Lemmas.PppLaw

set_option linter.unusedSectionVars false

/-! # C119: `sample_ppp` samples a Poisson process -/

namespace Ctb

open Classical MeasureTheory ProbabilityTheory
open scoped ENNReal NNReal

/-- The expectation of a product over the points is the exponential of an integral over the box: the Laplace functional of a Poisson process. -/
theorem C119_functional {lam : ℝ} (hl : 0 < lam) {bs : List ℝ} (h0 : bs ≠ []) (h : ∀ b ∈ bs, 0 < b) {g : List ℝ → ℝ≥0}
    (hI : boxInt bs (fun r => (g r : ℝ≥0∞)) ≠ ∞) :
    (samplePpp lam bs).lexp (onOk fun rows => (rows.map fun r => (g r : ℝ≥0∞)).prod) =
      ENNReal.ofReal (Real.exp (lam * ((boxInt bs fun r => (g r : ℝ≥0∞)).toReal - bs.prod))) := ppp_functional hl h0 h hI

/-- The numbers of points in disjoint sets are independent Poisson variables, their means the volumes times the intensity: the generating function of the
numbers is the product of those of the Poisson laws. -/
theorem C119_counts {lam : ℝ} (hl : 0 < lam) {bs : List ℝ} (h0 : bs ≠ []) (h : ∀ b ∈ bs, 0 < b) {m : ℕ} {A : Fin m → Set (List ℝ)}
    (hA : Pairwise fun i j => Disjoint (A i) (A j)) (hm : ∀ i, MeasurableSet (A i)) (s : Fin m → ℝ≥0) :
    (samplePpp lam bs).lexp (onOk fun rows => ∏ i, (s i : ℝ≥0∞) ^ rows.countP fun r => decide (r ∈ A i)) =
      ∏ i, ∫⁻ n, (s i : ℝ≥0∞) ^ n ∂(poissonMeasure (lam * (boxVol bs (A i)).toReal).toNNReal) := by
  have key := box_mark h hA hm s
  have hV : ∀ i, boxVol bs (A i) ≠ ∞ := fun i => boxVol_ne_top h _
  have hR : ENNReal.ofReal bs.prod + ∑ i, (s i : ℝ≥0∞) * boxVol bs (A i) ≠ ∞ :=
    ENNReal.add_ne_top.2 ⟨ENNReal.ofReal_ne_top, ENNReal.sum_ne_top.2 fun i _ => ENNReal.mul_ne_top ENNReal.coe_ne_top (hV i)⟩
  have hI : boxInt bs (fun r => (markFn A s r : ℝ≥0∞)) ≠ ∞ := fun e => hR (by rw [← key, e, top_add])
  have hp : 0 < bs.prod := List.prod_pos h
  have e : (boxInt bs fun r => (markFn A s r : ℝ≥0∞)).toReal - bs.prod = ∑ i, ((boxVol bs (A i)).toReal * (s i - 1)) := by
    have := congrArg ENNReal.toReal key
    rw [ENNReal.toReal_add hI (ENNReal.sum_ne_top.2 fun i _ => hV i),
      ENNReal.toReal_add ENNReal.ofReal_ne_top (ENNReal.sum_ne_top.2 fun i _ => ENNReal.mul_ne_top ENNReal.coe_ne_top (hV i)), ENNReal.toReal_ofReal hp.le,
      ENNReal.toReal_sum fun i _ => hV i, ENNReal.toReal_sum fun i _ => ENNReal.mul_ne_top ENNReal.coe_ne_top (hV i)] at this
    simp only [ENNReal.toReal_mul, ENNReal.coe_toReal] at this
    have h2 : ∑ i, ((boxVol bs (A i)).toReal * ((s i : ℝ) - 1)) = (∑ i, (s i : ℝ) * (boxVol bs (A i)).toReal) - ∑ i, (boxVol bs (A i)).toReal := by
      rw [← Finset.sum_sub_distrib]; exact Finset.sum_congr rfl fun i _ => by ring
    rw [h2]; linarith
  simp only [← prod_mark]
  rw [ppp_functional hl h0 h hI, e, Finset.mul_sum, Real.exp_sum, ENNReal.ofReal_prod_of_nonneg fun i _ => (Real.exp_pos _).le]
  refine Finset.prod_congr rfl fun i _ => ?_
  have := lintegral_poisson_pow (lam := lam * (boxVol bs (A i)).toReal) (q := s i) (by positivity) (s i).coe_nonneg
  simp only [NDist.law, ENNReal.ofReal_coe_nnreal] at this
  rw [this, mul_assoc]

/-- The probability that a set contains no point. -/
theorem C119_void {lam : ℝ} (hl : 0 < lam) {bs : List ℝ} (h0 : bs ≠ []) (h : ∀ b ∈ bs, 0 < b) {A : Set (List ℝ)} (hm : MeasurableSet A) :
    (samplePpp lam bs).prob (fun q => ∃ rows, q = .ok rows ∧ ∀ r ∈ rows, r ∉ A) = ENNReal.ofReal (Real.exp (-(lam * (boxVol bs A).toReal))) := by
  have key := C119_counts hl h0 h (m := 1) (A := fun _ => A) (fun i j hij => absurd (Subsingleton.elim i j) hij) (fun _ => hm) (fun _ => 0)
  have e := lintegral_poisson_pow (lam := lam * (boxVol bs A).toReal) (q := 0) (by positivity) le_rfl
  simp only [NDist.law, ENNReal.ofReal_zero] at e
  simp only [Fin.prod_univ_one, ENNReal.coe_zero, e, zero_sub, mul_neg, mul_one] at key
  rw [← key, Prog.prob]
  congr 1
  funext q
  rcases q with e | rows
  · simp [onOk]
  · simp only [onOk, Except.ok.injEq, exists_eq_left']
    by_cases hr : ∀ r ∈ rows, r ∉ A
    · rw [if_pos hr, List.countP_eq_zero.2 (by simpa using hr), pow_zero]
    · rw [if_neg hr, zero_pow]
      rw [Ne, List.countP_eq_zero]
      simpa using hr

theorem half_vol : boxVol [2, 2] {r : List ℝ | r.getD 0 0 < 1} = 2 := by
  have e : ∀ x : ℝ, (∫⁻ _ in Set.Ico (0 : ℝ) 2, if x < 1 then (1 : ℝ≥0∞) else 0) = Set.indicator (Set.Iio 1) (fun _ => 2) x := by
    intro x
    rw [lintegral_const, Measure.restrict_apply MeasurableSet.univ, Set.univ_inter, Real.volume_Ico]
    by_cases h : x < 1
    · rw [if_pos h, Set.indicator_of_mem (show x ∈ Set.Iio (1 : ℝ) from h)]; simp
    · rw [if_neg h, Set.indicator_of_notMem (show x ∉ Set.Iio (1 : ℝ) from h)]; simp
  have e2 : Set.Iio (1 : ℝ) ∩ Set.Ico 0 2 = Set.Ico 0 1 := by
    ext x; simp only [Set.mem_inter_iff, Set.mem_Iio, Set.mem_Ico]
    constructor
    · rintro ⟨h1, h2, h3⟩; exact ⟨h2, h1⟩
    · rintro ⟨h1, h2⟩; exact ⟨h2, h1, by linarith⟩
  simp only [boxVol, boxInt, Set.mem_setOf_eq, List.getD_cons_zero]
  simp only [e]
  rw [lintegral_indicator measurableSet_Iio, lintegral_const, Measure.restrict_restrict measurableSet_Iio, e2, Measure.restrict_apply MeasurableSet.univ, Set.univ_inter,
    Real.volume_Ico]
  simp

/-- No point in the left half of a square: with area two and intensity three the probability is `exp(-6)`. -/
example : (samplePpp 3 [2, 2]).prob (fun q => ∃ rows, q = .ok rows ∧ ∀ r ∈ rows, r ∉ {r : List ℝ | r.getD 0 0 < 1}) = ENNReal.ofReal (Real.exp (-6)) := by
  rw [C119_void (by norm_num) (by simp) (by simp) (measurableSet_lt (measurable_getD_list 0 0) measurable_const), half_vol]
  norm_num

/-- Disjoint measurable sets and an integrable function: the halves of the square, and a function that is not constant. -/
example : Pairwise (fun i j : Fin 2 => Disjoint ((![{r : List ℝ | r.getD 0 0 < 1}, {r : List ℝ | 1 ≤ r.getD 0 0}] : Fin 2 → Set (List ℝ)) i)
      ((![{r : List ℝ | r.getD 0 0 < 1}, {r : List ℝ | 1 ≤ r.getD 0 0}] : Fin 2 → Set (List ℝ)) j)) ∧
    boxInt [2, 2] (fun r => ((if r.getD 0 0 < 1 then 1 / 2 else 1 : ℝ≥0) : ℝ≥0∞)) ≠ ∞ := by
  constructor
  · intro i j hij
    fin_cases i <;> fin_cases j <;> simp only [ne_eq, not_true_eq_false, Fin.isValue, Fin.mk_one, Fin.zero_eta] at hij <;>
      simp only [Fin.zero_eta, Fin.mk_one, Matrix.cons_val_zero, Matrix.cons_val_one, Set.disjoint_left, Set.mem_setOf_eq, not_le, not_lt] <;> intro a ha <;> exact ha
  · refine ne_top_of_le_ne_top ?_ (boxInt_mono _ (g' := fun _ => 1) fun r => ?_)
    · rw [boxInt_one _ (by simp)]; exact ENNReal.ofReal_ne_top
    · split_ifs
      · exact_mod_cast (by norm_num : (1 / 2 : ℝ≥0) ≤ 1)
      · simp

end Ctb
