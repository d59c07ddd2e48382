import Verif.Lemmas.Uniformisation
import Mathlib.Analysis.SpecialFunctions.Integrals.Basic
import Mathlib.MeasureTheory.Integral.IntervalIntegral.FundThmCalculus
import Mathlib.Topology.Algebra.Order.Floor

/-!
# The integral equation of the matrix exponential

`exp (s A)` solves the backward equation `M = δ e^{a s} + ∫ e^{a h} B M(s - h) dh` when `A = diag a + B`, and for `B ≥ 0` every iteration of
this equation started below converges to it.
-/

set_option linter.unusedSectionVars false

namespace Ctb

open Classical MeasureTheory Matrix
open scoped ENNReal

variable {d : ℕ}

open scoped Matrix.Norms.Operator in
theorem exp_entry_deriv (A : Matrix (Fin d) (Fin d) ℝ) (x j : Fin d) (s : ℝ) :
    HasDerivAt (fun s : ℝ => NormedSpace.exp (s • A) x j) ((A * NormedSpace.exp (s • A)) x j) s := by
  have h := hasDerivAt_exp_smul_const' (𝕂 := ℝ) A s
  have h1 := hasDerivAt_pi.1 h x
  exact hasDerivAt_pi.1 h1 j

theorem exp_entry_cont (A : Matrix (Fin d) (Fin d) ℝ) (x j : Fin d) : Continuous fun s : ℝ => NormedSpace.exp (s • A) x j :=
  continuous_iff_continuousAt.2 fun s => (exp_entry_deriv A x j s).continuousAt

theorem exp_entry_nonneg_of {A : Matrix (Fin d) (Fin d) ℝ} (h : ∀ x y, 0 ≤ A x y) (x j : Fin d) : 0 ≤ NormedSpace.exp A x j := by
  refine (exp_entry_hasSum A x j).nonneg fun n => ?_
  have := pow_nonneg_entry h n x j
  positivity

theorem exp_metzler_nonneg {A : Matrix (Fin d) (Fin d) ℝ} (h : ∀ x y, x ≠ y → 0 ≤ A x y) {s : ℝ} (hs : 0 ≤ s) (x j : Fin d) :
    0 ≤ NormedSpace.exp (s • A) x j := by
  set c : ℝ := ∑ y, |A y y| with hc
  have h1 : ∀ x y, 0 ≤ (s • (A + c • (1 : Matrix (Fin d) (Fin d) ℝ))) x y := by
    intro x y
    simp only [Matrix.smul_apply, Matrix.add_apply, Matrix.one_apply, smul_eq_mul]
    refine mul_nonneg hs ?_
    by_cases hxy : x = y
    · subst hxy
      rw [if_pos rfl, mul_one]
      have : |A x x| ≤ c := Finset.single_le_sum (f := fun y => |A y y|) (fun y _ => abs_nonneg _) (Finset.mem_univ x)
      linarith [neg_abs_le (A x x)]
    · rw [if_neg hxy, mul_zero, add_zero]; exact h x y hxy
  have e : s • A = s • (A + c • (1 : Matrix (Fin d) (Fin d) ℝ)) + (-(s * c)) • (1 : Matrix (Fin d) (Fin d) ℝ) := by
    rw [smul_add, smul_smul, neg_smul]; abel
  have e2 : NormedSpace.exp ((-(s * c)) • (1 : Matrix (Fin d) (Fin d) ℝ)) = Matrix.diagonal fun _ => Real.exp (-(s * c)) := by
    have : (-(s * c)) • (1 : Matrix (Fin d) (Fin d) ℝ) = Matrix.diagonal fun _ => -(s * c) := by
      rw [← Matrix.diagonal_one, ← Matrix.diagonal_smul]; congr 1; ext; simp
    rw [this, Matrix.exp_diagonal]
    congr 1
    ext i
    rw [Pi.coe_exp, Real.exp_eq_exp_ℝ]
  rw [e, Matrix.exp_add_of_commute _ _ (Commute.smul_right (Commute.one_right _) _), e2, Matrix.mul_diagonal]
  exact mul_nonneg (exp_entry_nonneg_of h1 x j) (Real.exp_pos _).le

/-- `exp (s A)`. -/
noncomputable irreducible_def mexp (A : Matrix (Fin d) (Fin d) ℝ) (s : ℝ) : Matrix (Fin d) (Fin d) ℝ := NormedSpace.exp (s • A)

theorem mexp_deriv (A : Matrix (Fin d) (Fin d) ℝ) (x j : Fin d) (s : ℝ) : HasDerivAt (fun s : ℝ => mexp A s x j) ((A * mexp A s) x j) s := by
  simp only [mexp_def]; exact exp_entry_deriv A x j s

theorem mexp_cont (A : Matrix (Fin d) (Fin d) ℝ) (x j : Fin d) : Continuous fun s : ℝ => mexp A s x j :=
  continuous_iff_continuousAt.2 fun s => (mexp_deriv A x j s).continuousAt

theorem mexp_nonneg {A : Matrix (Fin d) (Fin d) ℝ} (h : ∀ x y, x ≠ y → 0 ≤ A x y) {s : ℝ} (hs : 0 ≤ s) (x j : Fin d) : 0 ≤ mexp A s x j := by
  rw [mexp_def]; exact exp_metzler_nonneg h hs x j

theorem mexp_zero (A : Matrix (Fin d) (Fin d) ℝ) : mexp A 0 = 1 := by
  rw [mexp_def, zero_smul, NormedSpace.exp_zero]

/-- Duhamel's formula, entry by entry. -/
theorem exp_duhamel {A B : Matrix (Fin d) (Fin d) ℝ} {a : Fin d → ℝ} (hA : A = Matrix.diagonal a + B) (s : ℝ) (x j : Fin d) :
    mexp A s x j = (if x = j then Real.exp (a x * s) else 0) +
      ∫ h in (0 : ℝ)..s, ∑ y, Real.exp (a x * h) * B x y * mexp A (s - h) y j := by
  have hd : ∀ h : ℝ, HasDerivAt (fun h : ℝ => -(Real.exp (a x * h) * mexp A (s - h) x j))
      (∑ y, Real.exp (a x * h) * B x y * mexp A (s - h) y j) h := by
    intro h
    have h1 : HasDerivAt (fun h : ℝ => Real.exp (a x * h)) (Real.exp (a x * h) * (a x * 1)) h := ((hasDerivAt_id h).const_mul (a x)).exp
    have h2 : HasDerivAt (fun h : ℝ => mexp A (s - h) x j) ((A * mexp A (s - h)) x j * (-1)) h :=
      (mexp_deriv A x j (s - h)).comp h ((hasDerivAt_id h).const_sub s)
    refine (h1.mul h2).neg.congr_deriv ?_
    have : (A * mexp A (s - h)) x j = a x * mexp A (s - h) x j + ∑ y, B x y * mexp A (s - h) y j := by
      rw [Matrix.mul_apply]
      conv_lhs => rw [hA]
      simp only [Matrix.add_apply, add_mul, Finset.sum_add_distrib]
      congr 1
      · rw [Finset.sum_eq_single x]
        · rw [Matrix.diagonal_apply_eq]
          rw [← hA]
        · intro y _ hy; rw [Matrix.diagonal_apply_ne _ hy.symm, zero_mul]
        · simp
      · rw [← hA]
    rw [this, ← sub_eq_zero]
    have e : ∑ y, Real.exp (a x * h) * B x y * mexp A (s - h) y j =
        Real.exp (a x * h) * ∑ y, B x y * mexp A (s - h) y j := by
      rw [Finset.mul_sum]; exact Finset.sum_congr rfl fun y _ => by ring
    rw [e]; ring
  have hcont : Continuous fun h : ℝ => ∑ y, Real.exp (a x * h) * B x y * mexp A (s - h) y j := by
    refine continuous_finset_sum _ fun y _ => ?_
    have h2 : Continuous fun h : ℝ => mexp A (s - h) y j := (mexp_cont A y j).comp (continuous_const.sub continuous_id)
    fun_prop
  rw [intervalIntegral.integral_eq_sub_of_hasDerivAt (fun h _ => hd h) (hcont.intervalIntegrable _ _)]
  simp only [sub_self, mexp_zero, mul_zero, Real.exp_zero, one_mul, sub_zero, Matrix.one_apply]
  split_ifs <;> ring

/-- Duhamel's formula for non-negative kernels. -/
theorem exp_duhamel_ofReal {A B : Matrix (Fin d) (Fin d) ℝ} {a : Fin d → ℝ} (hA : A = Matrix.diagonal a + B) (hB : ∀ x y, 0 ≤ B x y) {s : ℝ} (hs : 0 ≤ s)
    (x j : Fin d) :
    ENNReal.ofReal (mexp A s x j) = (if x = j then ENNReal.ofReal (Real.exp (a x * s)) else 0) +
      ∑ y, ∫⁻ h in Set.Ioo 0 s, ENNReal.ofReal (Real.exp (a x * h) * B x y) * ENNReal.ofReal (mexp A (s - h) y j) := by
  have hm : ∀ x y, x ≠ y → 0 ≤ A x y := by
    intro x y hxy
    rw [hA, Matrix.add_apply, Matrix.diagonal_apply_ne _ hxy, zero_add]; exact hB x y
  have hc : ∀ y, Continuous fun h : ℝ => Real.exp (a x * h) * B x y * mexp A (s - h) y j := by
    intro y
    have h2 : Continuous fun h : ℝ => mexp A (s - h) y j := (mexp_cont A y j).comp (continuous_const.sub continuous_id)
    fun_prop
  have hnn : ∀ y, ∀ h ∈ Set.Ioo 0 s, 0 ≤ Real.exp (a x * h) * B x y * mexp A (s - h) y j := fun y h hh =>
    mul_nonneg (mul_nonneg (Real.exp_pos _).le (hB x y)) (mexp_nonneg hm (by linarith [hh.2]) y j)
  have hint : ∀ y, IntegrableOn (fun h : ℝ => Real.exp (a x * h) * B x y * mexp A (s - h) y j) (Set.Ioo 0 s) := fun y =>
    ((hc y).integrableOn_Icc (a := 0) (b := s)).mono_set Set.Ioo_subset_Icc_self
  rw [exp_duhamel hA s x j, intervalIntegral.integral_finset_sum fun y _ => (hc y).intervalIntegrable _ _,
    ENNReal.ofReal_add (by split_ifs; exacts [(Real.exp_pos _).le, le_rfl]), ENNReal.ofReal_sum_of_nonneg]
  · congr 1
    · split_ifs <;> simp
    · refine Finset.sum_congr rfl fun y _ => ?_
      rw [intervalIntegral.integral_of_le hs, integral_Ioc_eq_integral_Ioo,
        ofReal_integral_eq_lintegral_ofReal (hint y) ((ae_restrict_iff' measurableSet_Ioo).2 (Filter.Eventually.of_forall (hnn y)))]
      refine setLIntegral_congr_fun measurableSet_Ioo fun h hh => ?_
      exact ENNReal.ofReal_mul (mul_nonneg (Real.exp_pos _).le (hB x y))
  · intro y _
    rw [intervalIntegral.integral_of_le hs, integral_Ioc_eq_integral_Ioo]
    exact setIntegral_nonneg measurableSet_Ioo (hnn y)
  · refine Finset.sum_nonneg fun y _ => ?_
    rw [intervalIntegral.integral_of_le hs, integral_Ioc_eq_integral_Ioo]
    exact setIntegral_nonneg measurableSet_Ioo (hnn y)

/-- Iterations of the equation stay below its solution. -/
theorem volterra_le {A B : Matrix (Fin d) (Fin d) ℝ} {a : Fin d → ℝ} (hA : A = Matrix.diagonal a + B) (hB : ∀ x y, 0 ≤ B x y) {T : ℝ} {j : Fin d}
    {u : ℕ → ℝ → Fin d → ℝ≥0∞} (h0 : ∀ s, 0 < s → s ≤ T → ∀ x, u 0 s x ≤ ENNReal.ofReal (mexp A s x j))
    (hstep : ∀ n s, 0 < s → s ≤ T → ∀ x, u (n + 1) s x ≤ (if x = j then ENNReal.ofReal (Real.exp (a x * s)) else 0) +
      ∑ y, ∫⁻ h in Set.Ioo 0 s, ENNReal.ofReal (Real.exp (a x * h) * B x y) * u n (s - h) y) (n : ℕ) :
    ∀ s, 0 < s → s ≤ T → ∀ x, u n s x ≤ ENNReal.ofReal (mexp A s x j) := by
  induction n with
  | zero => exact h0
  | succ n ih =>
    intro s hs hsT x
    refine (hstep n s hs hsT x).trans ?_
    rw [exp_duhamel_ofReal hA hB hs.le x j]
    refine add_le_add_right (Finset.sum_le_sum fun y _ => ?_) _
    refine setLIntegral_mono' measurableSet_Ioo fun h hh => ?_
    gcongr
    exact ih (s - h) (by linarith [hh.2]) (by linarith [hh.1]) y

/-- Iterations of the equation approach its solution. -/
theorem volterra_ge {A B : Matrix (Fin d) (Fin d) ℝ} {a : Fin d → ℝ} (hA : A = Matrix.diagonal a + B) (hB : ∀ x y, 0 ≤ B x y) {T : ℝ} {j : Fin d}
    {u : ℕ → ℝ → Fin d → ℝ≥0∞}
    (hstep : ∀ n s, 0 < s → s ≤ T → ∀ x, (if x = j then ENNReal.ofReal (Real.exp (a x * s)) else 0) +
      ∑ y, ∫⁻ h in Set.Ioo 0 s, ENNReal.ofReal (Real.exp (a x * h) * B x y) * u n (s - h) y ≤ u (n + 1) s x) :
    ∃ C L : ℝ, 0 ≤ C ∧ 0 ≤ L ∧ ∀ n s, 0 < s → s ≤ T → ∀ x,
      ENNReal.ofReal (mexp A s x j) ≤ u n s x + ENNReal.ofReal (C * ((L * s) ^ n / n.factorial)) := by
  have hbound : ∀ x : Fin d, ∃ C : ℝ, ∀ s ∈ Set.Icc 0 T, mexp A s x j ≤ C := fun x => by
    obtain ⟨C, hC⟩ := (isCompact_Icc (a := (0 : ℝ)) (b := T)).bddAbove_image (mexp_cont A x j).continuousOn
    exact ⟨C, fun s hs => hC ⟨s, hs, rfl⟩⟩
  choose C hC using hbound
  set C0 : ℝ := ∑ x, |C x| with hC0
  have hCle : ∀ x, ∀ s ∈ Set.Icc 0 T, mexp A s x j ≤ C0 := fun x s hs =>
    (hC x s hs).trans ((le_abs_self _).trans (Finset.single_le_sum (f := fun x => |C x|) (fun y _ => abs_nonneg _) (Finset.mem_univ x)))
  have hC0n : 0 ≤ C0 := Finset.sum_nonneg fun x _ => abs_nonneg _
  set L : ℝ := ∑ x, ∑ y, Real.exp (|a x| * |T|) * B x y with hL
  have hLn : 0 ≤ L := Finset.sum_nonneg fun x _ => Finset.sum_nonneg fun y _ => mul_nonneg (Real.exp_pos _).le (hB x y)
  refine ⟨C0, L, hC0n, hLn, fun n => ?_⟩
  induction n with
  | zero =>
    intro s hs hsT x
    simp only [pow_zero, Nat.factorial_zero, Nat.cast_one, div_one, mul_one]
    exact (ENNReal.ofReal_le_ofReal (hCle x s ⟨hs.le, hsT⟩)).trans le_add_self
  | succ n ih =>
    intro s hs hsT x
    rw [exp_duhamel_ofReal hA hB hs.le x j]
    refine le_trans ?_ (add_le_add_left (hstep n s hs hsT x) _)
    rw [add_assoc]
    refine add_le_add_right ?_ _
    have hmeas : Measurable fun h : ℝ => ENNReal.ofReal (C0 * ((L * (s - h)) ^ n / n.factorial)) := by fun_prop
    have h1 : ∀ y, ∫⁻ h in Set.Ioo 0 s, ENNReal.ofReal (Real.exp (a x * h) * B x y) * ENNReal.ofReal (mexp A (s - h) y j) ≤
        (∫⁻ h in Set.Ioo 0 s, ENNReal.ofReal (Real.exp (a x * h) * B x y) * u n (s - h) y) +
        ENNReal.ofReal (Real.exp (|a x| * |T|) * B x y) * ∫⁻ h in Set.Ioo 0 s, ENNReal.ofReal (C0 * ((L * (s - h)) ^ n / n.factorial)) := by
      intro y
      rw [← lintegral_const_mul _ hmeas, ← lintegral_add_right _ (hmeas.const_mul _)]
      refine setLIntegral_mono' measurableSet_Ioo fun h hh => ?_
      refine (mul_le_mul_right (ih (s - h) (by linarith [hh.2]) (by linarith [hh.1]) y) _).trans ?_
      rw [mul_add]
      refine add_le_add_right (mul_le_mul_left (ENNReal.ofReal_le_ofReal (mul_le_mul_of_nonneg_right (Real.exp_le_exp.2 ?_) (hB x y))) _) _
      · have : a x * h ≤ |a x| * |T| := by
          refine (le_abs_self _).trans ?_
          rw [abs_mul]
          refine mul_le_mul_of_nonneg_left ?_ (abs_nonneg _)
          exact abs_le_abs (by linarith [hh.2]) (by linarith [hh.1, hh.2])
        exact this
    refine (Finset.sum_le_sum fun y _ => h1 y).trans ?_
    rw [Finset.sum_add_distrib]
    refine add_le_add_right ?_ _
    rw [← Finset.sum_mul, ← ENNReal.ofReal_sum_of_nonneg fun y _ => mul_nonneg (Real.exp_pos _).le (hB x y)]
    have h2 : ∑ y, Real.exp (|a x| * |T|) * B x y ≤ L :=
      Finset.single_le_sum (f := fun x => ∑ y, Real.exp (|a x| * |T|) * B x y)
        (fun z _ => Finset.sum_nonneg fun y _ => mul_nonneg (Real.exp_pos _).le (hB z y)) (Finset.mem_univ x)
    refine (mul_le_mul_left (ENNReal.ofReal_le_ofReal h2) _).trans ?_
    have h3 : ∫⁻ h in Set.Ioo 0 s, ENNReal.ofReal (C0 * ((L * (s - h)) ^ n / n.factorial)) =
        ENNReal.ofReal (∫ h in (0 : ℝ)..s, C0 * ((L * (s - h)) ^ n / n.factorial)) := by
      rw [intervalIntegral.integral_of_le hs.le, integral_Ioc_eq_integral_Ioo, ofReal_integral_eq_lintegral_ofReal]
      · have : Continuous fun h : ℝ => C0 * ((L * (s - h)) ^ n / n.factorial) := by fun_prop
        exact (this.integrableOn_Icc (a := 0) (b := s)).mono_set Set.Ioo_subset_Icc_self
      · refine (ae_restrict_iff' measurableSet_Ioo).2 (Filter.Eventually.of_forall fun h hh => ?_)
        have : 0 ≤ s - h := by linarith [hh.2]
        show 0 ≤ C0 * ((L * (s - h)) ^ n / n.factorial)
        positivity
    have h4 : ∫ h in (0 : ℝ)..s, C0 * ((L * (s - h)) ^ n / n.factorial) = C0 * (L ^ n * s ^ (n + 1) / (n + 1).factorial) := by
      rw [intervalIntegral.integral_comp_sub_left (fun z => C0 * ((L * z) ^ n / n.factorial)) s]
      simp only [sub_self, sub_zero, mul_pow]
      have : ∀ z : ℝ, C0 * (L ^ n * z ^ n / n.factorial) = (C0 * L ^ n / n.factorial) * z ^ n := fun z => by ring
      simp only [this]
      rw [intervalIntegral.integral_const_mul, integral_pow]
      have : ((n + 1).factorial : ℝ) = (n + 1) * n.factorial := by push_cast [Nat.factorial_succ]; ring
      rw [this]
      have : (n.factorial : ℝ) ≠ 0 := by positivity
      have : (n : ℝ) + 1 ≠ 0 := by positivity
      field_simp
      simp
    rw [h3, h4, ← ENNReal.ofReal_mul hLn]
    refine ENNReal.ofReal_le_ofReal (le_of_eq ?_)
    rw [mul_pow, pow_succ L]
    ring

/-- Convergence of the iterations. -/
theorem volterra_tendsto {A B : Matrix (Fin d) (Fin d) ℝ} {a : Fin d → ℝ} (hA : A = Matrix.diagonal a + B) (hB : ∀ x y, 0 ≤ B x y) {T : ℝ} {j : Fin d}
    {u : ℕ → ℝ → Fin d → ℝ≥0∞} (h0 : ∀ s, 0 < s → s ≤ T → ∀ x, u 0 s x ≤ ENNReal.ofReal (mexp A s x j))
    (hstep : ∀ n s, 0 < s → s ≤ T → ∀ x, u (n + 1) s x = (if x = j then ENNReal.ofReal (Real.exp (a x * s)) else 0) +
      ∑ y, ∫⁻ h in Set.Ioo 0 s, ENNReal.ofReal (Real.exp (a x * h) * B x y) * u n (s - h) y) {s : ℝ} (hs : 0 < s) (hsT : s ≤ T) (x : Fin d) :
    (∀ n, u n s x ≤ ENNReal.ofReal (mexp A s x j)) ∧
      Filter.Tendsto (fun n => u n s x) Filter.atTop (nhds (ENNReal.ofReal (mexp A s x j))) := by
  have hle := fun n => volterra_le hA hB h0 (fun n s h1 h2 x => (hstep n s h1 h2 x).le) n s hs hsT x
  refine ⟨hle, ?_⟩
  obtain ⟨C, L, hC, hL, hge⟩ := volterra_ge hA hB (u := u) fun n s h1 h2 x => (hstep n s h1 h2 x).ge
  have hz : Filter.Tendsto (fun n : ℕ => ENNReal.ofReal (C * ((L * s) ^ n / n.factorial))) Filter.atTop (nhds 0) := by
    rw [← ENNReal.ofReal_zero]
    refine ENNReal.tendsto_ofReal ?_
    simpa using (FloorSemiring.tendsto_pow_div_factorial_atTop (L * s)).const_mul C
  refine tendsto_of_tendsto_of_tendsto_of_le_of_le (g := fun n => ENNReal.ofReal (mexp A s x j) - ENNReal.ofReal (C * ((L * s) ^ n / n.factorial)))
    ?_ tendsto_const_nhds (fun n => ?_) hle
  · have := ENNReal.Tendsto.sub (tendsto_const_nhds (x := ENNReal.ofReal (mexp A s x j))) hz (Or.inl ENNReal.ofReal_ne_top)
    simpa using this
  · exact tsub_le_iff_right.2 (hge n s hs hsT x)

end Ctb
