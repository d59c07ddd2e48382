import Verif.Lemmas.Uniformisation
import Mathlib.Analysis.SpecialFunctions.Exponential

/-! # Transition matrices of two-state generators -/

set_option linter.unusedSectionVars false

namespace Ctb

/-- Exponential of a matrix with `Q² = -c Q`. -/
theorem exp_of_sq {d : ℕ} {Q : Matrix (Fin d) (Fin d) ℝ} {c : ℝ} (hc : c ≠ 0) (hQ : Q * Q = (-c) • Q) (s : ℝ) (i j : Fin d) :
    getTrans s Q i j = (if i = j then 1 else 0) + (1 - Real.exp (-(c * s))) / c * Q i j := by
  have hpow : ∀ n : ℕ, Q ^ (n + 1) = ((-c) ^ n) • Q := by
    intro n
    induction n with
    | zero => simp
    | succ n ih => rw [pow_succ, ih, Matrix.smul_mul, hQ, smul_smul, ← pow_succ]
  have h1 := exp_entry_hasSum (s • Q) i j
  have hexp : HasSum (fun n : ℕ => (-(c * s)) ^ n / (n.factorial : ℝ)) (Real.exp (-(c * s))) := by
    rw [Real.exp_eq_exp_ℝ]
    exact NormedSpace.expSeries_div_hasSum_exp (-(c * s))
  have hone : HasSum (fun n : ℕ => if n = 0 then (if i = j then (1 : ℝ) else 0) + Q i j / c else 0) ((if i = j then (1 : ℝ) else 0) + Q i j / c) :=
    hasSum_ite_eq 0 _
  have h2 := hone.add (hexp.mul_left (-(Q i j / c)))
  have heq : (fun n : ℕ => ((n.factorial : ℝ))⁻¹ * ((s • Q) ^ n) i j) =
      fun n : ℕ => (if n = 0 then (if i = j then (1 : ℝ) else 0) + Q i j / c else 0) + -(Q i j / c) * ((-(c * s)) ^ n / (n.factorial : ℝ)) := by
    ext n
    cases n with
    | zero => simp [Matrix.one_apply]
    | succ n =>
      rw [smul_pow, hpow n, smul_smul, Matrix.smul_apply, smul_eq_mul, if_neg (Nat.succ_ne_zero n), zero_add]
      have : ((n + 1).factorial : ℝ) ≠ 0 := Nat.cast_ne_zero.2 (Nat.factorial_ne_zero _)
      field_simp
      have hp : (-(c * s)) ^ (n + 1) = (-c) ^ n * (-c) * s ^ (n + 1) := by rw [← pow_succ, ← mul_pow, neg_mul]
      rw [hp]
      ring
  rw [heq] at h1
  have := h1.unique h2
  rw [getTrans, this]
  ring

/-- Two-state generator leaving state 0 at rate 1 and state 1 at rate 3. -/
def slowFast : Mat := fun i j => if i = 0 then (if j = 0 then -1 else 1) else (if j = 0 then 3 else -3)

theorem slowFast_isGenerator : IsGenerator 2 slowFast := by
  constructor
  · intro i hi j hj hij
    obtain rfl | rfl : i = 0 ∨ i = 1 := by omega
    · simp [slowFast, hij.symm]
    · obtain rfl | rfl : j = 0 ∨ j = 1 := by omega
      · norm_num [slowFast]
      · exact absurd rfl hij
  · intro i hi
    rw [Finset.sum_range_succ, Finset.sum_range_one]
    obtain rfl | rfl : i = 0 ∨ i = 1 := by omega
    · simp [slowFast]
    · simp [slowFast]

theorem slowFast_trans (s : ℝ) (i j : Fin 2) :
    getTrans s (toM 2 slowFast) i j = (if i = j then 1 else 0) + (1 - Real.exp (-(4 * s))) / 4 * slowFast i j := by
  refine exp_of_sq (by norm_num) ?_ s i j
  ext i j
  rw [Matrix.mul_apply, Fin.sum_univ_two, Matrix.smul_apply]
  fin_cases i <;> fin_cases j <;> simp [toM, slowFast] <;> norm_num

end Ctb
