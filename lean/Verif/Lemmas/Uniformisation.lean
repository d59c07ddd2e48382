import Verif.Model.MjpSampling
import Verif.Spec.Generator
import Mathlib.Analysis.SpecialFunctions.Exponential

/-! # Uniformisation: the jump-count series of `sample_bridge` and the matrix exponential -/

namespace Ctb

open Matrix

variable {d : ℕ}

theorem IsGenerator.toQ {g : Mat} (h : IsGenerator d g) : IsQMatrix (toM d g) := by
  constructor
  · intro i j hij
    exact (h.off i i.2 j j.2 (fun e => hij (Fin.ext e))).le
  · intro i
    have := h.row i i.2
    rw [Finset.sum_range] at this
    exact this

theorem diag_ge_neg_rateBound [NeZero d] (G : Matrix (Fin d) (Fin d) ℝ) (i : Fin d) : -rateBound G ≤ G i i := by
  unfold rateBound
  rw [neg_neg]
  exact Finset.inf'_le _ (Finset.mem_univ i)

theorem IsQMatrix.diag_nonpos {G : Matrix (Fin d) (Fin d) ℝ} (h : IsQMatrix G) (i : Fin d) : G i i ≤ 0 := by
  have h1 := h.row i
  rw [← Finset.add_sum_erase _ _ (Finset.mem_univ i)] at h1
  have h2 : 0 ≤ ∑ j ∈ Finset.univ.erase i, G i j := by
    apply Finset.sum_nonneg; intro j hj
    exact h.off i j (Finset.ne_of_mem_erase hj).symm
  linarith

theorem IsQMatrix.rateBound_nonneg [NeZero d] {G : Matrix (Fin d) (Fin d) ℝ} (h : IsQMatrix G) : 0 ≤ rateBound G := by
  have h1 := diag_ge_neg_rateBound G 0
  have h2 := h.diag_nonpos 0
  linarith

/-- `gen = rate_bound * (dtrans - 1)`. -/
theorem IsQMatrix.eq_smul [NeZero d] {G : Matrix (Fin d) (Fin d) ℝ} (h : IsQMatrix G) : G = rateBound G • (dtrans G - 1) := by
  unfold dtrans
  rw [add_sub_cancel_left, smul_smul]
  rcases eq_or_ne (rateBound G) 0 with h0 | h0
  · rw [h0, zero_mul, zero_smul]
    ext i j
    have hd : ∀ i, G i i = 0 := by
      intro i
      have h1 := diag_ge_neg_rateBound G i
      rw [h0] at h1
      linarith [h.diag_nonpos i]
    rcases eq_or_ne i j with rfl | hij
    · exact hd i
    · have h1 := h.row i
      rw [← Finset.add_sum_erase _ _ (Finset.mem_univ i), hd i, zero_add] at h1
      have := (Finset.sum_eq_zero_iff_of_nonneg (fun k hk => h.off i k (Finset.ne_of_mem_erase hk).symm)).1 h1 j
        (Finset.mem_erase.2 ⟨hij.symm, Finset.mem_univ _⟩)
      simpa using this
  · rw [mul_one_div_cancel h0, one_smul]

theorem IsQMatrix.dtrans_nonneg [NeZero d] {G : Matrix (Fin d) (Fin d) ℝ} (h : IsQMatrix G) (i j : Fin d) :
    0 ≤ dtrans G i j := by
  unfold dtrans
  have hr := h.rateBound_nonneg
  rw [Matrix.add_apply, Matrix.smul_apply, smul_eq_mul, Matrix.one_apply]
  by_cases hij : i = j
  · subst hij
    rw [if_pos rfl]
    rcases hr.eq_or_lt with h0 | h0
    · rw [← h0]; simp
    · have h1 := diag_ge_neg_rateBound G i
      have : -1 ≤ 1 / rateBound G * G i i := by
        rw [one_div, ← neg_neg (1 : ℝ), ← inv_mul_cancel₀ h0.ne', neg_neg, ← mul_neg]
        exact mul_le_mul_of_nonneg_left h1 (inv_nonneg.2 hr)
      linarith
  · rw [if_neg hij, zero_add]
    exact mul_nonneg (one_div_nonneg.2 hr) (h.off i j hij)

theorem IsQMatrix.dtrans_row [NeZero d] {G : Matrix (Fin d) (Fin d) ℝ} (h : IsQMatrix G) (i : Fin d) :
    ∑ j, dtrans G i j = 1 := by
  unfold dtrans
  simp only [Matrix.add_apply, Matrix.smul_apply, smul_eq_mul, Finset.sum_add_distrib, ← Finset.mul_sum, h.row i]
  simp [Matrix.one_apply]

theorem pow_nonneg_entry {P : Matrix (Fin d) (Fin d) ℝ} (hP : ∀ i j, 0 ≤ P i j) (n : ℕ) : ∀ i j, 0 ≤ (P ^ n) i j := by
  induction n with
  | zero => intro i j; rw [pow_zero, Matrix.one_apply]; split <;> simp
  | succ n ih =>
    intro i j
    rw [pow_succ, Matrix.mul_apply]
    exact Finset.sum_nonneg fun k _ => mul_nonneg (ih i k) (hP k j)

theorem IsQMatrix.term_nonneg [NeZero d] {G : Matrix (Fin d) (Fin d) ℝ} (h : IsQMatrix G) {fin : ℝ} (hf : 0 ≤ fin)
    (i f : Fin d) (n : ℕ) : 0 ≤ nTransTerm G fin i f n := by
  unfold nTransTerm
  have := h.rateBound_nonneg
  have := pow_nonneg_entry h.dtrans_nonneg n i f
  positivity

set_option backward.isDefEq.respectTransparency false in
open scoped Matrix.Norms.Operator in
theorem exp_entry_hasSum (A : Matrix (Fin d) (Fin d) ℝ) (i f : Fin d) :
    HasSum (fun n : ℕ => ((n.factorial : ℝ))⁻¹ * (A ^ n) i f) (NormedSpace.exp A i f) := by
  have h := NormedSpace.exp_series_hasSum_exp' (𝕂 := ℝ) A
  have h2 := (Pi.hasSum.1 ((Pi.hasSum.1 h) i)) f
  exact h2

/-- **Uniformisation identity.** The series summed by `sample_n_trans` converges to
`ctrans[init_x, fin_x] * exp(rate_bound * fin_t)`. -/
theorem IsQMatrix.hasSum_terms [NeZero d] {G : Matrix (Fin d) (Fin d) ℝ} (h : IsQMatrix G) (fin : ℝ) (i f : Fin d) :
    HasSum (nTransTerm G fin i f) (getTrans fin G i f * Real.exp (rateBound G * fin)) := by
  have key : NormedSpace.exp ((rateBound G * fin) • dtrans G) = Real.exp (rateBound G * fin) • getTrans fin G := by
    unfold getTrans
    have e1 : (rateBound G * fin) • dtrans G = fin • G + (rateBound G * fin) • (1 : Matrix (Fin d) (Fin d) ℝ) := by
      have e0 : fin • G = (rateBound G * fin) • (dtrans G - 1) := by
        conv_lhs => rw [h.eq_smul]
        rw [smul_smul, mul_comm]
      rw [e0, smul_sub]; abel
    rw [e1, Matrix.exp_add_of_commute]
    · have e2 : NormedSpace.exp ((rateBound G * fin) • (1 : Matrix (Fin d) (Fin d) ℝ)) =
          Real.exp (rateBound G * fin) • (1 : Matrix (Fin d) (Fin d) ℝ) := by
        rw [Matrix.smul_one_eq_diagonal, Matrix.exp_diagonal, Matrix.smul_one_eq_diagonal]
        congr 1
        ext j
        rw [Pi.coe_exp, Real.exp_eq_exp_ℝ]
      rw [e2]; simp
    · exact (Commute.one_right _).smul_right _
  have hs := exp_entry_hasSum ((rateBound G * fin) • dtrans G) i f
  rw [key, Matrix.smul_apply, smul_eq_mul, mul_comm (Real.exp _)] at hs
  convert hs using 2 with n
  unfold nTransTerm
  rw [smul_pow, Matrix.smul_apply, smul_eq_mul]
  ring

theorem IsQMatrix.getTrans_nonneg [NeZero d] {G : Matrix (Fin d) (Fin d) ℝ} (h : IsQMatrix G) {fin : ℝ} (hf : 0 ≤ fin)
    (i f : Fin d) : 0 ≤ getTrans fin G i f := by
  have h1 := (h.hasSum_terms fin i f).nonneg (h.term_nonneg hf i f)
  have h2 := Real.exp_pos (rateBound G * fin)
  exact nonneg_of_mul_nonneg_left h1 h2

theorem IsQMatrix.getTrans_pos_of_term [NeZero d] {G : Matrix (Fin d) (Fin d) ℝ} (h : IsQMatrix G) {fin : ℝ} (hf : 0 ≤ fin)
    {i f : Fin d} {n : ℕ} (hn : 0 < nTransTerm G fin i f n) : 0 < getTrans fin G i f := by
  have h1 := le_hasSum (h.hasSum_terms fin i f) n fun k _ => h.term_nonneg hf i f k
  have h2 := Real.exp_pos (rateBound G * fin)
  exact pos_of_mul_pos_left (lt_of_lt_of_le hn h1) h2.le

theorem IsQMatrix.getTrans_self_pos [NeZero d] {G : Matrix (Fin d) (Fin d) ℝ} (h : IsQMatrix G) {fin : ℝ} (hf : 0 ≤ fin)
    (i : Fin d) : 0 < getTrans fin G i i := by
  apply h.getTrans_pos_of_term hf (n := 0)
  simp [nTransTerm]

/-- A positive rate makes the transition probability positive. -/
theorem IsQMatrix.getTrans_pos [NeZero d] {G : Matrix (Fin d) (Fin d) ℝ} (h : IsQMatrix G) {fin : ℝ} (hf : 0 < fin)
    {i f : Fin d} (hg : 0 < G i f) : 0 < getTrans fin G i f := by
  apply h.getTrans_pos_of_term hf.le (n := 1)
  have hif : i ≠ f := by rintro rfl; exact absurd (h.diag_nonpos i) (not_le.2 hg)
  have hr : 0 < rateBound G := by
    rcases h.rateBound_nonneg.eq_or_lt with h0 | h0
    · have := h.eq_smul
      rw [← h0, zero_smul] at this
      rw [this] at hg; simp at hg
    · exact h0
  unfold nTransTerm dtrans
  simp [Matrix.one_apply_ne hif, hr.ne', hf, hr, hg]

/-- Rows of the transition matrix sum to one. -/
theorem IsQMatrix.getTrans_row [NeZero d] {G : Matrix (Fin d) (Fin d) ℝ} (h : IsQMatrix G) (fin : ℝ) (i : Fin d) :
    ∑ j, getTrans fin G i j = 1 := by
  have hpow : ∀ n (i : Fin d), ∑ j, (dtrans G ^ n) i j = 1 := by
    intro n
    induction n with
    | zero => intro i; simp [Matrix.one_apply]
    | succ n ih =>
      intro i
      simp only [pow_succ', Matrix.mul_apply]
      rw [Finset.sum_comm]
      simp only [← Finset.mul_sum, ih, mul_one]
      exact h.dtrans_row i
  have h1 := hasSum_sum (s := Finset.univ) fun j _ => h.hasSum_terms fin i j
  have h2 : (fun n : ℕ => ∑ j, nTransTerm G fin i j n) = fun n : ℕ => (rateBound G * fin) ^ n / (n.factorial : ℝ) := by
    ext n
    simp only [nTransTerm, ← Finset.mul_sum, hpow, mul_one]
  rw [h2, ← Finset.sum_mul] at h1
  have h3 : HasSum (fun n : ℕ => (rateBound G * fin) ^ n / (n.factorial : ℝ)) (Real.exp (rateBound G * fin)) := by
    have := NormedSpace.expSeries_div_hasSum_exp (𝔸 := ℝ) (rateBound G * fin)
    rwa [← Real.exp_eq_exp_ℝ] at this
  have h4 := h1.unique h3
  exact mul_right_cancel₀ (Real.exp_pos (rateBound G * fin)).ne' (by rw [h4, one_mul])

theorem IsQMatrix.getTrans_le_one [NeZero d] {G : Matrix (Fin d) (Fin d) ℝ} (h : IsQMatrix G) {fin : ℝ} (hf : 0 ≤ fin)
    (i j : Fin d) : getTrans fin G i j ≤ 1 := by
  rw [← h.getTrans_row fin i]
  exact Finset.single_le_sum (f := fun j => getTrans fin G i j) (fun j _ => h.getTrans_nonneg hf i j) (Finset.mem_univ j)

end Ctb
