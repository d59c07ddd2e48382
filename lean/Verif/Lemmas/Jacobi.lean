import Mathlib.Analysis.SpecialFunctions.Trigonometric.Basic
import Mathlib.Analysis.SpecificLimits.Normed
import Mathlib.Analysis.Normed.Group.Tannery
import Mathlib.Topology.Algebra.InfiniteSum.NatInt

set_option linter.unusedSectionVars false

/-! # Monotonicity of the theta function

The finite form of Jacobi's triple product: `∏_{k<N} (1 + 2 q^(2k+1) c + q^(4k+2))`, `c = cos φ`, is a cosine polynomial whose normalised
coefficients converge to `q^(n^2)`.  Hence the theta series is strictly increasing in `cos φ`. -/

namespace Ctb.Jac

open Filter Topology Finset

variable {q : ℝ}

/-- `(q²; q²)_m`. -/
noncomputable def D (q : ℝ) (m : ℕ) : ℝ := ∏ k ∈ range m, (1 - q ^ (2 * k + 2))

/-- Its inverse, extended by zero. -/
noncomputable def I (q : ℝ) (k : ℤ) : ℝ := if k < 0 then 0 else (D q k.toNat)⁻¹

theorem D_pos (h0 : 0 < q) (h1 : q < 1) (m : ℕ) : 0 < D q m :=
  prod_pos fun k _ => by have := pow_lt_one₀ h0.le h1 (show 2 * k + 2 ≠ 0 by omega); linarith

theorem D_succ (m : ℕ) : D q (m + 1) = D q m * (1 - q ^ (2 * m + 2)) := prod_range_succ _ _

theorem I_pos (h0 : 0 < q) (h1 : q < 1) (k : ℕ) : 0 < I q k := by
  unfold I
  rw [if_neg (by omega)]
  exact inv_pos.2 (D_pos h0 h1 _)

theorem I_nonneg (h0 : 0 < q) (h1 : q < 1) (k : ℤ) : 0 ≤ I q k := by
  unfold I
  split_ifs
  · exact le_rfl
  · exact (inv_pos.2 (D_pos h0 h1 _)).le

theorem I_neg {k : ℤ} (hk : k < 0) : I q k = 0 := if_pos hk

theorem I_pred (h0 : 0 < q) (h1 : q < 1) (k : ℤ) : I q (k - 1) = (1 - q ^ (2 * k)) * I q k := by
  rcases lt_trichotomy k 0 with h | rfl | h
  · rw [I_neg h, I_neg (by omega), mul_zero]
  · rw [I_neg (by omega)]; simp
  · obtain ⟨m, rfl⟩ : ∃ m : ℕ, k = m + 1 := ⟨(k - 1).toNat, by omega⟩
    unfold I
    rw [if_neg (by omega), if_neg (by omega), show ((m : ℤ) + 1 - 1).toNat = m by omega, show ((m : ℤ) + 1).toNat = m + 1 by omega, D_succ]
    have e : q ^ (2 * ((m : ℤ) + 1)) = q ^ (2 * m + 2) := by
      rw [show 2 * ((m : ℤ) + 1) = ((2 * m + 2 : ℕ) : ℤ) by push_cast; ring, zpow_natCast]
    rw [e]
    have h2 : (1 - q ^ (2 * m + 2)) ≠ 0 := by
      have := pow_lt_one₀ h0.le h1 (show 2 * m + 2 ≠ 0 by omega)
      linarith
    have := (D_pos h0 h1 m).ne'
    field_simp

/-- Coefficients of the product. -/
noncomputable def A (q : ℝ) (N : ℕ) (n : ℤ) : ℝ := q ^ (n ^ 2) * (D q (2 * N) * (I q (N - n) * I q (N + n)))

theorem A_rec (h0 : 0 < q) (h1 : q < 1) (N : ℕ) (n : ℤ) :
    A q (N + 1) n = (1 + q ^ (4 * N + 2)) * A q N n + q ^ (2 * N + 1) * (A q N (n - 1) + A q N (n + 1)) := by
  have hq := h0.ne'
  have a1 := I_pred h0 h1 ((N : ℤ) + 1 - n)
  have a2 := I_pred h0 h1 ((N : ℤ) - n)
  have b1 := I_pred h0 h1 ((N : ℤ) + 1 + n)
  have b2 := I_pred h0 h1 ((N : ℤ) + n)
  rw [show (N : ℤ) + 1 - n - 1 = N - n by ring] at a1
  rw [show (N : ℤ) + 1 + n - 1 = N + n by ring] at b1
  rw [a1] at a2
  rw [b1] at b2
  set u := q ^ (2 * ((N : ℤ) + 1 - n)) with hu
  set v := q ^ (2 * ((N : ℤ) + 1 + n)) with hv
  have u' : q ^ (2 * ((N : ℤ) - n)) = u / q ^ 2 := by
    rw [hu, ← zpow_natCast, ← zpow_sub₀ hq]; congr 1; push_cast; ring
  have v' : q ^ (2 * ((N : ℤ) + n)) = v / q ^ 2 := by
    rw [hv, ← zpow_natCast, ← zpow_sub₀ hq]; congr 1; push_cast; ring
  have uv : q ^ (4 * N + 2) = u * v / q ^ 2 := by
    rw [hu, hv, ← zpow_natCast, ← zpow_natCast, ← zpow_add₀ hq, ← zpow_sub₀ hq]; congr 1; push_cast; ring
  have uv2 : q ^ (4 * N + 4) = u * v := by
    rw [hu, hv, ← zpow_natCast, ← zpow_add₀ hq]; congr 1; push_cast; ring
  have w1 : q ^ (2 * N + 1) * q ^ ((n - 1) ^ 2) = q ^ (n ^ 2) * u := by
    rw [hu, ← zpow_natCast, ← zpow_add₀ hq, ← zpow_add₀ hq]; congr 1; push_cast; ring
  have w2 : q ^ (2 * N + 1) * q ^ ((n + 1) ^ 2) = q ^ (n ^ 2) * v := by
    rw [hv, ← zpow_natCast, ← zpow_add₀ hq, ← zpow_add₀ hq]; congr 1; push_cast; ring
  unfold A
  rw [show 2 * (N + 1) = 2 * N + 1 + 1 by ring, D_succ, D_succ, show 2 * (2 * N) + 2 = 4 * N + 2 by ring,
    show 2 * (2 * N + 1) + 2 = 4 * N + 4 by ring, mul_add, ← mul_assoc (q ^ (2 * N + 1)), ← mul_assoc (q ^ (2 * N + 1)), w1, w2, uv, uv2]
  rw [show (N : ℤ) - (n - 1) = N + 1 - n by ring, show (N : ℤ) + (n - 1) = N + n - 1 by ring, show (N : ℤ) - (n + 1) = N - n - 1 by ring,
    show (N : ℤ) + (n + 1) = N + 1 + n by ring, a2, b2, a1, b1, u', v']
  push_cast
  rw [show (N : ℤ) + 1 - n = N + 1 - n by ring]
  field_simp
  ring

theorem A_support (N : ℕ) {n : ℤ} (h : n ∉ Icc (-(N : ℤ)) N) : A q N n = 0 := by
  unfold A
  rw [mem_Icc, not_and_or, not_le, not_le] at h
  rcases h with h | h
  · rw [I_neg (k := (N : ℤ) + n) (by omega)]; ring
  · rw [I_neg (k := (N : ℤ) - n) (by omega)]; ring

theorem A_hasSum (N : ℕ) (g : ℤ → ℝ) : Summable fun n => A q N n * g n :=
  summable_of_ne_finset_zero (s := Icc (-(N : ℤ)) N) fun n h => by rw [A_support N h, zero_mul]

/-- The product as a cosine polynomial. -/
theorem prod_eq (h0 : 0 < q) (h1 : q < 1) (φ : ℝ) (N : ℕ) :
    ∑' n : ℤ, A q N n * Real.cos (n * φ) = ∏ k ∈ range N, (1 + 2 * q ^ (2 * k + 1) * Real.cos φ + q ^ (4 * k + 2)) := by
  induction N with
  | zero =>
    rw [range_zero, prod_empty, tsum_eq_single 0]
    · simp [A, I, D]
    · intro n hn
      rw [A_support, zero_mul]
      simp; omega
  | succ N ih =>
    rw [prod_range_succ, ← ih]
    have s0 := A_hasSum (q := q) N fun n => Real.cos (n * φ)
    have s1 : Summable fun n : ℤ => A q N (n - 1) * Real.cos (n * φ) := by
      have := (Equiv.subRight (1 : ℤ)).summable_iff.2 (A_hasSum (q := q) N fun n => Real.cos ((n + 1) * φ))
      refine this.congr fun n => ?_
      simp
    have s2 : Summable fun n : ℤ => A q N (n + 1) * Real.cos (n * φ) := by
      have := (Equiv.addRight (1 : ℤ)).summable_iff.2 (A_hasSum (q := q) N fun n => Real.cos ((n - 1) * φ))
      refine this.congr fun n => ?_
      simp
    have t1 : ∑' n : ℤ, A q N (n - 1) * Real.cos (n * φ) = ∑' n : ℤ, A q N n * Real.cos ((n + 1) * φ) := by
      rw [← (Equiv.subRight (1 : ℤ)).tsum_eq fun n : ℤ => A q N n * Real.cos ((n + 1) * φ)]
      simp
    have t2 : ∑' n : ℤ, A q N (n + 1) * Real.cos (n * φ) = ∑' n : ℤ, A q N n * Real.cos ((n - 1) * φ) := by
      rw [← (Equiv.addRight (1 : ℤ)).tsum_eq fun n : ℤ => A q N n * Real.cos ((n - 1) * φ)]
      simp
    have t3 : ∑' n : ℤ, A q N n * Real.cos ((n + 1) * φ) + ∑' n : ℤ, A q N n * Real.cos ((n - 1) * φ) =
        2 * Real.cos φ * ∑' n : ℤ, A q N n * Real.cos (n * φ) := by
      rw [← (A_hasSum N fun n : ℤ => Real.cos (((n : ℝ) + 1) * φ)).tsum_add (A_hasSum N fun n : ℤ => Real.cos (((n : ℝ) - 1) * φ)), ← tsum_mul_left]
      congr 1
      funext n
      rw [add_mul, sub_mul, one_mul, Real.cos_add, Real.cos_sub]
      ring
    calc _ = ∑' n : ℤ, ((1 + q ^ (4 * N + 2)) * (A q N n * Real.cos (n * φ)) +
            q ^ (2 * N + 1) * (A q N (n - 1) * Real.cos (n * φ) + A q N (n + 1) * Real.cos (n * φ))) := by
          congr 1; funext n; rw [A_rec h0 h1]; ring
      _ = (1 + q ^ (4 * N + 2)) * ∑' n : ℤ, A q N n * Real.cos (n * φ) +
            q ^ (2 * N + 1) * (∑' n : ℤ, A q N (n - 1) * Real.cos (n * φ) + ∑' n : ℤ, A q N (n + 1) * Real.cos (n * φ)) := by
          rw [(s0.mul_left _).tsum_add ((s1.add s2).mul_left _), tsum_mul_left, tsum_mul_left, s1.tsum_add s2]
      _ = _ := by rw [t1, t2, t3]; ring

/-- Ratios `I (N - n) I (N + n) / I N ^ 2`. -/
noncomputable def R (q : ℝ) (N : ℕ) (n : ℤ) : ℝ := I q (N - n) * I q (N + n) / I q N ^ 2

theorem R_neg (N : ℕ) (n : ℤ) : R q N (-n) = R q N n := by
  unfold R; rw [sub_neg_eq_add, ← sub_eq_add_neg, mul_comm]

theorem R_succ (h0 : 0 < q) (h1 : q < 1) (N n : ℕ) :
    R q N (n + 1) = R q N n * ((1 - q ^ (2 * ((N : ℤ) - n))) / (1 - q ^ (2 * (N + n + 1)))) := by
  unfold R
  have a := I_pred h0 h1 ((N : ℤ) - n)
  have b := I_pred h0 h1 ((N : ℤ) + n + 1)
  rw [show (N : ℤ) + n + 1 - 1 = N + n by ring] at b
  have e : q ^ (2 * ((N : ℤ) + n + 1)) = q ^ (2 * (N + n + 1)) := by
    rw [show 2 * ((N : ℤ) + n + 1) = ((2 * (N + n + 1) : ℕ) : ℤ) by push_cast; ring, zpow_natCast]
  rw [e] at b
  have hd : 1 - q ^ (2 * (N + n + 1)) ≠ 0 := by
    have := pow_lt_one₀ h0.le h1 (show 2 * (N + n + 1) ≠ 0 by omega)
    linarith
  rw [show (N : ℤ) - (n + 1) = N - n - 1 by ring, show (N : ℤ) + (n + 1) = N + n + 1 by ring, a, b]
  have := (I_pos h0 h1 N).ne'
  field_simp

theorem R_zero (h0 : 0 < q) (h1 : q < 1) (N : ℕ) : R q N 0 = 1 := by
  unfold R
  rw [sub_zero, add_zero, ← sq, div_self (pow_ne_zero 2 (I_pos h0 h1 N).ne')]

theorem R_nonneg (h0 : 0 < q) (h1 : q < 1) (N : ℕ) (n : ℤ) : 0 ≤ R q N n :=
  div_nonneg (mul_nonneg (I_nonneg h0 h1 _) (I_nonneg h0 h1 _)) (sq_nonneg _)

theorem R_le_nat (h0 : 0 < q) (h1 : q < 1) (N n : ℕ) : R q N n ≤ 1 := by
  induction n with
  | zero => simp [R_zero h0 h1]
  | succ n ih =>
    push_cast
    rcases lt_or_ge N (n + 1) with h | h
    · have : R q N (n + 1) = 0 := by
        unfold R
        rw [I_neg (k := (N : ℤ) - (n + 1)) (by omega)]; simp
      rw [this]; exact zero_le_one
    · rw [R_succ h0 h1]
      have hp : q ^ (2 * ((N : ℤ) - n)) = q ^ (2 * (N - n)) := by
        rw [show 2 * ((N : ℤ) - n) = ((2 * (N - n) : ℕ) : ℤ) by omega, zpow_natCast]
      rw [hp]
      have l1 : q ^ (2 * (N + n + 1)) ≤ q ^ (2 * (N - n)) := pow_le_pow_of_le_one h0.le h1.le (by omega)
      have l2 : q ^ (2 * (N + n + 1)) < 1 := pow_lt_one₀ h0.le h1 (by omega)
      have l3 : q ^ (2 * (N - n)) ≤ 1 := pow_le_one₀ h0.le h1.le
      have l4 : (1 - q ^ (2 * (N - n))) / (1 - q ^ (2 * (N + n + 1))) ≤ 1 := by
        rw [div_le_one (by linarith)]; linarith
      calc _ ≤ 1 * 1 := mul_le_mul ih l4 (div_nonneg (by linarith) (by linarith)) zero_le_one
        _ = 1 := one_mul 1

theorem R_le (h0 : 0 < q) (h1 : q < 1) (N : ℕ) (n : ℤ) : R q N n ≤ 1 := by
  obtain ⟨m, rfl | rfl⟩ := n.eq_nat_or_neg
  · exact R_le_nat h0 h1 N m
  · rw [R_neg]; exact R_le_nat h0 h1 N m

theorem R_tendsto_nat (h0 : 0 < q) (h1 : q < 1) (n : ℕ) : Tendsto (fun N => R q N n) atTop (𝓝 1) := by
  induction n with
  | zero => simp [R_zero h0 h1]
  | succ n ih =>
    have p1 : Tendsto (fun N : ℕ => q ^ (2 * (N + n + 1))) atTop (𝓝 0) :=
      (tendsto_pow_atTop_nhds_zero_of_lt_one h0.le h1).comp (tendsto_atTop_mono (fun N => by simp only [id]; omega) tendsto_id)
    have p2 : Tendsto (fun N : ℕ => q ^ (2 * ((N : ℤ) - n))) atTop (𝓝 0) := by
      have := (p1.mul_const (q ^ (4 * (n : ℤ) + 2))⁻¹)
      rw [zero_mul] at this
      refine this.congr fun N => ?_
      rw [← zpow_natCast, ← zpow_neg, ← zpow_add₀ h0.ne']
      congr 1; push_cast; ring
    have := ih.mul ((p2.const_sub 1).div (p1.const_sub 1) (by norm_num))
    simp only [sub_zero, div_one, mul_one] at this
    refine this.congr fun N => ?_
    push_cast
    rw [R_succ h0 h1]
    rfl

theorem R_tendsto (h0 : 0 < q) (h1 : q < 1) (n : ℤ) : Tendsto (fun N => R q N n) atTop (𝓝 1) := by
  obtain ⟨m, rfl | rfl⟩ := n.eq_nat_or_neg
  · exact R_tendsto_nat h0 h1 m
  · simp_rw [R_neg]; exact R_tendsto_nat h0 h1 m

theorem summable_sq (h0 : 0 < q) (h1 : q < 1) : Summable fun n : ℤ => q ^ (n ^ 2) := by
  have hn : Summable fun n : ℕ => q ^ (n ^ 2) :=
    (summable_geometric_of_lt_one h0.le h1).of_nonneg_of_le (fun n => by positivity)
      fun n => pow_le_pow_of_le_one h0.le h1.le (Nat.le_self_pow (by norm_num) n)
  refine Summable.of_nat_of_neg ?_ ?_
  · refine hn.congr fun n => ?_
    rw [← zpow_natCast]; push_cast; rfl
  · refine hn.congr fun n => ?_
    rw [← zpow_natCast, neg_sq]; push_cast; rfl

/-- The theta series. -/
noncomputable def theta (q φ : ℝ) : ℝ := ∑' n : ℤ, q ^ (n ^ 2) * Real.cos (n * φ)

/-- The normalised finite product. -/
noncomputable def P (q : ℝ) (N : ℕ) (φ : ℝ) : ℝ :=
  (∏ k ∈ range N, (1 + 2 * q ^ (2 * k + 1) * Real.cos φ + q ^ (4 * k + 2))) / (D q (2 * N) * I q N ^ 2)

theorem P_tendsto (h0 : 0 < q) (h1 : q < 1) (φ : ℝ) : Tendsto (fun N => P q N φ) atTop (𝓝 (theta q φ)) := by
  have e : ∀ N, P q N φ = ∑' n : ℤ, q ^ (n ^ 2) * R q N n * Real.cos (n * φ) := by
    intro N
    unfold P
    rw [← prod_eq h0 h1, div_eq_mul_inv, ← tsum_mul_right]
    congr 1
    funext n
    unfold A R
    have := (I_pos h0 h1 N).ne'
    have := (D_pos h0 h1 (2 * N)).ne'
    field_simp
  simp_rw [e]
  refine tendsto_tsum_of_dominated_convergence (bound := fun n : ℤ => q ^ (n ^ 2)) (summable_sq h0 h1) (fun n => ?_) (Eventually.of_forall fun N n => ?_)
  · have := ((R_tendsto h0 h1 n).const_mul (q ^ (n ^ 2))).mul_const (Real.cos (n * φ))
    rwa [mul_one] at this
  · rw [Real.norm_eq_abs, abs_mul, abs_mul, abs_of_pos (zpow_pos h0 _), abs_of_nonneg (R_nonneg h0 h1 N n)]
    have := zpow_pos h0 (n ^ 2)
    calc _ ≤ q ^ (n ^ 2) * 1 * 1 := mul_le_mul (mul_le_mul_of_nonneg_left (R_le h0 h1 N n) this.le) (Real.abs_cos_le_one _) (abs_nonneg _)
          (by positivity)
      _ = _ := by ring

theorem factor_pos (h0 : 0 < q) (h1 : q < 1) (k : ℕ) (φ : ℝ) : 0 < 1 + 2 * q ^ (2 * k + 1) * Real.cos φ + q ^ (4 * k + 2) := by
  have h2 := pow_lt_one₀ h0.le h1 (show 2 * k + 1 ≠ 0 by omega)
  have h3 : 0 < q ^ (2 * k + 1) := by positivity
  have h4 := Real.neg_one_le_cos φ
  rw [show q ^ (4 * k + 2) = (q ^ (2 * k + 1)) ^ 2 by rw [← pow_mul]; ring_nf]
  nlinarith

theorem theta_ratio (h0 : 0 < q) (h1 : q < 1) {φ ψ : ℝ} (h : Real.cos φ ≤ Real.cos ψ) :
    (1 + 2 * q * Real.cos ψ + q ^ 2) * theta q φ ≤ (1 + 2 * q * Real.cos φ + q ^ 2) * theta q ψ := by
  have a1 := ((tendsto_add_atTop_iff_nat 1).2 (P_tendsto h0 h1 φ)).const_mul (1 + 2 * q * Real.cos ψ + q ^ 2)
  have a2 := ((tendsto_add_atTop_iff_nat 1).2 (P_tendsto h0 h1 ψ)).const_mul (1 + 2 * q * Real.cos φ + q ^ 2)
  refine le_of_tendsto_of_tendsto' a1 a2 fun N => ?_
  unfold P
  rw [prod_range_succ', prod_range_succ', ← mul_div_assoc, ← mul_div_assoc]
  have hd : 0 < D q (2 * (N + 1)) * I q (N + 1 : ℕ) ^ 2 := mul_pos (D_pos h0 h1 _) (pow_pos (I_pos h0 h1 _) 2)
  rw [div_le_div_iff_of_pos_right hd]
  have f1 := factor_pos h0 h1 0 φ
  have f2 := factor_pos h0 h1 0 ψ
  simp only [mul_zero, zero_add, pow_one] at f1 f2 ⊢
  have : ∏ k ∈ range N, (1 + 2 * q ^ (2 * (k + 1) + 1) * Real.cos φ + q ^ (4 * (k + 1) + 2)) ≤
      ∏ k ∈ range N, (1 + 2 * q ^ (2 * (k + 1) + 1) * Real.cos ψ + q ^ (4 * (k + 1) + 2)) := by
    refine prod_le_prod (fun k _ => (factor_pos h0 h1 (k + 1) φ).le) fun k _ => ?_
    have : 0 < q ^ (2 * (k + 1) + 1) := by positivity
    nlinarith
  have := mul_le_mul_of_nonneg_right this (mul_pos f1 f2).le
  nlinarith

/-- The theta series is strictly increasing in the cosine. -/
theorem theta_lt (h0 : 0 < q) (h1 : q < 1) {φ ψ : ℝ} (h : Real.cos φ < Real.cos ψ) (hp : 0 < theta q φ) : theta q φ < theta q ψ := by
  have h2 := theta_ratio h0 h1 h.le
  have f1 := factor_pos h0 h1 0 φ
  simp only [mul_zero, zero_add, pow_one] at f1
  have : (1 + 2 * q * Real.cos φ + q ^ 2) * theta q φ < (1 + 2 * q * Real.cos ψ + q ^ 2) * theta q φ := by
    apply mul_lt_mul_of_pos_right _ hp
    nlinarith
  exact lt_of_mul_lt_mul_left (this.trans_le h2) f1.le

/-! ## The sine series -/

theorem sin_rec (h0 : 0 < q) (h1 : q < 1) (φ : ℝ) (N : ℕ) :
    ∑' n : ℤ, A q (N + 1) n * (n * Real.sin (n * φ)) =
      (1 + 2 * q ^ (2 * N + 1) * Real.cos φ + q ^ (4 * N + 2)) * ∑' n : ℤ, A q N n * (n * Real.sin (n * φ)) +
      2 * q ^ (2 * N + 1) * Real.sin φ * ∑' n : ℤ, A q N n * Real.cos (n * φ) := by
  have s0 := A_hasSum (q := q) N fun n => n * Real.sin (n * φ)
  have sc := A_hasSum (q := q) N fun n => Real.cos (n * φ)
  have s1 : Summable fun n : ℤ => A q N (n - 1) * (n * Real.sin (n * φ)) := by
    have := (Equiv.subRight (1 : ℤ)).summable_iff.2 (A_hasSum (q := q) N fun n => (n + 1) * Real.sin ((n + 1) * φ))
    refine this.congr fun n => ?_
    simp
  have s2 : Summable fun n : ℤ => A q N (n + 1) * (n * Real.sin (n * φ)) := by
    have := (Equiv.addRight (1 : ℤ)).summable_iff.2 (A_hasSum (q := q) N fun n => (n - 1) * Real.sin ((n - 1) * φ))
    refine this.congr fun n => ?_
    simp
  have t1 : ∑' n : ℤ, A q N (n - 1) * (n * Real.sin (n * φ)) = ∑' n : ℤ, A q N n * ((n + 1) * Real.sin ((n + 1) * φ)) := by
    rw [← (Equiv.subRight (1 : ℤ)).tsum_eq fun n : ℤ => A q N n * ((n + 1) * Real.sin ((n + 1) * φ))]
    simp
  have t2 : ∑' n : ℤ, A q N (n + 1) * (n * Real.sin (n * φ)) = ∑' n : ℤ, A q N n * ((n - 1) * Real.sin ((n - 1) * φ)) := by
    rw [← (Equiv.addRight (1 : ℤ)).tsum_eq fun n : ℤ => A q N n * ((n - 1) * Real.sin ((n - 1) * φ))]
    simp
  have t3 : ∑' n : ℤ, A q N n * ((n + 1) * Real.sin ((n + 1) * φ)) + ∑' n : ℤ, A q N n * ((n - 1) * Real.sin ((n - 1) * φ)) =
      2 * Real.cos φ * ∑' n : ℤ, A q N n * (n * Real.sin (n * φ)) + 2 * Real.sin φ * ∑' n : ℤ, A q N n * Real.cos (n * φ) := by
    rw [← (A_hasSum N fun n : ℤ => ((n : ℝ) + 1) * Real.sin (((n : ℝ) + 1) * φ)).tsum_add
      (A_hasSum N fun n : ℤ => ((n : ℝ) - 1) * Real.sin (((n : ℝ) - 1) * φ)), ← tsum_mul_left, ← tsum_mul_left,
      ← (s0.mul_left _).tsum_add (sc.mul_left _)]
    congr 1
    funext n
    rw [add_mul, sub_mul, one_mul, add_mul (n : ℝ) 1 φ, sub_mul (n : ℝ) 1 φ, one_mul, one_mul, Real.sin_add, Real.sin_sub]
    ring
  calc _ = ∑' n : ℤ, ((1 + q ^ (4 * N + 2)) * (A q N n * (n * Real.sin (n * φ))) +
          q ^ (2 * N + 1) * (A q N (n - 1) * (n * Real.sin (n * φ)) + A q N (n + 1) * (n * Real.sin (n * φ)))) := by
        congr 1; funext n; rw [A_rec h0 h1]; ring
    _ = (1 + q ^ (4 * N + 2)) * ∑' n : ℤ, A q N n * (n * Real.sin (n * φ)) +
          q ^ (2 * N + 1) * (∑' n : ℤ, A q N (n - 1) * (n * Real.sin (n * φ)) + ∑' n : ℤ, A q N (n + 1) * (n * Real.sin (n * φ))) := by
        rw [(s0.mul_left _).tsum_add ((s1.add s2).mul_left _), tsum_mul_left, tsum_mul_left, s1.tsum_add s2]
    _ = _ := by rw [t1, t2, t3]; ring

theorem sin_ge (h0 : 0 < q) (h1 : q < 1) {φ : ℝ} (hs : 0 ≤ Real.sin φ) (N : ℕ) :
    2 * q * Real.sin φ * ∏ k ∈ range (N + 1), (1 + 2 * q ^ (2 * k + 1) * Real.cos φ + q ^ (4 * k + 2)) ≤
      (1 + 2 * q * Real.cos φ + q ^ 2) * ∑' n : ℤ, A q (N + 1) n * (n * Real.sin (n * φ)) := by
  have f0 := factor_pos h0 h1 0 φ
  simp only [mul_zero, zero_add, pow_one] at f0
  induction N with
  | zero =>
    rw [sin_rec h0 h1]
    have e : ∑' n : ℤ, A q 0 n * (n * Real.sin (n * φ)) = 0 := by
      rw [tsum_eq_single 0]
      · simp
      · intro n hn
        rw [A_support, zero_mul]
        simp; omega
    rw [e, prod_eq h0 h1]
    simp only [mul_zero, zero_add, pow_one, range_one, prod_singleton, range_zero, prod_empty, mul_one]
    linarith
  | succ N ih =>
    rw [sin_rec h0 h1, prod_range_succ, prod_eq h0 h1]
    have f1 := factor_pos h0 h1 (N + 1) φ
    have pp : 0 ≤ ∏ k ∈ range (N + 1), (1 + 2 * q ^ (2 * k + 1) * Real.cos φ + q ^ (4 * k + 2)) :=
      prod_nonneg fun k _ => (factor_pos h0 h1 k φ).le
    have h2 := mul_le_mul_of_nonneg_right ih f1.le
    have h3 : 0 ≤ 2 * q ^ (2 * (N + 1) + 1) * Real.sin φ * ∏ k ∈ range (N + 1), (1 + 2 * q ^ (2 * k + 1) * Real.cos φ + q ^ (4 * k + 2)) := by
      positivity
    nlinarith

theorem summable_sin (h0 : 0 < q) (h1 : q < 1) : Summable fun n : ℤ => q ^ (n ^ 2) * |(n : ℝ)| := by
  have hn : Summable fun n : ℕ => (n : ℝ) * q ^ n := by
    have := summable_pow_mul_geometric_of_norm_lt_one 1 (r := q) (by rwa [Real.norm_eq_abs, abs_of_pos h0])
    simpa using this
  have hs : Summable fun n : ℕ => q ^ (n ^ 2) * (n : ℝ) := by
    refine hn.of_nonneg_of_le (fun n => by positivity) fun n => ?_
    rw [mul_comm]
    exact mul_le_mul_of_nonneg_left (pow_le_pow_of_le_one h0.le h1.le (Nat.le_self_pow (by norm_num) n)) (by positivity)
  refine Summable.of_nat_of_neg ?_ ?_
  · refine hs.congr fun n => ?_
    rw [← zpow_natCast]; push_cast; rw [Nat.abs_cast]
  · refine hs.congr fun n => ?_
    rw [← zpow_natCast, neg_sq]; push_cast; rw [abs_neg, Nat.abs_cast]

/-- The sine series is positive on `(0, π)`. -/
theorem sin_pos (h0 : 0 < q) (h1 : q < 1) {φ : ℝ} (hs : 0 < Real.sin φ) (hp : 0 < theta q φ) :
    0 < ∑' n : ℤ, q ^ (n ^ 2) * (n * Real.sin (n * φ)) := by
  have f0 := factor_pos h0 h1 0 φ
  simp only [mul_zero, zero_add, pow_one] at f0
  have e : ∀ N, (∑' n : ℤ, A q N n * (n * Real.sin (n * φ))) / (D q (2 * N) * I q N ^ 2) =
      ∑' n : ℤ, q ^ (n ^ 2) * R q N n * (n * Real.sin (n * φ)) := by
    intro N
    rw [div_eq_mul_inv, ← tsum_mul_right]
    congr 1
    funext n
    unfold A R
    have := (I_pos h0 h1 N).ne'
    have := (D_pos h0 h1 (2 * N)).ne'
    field_simp
  have ht : Tendsto (fun N => ∑' n : ℤ, q ^ (n ^ 2) * R q N n * (n * Real.sin (n * φ))) atTop (𝓝 (∑' n : ℤ, q ^ (n ^ 2) * (n * Real.sin (n * φ)))) := by
    refine tendsto_tsum_of_dominated_convergence (bound := fun n : ℤ => q ^ (n ^ 2) * |(n : ℝ)|) (summable_sin h0 h1) (fun n => ?_)
      (Eventually.of_forall fun N n => ?_)
    · have := ((R_tendsto h0 h1 n).const_mul (q ^ (n ^ 2))).mul_const (n * Real.sin (n * φ))
      rwa [mul_one] at this
    · rw [Real.norm_eq_abs, abs_mul, abs_mul, abs_mul, abs_of_pos (zpow_pos h0 _), abs_of_nonneg (R_nonneg h0 h1 N n)]
      have := zpow_pos h0 (n ^ 2)
      have h2 : |(n : ℝ)| * |Real.sin (n * φ)| ≤ |(n : ℝ)| := by
        calc _ ≤ |(n : ℝ)| * 1 := mul_le_mul_of_nonneg_left (Real.abs_sin_le_one _) (abs_nonneg _)
          _ = _ := mul_one _
      calc _ ≤ q ^ (n ^ 2) * 1 * |(n : ℝ)| := mul_le_mul (mul_le_mul_of_nonneg_left (R_le h0 h1 N n) this.le) h2
            (mul_nonneg (abs_nonneg _) (abs_nonneg _)) (by positivity)
        _ = _ := by ring
  have a1 := ((tendsto_add_atTop_iff_nat 1).2 (P_tendsto h0 h1 φ)).const_mul (2 * q * Real.sin φ)
  have a2 := ((tendsto_add_atTop_iff_nat 1).2 ht).const_mul (1 + 2 * q * Real.cos φ + q ^ 2)
  have hle : 2 * q * Real.sin φ * theta q φ ≤ (1 + 2 * q * Real.cos φ + q ^ 2) * ∑' n : ℤ, q ^ (n ^ 2) * (n * Real.sin (n * φ)) := by
    refine le_of_tendsto_of_tendsto' a1 a2 fun N => ?_
    rw [← e]
    unfold P
    have hd : 0 < D q (2 * (N + 1)) * I q (N + 1 : ℕ) ^ 2 := mul_pos (D_pos h0 h1 _) (pow_pos (I_pos h0 h1 _) 2)
    rw [← mul_div_assoc, ← mul_div_assoc, div_le_div_iff_of_pos_right hd]
    exact sin_ge h0 h1 hs.le N
  have : 0 < 2 * q * Real.sin φ * theta q φ := by positivity
  exact pos_of_mul_pos_right (this.trans_le hle) f0.le

end Ctb.Jac
