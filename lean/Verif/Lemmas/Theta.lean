import Verif.Lemmas.Bessel
import Verif.Lemmas.Jacobi
import Mathlib.NumberTheory.LSeries.HurwitzZetaOdd
import Mathlib.NumberTheory.LSeries.HurwitzZetaEven

set_option linter.unusedSectionVars false

/-! # The escape series in closed form, and when its limit is below one

Jacobi's functional equations (in Mathlib: `oddKernel_functional_equation`, `evenKernel_functional_equation`) turn the complement of the limit
into a theta series in the other nome, which is monotone in the cosine of its argument (`Jac.theta_lt`, `Jac.sin_pos`). -/

namespace Ctb

open Classical Filter Topology Finset HurwitzZeta

/-! ## Bessel bridge -/

variable {T b K : ℝ}

theorem besSize_zero (hb : 0 < b) : besSize T b K 0 = 1 := by
  simp [besSize, besInc, hb.ne']

theorem partialSum_besTerm (hb : 0 < b) (n : ℕ) :
    partialSum (besTerm T b K) n = 1 - ∑ i ∈ range (n + 1), (-1) ^ i * besSize T b K i := by
  induction n with
  | zero => simp [partialSum, besSize_zero hb]
  | succ n ih =>
    rw [partialSum, ih, sum_range_succ _ (n + 1), besTerm_sign, pow_succ (-1 : ℝ) (n + 1)]
    ring

/-- The limit of the Bessel escape series. -/
theorem besSeries_limit (hT : 0 < T) (hb : 0 < b) (hK : b < K) {p : ℝ} (hp : Tendsto (partialSum (besTerm T b K)) atTop (𝓝 p)) :
    p = 1 - Real.exp (b ^ 2 / (2 * T)) / b * (2 * K) * oddKernel ((b / (2 * K) : ℝ) : UnitAddCircle) (2 * K ^ 2 / (Real.pi * T)) := by
  have hKp : 0 < K := hb.trans hK
  have hx : 0 < 2 * K ^ 2 / (Real.pi * T) := by have := Real.pi_pos; positivity
  have hs := (hasSum_int_oddKernel (b / (2 * K)) hx).nat_add_neg_add_one.tendsto_sum_nat
  have hs2 := (hs.const_mul (Real.exp (b ^ 2 / (2 * T)) / b * (2 * K))).const_sub 1
  have hsub : Tendsto (fun N : ℕ => partialSum (besTerm T b K) (2 * N + 1)) atTop (𝓝 p) :=
    hp.comp (tendsto_atTop_mono (fun n => by simp only [id]; omega) tendsto_id)
  refine tendsto_nhds_unique hsub ?_
  have hs3 := (tendsto_add_atTop_iff_nat 1).2 hs2
  refine hs3.congr fun N => ?_
  rw [partialSum_besTerm hb]
  congr 1
  have key : ∀ M, Real.exp (b ^ 2 / (2 * T)) / b * (2 * K) * ∑ n ∈ range M,
      (((n : ℤ) + b / (2 * K) : ℝ) * Real.exp (-Real.pi * ((n : ℤ) + b / (2 * K)) ^ 2 * (2 * K ^ 2 / (Real.pi * T))) +
        (((-((n : ℤ) + 1) : ℤ) : ℝ) + b / (2 * K)) *
          Real.exp (-Real.pi * (((-((n : ℤ) + 1) : ℤ) : ℝ) + b / (2 * K)) ^ 2 * (2 * K ^ 2 / (Real.pi * T)))) =
      ∑ i ∈ range (2 * M), (-1) ^ i * besSize T b K i := by
    intro M
    induction M with
    | zero => simp
    | succ M ih =>
      rw [sum_range_succ, mul_add, ih, show 2 * (M + 1) = 2 * M + 1 + 1 by ring, sum_range_succ _ (2 * M + 1), sum_range_succ _ (2 * M),
        add_assoc]
      congr 1
      rw [besSize_eq hT, besSize_eq hT, pow_succ (-1 : ℝ) (2 * M), pow_mul (-1 : ℝ) 2 M, neg_one_sq, one_pow]
      unfold besY besH
      rw [if_neg (by omega), if_pos (by omega), show 2 * M / 2 = M by omega, show (2 * M + 1 + 1) / 2 = M + 1 by omega]
      have hpi := Real.pi_pos
      push_cast
      rw [mul_add]
      have e1 : -Real.pi * ((M : ℝ) + b / (2 * K)) ^ 2 * (2 * K ^ 2 / (Real.pi * T)) = -(2 * K * M + b) ^ 2 / (2 * T) := by
        field_simp
      have e2 : -Real.pi * (-1 + -(M : ℝ) + b / (2 * K)) ^ 2 * (2 * K ^ 2 / (Real.pi * T)) = -(2 * K * (M + 1) - b) ^ 2 / (2 * T) := by
        field_simp; ring
      rw [show (-((M : ℝ) + 1) : ℝ) = -1 + -(M : ℝ) by ring, e1, e2]
      field_simp
      ring
  have := key (N + 1)
  rw [show 2 * N + 1 + 1 = 2 * (N + 1) by ring, ← this]

/-! ## Brownian bridge -/

theorem cosKernel_eq (a : ℝ) {t : ℝ} (ht : 0 < t) : cosKernel (a : UnitAddCircle) t = Jac.theta (Real.exp (-Real.pi * t)) (2 * Real.pi * a) := by
  have h := Complex.reCLM.hasSum (hasSum_int_cosKernel a ht)
  simp only [Complex.reCLM_apply, Complex.ofReal_re, Function.comp_def] at h
  unfold Jac.theta
  rw [← h.tsum_eq]
  congr 1
  funext n
  rw [Complex.re_mul_ofReal, show 2 * (Real.pi : ℂ) * Complex.I * a * n = ((2 * Real.pi * a * n : ℝ) : ℂ) * Complex.I by push_cast; ring,
    Complex.exp_ofReal_mul_I_re, mul_comm, show 2 * Real.pi * a * n = n * (2 * Real.pi * a) by ring]
  congr 1
  have : 0 ≤ n ^ 2 := sq_nonneg n
  lift n ^ 2 to ℕ using this with m hm
  rw [zpow_natCast, ← Real.exp_nat_mul]
  congr 1
  have hm' : ((m : ℤ) : ℝ) = (n : ℝ) ^ 2 := by rw [hm]; push_cast; rfl
  rw [← hm']; push_cast; ring

theorem nome {t : ℝ} (ht : 0 < t) : Real.exp (-Real.pi * t) < 1 := by
  have := mul_pos Real.pi_pos ht
  rw [Real.exp_lt_one_iff]
  linarith

theorem evenKernel_pos (a : ℝ) {x : ℝ} (hx : 0 < x) : 0 < evenKernel (a : UnitAddCircle) x := by
  have hs := hasSum_int_evenKernel a hx
  rw [← hs.tsum_eq]
  exact hs.summable.tsum_pos (fun n => (Real.exp_pos _).le) 0 (Real.exp_pos _)

theorem theta_pos (a : ℝ) {t : ℝ} (ht : 0 < t) : 0 < Jac.theta (Real.exp (-Real.pi * t)) (2 * Real.pi * a) := by
  have hx : 0 < 1 / t := by positivity
  have h := evenKernel_pos a hx
  rw [evenKernel_functional_equation, one_div_one_div, cosKernel_eq a ht] at h
  exact pos_of_mul_pos_right h (by positivity)

/-- The even kernel is strictly increasing in the cosine. -/
theorem evenKernel_lt {a b x : ℝ} (hx : 0 < x) (h : Real.cos (2 * Real.pi * a) < Real.cos (2 * Real.pi * b)) :
    evenKernel (a : UnitAddCircle) x < evenKernel (b : UnitAddCircle) x := by
  have hpi := Real.pi_pos
  have hx' : 0 < 1 / x := by positivity
  have hc : 0 < 1 / x ^ (1 / 2 : ℝ) := by positivity
  rw [evenKernel_functional_equation, evenKernel_functional_equation, cosKernel_eq a hx', cosKernel_eq b hx']
  exact mul_lt_mul_of_pos_left (Jac.theta_lt (Real.exp_pos _) (nome hx') h (theta_pos a hx')) hc

theorem exp_sq_nome (n : ℤ) (t : ℝ) : Real.exp (-Real.pi * n ^ 2 * t) = Real.exp (-Real.pi * t) ^ (n ^ 2) := by
  have : 0 ≤ n ^ 2 := sq_nonneg n
  lift n ^ 2 to ℕ using this with m hm
  rw [zpow_natCast, ← Real.exp_nat_mul]
  congr 1
  have hm' : ((m : ℤ) : ℝ) = (n : ℝ) ^ 2 := by rw [hm]; push_cast; rfl
  rw [← hm']; push_cast; ring

theorem oddKernel_pos {a x : ℝ} (ha0 : 0 < a) (ha1 : a < 1 / 2) (hx : 0 < x) : 0 < oddKernel (a : UnitAddCircle) x := by
  rw [oddKernel_functional_equation]
  have hpi := Real.pi_pos
  have hx' : 0 < 1 / x := by positivity
  refine mul_pos (by positivity) ?_
  have h := Complex.reCLM.hasSum (hasSum_int_sinKernel a hx')
  simp only [Complex.reCLM_apply, Complex.ofReal_re, Function.comp_def] at h
  rw [← h.tsum_eq]
  have hsin : 0 < Real.sin (2 * Real.pi * a) := Real.sin_pos_of_pos_of_lt_pi (by positivity) (by nlinarith)
  have := Jac.sin_pos (Real.exp_pos _) (nome hx') hsin (theta_pos a hx')
  refine lt_of_lt_of_eq this ?_
  congr 1
  funext n
  rw [Complex.re_mul_ofReal, show 2 * (Real.pi : ℂ) * Complex.I * a * n = ((n * (2 * Real.pi * a) : ℝ) : ℂ) * Complex.I by push_cast; ring,
    exp_sq_nome, mul_comm]
  congr 1
  generalize (n : ℝ) * (2 * Real.pi * a) = z
  rw [mul_assoc (-Complex.I), neg_mul, Complex.neg_re, Complex.I_mul_re, neg_neg, show ((n : ℂ)) = ((n : ℝ) : ℂ) by push_cast; rfl,
    Complex.im_ofReal_mul, Complex.exp_ofReal_mul_I_im]

variable {a : ℝ}

theorem brownSeries_even {M : ℝ} {F G : ℕ → ℝ} (h0 : M * F 0 = 2)
    (hF : ∀ i, M * F (i + 1) = escDown T K (i + 1) a b + escDown T K (i + 1) (-a) (-b))
    (hG : ∀ i, M * G i = escUp T K (i + 1) a b + escUp T K (i + 1) (-a) (-b)) (N : ℕ) :
    brownSeries T a b K (2 * N) = 2 - M * ∑ i ∈ range (N + 1), F i + M * ∑ i ∈ range N, G i := by
  induction N with
  | zero => simp [brownSeries, partialSum, h0]
  | succ N ih =>
    rw [show 2 * (N + 1) = 2 * N + 1 + 1 by ring]
    unfold brownSeries at ih ⊢
    rw [partialSum, partialSum, ih, sum_range_succ F (N + 1), sum_range_succ G N, mul_add, mul_add, hF, hG]
    unfold brownTerm
    rw [if_pos (by omega), if_neg (by omega), show (2 * N + 1 + 1) / 2 = N + 1 by omega]
    ring

/-- The limit of the Brownian escape series. -/
theorem brownSeries_limit (hT : 0 < T) (hK : 0 < K) {p : ℝ} (hp : Tendsto (brownSeries T a b K) atTop (𝓝 p)) :
    p = 1 - Real.exp ((a - b) ^ 2 / (2 * T)) * (evenKernel (((a - b) / (4 * K) : ℝ) : UnitAddCircle) (8 * K ^ 2 / (Real.pi * T)) -
      evenKernel ((1 / 2 - (a + b) / (4 * K) : ℝ) : UnitAddCircle) (8 * K ^ 2 / (Real.pi * T))) := by
  have hpi := Real.pi_pos
  have hx : 0 < 8 * K ^ 2 / (Real.pi * T) := by positivity
  have h1 := (hasSum_int_evenKernel ((a - b) / (4 * K)) hx).nat_add_neg.tendsto_sum_nat
  have h2 := (hasSum_int_evenKernel (1 / 2 - (a + b) / (4 * K)) hx).nat_add_neg_add_one.tendsto_sum_nat
  have h3 := ((((tendsto_add_atTop_iff_nat 1).2 h1).const_mul (Real.exp ((a - b) ^ 2 / (2 * T)))).const_sub 2).add
    (h2.const_mul (Real.exp ((a - b) ^ 2 / (2 * T))))
  have hsub : Tendsto (fun N : ℕ => brownSeries T a b K (2 * N)) atTop (𝓝 p) :=
    hp.comp (tendsto_atTop_mono (fun n => by simp only [id]; omega) tendsto_id)
  have f0 : Real.exp ((a - b) ^ 2 / (2 * T)) * Real.exp (-Real.pi * (((0 : ℤ) : ℝ) + (a - b) / (4 * K)) ^ 2 * (8 * K ^ 2 / (Real.pi * T))) = 1 := by
    rw [← Real.exp_add, Real.exp_eq_one_iff]
    field_simp
    push_cast
    ring
  have key := brownSeries_even (T := T) (a := a) (b := b) (K := K) (M := Real.exp ((a - b) ^ 2 / (2 * T)))
    (F := fun i : ℕ => Real.exp (-Real.pi * (((i : ℤ) : ℝ) + (a - b) / (4 * K)) ^ 2 * (8 * K ^ 2 / (Real.pi * T))) +
          Real.exp (-Real.pi * (((-(i : ℤ) : ℤ) : ℝ) + (a - b) / (4 * K)) ^ 2 * (8 * K ^ 2 / (Real.pi * T))))
    (G := fun i : ℕ => Real.exp (-Real.pi * (((i : ℤ) : ℝ) + (1 / 2 - (a + b) / (4 * K))) ^ 2 * (8 * K ^ 2 / (Real.pi * T))) +
          Real.exp (-Real.pi * (((-((i : ℤ) + 1) : ℤ) : ℝ) + (1 / 2 - (a + b) / (4 * K))) ^ 2 * (8 * K ^ 2 / (Real.pi * T))))
    (by simp only [Nat.cast_zero, neg_zero, mul_add, f0]; norm_num)
    (fun N => by
      beta_reduce
      rw [mul_add, ← Real.exp_add, ← Real.exp_add]
      unfold escDown
      push_cast
      have g1 : (a - b) ^ 2 / (2 * T) + -Real.pi * ((N : ℝ) + 1 + (a - b) / (4 * K)) ^ 2 * (8 * K ^ 2 / (Real.pi * T)) =
          -2 * (N + 1) * (4 * K ^ 2 * (N + 1) + 2 * K * (a - b)) / T := by
        field_simp; ring
      have g2 : (a - b) ^ 2 / (2 * T) + -Real.pi * (-1 + -(N : ℝ) + (a - b) / (4 * K)) ^ 2 * (8 * K ^ 2 / (Real.pi * T)) =
          -2 * (N + 1) * (4 * K ^ 2 * (N + 1) + 2 * K * (-a - -b)) / T := by
        field_simp; ring
      rw [show -((N : ℝ) + 1) = -1 + -N by ring, g1, g2])
    (fun N => by
      beta_reduce
      rw [mul_add, ← Real.exp_add, ← Real.exp_add]
      unfold escUp
      push_cast
      have g3 : (a - b) ^ 2 / (2 * T) + -Real.pi * ((N : ℝ) + (1 / 2 - (a + b) / (4 * K))) ^ 2 * (8 * K ^ 2 / (Real.pi * T)) =
          -2 * (K * (2 * (N + 1) - 1) - a) * (K * (2 * (N + 1) - 1) - b) / T := by
        field_simp; ring
      have g4 : (a - b) ^ 2 / (2 * T) + -Real.pi * (-1 + -(N : ℝ) + (1 / 2 - (a + b) / (4 * K))) ^ 2 * (8 * K ^ 2 / (Real.pi * T)) =
          -2 * (K * (2 * (N + 1) - 1) - -a) * (K * (2 * (N + 1) - 1) - -b) / T := by
        field_simp; ring
      rw [show -((N : ℝ) + 1) = -1 + -N by ring, g3, g4])
  have e := tendsto_nhds_unique (hsub.congr key) h3
  rw [e, mul_add, f0]
  ring

/-- The escape probability is below one, for every duration. -/
theorem brownSeries_lt_one (hT : 0 < T) (ha : |a| < K) (hb : |b| < K) {p : ℝ} (hp : Tendsto (brownSeries T a b K) atTop (𝓝 p)) : p < 1 := by
  obtain ⟨a1, a2⟩ := abs_lt.1 ha
  obtain ⟨b1, b2⟩ := abs_lt.1 hb
  have hK : 0 < K := by linarith
  have hpi := Real.pi_pos
  rw [brownSeries_limit hT hK hp]
  have hx : 0 < 8 * K ^ 2 / (Real.pi * T) := by positivity
  have hlt : Real.cos (2 * Real.pi * (1 / 2 - (a + b) / (4 * K))) < Real.cos (2 * Real.pi * ((a - b) / (4 * K))) := by
    have ca : 0 < Real.cos (Real.pi * (a / (2 * K))) := by
      apply Real.cos_pos_of_mem_Ioo
      have h1 : -1 / 2 < a / (2 * K) := by rw [lt_div_iff₀ (by linarith)]; linarith
      have h2 : a / (2 * K) < 1 / 2 := by rw [div_lt_iff₀ (by linarith)]; linarith
      constructor <;> nlinarith
    have cb : 0 < Real.cos (Real.pi * (b / (2 * K))) := by
      apply Real.cos_pos_of_mem_Ioo
      have h1 : -1 / 2 < b / (2 * K) := by rw [lt_div_iff₀ (by linarith)]; linarith
      have h2 : b / (2 * K) < 1 / 2 := by rw [div_lt_iff₀ (by linarith)]; linarith
      constructor <;> nlinarith
    have e1 : 2 * Real.pi * (1 / 2 - (a + b) / (4 * K)) = Real.pi - (Real.pi * (a / (2 * K)) + Real.pi * (b / (2 * K))) := by
      field_simp; ring
    have e2 : 2 * Real.pi * ((a - b) / (4 * K)) = Real.pi * (a / (2 * K)) - Real.pi * (b / (2 * K)) := by
      field_simp; ring
    rw [e1, e2, Real.cos_pi_sub, Real.cos_add, Real.cos_sub]
    nlinarith [mul_pos ca cb]
  have := evenKernel_lt hx hlt
  have := mul_pos (Real.exp_pos ((a - b) ^ 2 / (2 * T))) (sub_pos.2 this)
  linarith

/-- The Bessel escape probability is below one, for every duration. -/
theorem besSeries_lt_one (hT : 0 < T) (hb : 0 < b) (hK : b < K) {p : ℝ}
    (hp : Tendsto (partialSum (besTerm T b K)) atTop (𝓝 p)) : p < 1 := by
  have hKp : 0 < K := hb.trans hK
  have hpi := Real.pi_pos
  have hx : 0 < 2 * K ^ 2 / (Real.pi * T) := by positivity
  rw [besSeries_limit hT hb hK hp]
  have := oddKernel_pos (a := b / (2 * K)) (by positivity) (by rw [div_lt_iff₀ (by positivity)]; linarith) hx
  have := mul_pos (mul_pos (div_pos (Real.exp_pos (b ^ 2 / (2 * T))) hb) (by linarith : 0 < 2 * K)) this
  linarith

theorem hasSum_int_even_odd {f : ℤ → ℝ} {s t : ℝ} (he : HasSum (fun k : ℤ => f (2 * k)) s) (ho : HasSum (fun k : ℤ => f (2 * k + 1)) t) :
    HasSum f (s + t) := by
  have := mul_right_injective₀ (two_ne_zero' ℤ)
  replace ho := ((add_left_injective 1).comp this).hasSum_range_iff.2 ho
  refine (this.hasSum_range_iff.2 he).add_isCompl ?_ ho
  simpa [Function.comp_def] using Int.isCompl_even_odd

theorem oddKernel_double {a x : ℝ} (hx : 0 < x) :
    oddKernel (a : UnitAddCircle) x = 2 * (oddKernel ((a / 2 : ℝ) : UnitAddCircle) (4 * x) - oddKernel (((1 - a) / 2 : ℝ) : UnitAddCircle) (4 * x)) := by
  have hx4 : 0 < 4 * x := by positivity
  have h1 := (hasSum_int_oddKernel (a / 2) hx4).mul_left 2
  have h2 := (hasSum_int_oddKernel ((1 + a) / 2) hx4).mul_left 2
  have e : oddKernel (((1 + a) / 2 : ℝ) : UnitAddCircle) (4 * x) = -oddKernel (((1 - a) / 2 : ℝ) : UnitAddCircle) (4 * x) := by
    rw [← oddKernel_neg, show (1 + a) / 2 = -((1 - a) / 2) + 1 by ring, AddCircle.coe_add, AddCircle.coe_period, add_zero, AddCircle.coe_neg]
  rw [e] at h2
  have h := hasSum_int_oddKernel a hx
  have h' := hasSum_int_even_odd (f := fun n : ℤ => ((n : ℝ) + a) * Real.exp (-Real.pi * (n + a) ^ 2 * x))
    (h1.congr_fun fun n => by push_cast; rw [show -Real.pi * (2 * (n : ℝ) + a) ^ 2 * x = -Real.pi * (n + a / 2) ^ 2 * (4 * x) by ring]; ring)
    (h2.congr_fun fun n => by push_cast; rw [show -Real.pi * (2 * (n : ℝ) + 1 + a) ^ 2 * x = -Real.pi * (n + (1 + a) / 2) ^ 2 * (4 * x) by ring]; ring)
  rw [h.unique h']
  ring

/-- Doubling the level lowers the escape probability. -/
theorem bes_limit_double (hT : 0 < T) (hb : 0 < b) (hK : b < K) {p p' : ℝ} (hp : Tendsto (partialSum (besTerm T b K)) atTop (𝓝 p))
    (hp' : Tendsto (partialSum (besTerm T b (2 * K))) atTop (𝓝 p')) : p' < p := by
  have hKp : 0 < K := hb.trans hK
  have hpi := Real.pi_pos
  have hx : 0 < 2 * K ^ 2 / (Real.pi * T) := by positivity
  rw [besSeries_limit hT hb hK hp, besSeries_limit hT hb (by linarith) hp', oddKernel_double hx,
    show b / (2 * (2 * K)) = b / (2 * K) / 2 by field_simp, show 2 * (2 * K) ^ 2 / (Real.pi * T) = 4 * (2 * K ^ 2 / (Real.pi * T)) by ring]
  have h1 : 0 < b / (2 * K) := by positivity
  have h2 : b / (2 * K) < 1 := by rw [div_lt_one (by linarith)]; linarith
  have := oddKernel_pos (a := (1 - b / (2 * K)) / 2) (x := 4 * (2 * K ^ 2 / (Real.pi * T))) (by linarith) (by linarith) (by positivity)
  have := mul_pos (mul_pos (div_pos (Real.exp_pos (b ^ 2 / (2 * T))) hb) (by linarith : 0 < 4 * K)) this
  nlinarith

/-- The Bessel escape probability is not negative. -/
theorem bes_limit_nonneg (hT : 0 < T) (hb : 0 < b) (hK : b < K) {p : ℝ}
    (hp : Tendsto (partialSum (besTerm T b K)) atTop (𝓝 p)) (hc : ∀ K', b < K' → ∃ p, Tendsto (partialSum (besTerm T b K')) atTop (𝓝 p)) :
    0 ≤ p := by
  have key : ∀ n : ℕ, ∀ K, b < K → T < 3 * (2 ^ n * K) ^ 2 → ∀ p, Tendsto (partialSum (besTerm T b K)) atTop (𝓝 p) → 0 ≤ p := by
    intro n
    induction n with
    | zero =>
      intro K hK h p hp
      obtain ⟨p', hp'⟩ := besSeries_alt_short hT hb hK (by simpa using h)
      rw [tendsto_nhds_unique hp hp'.1]
      exact (hp'.2 0 le_rfl).1 rfl
    | succ n ih =>
      intro K hK h p hp
      obtain ⟨p', hp'⟩ := hc (2 * K) (by linarith)
      have := ih (2 * K) (by linarith) (by rw [pow_succ (2 : ℝ) n, mul_assoc] at h; exact h) p' hp'
      exact this.trans (bes_limit_double hT hb hK hp hp').le
  obtain ⟨n, hn⟩ := pow_unbounded_of_one_lt (T / K ^ 2) (one_lt_two (α := ℝ))
  have hKp : 0 < K := hb.trans hK
  refine key n K hK ?_ p hp
  rw [div_lt_iff₀ (by positivity)] at hn
  have h1 : (1 : ℝ) ≤ 2 ^ n := one_le_pow₀ (by norm_num)
  have h2 : (2 : ℝ) ^ n * K ^ 2 ≤ (2 ^ n * K) ^ 2 := by
    rw [mul_pow]
    exact mul_le_mul_of_nonneg_right (by nlinarith) (by positivity)
  nlinarith

theorem evenKernel_double {a x : ℝ} (hx : 0 < x) :
    evenKernel (a : UnitAddCircle) x = evenKernel ((a / 2 : ℝ) : UnitAddCircle) (4 * x) + evenKernel (((1 + a) / 2 : ℝ) : UnitAddCircle) (4 * x) := by
  have hx4 : 0 < 4 * x := by positivity
  have h1 := hasSum_int_evenKernel (a / 2) hx4
  have h2 := hasSum_int_evenKernel ((1 + a) / 2) hx4
  have h := hasSum_int_evenKernel a hx
  exact h.unique (hasSum_int_even_odd (f := fun n : ℤ => Real.exp (-Real.pi * (n + a) ^ 2 * x))
    (h1.congr_fun fun n => by push_cast; rw [show -Real.pi * (2 * (n : ℝ) + a) ^ 2 * x = -Real.pi * (n + a / 2) ^ 2 * (4 * x) by ring])
    (h2.congr_fun fun n => by push_cast; rw [show -Real.pi * (2 * (n : ℝ) + 1 + a) ^ 2 * x = -Real.pi * (n + (1 + a) / 2) ^ 2 * (4 * x) by ring]))

/-- The limit of the escape series of the strip `(0, K)`. -/
theorem strip_limit (hT : 0 < T) (hK : 0 < K) {p : ℝ} (hp : Tendsto (brownSeries T (a - K / 2) (b - K / 2) (K / 2)) atTop (𝓝 p)) :
    p = 1 - Real.exp ((a - b) ^ 2 / (2 * T)) * (evenKernel (((a - b) / (2 * K) : ℝ) : UnitAddCircle) (2 * K ^ 2 / (Real.pi * T)) -
      evenKernel (((a + b) / (2 * K) : ℝ) : UnitAddCircle) (2 * K ^ 2 / (Real.pi * T))) := by
  rw [brownSeries_limit hT (half_pos hK) hp, show a - K / 2 - (b - K / 2) = a - b by ring, show 4 * (K / 2) = 2 * K by ring,
    show 8 * (K / 2) ^ 2 = 2 * K ^ 2 by ring, show 1 / 2 - (a - K / 2 + (b - K / 2)) / (2 * K) = -((a + b) / (2 * K)) + 1 by field_simp; ring,
    AddCircle.coe_add, AddCircle.coe_period, add_zero, AddCircle.coe_neg, evenKernel_neg]

theorem cos_lt_of_strip {x y : ℝ} (hx0 : 0 < x) (hx : x < Real.pi / 2) (hy0 : 0 < y) (hy : y < Real.pi / 2) : Real.cos (x + y) < Real.cos (x - y) := by
  rw [Real.cos_add, Real.cos_sub]
  have := mul_pos (Real.sin_pos_of_pos_of_lt_pi hx0 (by linarith)) (Real.sin_pos_of_pos_of_lt_pi hy0 (by linarith))
  linarith

/-- Doubling the upper end of the strip lowers the escape probability. -/
theorem strip_limit_double (hT : 0 < T) (ha : 0 < a) (hb : 0 < b) (haK : a < K) (hbK : b < K) {p p' : ℝ}
    (hp : Tendsto (brownSeries T (a - K / 2) (b - K / 2) (K / 2)) atTop (𝓝 p))
    (hp' : Tendsto (brownSeries T (a - 2 * K / 2) (b - 2 * K / 2) (2 * K / 2)) atTop (𝓝 p')) : p' < p := by
  have hKp : 0 < K := ha.trans haK
  have hpi := Real.pi_pos
  have hx : 0 < 2 * K ^ 2 / (Real.pi * T) := by positivity
  rw [strip_limit hT hKp hp, strip_limit hT (by linarith) hp', evenKernel_double hx, evenKernel_double (a := (a + b) / (2 * K)) hx,
    show (a - b) / (2 * (2 * K)) = (a - b) / (2 * K) / 2 by field_simp, show (a + b) / (2 * (2 * K)) = (a + b) / (2 * K) / 2 by field_simp,
    show 2 * (2 * K) ^ 2 / (Real.pi * T) = 4 * (2 * K ^ 2 / (Real.pi * T)) by ring]
  have hc : Real.cos (2 * Real.pi * ((1 + (a - b) / (2 * K)) / 2)) < Real.cos (2 * Real.pi * ((1 + (a + b) / (2 * K)) / 2)) := by
    have e1 : 2 * Real.pi * ((1 + (a - b) / (2 * K)) / 2) = (Real.pi * (a / (2 * K)) - Real.pi * (b / (2 * K))) + Real.pi := by field_simp; ring
    have e2 : 2 * Real.pi * ((1 + (a + b) / (2 * K)) / 2) = (Real.pi * (a / (2 * K)) + Real.pi * (b / (2 * K))) + Real.pi := by field_simp; ring
    rw [e1, e2, Real.cos_add_pi, Real.cos_add_pi, neg_lt_neg_iff]
    have b1 : a / (2 * K) < 1 / 2 := by rw [div_lt_iff₀ (by linarith)]; linarith
    have b2 : b / (2 * K) < 1 / 2 := by rw [div_lt_iff₀ (by linarith)]; linarith
    exact cos_lt_of_strip (by positivity) (by nlinarith) (by positivity) (by nlinarith)
  have := evenKernel_lt (x := 4 * (2 * K ^ 2 / (Real.pi * T))) (by positivity) hc
  have := mul_pos (Real.exp_pos ((a - b) ^ 2 / (2 * T))) (sub_pos.2 this)
  nlinarith

/-- Leaving the strip `(0, K)` is at least as likely as going below 0. -/
theorem strip_limit_ge (hT : 0 < T) (ha : 0 < a) (hb : 0 < b) (haK : a < K) (hbK : b < K) {p : ℝ}
    (hp : Tendsto (brownSeries T (a - K / 2) (b - K / 2) (K / 2)) atTop (𝓝 p)) : Real.exp (-2 * a * b / T) ≤ p := by
  have hc : ∀ K, a < K → b < K → ∃ p, AltAround (brownSeries T (a - K / 2) (b - K / 2) (K / 2)) p 0 := fun K h1 h2 =>
    brownSeries_alt hT (by rw [abs_lt]; constructor <;> linarith) (by rw [abs_lt]; constructor <;> linarith)
  have key : ∀ n : ℕ, ∀ K, a < K → b < K → 2 * (a * b) + T ≤ 4 * (2 ^ n * K) * min a b →
      ∀ p, Tendsto (brownSeries T (a - K / 2) (b - K / 2) (K / 2)) atTop (𝓝 p) → Real.exp (-2 * a * b / T) ≤ p := by
    intro n
    induction n with
    | zero =>
      intro K haK hbK h p hp
      rw [pow_zero, one_mul] at h
      obtain ⟨p', hp'⟩ := hc K haK hbK
      rw [tendsto_nhds_unique hp hp'.1]
      refine le_trans ?_ ((hp'.2 2 (by omega)).1 rfl)
      have e : brownSeries T (a - K / 2) (b - K / 2) (K / 2) 2 = Real.exp (-2 * a * b / T) + (Real.exp (-2 * (K - a) * (K - b) / T) -
          (Real.exp (-2 * (K ^ 2 + K * (a - b)) / T) + Real.exp (-2 * (K ^ 2 - K * (a - b)) / T))) := by
        simp only [brownSeries, partialSum, brownTerm, escUp, escDown]
        norm_num
        rw [show -(2 * (K / 2 - (a - K / 2)) * (K / 2 - (b - K / 2))) / T = -(2 * (K - a) * (K - b)) / T by ring,
          show -(2 * (4 * (K / 2) ^ 2 + 2 * (K / 2) * (a - b))) / T = -(2 * (K ^ 2 + K * (a - b))) / T by ring,
          show -(2 * (4 * (K / 2) ^ 2 + 2 * (K / 2) * (b - a))) / T = -(2 * (K ^ 2 - K * (a - b))) / T by ring]
        ring
      rw [e]
      have two : (2 : ℝ) ≤ Real.exp 1 := by have := Real.add_one_le_exp (1 : ℝ); linarith
      have hb1 : 2 * Real.exp (-2 * (K ^ 2 + K * (a - b)) / T) ≤ Real.exp (-2 * (K - a) * (K - b) / T) := by
        refine (mul_le_mul_of_nonneg_right two (Real.exp_pos _).le).trans ?_
        rw [← Real.exp_add, Real.exp_le_exp, ← sub_nonneg]
        have : 0 ≤ (4 * K * a - (2 * (a * b) + T)) / T := div_nonneg (by
          have := mul_le_mul_of_nonneg_left (min_le_left a b) (show (0 : ℝ) ≤ 4 * K by linarith)
          linarith) hT.le
        refine le_of_le_of_eq this ?_
        field_simp
        ring
      have hb2 : 2 * Real.exp (-2 * (K ^ 2 - K * (a - b)) / T) ≤ Real.exp (-2 * (K - a) * (K - b) / T) := by
        refine (mul_le_mul_of_nonneg_right two (Real.exp_pos _).le).trans ?_
        rw [← Real.exp_add, Real.exp_le_exp, ← sub_nonneg]
        have : 0 ≤ (4 * K * b - (2 * (a * b) + T)) / T := div_nonneg (by
          have := mul_le_mul_of_nonneg_left (min_le_right a b) (show (0 : ℝ) ≤ 4 * K by linarith)
          linarith) hT.le
        refine le_of_le_of_eq this ?_
        field_simp
        ring
      linarith
    | succ n ih =>
      intro K haK hbK h p hp
      obtain ⟨p', hp'⟩ := hc (2 * K) (by linarith) (by linarith)
      have := ih (2 * K) (by linarith) (by linarith) (by rw [pow_succ (2 : ℝ) n, mul_assoc (2 ^ n : ℝ)] at h; exact h) p' hp'.1
      exact this.trans (strip_limit_double hT ha hb haK hbK hp hp'.1).le
  have hm : 0 < min a b := lt_min ha hb
  have hKp : 0 < K := ha.trans haK
  obtain ⟨n, hn⟩ := pow_unbounded_of_one_lt ((2 * (a * b) + T) / (4 * K * min a b)) (one_lt_two (α := ℝ))
  refine key n K haK hbK ?_ p hp
  rw [div_lt_iff₀ (by positivity)] at hn
  linarith

end Ctb
