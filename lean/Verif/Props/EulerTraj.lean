import Verif.Lemmas.EulerLaw

set_option linter.unusedSectionVars false

/-! # C118: the trajectories of `euler_simulate` have the law of the Euler chain -/

namespace Ctb

open MeasureTheory ProbabilityTheory
open scoped ENNReal

/-- Each column of the trajectory array consists of independent copies of the Euler chain. -/
theorem C118_law {d v : ℝ → ℝ} (hd : Measurable d) (hv : Measurable v) {finT x0 res : ℝ} (hr : 0 < res) (Fs : List (ℝ → ℝ≥0∞))
    (hF : ∀ F ∈ Fs, Measurable F) {k : ℕ} (hk : (k : ℝ) * res ≤ finT) :
    (eulerSimulate Fs.length finT x0 d v res).lexp (onOk fun r => prodAt Fs ((r.2[k]?).getD [])) =
      (Fs.map fun F => ((eulerKernel d v res)^[k] F) x0).prod := by
  rw [eulerSimulate, Prog.lexp_bind, cols_law hd hv hr.le Fs hF k _ (Nat.le_floor ((le_div_iff₀ hr).2 hk)) (List.replicate Fs.length x0) (by simp)]
  · rw [prodAt]
    congr 1
    exact List.ext_getElem (by simp) fun i _ _ => by simp
  · intro noise _ _
    rfl

example : (eulerSimulate 2 1 0 (fun x => -x) (fun x => 1 + x ^ 2) (1 / 10)).lexp
      (onOk fun r => prodAt [fun x => ENNReal.ofReal (x ^ 2), fun x => if 0 < x then 1 else 0] ((r.2[7]?).getD [])) =
    ([fun x => ENNReal.ofReal (x ^ 2), fun x => if 0 < x then 1 else 0].map fun F => ((eulerKernel (fun x => -x) (fun x => 1 + x ^ 2) (1 / 10))^[7] F) 0).prod :=
  C118_law (by fun_prop) (by fun_prop) (by norm_num) [fun x => ENNReal.ofReal (x ^ 2), fun x => if 0 < x then 1 else 0]
    (by
      intro F hF
      rcases List.mem_cons.1 hF with rfl | hF
      · fun_prop
      · rw [List.mem_singleton.1 hF]
        exact Measurable.ite measurableSet_Ioi measurable_const measurable_const) (by norm_num)

/-- A single trajectory. -/
theorem C118_trajectory {d v : ℝ → ℝ} (hd : Measurable d) (hv : Measurable v) {finT x0 res : ℝ} (hr : 0 < res) {F : ℝ → ℝ≥0∞} (hF : Measurable F)
    {n i k : ℕ} (hi : i < n) (hk : (k : ℝ) * res ≤ finT) :
    (eulerSimulate n finT x0 d v res).lexp (onOk fun r => F (((r.2[k]?).getD [])[i]?.getD 0)) = ((eulerKernel d v res)^[k] F) x0 := by
  have hl : ((List.replicate n fun _ : ℝ => (1 : ℝ≥0∞)).set i F).length = n := by simp
  have hkn : k ≤ ⌊finT / res⌋₊ := Nat.le_floor ((le_div_iff₀ hr).2 hk)
  have hm : ∀ G ∈ (List.replicate n fun _ : ℝ => (1 : ℝ≥0∞)).set i F, Measurable G := by
    intro G hG
    rcases List.mem_or_eq_of_mem_set hG with h | rfl
    · rw [(List.mem_replicate.1 h).2]; fun_prop
    · exact hF
  have hone : ∀ k, (eulerKernel d v res)^[k] (fun _ => 1) = fun _ => 1 := by
    intro k
    induction k with
    | zero => rfl
    | succ k ih => rw [Function.iterate_succ_apply', ih]; funext x; simp [eulerKernel]
  have key := cols_law hd hv hr.le _ hm k _ hkn (List.replicate n x0) (by simp)
  rw [hl] at key
  rw [eulerSimulate, Prog.lexp_bind, key]
  · have e : ((List.replicate n fun _ : ℝ => (1 : ℝ≥0∞)).set i F).map ((eulerKernel d v res)^[k]) =
        (List.replicate n fun _ : ℝ => (1 : ℝ≥0∞)).set i ((eulerKernel d v res)^[k] F) := by
      rw [List.map_set, List.map_replicate, hone]
    rw [e, prodAt_single hi (by simp)]
    simp [hi]
  · intro noise h1 h2
    obtain ⟨c, g1, g2⟩ := eulerCols_width (d := d) (v := v) (h := res) (n := n) k (List.replicate n x0) (noise.map fun r => r.map fun e => Real.sqrt res * e)
      (by simp) (by intro r hr; obtain ⟨r', hr', rfl⟩ := List.mem_map.1 hr; simpa using h2 r' hr') (by simpa [h1] using hkn)
    rw [Prog.cont_ok, Prog.lexp_ret, onOk, g1, Option.getD_some, prodAt_single hi g2]

/-- With affine drift and constant volatility a trajectory is normal. -/
theorem C118_affine {a b s finT x0 res : ℝ} (hr : 0 < res) {F : ℝ → ℝ≥0∞} (hF : Measurable F) {n i k : ℕ} (hi : i < n) (hk : (k : ℝ) * res ≤ finT) :
    (eulerSimulate n finT x0 (fun x => a + b * x) (fun _ => s) res).lexp (onOk fun r => F (((r.2[k]?).getD [])[i]?.getD 0)) =
      ∫⁻ y, F y ∂(gaussianReal (eulerMean a b res x0 k) (eulerVar b s res k).toNNReal) := by
  rw [C118_trajectory (by fun_prop) (by fun_prop) hr hF hi hk, eulerIter_affine hr.le x0 k hF]

/-- With constant coefficients the scheme is exact: at time `k res` a trajectory has the law of Brownian motion with drift. -/
theorem C118_exact {a s finT x0 res : ℝ} (hr : 0 < res) {F : ℝ → ℝ≥0∞} (hF : Measurable F) {n i k : ℕ} (hi : i < n) (hk : (k : ℝ) * res ≤ finT) :
    (eulerSimulate n finT x0 (fun _ => a) (fun _ => s) res).lexp (onOk fun r => F (((r.2[k]?).getD [])[i]?.getD 0)) =
      ∫⁻ y, F y ∂(gaussianReal (x0 + a * (k * res)) (s ^ 2 * (k * res)).toNNReal) := by
  have h1 : ∀ k : ℕ, eulerMean a 0 res x0 k = x0 + a * (k * res) := by
    intro k
    induction k with
    | zero => simp [eulerMean]
    | succ k ih => rw [eulerMean, ih]; push_cast; ring
  have h2 : ∀ k : ℕ, eulerVar 0 s res k = s ^ 2 * (k * res) := by
    intro k
    induction k with
    | zero => simp [eulerVar]
    | succ k ih => rw [eulerVar, ih]; push_cast; ring
  have := C118_affine (a := a) (b := 0) (s := s) (x0 := x0) hr hF hi hk
  rw [h1, h2] at this
  simpa using this

/-- For a mean reverting drift the mean of the chain is a power: the exponential decay of the diffusion is replaced by `(1 - b res)^k`. -/
theorem C118_decay {b s finT x0 m res : ℝ} (hr : 0 < res) {F : ℝ → ℝ≥0∞} (hF : Measurable F) {n i k : ℕ} (hi : i < n) (hk : (k : ℝ) * res ≤ finT)
    (hb : 0 < b * res) (hb2 : b * res < 2) :
    (eulerSimulate n finT x0 (fun x => b * (m - x)) (fun _ => s) res).lexp (onOk fun r => F (((r.2[k]?).getD [])[i]?.getD 0)) =
      ∫⁻ y, F y ∂(gaussianReal (m + (1 - b * res) ^ k * (x0 - m))
        (s ^ 2 * res * ((1 - (1 - b * res) ^ (2 * k)) / (b * res * (2 - b * res)))).toNNReal) := by
  have h1 : ∀ k : ℕ, eulerMean (b * m) (-b) res x0 k = m + (1 - b * res) ^ k * (x0 - m) := by
    intro k
    induction k with
    | zero => simp [eulerMean]
    | succ k ih => rw [eulerMean, ih, pow_succ]; ring
  have h2 : ∀ k : ℕ, eulerVar (-b) s res k = s ^ 2 * res * ((1 - (1 - b * res) ^ (2 * k)) / (b * res * (2 - b * res))) := by
    have hne : b * res * (2 - b * res) ≠ 0 := (mul_pos hb (by linarith)).ne'
    intro k
    induction k with
    | zero => simp [eulerVar]
    | succ k ih =>
      have h3 : 2 - b * res ≠ 0 := by linarith
      have h4 : b * res ≠ 0 := hb.ne'
      rw [eulerVar, ih, mul_add 2 k 1, pow_add, mul_one]
      rw [mul_div_assoc', mul_div_assoc', mul_div_assoc', div_add' _ _ _ hne]
      congr 1
      ring
  have := C118_affine (a := b * m) (b := -b) (s := s) (x0 := x0) hr hF hi hk
  rw [h1, h2] at this
  have e : (fun x : ℝ => b * (m - x)) = fun x => b * m + -b * x := by funext x; ring
  rw [e, this]

example : (eulerSimulate 3 1 2 (fun x => 5 * (1 - x)) (fun _ => 1) (1 / 10)).lexp (onOk fun r => ENNReal.ofReal ((((r.2[7]?).getD [])[1]?.getD 0) ^ 2)) =
    ∫⁻ y, ENNReal.ofReal (y ^ 2) ∂(gaussianReal (1 + (1 - 5 * (1 / 10)) ^ 7 * (2 - 1))
      ((1 : ℝ) ^ 2 * (1 / 10) * ((1 - (1 - 5 * (1 / 10)) ^ (2 * 7)) / (5 * (1 / 10) * (2 - 5 * (1 / 10))))).toNNReal) :=
  C118_decay (F := fun y => ENNReal.ofReal (y ^ 2)) (by norm_num) (by fun_prop) (by norm_num) (by norm_num) (by norm_num) (by norm_num)

end Ctb
