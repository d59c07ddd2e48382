import Verif.Props.EulerTraj

set_option linter.unusedSectionVars false

/-! # C118: joint law of the columns of `euler_simulate` -/

namespace Ctb

open MeasureTheory ProbabilityTheory
open scoped ENNReal

theorem measurable_eulerPath {d v : ℝ → ℝ} (hd : Measurable d) (hv : Measurable v) {h : ℝ} (hh : 0 ≤ h) : ∀ Fs : List (ℝ → ℝ≥0∞), (∀ F ∈ Fs, Measurable F) → Measurable (eulerPath d v h Fs)
  | [], _ => measurable_const
  | F :: Fs, hF => (hF F (by simp)).mul (measurable_eulerKernel hd hv hh (measurable_eulerPath hd hv hh Fs fun G hG => hF G (by simp [hG])))

theorem listRange_prod (n : ℕ) (f : ℕ → ℝ≥0∞) : ((List.range n).map f).prod = ∏ i ∈ Finset.range n, f i := by
  induction n with
  | zero => simp
  | succ n ih => rw [List.range_succ, List.map_append, List.prod_append, ih, Finset.prod_range_succ]; simp

theorem prodAt_range {n : ℕ} (G : ℕ → ℝ → ℝ≥0∞) {z : List ℝ} (hz : z.length = n) : prodAt ((List.range n).map G) z = ∏ i ∈ Finset.range n, G i (z[i]?.getD 0) := by
  rw [← listRange_prod, prodAt]
  congr 1
  refine List.ext_getElem (by simp [hz]) fun i h1 h2 => ?_
  have hi : i < z.length := by simpa [hz] using h2
  simp [hi]

/-- The entry of the array in column `j` and row `i`. -/
def entry (cols : List (List ℝ)) (j i : ℕ) : ℝ := ((cols[j]?).getD [])[i]?.getD 0

theorem cols_joint {d v : ℝ → ℝ} (hd : Measurable d) (hv : Measurable v) {h : ℝ} (hh : 0 ≤ h) (n : ℕ) :
    ∀ (k m : ℕ), k ≤ m → ∀ (F : ℕ → ℕ → ℝ → ℝ≥0∞), (∀ j i, Measurable (F j i)) → ∀ (xs : List ℝ), xs.length = n → ∀ (c : ℝ≥0∞) (g : Res (List (List ℝ)) → ℝ≥0∞),
    (∀ noise, noise.length = m → (∀ r ∈ noise, r.length = n) →
      g (.ok noise) = c * ∏ j ∈ Finset.range (k + 1), ∏ i ∈ Finset.range n, F j i (entry (eulerCols d v h xs (noise.map fun r => r.map fun e => Real.sqrt h * e)) j i)) →
    (Prog.replicate m (Prog.replicate n (Prog.draw (.normal 0 1)))).lexp g =
      c * ∏ i ∈ Finset.range n, eulerPath d v h ((List.range (k + 1)).map fun j => F j i) (xs[i]?.getD 0) := by
  have h0 : ∀ xs es i, entry (eulerCols d v h xs es) 0 i = xs[i]?.getD 0 := by
    intro xs es i; cases es <;> simp [eulerCols, entry]
  intro k
  induction k with
  | zero =>
    intro m _ F hF xs hx c g hg
    refine rows_const _ _ _ fun l hl hr => ?_
    rw [hg l hl hr]
    simp [h0, eulerPath, eulerKernel]
  | succ k ih =>
    intro m hm F hF xs hx c g hg
    obtain ⟨m, rfl⟩ : ∃ m', m = m' + 1 := ⟨m - 1, by omega⟩
    set W : ℕ → ℝ → ℝ≥0∞ := fun i => eulerPath d v h ((List.range (k + 1)).map fun j => F (j + 1) i) with hW
    have mW : ∀ i, Measurable (W i) := fun i => measurable_eulerPath hd hv hh _ (by
      intro G hG
      obtain ⟨j, -, rfl⟩ := List.mem_map.1 hG
      exact hF _ _)
    have e1 : ∀ i x, eulerPath d v h ((List.range (k + 1 + 1)).map fun j => F j i) x = F 0 i x * eulerKernel d v h (W i) x := by
      intro i x
      rw [List.range_succ_eq_map, List.map_cons, List.map_map, eulerPath]
      rfl
    simp only [e1]
    rw [Prog.replicate, Prog.lexp_bind, Finset.prod_mul_distrib, ← mul_assoc]
    have key := row_prod ((List.range n).map fun i e => W i (xs[i]?.getD 0 + d (xs[i]?.getD 0) * h + v (xs[i]?.getD 0) * (Real.sqrt h * e)))
      (by
        intro G hG
        obtain ⟨i, -, rfl⟩ := List.mem_map.1 hG
        have := mW i
        fun_prop) (c * ∏ i ∈ Finset.range n, F 0 i (xs[i]?.getD 0))
    rw [List.length_map, List.length_range] at key
    rw [key]
    · rw [List.map_map, listRange_prod]
      congr 1
      refine Finset.prod_congr rfl fun i _ => ?_
      have := lintegral_gauss_affine (mW i) (xs[i]?.getD 0 + d (xs[i]?.getD 0) * h) (v (xs[i]?.getD 0) * √h) 0 zero_le_one
      rw [mul_zero, add_zero, mul_one, mul_pow, Real.sq_sqrt hh, Real.toNNReal_one] at this
      rw [eulerKernel, ← this]
      simp only [Function.comp, mul_assoc]
    · intro z hz
      rw [Prog.cont_ok, Prog.lexp_bind, prodAt_range _ hz]
      rw [ih m (by omega) (fun j => F (j + 1)) (fun j i => hF _ _) (List.zipWith (fun a b => a + d a * h + v a * b) xs (z.map fun e => Real.sqrt h * e)) (by simp [hx, hz])
        (c * ∏ i ∈ Finset.range n, F 0 i (xs[i]?.getD 0))]
      · congr 1
        refine Finset.prod_congr rfl fun i hi => ?_
        have hi' := Finset.mem_range.1 hi
        simp [hW, hx, hz, hi']
      · intro noise hl hr
        rw [Prog.cont_ok, Prog.lexp_ret, hg _ (by simp [hl]) (by simpa [hz] using hr), Finset.prod_range_succ', mul_assoc c]
        congr 1
        rw [mul_comm]
        congr 1

/-- **C118, joint law.** The rows of the array are independent and each is a path of the Euler chain: the expectation of a product of functions of all entries in columns `0` to `k` is the product over
the rows of the expectations along one chain. -/
theorem C118_paths {d v : ℝ → ℝ} (hd : Measurable d) (hv : Measurable v) {finT x0 res : ℝ} (hr : 0 < res) (n : ℕ) {k : ℕ} (hk : (k : ℝ) * res ≤ finT) {F : ℕ → ℕ → ℝ → ℝ≥0∞}
    (hF : ∀ j i, Measurable (F j i)) :
    (eulerSimulate n finT x0 d v res).lexp (onOk fun r => ∏ j ∈ Finset.range (k + 1), ∏ i ∈ Finset.range n, F j i (((r.2[j]?).getD [])[i]?.getD 0)) =
      ∏ i ∈ Finset.range n, eulerPath d v res ((List.range (k + 1)).map fun j => F j i) x0 := by
  rw [eulerSimulate, Prog.lexp_bind,
    cols_joint hd hv hr.le n k _ (Nat.le_floor ((le_div_iff₀ hr).2 hk)) F hF (List.replicate n x0) (by simp) 1]
  · rw [one_mul]
    refine Finset.prod_congr rfl fun i hi => ?_
    simp [Finset.mem_range.1 hi]
  · intro noise _ _
    rw [Prog.cont_ok, Prog.lexp_ret, one_mul]
    rfl

/-- The square in column 1, the positive half line in the other columns. -/
noncomputable def demoEntry (j _i : ℕ) (x : ℝ) : ℝ≥0∞ := if j = 1 then ENNReal.ofReal (x ^ 2) else if 0 ≤ x then 1 else 0

/-- Two trajectories at times 0, 1/10 and 2/10: the second moment of the middle value on the event that the others are not negative. -/
example : (eulerSimulate 2 1 0 (fun x => -x) (fun x => 1 + x ^ 2) (1 / 10)).lexp
      (onOk fun r => ∏ j ∈ Finset.range 3, ∏ i ∈ Finset.range 2, demoEntry j i (((r.2[j]?).getD [])[i]?.getD 0)) =
    ∏ i ∈ Finset.range 2, eulerPath (fun x => -x) (fun x => 1 + x ^ 2) (1 / 10) ((List.range 3).map fun j => demoEntry j i) 0 :=
  C118_paths (d := fun x => -x) (v := fun x => 1 + x ^ 2) (finT := 1) (x0 := 0) (res := 1 / 10) (k := 2) (F := demoEntry) (by fun_prop) (by fun_prop) (by norm_num) 2 (by norm_num) fun j i => by
    unfold demoEntry
    by_cases h : j = 1
    · simp only [if_pos h]; fun_prop
    · simp only [if_neg h]
      exact Measurable.ite measurableSet_Ici measurable_const measurable_const

end Ctb
