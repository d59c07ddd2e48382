import Verif.Props.ItoHidden

set_option linter.unusedSectionVars false

/-! # C98: the coin of several bridges -/

namespace Ctb

open Classical MeasureTheory
open scoped ENNReal

variable {ζ : Type}

/-- The coin of several bridges shows heads with the product of their probabilities. -/
theorem C98_coins (O : SdeOps ζ) (t vt : List ℝ) (z : List ζ) (hz : z.zip (O.ops t vt) ≠ [])
    (hf : ∀ q ∈ z.zip (O.ops t vt), (O.flip q.2 q.1).lexp (onOk fun r => if r.1 then 1 else 0) ≠ ∞) :
    (flipSdeCoins O t vt z).lexp (onOk fun r => if r.1 then 1 else 0) =
      ((z.zip (O.ops t vt)).map fun q => (O.flip q.2 q.1).lexp (onOk fun r => if r.1 then 1 else 0)).prod := by
  have key := mapM'_prod (f := fun q : ζ × NormOp => O.flip q.2 q.1) (z.zip (O.ops t vt))
    (List.replicate (z.zip (O.ops t vt)).length fun r : Bool × ℝ × ζ => if r.1 then (1 : ℝ≥0∞) else 0) (by simp)
    (by
      intro F hF b
      rw [List.eq_of_mem_replicate hF]
      beta_reduce
      split_ifs <;> simp)
    (by
      intro F hF a ha
      rw [List.eq_of_mem_replicate hF]
      exact hf a ha)
  have e : List.zipWith (fun (F : Bool × ℝ × ζ → ℝ≥0∞) (a : ζ × NormOp) => (O.flip a.2 a.1).lexp (onOk F))
      (List.replicate (z.zip (O.ops t vt)).length fun r : Bool × ℝ × ζ => if r.1 then (1 : ℝ≥0∞) else 0) (z.zip (O.ops t vt)) =
      (z.zip (O.ops t vt)).map fun q => (O.flip q.2 q.1).lexp (onOk fun r => if r.1 then 1 else 0) := by
    generalize z.zip (O.ops t vt) = l
    induction l with
    | nil => rfl
    | cons a l ih => rw [List.length_cons, List.replicate_succ, List.zipWith_cons_cons, ih, List.map_cons]
  rw [e] at key
  unfold flipSdeCoins
  rw [if_neg (by simpa using hz), ← key, Prog.lexp_bind]
  refine Prog.lexp_congr fun r hr => ?_
  match r, hr with
  | .error e, _ => rfl
  | .ok rs, hr =>
    have hl : rs.length = (z.zip (O.ops t vt)).length := (Prog.out_mapM'_ok.1 hr).length_eq.symm
    rw [Prog.cont_ok, Prog.lexp_ret]
    simp only [onOk]
    rw [← hl]
    clear hr hl key
    induction rs with
    | nil => simp [prodVal]
    | cons a l ih =>
      rw [List.length_cons, List.replicate_succ]
      obtain ⟨v, q⟩ := a
      simp only [List.all_cons, prodVal] at ih ⊢
      cases v
      · simp
      · simpa using ih

/-- Two coins of probability 1/3. -/
example : (flipSdeCoins (ζ := ℝ) ⟨fun _ _ => [⟨1, 1, 0, 0⟩, ⟨2, 1, 0, 0⟩], fun _ _ => .ok 0, fun _ z => (uniformCoin (1 / 3) ()).bind fun r => .ret (r.1, 0, z)⟩ [0, 1, 3] [0, 0, 0]
    [5, 6]).lexp (onOk fun r => if r.1 then 1 else 0) = ENNReal.ofReal (1 / 9) := by
  have h : ∀ z : ℝ, ((uniformCoin (1 / 3) ()).bind fun r => Prog.ret (r.1, (0 : ℝ), z)).lexp (onOk fun r => if r.1 then 1 else 0) = ENNReal.ofReal (1 / 3) := by
    intro z
    have := (uniformCoin_isCoin (p := 1 / 3) (by norm_num) (by norm_num) () trivial).1 1 0 0
    rw [mul_one, mul_zero, add_zero] at this
    rw [← this, Prog.lexp_bind]
    refine Prog.lexp_congr fun r _ => ?_
    rcases r with e | ⟨b, q⟩
    · rfl
    · cases b <;> simp [onOk, coinVal]
  rw [C98_coins _ _ _ _ (by simp)]
  · simp only [List.zip_cons_cons, List.zip_nil_left, List.map_cons, List.map_nil, h, List.prod_cons, List.prod_nil, mul_one]
    rw [← ENNReal.ofReal_mul (by norm_num)]
    norm_num
  · intro q _
    simp only [h]
    exact ENNReal.ofReal_ne_top

end Ctb
