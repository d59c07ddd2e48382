import Verif.Lemmas.Bfactories
import Verif.Model.SwitchParams

/-! # Flipping one coin per segment -/

set_option linter.unusedSectionVars false

namespace Ctb

open scoped ENNReal

variable {α ζ : Type}

/-- Value `a` if all flips are heads, `b` if some are tails, `e` on an exception. -/
def flipsVal (a b e : ℝ≥0∞) : Res (List (Bool × ζ)) → ℝ≥0∞
  | .ok r => if r.all Prod.fst then a else b
  | .error _ => e

theorem one_sub_mul_add {p q : ℝ≥0∞} (hp : p ≤ 1) (hq : q ≤ 1) : p * (1 - q) + (1 - p) = 1 - p * q := by
  have hpt : p ≠ ∞ := ne_top_of_le_ne_top ENNReal.one_ne_top hp
  have hle : p * q ≤ p := by simpa using mul_le_mul_right hq p
  rw [ENNReal.mul_sub (fun _ _ => hpt), mul_one]
  refine ENNReal.eq_sub_of_add_eq (ne_top_of_le_ne_top hpt hle) ?_
  rw [add_right_comm, tsub_add_cancel_of_le hle, add_tsub_cancel_of_le hp]

/-- Independent coins, one per element: all heads with the product of the probabilities. -/
theorem mapCoins_lexp {f : α → Prog (Bool × ζ)} {p : α → ℝ≥0∞} : ∀ (l : List α), (∀ q ∈ l, p q ≤ 1) →
    (∀ q ∈ l, ∀ a b e, (f q).lexp (fun r => coinVal a b e (r.map fun v => (v.1, v.2, v.2))) = p q * a + (1 - p q) * b) →
    ∀ a b e, (Prog.mapM' f l).lexp (flipsVal a b e) = (l.map p).prod * a + (1 - (l.map p).prod) * b
  | [], _, _, a, b, e => by simp [Prog.mapM', Prog.lexp_ret, flipsVal]
  | q :: l, hp, hc, a, b, e => by
    have hp' : ∀ q ∈ l, p q ≤ 1 := fun x hx => hp x (List.mem_cons_of_mem _ hx)
    have ih := mapCoins_lexp l hp' fun x hx => hc x (List.mem_cons_of_mem _ hx)
    have hle : (l.map p).prod ≤ 1 := by
      clear ih hc hp
      induction l with
      | nil => simp
      | cons x l ih =>
        rw [List.map_cons, List.prod_cons]
        exact mul_le_one' (hp' x List.mem_cons_self) (ih fun y hy => hp' y (List.mem_cons_of_mem _ hy))
    have hs : ∀ r : Res (Bool × ζ), Prog.cont (fun v => (Prog.mapM' f l).bind fun vs => Prog.ret (v :: vs)) (flipsVal a b e) Prog.lexp r =
        coinVal ((l.map p).prod * a + (1 - (l.map p).prod) * b) b e (r.map fun v => (v.1, v.2, v.2)) := by
      intro r
      rcases r with e' | ⟨v, x⟩
      · rfl
      · rw [Prog.cont_ok, Prog.lexp_bind]
        have hk : ∀ r' : Res (List (Bool × ζ)), Prog.cont (fun vs => Prog.ret ((v, x) :: vs)) (flipsVal a b e) Prog.lexp r' =
            flipsVal (if v then a else b) b e r' := by
          intro r'
          rcases r' with e' | vs
          · rfl
          · cases v <;> simp only [Prog.cont_ok, Prog.lexp_ret, flipsVal, List.all_cons, Bool.false_and, Bool.true_and, Bool.false_eq_true, if_false, if_true, ite_self]
        rw [funext hk, ih]
        cases v
        · simp only [Bool.false_eq_true, if_false, Except.map, coinVal]
          rw [← add_mul, add_tsub_cancel_of_le hle, one_mul]
        · simp only [if_true, Except.map, coinVal]
    rw [Prog.mapM', Prog.lexp_bind, funext hs, hc q List.mem_cons_self, List.map_cons, List.prod_cons,
      ← one_sub_mul_add (hp q List.mem_cons_self) hle]
    ring

/-- A one-segment coin as a coin on its seed. -/
theorem segCoin_lexp {f : Prog (Bool × ζ)} (a b e : ℝ≥0∞) :
    (f.bind fun r => Prog.ret (r.1, r.2, r.2)).lexp (coinVal a b e) = f.lexp fun r => coinVal a b e (r.map fun v => (v.1, v.2, v.2)) := by
  rw [Prog.lexp_bind]
  congr 1; ext r
  rcases r with e' | ⟨v, x⟩ <;> rfl

theorem segCoin_out {f : Prog (Bool × ζ)} {r : Bool × ζ} (h : f.Out (.ok r)) :
    (f.bind fun r => Prog.ret (r.1, r.2, r.2)).Out (.ok (r.1, r.2, r.2)) :=
  Prog.out_bind_ok.2 ⟨r, h, Prog.out_ret.2 rfl⟩

end Ctb
