import Verif.Model.SwitchParams
import Verif.Spec.SwitchHidden
import Verif.Spec.Bfactories
import Mathlib.Logic.Relation

/-! # What the parameter update is supposed to do -/

namespace Ctb

variable {ζ : Type}

/-- `x'` is reached from seed `x` by flips of the parameter coin on some segment in regime `i` of the path. -/
def Flips {p : ℕ} (O : ParamOps p ζ) (nil prime : Thi p) (i : ℕ) : ζ → ζ → Prop :=
  Relation.ReflTransGen fun x x' => ∃ (seg : ℝ × ℕ × ℝ × ℝ) (up b : Bool), seg.2.1 = i ∧ (O.flip nil prime seg x up).Out (.ok (b, x'))

/-- The result of updating regime `i` alone: its row is the proposal `row` or the old one, the other rows are the old ones; seeds on
its segments were refined by flips of its coin, the others are the old ones. -/
structure SectionResult {p : ℕ} (O : ParamOps p ζ) (h : Anchorage ℝ ℝ) (nil : Thi p) (z : List ζ) (i : ℕ) (row : Fin p → ℝ)
    (acc : Bool) (thi : Thi p) (z' : List ζ) : Prop where
  own : thi i = if acc then row else nil i
  rest : ∀ k ≠ i, thi k = nil k
  len : z'.length = z.length
  seeds : ∀ (k : ℕ) (x x' : ζ), z[k]? = some x → z'[k]? = some x' →
    if h.yt[k]? = some i then Flips O nil (Function.update nil i row) i x x' else x' = x

/-- Every entry of the first `n` rows is positive. -/
def PosRows (n : ℕ) (thi : Thi 2) : Prop := ∀ i < n, ∀ j, 0 < thi i j

/-- The change of the log-weight of regime `i` when its row is replaced depends on nothing but the old and the new row. -/
def WeightLocal (M : SwitchFns 2) (n : ℕ) (h : Anchorage ℝ ℝ) (i : ℕ) : Prop :=
  ∃ δ : (Fin 2 → ℝ) → (Fin 2 → ℝ) → ℝ, ∀ (thi : Thi 2) (row : Fin 2 → ℝ), PosRows n thi → (∀ j, 0 < row j) →
    ∃ b, evalParamWeight M n thi h i = .ok (some b) ∧
      evalParamWeight M n (Function.update thi i row) h i = .ok (some (b + δ (thi i) row))

/-- Accepted, for a decision that reports only whether it accepted and the seeds. -/
def Taken {τ : Type} (r : Res (Bool × τ)) : Prop := ∃ v, r = .ok v ∧ v.1 = true

end Ctb
