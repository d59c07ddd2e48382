import Mathlib.Data.Real.Basic

/-! # Consecutive pairs of a list -/

namespace Ctb

/-- Neighbouring entries, one pair per gap. -/
def pairsOf {α : Type} : List α → List (α × α)
  | a :: b :: l => (a, b) :: pairsOf (b :: l)
  | _ => []

end Ctb
