import Verif.Basic.Prog
import Mathlib.Data.ENNReal.Basic

/-! # Values of results -/

namespace Ctb

open scoped ENNReal

/-- Value of a function on normal results; errors count zero. -/
def onOk {α : Type} (F : α → ℝ≥0∞) : Res α → ℝ≥0∞
  | .ok a => F a
  | .error _ => 0

end Ctb
