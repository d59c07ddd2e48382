import Verif.Basic.Law

/-! # Expectation of the exponential of a log-weight (independent of the model) -/

namespace Ctb

open scoped ENNReal

/-- `exp v`, with `exp (-inf) = 0`. -/
noncomputable def expWeight : Option ℝ → ℝ≥0∞
  | some v => ENNReal.ofReal (Real.exp v)
  | none => 0

/-- `exp` of the first component of a result; an exception contributes nothing. -/
noncomputable def expFirst {β : Type} : Res (Option ℝ × β) → ℝ≥0∞
  | .ok (v, _) => expWeight v
  | .error _ => 0

end Ctb
