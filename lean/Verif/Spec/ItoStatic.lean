import Verif.Spec.PathDensity
import Mathlib.MeasureTheory.Integral.IntervalIntegral.Basic
import Mathlib.Analysis.Calculus.Deriv.Basic

/-! # The density of a transition, up to the expectation over the bridge -/

namespace Ctb

/-- The factor of a transition from `v0` to `v1` in time `dt` by Girsanov's formula: the Brownian transition density of the transformed
state, times the exponential of the integrated drift, times the Jacobian of the transformation. -/
noncomputable def biasedDens (drift red : ℝ → ℝ) (dt v0 v1 : ℝ) : ℝ :=
  |deriv red v1| * normDensR dt (red v1 - red v0) * Real.exp (∫ x in red v0..red v1, drift x)

/-- The product over the transitions of a path. -/
noncomputable def biasedProd (drift red : ℝ → ℝ) : List (ℝ × ℝ) → ℝ
  | a :: b :: l => biasedDens drift red (b.1 - a.1) a.2 b.2 * biasedProd drift red (b :: l)
  | _ => 1

end Ctb
