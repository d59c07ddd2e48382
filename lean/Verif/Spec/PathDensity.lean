import Verif.Basic.Prog
import Mathlib.MeasureTheory.Measure.Lebesgue.Basic
import Mathlib.Analysis.Real.Sqrt
import Mathlib.Analysis.SpecialFunctions.Trigonometric.Basic

/-!
# Densities of Brownian paths at finitely many times
-/

namespace Ctb

open MeasureTheory
open scoped ENNReal

/-- Density at `x` of the centred normal distribution with variance `v`. -/
noncomputable def normDensR (v x : ℝ) : ℝ := Real.exp (-x ^ 2 / (2 * v)) / Real.sqrt (2 * Real.pi * v)

/-- The same as an extended non-negative number. -/
noncomputable def normDens (v x : ℝ) : ℝ≥0∞ := ENNReal.ofReal (normDensR v x)

/-- Integral of `F` over the values of a path that starts in `x`, runs through segments whose increments have the variances `vs`, and ends in `x1`:
Lebesgue measure on the values between the segments, weighted with the product of the densities of all increments. -/
noncomputable def pathInt (x1 : ℝ) : List ℝ → ℝ → (List ℝ → ℝ≥0∞) → ℝ≥0∞
  | [], _, _ => 0
  | [v], x, F => normDens v (x1 - x) * F []
  | v :: w :: vs, x, F => ∫⁻ y, normDens v (y - x) * pathInt x1 (w :: vs) y fun l => F (y :: l)

/-- Integral of `F` over the values of a path at finitely many anchors.  The path starts in `x`; each segment has an increment variance and, if its
right end is observed, the value there.  Observed values are kept, the others integrated with Lebesgue measure, and everything is weighted
with the product of the densities of all increments. -/
noncomputable def anchInt : List (ℝ × Option ℝ) → ℝ → (List ℝ → ℝ≥0∞) → ℝ≥0∞
  | [], _, F => F []
  | (v, some w) :: l, x, F => normDens v (w - x) * anchInt l w fun m => F (w :: m)
  | (v, none) :: l, x, F => ∫⁻ y, normDens v (y - x) * anchInt l y fun m => F (y :: m)

/-- The segments of a path with anchors at the times and in the regimes of `l`, at volatility `vol` per regime; `obs` holds the observations. -/
noncomputable def segSpec (vol : ℕ → ℝ) (obs : List (ℝ × ℝ)) : List (ℝ × ℕ) → List (ℝ × Option ℝ)
  | (a, y) :: (b, z) :: l => ((b - a) * vol y ^ 2, obs.lookup b) :: segSpec vol obs ((b, z) :: l)
  | _ => []

end Ctb
