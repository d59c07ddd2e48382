import Mathlib.Analysis.SpecialFunctions.Exp
import Mathlib.MeasureTheory.Integral.IntervalIntegral.Basic

namespace Ctb

open scoped ENNReal

/-- Probability that a Poisson process of unit intensity has no point under the graph of `f` over `[0, T]`. -/
noncomputable def survival (f : ℝ → ℝ) (T : ℝ) : ℝ≥0∞ := ENNReal.ofReal (Real.exp (-∫ t in (0 : ℝ)..T, f t))

end Ctb
