import Verif.Spec.Generator
import Mathlib.Analysis.Normed.Algebra.MatrixExponential
import Mathlib.Analysis.SpecialFunctions.Exp
import Mathlib.MeasureTheory.Measure.Lebesgue.Basic

/-!
# The law of a jump process through its sufficient statistics

The end state, the numbers of jumps between each pair of states and the times spent in each state are what the package uses of a path.
Their joint law is given by the expectations of `θ^counts · e^{-v · times}` on the event that the path ends in `j`, for all `θ ≥ 0` and all `v`.
For the jump process with generator `Q` started in `i` this expectation is the entry `(i, j)` of `exp (T Q')`, where `Q'` has the off-diagonal
rates multiplied by `θ` and `v` subtracted from the diagonal.
-/

namespace Ctb

open MeasureTheory
open scoped ENNReal

/-- Generator with the rate of each jump `i → k` multiplied by `θ i k` and killing at rate `v i`. -/
def tilted (d : ℕ) (g : Mat) (θ : ℕ → ℕ → ℝ) (v : ℕ → ℝ) : Matrix (Fin d) (Fin d) ℝ := fun i k =>
  if i = k then g i i - v i else θ i k * g i k

/-- `θ^counts · e^{-v · times}` for a path that ends in `j`, zero for other paths. -/
noncomputable def Skel.weight (sk : Skel ℝ) (d : ℕ) (θ : ℕ → ℕ → ℝ) (v : ℕ → ℝ) (j : ℕ) : ℝ≥0∞ :=
  if sk.xt.getLast? = some j then
    ENNReal.ofReal ((∏ i ∈ Finset.range d, ∏ k ∈ Finset.range d, θ i k ^ (sk.xt.zip sk.xt.tail).count (i, k)) *
      Real.exp (-∑ i ∈ Finset.range d, v i * (volume (sk.timesIn i sk.fin)).toReal))
  else 0

/-- The weight of a returned path; an exception counts zero. -/
noncomputable def atSkel (f : Skel ℝ → ℝ≥0∞) : Res (Skel ℝ) → ℝ≥0∞
  | .ok sk => f sk
  | .error _ => 0

end Ctb
