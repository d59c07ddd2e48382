import Mathlib.Probability.Distributions.Gaussian.Real

/-! # The Euler chain of a scalar diffusion -/

namespace Ctb

open MeasureTheory ProbabilityTheory
open scoped ENNReal

/-- One step of length `h` of the Euler chain with drift `d` and volatility `v`: from `x` to a normal variable with mean `x + d(x) h` and variance
`v(x)² h`; the operator takes `F` to its expected value after the step. -/
noncomputable def eulerKernel (d v : ℝ → ℝ) (h : ℝ) (F : ℝ → ℝ≥0∞) (x : ℝ) : ℝ≥0∞ :=
  ∫⁻ y, F y ∂(gaussianReal (x + d x * h) (Real.toNNReal (v x ^ 2 * h)))

/-- Expectation of the product of the given functions at the successive values of the Euler chain started in `x`, the first one at the start. -/
noncomputable def eulerPath (d v : ℝ → ℝ) (h : ℝ) : List (ℝ → ℝ≥0∞) → ℝ → ℝ≥0∞
  | [], _ => 1
  | F :: Fs, x => F x * eulerKernel d v h (eulerPath d v h Fs) x

/-- Mean of the chain with drift `a + b x` after `k` steps. -/
noncomputable def eulerMean (a b h x : ℝ) : ℕ → ℝ
  | 0 => x
  | k + 1 => eulerMean a b h x k + (a + b * eulerMean a b h x k) * h

/-- Variance of the chain with drift `a + b x` and volatility `s` after `k` steps. -/
noncomputable def eulerVar (b s h : ℝ) : ℕ → ℝ
  | 0 => 0
  | k + 1 => (1 + b * h) ^ 2 * eulerVar b s h k + s ^ 2 * h

/-- The product of the values of functions at the entries of a list. -/
noncomputable def prodAt (Fs : List (ℝ → ℝ≥0∞)) (xs : List ℝ) : ℝ≥0∞ := (List.zipWith (fun F x => F x) Fs xs).prod

end Ctb
