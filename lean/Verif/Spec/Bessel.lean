import Verif.Spec.Kernel

/-!
# Specification of a Markov chain with a free end, and of the Bessel process in one and three dimensions
-/

namespace Ctb

open MeasureTheory
open scoped ENNReal

/-- Integral of `F` over the values of a path that starts in `x` and passes through segments of durations `vs`, where `k v x y` is the transition density
from `x` to `y` in a segment of duration `v`. -/
noncomputable def freeInt {α : Type} [MeasureSpace α] (k : ℝ → α → α → ℝ≥0∞) : List ℝ → α → (List α → ℝ≥0∞) → ℝ≥0∞
  | [], _, F => F []
  | v :: vs, x, F => ∫⁻ y, k v x y * freeInt k vs y fun l => F (y :: l)

open Classical in
/-- Transition density of the Bessel process of dimension 3: a Brownian motion killed at 0 in the ground state transform `y / x`, and its entrance law
from 0. -/
noncomputable def bes3Dens (v x y : ℝ) : ℝ≥0∞ :=
  if 0 < x then ENNReal.ofReal (y / x) * killDens 0 v x y else ENNReal.ofReal (2 * y) * entrDens 0 v y

open Classical in
/-- Transition density of the Bessel process of dimension 1: a Brownian motion reflected at 0. -/
noncomputable def bes1Dens (v x y : ℝ) : ℝ≥0∞ := if 0 < y then normDens v (y - x) + normDens v (y + x) else 0

end Ctb
