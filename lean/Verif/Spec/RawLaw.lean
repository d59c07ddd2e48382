import Verif.Spec.Strip
import Verif.Model.Interp
import Mathlib.Analysis.SpecialFunctions.Pow.Real
import Mathlib.Algebra.BigOperators.Fin

/-!
# Layers around the end points of a bridge, and skeletons with one inner time
-/

namespace Ctb

open MeasureTheory
open scoped ENNReal

/-- Lower edge of layer `k`: the level below which a bridge from `a` to `b` of duration `T` falls with probability `1 / (k² + 1)`. -/
noncomputable def layerLow (T a b : ℝ) (k : ℕ) : ℝ := (a + b - √((b - a) ^ 2 + 2 * T * Real.log ((k : ℝ) ^ 2 + 1))) / 2

/-- Upper edge of layer `k`, the mirror image of the lower one. -/
noncomputable def layerHigh (T a b : ℝ) (k : ℕ) : ℝ := a + b - layerLow T a b k

/-- The skeleton of a bridge in layer `k + 1` whose minimum `m` is attained at time `s`. -/
noncomputable def minSkel (T a b : ℝ) (k : ℕ) (flags : Option (List Bool)) (s m : ℝ) : EaSkel :=
  ⟨[0, s, T], [a, m, b], m, layerHigh T a b (k + 1), layerHigh T a b k, flags⟩

/-- Its mirror image: the maximum `a + b - m` is attained at time `T - s`. -/
noncomputable def maxSkel (T a b : ℝ) (k : ℕ) (flags : Option (List Bool)) (s m : ℝ) : EaSkel :=
  ⟨[0, T - s, T], [a, a + b - m, b], a + b - m, layerLow T a b (k + 1), layerLow T a b k, flags.map List.reverse⟩

/-- A test function that is measurable in the time and the value of the inner point. -/
def SkelMeas (T a b : ℝ) (G : EaSkel → ℝ≥0∞) : Prop := ∀ u v fl, Measurable fun p : ℝ × ℝ => G ⟨[0, p.1, T], [a, p.2, b], p.2, u, v, fl⟩

/-- Density at `y` after the duration `v` of a path that leaves its minimum `m` and stays below `U`, given whether it passes `H ≤ U`. -/
noncomputable def passEntr (U H m v y : ℝ) (hit : Bool) : ℝ≥0∞ := if hit then stripEntr U m v y - stripEntr H m v y else stripEntr H m v y

/-- Integral over the times and values of minima between the levels `l` and `u`. -/
noncomputable def sectorInt (T l u : ℝ) (f : ℝ → ℝ → ℝ≥0∞) : ℝ≥0∞ := ∫⁻ m in Set.Ioo l u, ∫⁻ s in Set.Ioo 0 T, f s m

/-- Integral of `G` over the skeletons of the bridges that stay in layer `k + 1` and leave layer `k`.  If the bridge leaves layer `k` on one side only,
the skeleton has its extreme value on that side; if it leaves it on both sides, it is the minimum or the maximum with the same weight.  Layer 0
has the end points as edges, so everything leaves it on both sides, and there are no flags. -/
noncomputable def layerInt (T a b : ℝ) : ℕ → (EaSkel → ℝ≥0∞) → ℝ≥0∞
  | 0, G => sectorInt T (layerLow T a b 1) (layerLow T a b 0) fun s m =>
      stripEntr (layerHigh T a b 1) m s a * stripEntr (layerHigh T a b 1) m (T - s) b * (G (minSkel T a b 0 none s m) + G (maxSkel T a b 0 none s m))
  | k + 1, G => sectorInt T (layerLow T a b (k + 2)) (layerLow T a b (k + 1)) fun s m => ∑ f : Bool × Bool,
      (if f.1 ∨ f.2 then 1 else 2) * (passEntr (layerHigh T a b (k + 2)) (layerHigh T a b (k + 1)) m s a f.1 *
        passEntr (layerHigh T a b (k + 2)) (layerHigh T a b (k + 1)) m (T - s) b f.2) *
      (G (minSkel T a b (k + 1) (some [f.1, f.2]) s m) + G (maxSkel T a b (k + 1) (some [f.1, f.2]) s m))

/-- The side of the extreme value: the minimum is below the other edge. -/
def onMinSide (s : EaSkel) : Prop := s.tight < s.loose

/-- Probability that one of `n` rounds succeeds, where a round breaks off with probability `1 - τ` and else succeeds with probability `A`. -/
noncomputable def roundsOk (n : ℕ) (τ A : ℝ≥0∞) : ℝ≥0∞ := A * τ * ∑ i ∈ Finset.range n, (τ * (1 - A)) ^ i

end Ctb
