import Verif.Spec.BridgeMin

/-!
# Densities of paths built from transition kernels
-/

namespace Ctb

open MeasureTheory
open scoped ENNReal

/-- Integral of `F` over the values of a path that starts in `x`, passes through segments of durations `vs` and ends in `x1`, where `k v x y` is the
weight of going from `x` to `y` in a segment of duration `v`. -/
noncomputable def kerInt {α : Type} [MeasureSpace α] (k : ℝ → α → α → ℝ≥0∞) (x1 : α) : List ℝ → α → (List α → ℝ≥0∞) → ℝ≥0∞
  | [], _, _ => 0
  | [v], x, F => k v x x1 * F []
  | v :: w :: vs, x, F => ∫⁻ y, k v x y * kerInt k x1 (w :: vs) y fun l => F (y :: l)

/-- The same for a path whose first segment has the weight `e v y` of entering in `y` after the duration `v`. -/
noncomputable def startInt {α : Type} [MeasureSpace α] (e : ℝ → α → ℝ≥0∞) (k : ℝ → α → α → ℝ≥0∞) (x1 : α) :
    List ℝ → (List α → ℝ≥0∞) → ℝ≥0∞
  | [], _ => 0
  | [v], F => e v x1 * F []
  | v :: w :: vs, F => ∫⁻ y, e v y * kerInt k x1 (w :: vs) y fun l => F (y :: l)

open Classical in
/-- Transition density of a Brownian motion killed at `m`, by reflection. -/
noncomputable def killDens (m v x y : ℝ) : ℝ≥0∞ :=
  if m < x ∧ m < y then ENNReal.ofReal (normDensR v (y - x) - normDensR v (x + y - 2 * m)) else 0

open Classical in
/-- Entrance density at `y` after the duration `v` of a Brownian motion that starts at `m` and stays above it: the first-passage density of the
reversed path. -/
noncomputable def entrDens (m v y : ℝ) : ℝ≥0∞ := if m < y then ENNReal.ofReal (passDens (y - m) v) else 0

end Ctb
