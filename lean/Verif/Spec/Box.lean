import Mathlib.MeasureTheory.Measure.Lebesgue.Basic
import Mathlib.MeasureTheory.Integral.Lebesgue.Basic

/-! # Integrals over boxes -/

namespace Ctb

open MeasureTheory
open scoped ENNReal

/-- Lebesgue integral of `g` over `[0, b₁) × … × [0, bₖ)`, as an iterated integral. -/
noncomputable def boxInt : List ℝ → (List ℝ → ℝ≥0∞) → ℝ≥0∞
  | [], g => g []
  | b :: bs, g => ∫⁻ x in Set.Ico 0 b, boxInt bs fun r => g (x :: r)

open scoped Classical in
/-- Volume of the part of the box in a set of rows. -/
noncomputable def boxVol (bs : List ℝ) (A : Set (List ℝ)) : ℝ≥0∞ := boxInt bs fun r => if r ∈ A then 1 else 0

end Ctb
