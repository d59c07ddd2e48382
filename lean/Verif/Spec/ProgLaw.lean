import Verif.Basic.Law
import Verif.Lemmas.MeasFun
import Mathlib.Probability.Kernel.Defs

/-! # Laws of programs -/

namespace Ctb

open MeasureTheory ProbabilityTheory
open scoped ENNReal

variable {X α : Type} [MeasurableSpace X] [MeasurableSpace α]

/-- Expectations over the result of `p x`, exceptions included, are integrals with respect to `κ x`. -/
def IsLawOf (p : X → Prog α) (κ : Kernel X (Res α)) : Prop := ∀ x F, Measurable F → (p x).lexp F = ∫⁻ r, F r ∂κ x

/-- The result of `p x` has one law, a probability measure that depends measurably on `x`. -/
def HasLaw (p : X → Prog α) : Prop := ∃! κ : Kernel X (Res α), IsMarkovKernel κ ∧ IsLawOf p κ

end Ctb
