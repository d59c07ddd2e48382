import Verif.Spec.Value
import Verif.Basic.Law
import Mathlib.MeasureTheory.Integral.Lebesgue.Basic

/-! # Rejection sampling -/

namespace Ctb

open MeasureTheory
open scoped ENNReal

/-- The value of a round that ended: `F` of the accepted object, `c` after a rejection, nothing after an exception. -/
noncomputable def trialVal {τ σ : Type} (F : τ → ℝ≥0∞) (c : ℝ≥0∞) : Res ((Bool × τ) × σ) → ℝ≥0∞
  | .ok ((true, x), _) => F x
  | .ok ((false, _), _) => c
  | .error _ => 0

/-- From every state in `I` a round accepts an object with the sub-probability law `μ` and rejects with probability `w`, and leads to a state in
`I`. -/
def IsTrial {τ σ : Type} [MeasurableSpace τ] (I : Set σ) (step : σ → Prog ((Bool × τ) × σ)) (μ : Measure τ) (w : ℝ≥0∞) : Prop :=
  ∀ s ∈ I, (∀ F c, Measurable F → (step s).lexp (trialVal F c) = ∫⁻ x, F x ∂μ + w * c) ∧ ∀ r, (step s).Out (.ok r) → r.2 ∈ I

/-- `∏ F_i (b_i)` for lists of the same length, zero otherwise. -/
noncomputable def prodVal {β : Type} : List (β → ℝ≥0∞) → List β → ℝ≥0∞
  | [], [] => 1
  | F :: Fs, b :: bs => F b * prodVal Fs bs
  | _, _ => 0

end Ctb
