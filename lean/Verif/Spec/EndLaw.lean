import Verif.Spec.Ars

/-! # The law with a given log density -/

namespace Ctb

open MeasureTheory
open scoped ENNReal

/-- The probability measure on `S` with density proportional to `exp f`. -/
noncomputable def expLaw (f : ℝ → ℝ) (S : Set ℝ) : Measure ℝ :=
  (expMass f S Set.univ)⁻¹ • (volume.restrict S).withDensity fun t => ENNReal.ofReal (Real.exp (f t))

end Ctb
