import Verif.Spec.Generator
import Mathlib.MeasureTheory.Measure.Lebesgue.Basic
import Mathlib.Analysis.SpecialFunctions.Pow.Real

/-!
# Densities of transition rates and of paths of a jump process
-/

namespace Ctb

open MeasureTheory Set
open scoped ENNReal

/-- The pairs of distinct states below `d`. -/
def offPairs (d : ℕ) : List (ℕ × ℕ) :=
  ((List.range d).flatMap fun i => (List.range d).map fun j => (i, j)).filter fun p => decide (p.1 ≠ p.2)

/-- Replace one rate. -/
def setRate (g : Mat) (p : ℕ × ℕ) (x : ℝ) : Mat := fun i j => if i = p.1 ∧ j = p.2 then x else g i j

/-- Lebesgue integral of `K` over all positive values of the rates of the listed pairs; the other entries are zero. -/
noncomputable def ratesInt : List (ℕ × ℕ) → (Mat → ℝ≥0∞) → ℝ≥0∞
  | [], K => K fun _ _ => 0
  | p :: l, K => ∫⁻ x in Ioi (0 : ℝ), ratesInt l fun g => K (setRate g p x)

/-- The generator with the given off-diagonal rates. -/
noncomputable def genOf (d : ℕ) (g : Mat) : Fin d → Fin d → ℝ := fun i j =>
  if i = j then -∑ k : Fin d, (if i = k then 0 else g i k) else g i j

/-- Gamma density of shape `a` and rate `b`, up to its constant. -/
noncomputable def gammaKer (a b x : ℝ) : ℝ := x ^ (a - 1) * Real.exp (-(b * x))

/-- Prior of the rates up to a constant: independent gamma variables with shapes `A` and rates `B`. -/
noncomputable def ratePrior (d : ℕ) (A B g : Mat) : ℝ≥0∞ :=
  ENNReal.ofReal (∏ i : Fin d, ∏ j : Fin d, if i = j then 1 else gammaKer (A i j) (B i j) (g i j))

/-- Density of the jumps and holding times up to time `u` of a path of the process with generator `Q`: the rate of every jump times the probability of
holding, `exp (Q i i · time spent in i)`. -/
noncomputable def Skel.density {d : ℕ} (sk : Skel ℝ) (Q : Fin d → Fin d → ℝ) (u : ℝ) : ℝ≥0∞ :=
  ENNReal.ofReal ((∏ i : Fin d, ∏ j : Fin d, if i = j then 1 else Q i j ^ (sk.xt.zip sk.xt.tail).count ((i : ℕ), (j : ℕ))) *
    Real.exp (∑ i : Fin d, Q i i * (volume (sk.timesIn i u)).toReal))

/-- The part of an array that is read, NaN as zero. -/
noncomputable def readMat (d : ℕ) (m : NMat) : Fin d → Fin d → ℝ := fun i j => (m i j).getD 0

end Ctb
