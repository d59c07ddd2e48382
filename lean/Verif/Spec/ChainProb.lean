import Mathlib.Analysis.Normed.Algebra.MatrixExponential

/-! # Probabilities of a jump process at several times -/

namespace Ctb

/-- Probability that the jump process with generator `G`, in `x` at time `t`, is in the listed states at the listed times. -/
noncomputable def chainProb {d : ℕ} (G : Matrix (Fin d) (Fin d) ℝ) : ℝ → Fin d → List (ℝ × Fin d) → ℝ
  | _, _, [] => 1
  | t, x, (s, y) :: l => NormedSpace.exp ((s - t) • G) x y * chainProb G s y l

end Ctb
