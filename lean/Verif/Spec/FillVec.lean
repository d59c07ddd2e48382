import Verif.Basic.Prog
import Mathlib.Analysis.SpecialFunctions.Pow.Real

/-!
# Reference for C107: one point of a Brownian bridge in some of the gaps of a path

A path continues from a time and a value with segments: the new time in the gap, if any, and the time and the value at its end.
-/

namespace Ctb

/-- A gap with at most one new time, and the time and the value at its end. -/
abbrev GapSeg := Option ℝ × ℝ × ℝ

/-- Times increase. -/
def SegsOk : ℝ → List GapSeg → Prop
  | _, [] => True
  | t0, (r, t, _) :: l => t0 < t ∧ (∀ a, r = some a → t0 < a ∧ a < t) ∧ SegsOk t l

/-- The path with the new points: the value at `r` in the gap from `(t0, x0)` to `(t, x)` is normal with the mean on the chord and the variance of the
bridge, independently in all gaps. -/
noncomputable def segPath : ℝ → ℝ → List GapSeg → Prog (List (ℝ × ℝ))
  | _, _, [] => .ret []
  | _, _, (none, t, x) :: l => (segPath t x l).bind fun p => .ret ((t, x) :: p)
  | t0, x0, (some r, t, x) :: l => .real (.normal 0 1) fun z =>
    (segPath t x l).bind fun p =>
      .ret ((r, ((t - r) * x0 + (r - t0) * x) / (t - t0) + Real.sqrt ((r - t0) * (t - r) / (t - t0)) * z) :: (t, x) :: p)

/-- Positions of the new points if the first one would be at `k`. -/
def segPos : ℕ → List GapSeg → List ℕ
  | _, [] => []
  | k, (none, _) :: l => segPos (k + 1) l
  | k, (some _, _) :: l => k :: segPos (k + 2) l

end Ctb
