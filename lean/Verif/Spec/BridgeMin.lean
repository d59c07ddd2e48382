import Verif.Spec.PathDensity

/-!
# Density of the minimum of a Brownian bridge and of its time
-/

namespace Ctb

/-- Density at time `s` of the first passage of a Brownian motion to a level at distance `a > 0`. -/
noncomputable def passDens (a s : ℝ) : ℝ := a / Real.sqrt (2 * Real.pi * s ^ 3) * Real.exp (-a ^ 2 / (2 * s))

/-- Joint density of the time `s` and the value `m` of the minimum of a Brownian bridge from `a` to `b` of duration `T`: seen from either end,
the path reaches `m` for the first time at `s`. -/
noncomputable def minDens (T a b s m : ℝ) : ℝ := 2 * passDens (a - m) s * passDens (b - m) (T - s) / normDensR T (b - a)

/-- The values between the bounds on the minimum; `none` is no lower bound. -/
def minRange (lb : Option ℝ) (u : ℝ) : Set ℝ := {m | (∀ l, lb = some l → l < m) ∧ m < u}

end Ctb
