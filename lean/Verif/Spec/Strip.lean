import Verif.Spec.Kernel

/-!
# Densities of a Brownian path between two levels, by the method of images
-/

namespace Ctb

open scoped ENNReal

open Classical in
/-- Transition density of a Brownian motion killed at the levels `m < U`: the sum over the images of `y` under the reflections at the two levels. -/
noncomputable def stripDens (U m v x y : ℝ) : ℝ≥0∞ :=
  if m < x ∧ x < U ∧ m < y ∧ y < U then
    ENNReal.ofReal (∑' k : ℤ, (normDensR v (y - x + 2 * k * (U - m)) - normDensR v (x + y - 2 * m + 2 * k * (U - m)))) else 0

open Classical in
/-- Entrance density at `y` after the duration `v` of a Brownian motion that starts at `m` and stays between `m` and `U`. -/
noncomputable def stripEntr (U m v y : ℝ) : ℝ≥0∞ :=
  if m < y ∧ y < U then ENNReal.ofReal (∑' k : ℤ, passDens (y - m + 2 * k * (U - m)) v) else 0

/-- Density at `b` after the duration `T` of a Brownian motion that starts in `a` and stays between the bounds; `none` is no bound. -/
noncomputable def spaceDens (T a b : ℝ) : Option ℝ → Option ℝ → ℝ≥0∞
  | none, none => ENNReal.ofReal (normDensR T (b - a))
  | some l, none => killDens l T a b
  | none, some u => killDens (-u) T (-a) (-b)
  | some l, some u => stripDens u l T a b

end Ctb
