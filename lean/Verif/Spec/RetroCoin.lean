import Verif.Spec.Retro
import Verif.Model.Seed
import Verif.Basic.Law
import Verif.Spec.Value

/-! # Coins on paths that are revealed where the coin needs them -/

namespace Ctb

open Classical
open scoped ENNReal

/-- A skeleton of a path with a minimum or a maximum, without set flags. -/
def EaSkel.Plain (s : EaSkel) : Prop := s.Free ∨ s.neg.Free

/-- No point `(mark, time)` of `ps` is bad for a path with the values `x` at the times `t`. -/
def ClearOf (bad : ℝ × ℝ → ℝ → Prop) (ps : List (ℝ × ℝ)) (t x : List ℝ) : Prop := ∀ q ∈ t.zip x, ∀ p ∈ ps, p.2 = q.1 → ¬ bad p q.2

/-- No point lies below the graph of `disc - c` along the path. -/
def Clear (disc : ℝ → ℝ) (c : ℝ) (ps : List (ℝ × ℝ)) (t x : List ℝ) : Prop := ClearOf (fun p x => p.1 < disc x - c) ps t x

/-- The times of points, in order. -/
noncomputable def timesOf (ps : List (ℝ × ℝ)) : List ℝ := (ps.map Prod.snd).insertionSort (· ≤ ·)

/-- The path is revealed at the times of all points at once; probability that no point lies below its graph. -/
noncomputable def clearProb (n k : ℕ) (disc : ℝ → ℝ) (c : ℝ) (s : EaSkel) (ps : List (ℝ × ℝ)) : ℝ≥0∞ :=
  (interpolateSkel n k s (timesOf ps)).lexp (onOk fun r => if Clear disc c ps r.1.t r.1.x then 1 else 0)

/-- A path of length 1 is revealed at once at the times of all points of a path of length `T`; probability that no point is bad for the value there. -/
noncomputable def seedClearProb (n k : ℕ) (T : ℝ) (bad : ℝ × ℝ → ℝ → Prop) (z : EaSkel) (ps : List (ℝ × ℝ)) : ℝ≥0∞ :=
  (interpolateSkel n k z (timesOf (ps.map fun p => (p.1, p.2 / T)))).lexp (onOk fun r => if ∀ p ∈ ps, ∀ w, (p.2 / T, w) ∈ r.1.t.zip r.1.x → ¬ bad p w then 1 else 0)

end Ctb
