import Verif.Spec.Strip
import Verif.Spec.EaSkel

/-!
# Paths that are known at some times and filled in at others
-/

namespace Ctb

open MeasureTheory Classical
open scoped ENNReal

/-- Density of a segment of duration `v` from `x` to `y` of a path that stays below `U` and has the infimum `m`, which either end may attain. -/
noncomputable def edgeKer (U m v x y : ℝ) : ℝ≥0∞ := if x = m then stripEntr U m v y else if y = m then stripEntr U m v x else stripDens U m v x y

/-- Integral of `F` over the values after time `s` of a path that starts in `x` at time `s`: each later time comes with the known value, or with none
if the value is integrated over. -/
noncomputable def pinInt (K : ℝ → ℝ → ℝ → ℝ≥0∞) : ℝ → ℝ → List (ℝ × Option ℝ) → (List ℝ → ℝ≥0∞) → ℝ≥0∞
  | _, _, [], F => F []
  | s, x, (t, some y) :: l, F => K (t - s) x y * pinInt K t y l fun ys => F (y :: ys)
  | s, x, (t, none) :: l, F => ∫⁻ y, K (t - s) x y * pinInt K t y l fun ys => F (y :: ys)

/-- The times of `newT` strictly between `s` and `t`. -/
noncomputable def between (newT : List ℝ) (s t : ℝ) : List ℝ := newT.filter fun r => decide (s < r ∧ r < t)

/-- The points after time `s`, with the new times put in between. -/
noncomputable def weave (newT : List ℝ) : ℝ → List (ℝ × Option ℝ) → List (ℝ × Option ℝ)
  | _, [] => []
  | s, q :: l => (between newT s q.1).map (fun r => (r, none)) ++ q :: weave newT q.1 l

/-- The points of a skeleton after its start. -/
def EaSkel.points (s : EaSkel) : List (ℝ × Option ℝ) := s.t.tail.zip (s.x.tail.map some)

/-- No gap of the skeleton is flagged as one in which the path hits the level. -/
def EaSkel.NoHit (s : EaSkel) : Prop := ∀ hs, s.hitI = some hs → true ∉ hs

/-- The level that the path of a skeleton without flagged gap does not reach: the hitting level, or the loose edge if there is none. -/
def EaSkel.bound (s : EaSkel) : ℝ := if s.hitI = none then s.loose else s.hitX

/-- A skeleton of a path with a minimum and without flagged gap: its values are below the bound, and the minimum is not attained at both ends of a gap. -/
structure EaSkel.Free (s : EaSkel) : Prop where
  valid : s.Valid
  hit : s.tight < s.hitX ∧ s.hitX < s.loose
  free : s.NoHit
  inside : ∀ v ∈ s.x, s.tight ≤ v ∧ v < s.bound
  apart : s.x.IsChain fun a b => s.tight < a ∨ s.tight < b

/-- The skeleton of the path turned upside down. -/
def EaSkel.neg (s : EaSkel) : EaSkel := ⟨s.t, s.x.map (-·), -s.tight, -s.loose, -s.hitX, s.hitI⟩

/-- Times at which a skeleton can be filled in. -/
def EaSkel.Times (s : EaSkel) (newT : List ℝ) : Prop := newT.Pairwise (· < ·) ∧ ∀ r ∈ newT, 0 ≤ r ∧ ∃ f ∈ s.t, r ≤ f

end Ctb
