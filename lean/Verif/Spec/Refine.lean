import Mathlib.Data.Real.Basic
import Mathlib.Data.List.Forall2
import Verif.Spec.Gaps

/-! # What it means to refine a path known at finitely many times -/

namespace Ctb

/-- `(t', x')` is a refinement of `(t, x)` by the times `newT`, at which it takes the values `vals`. -/
structure Refines (t x newT t' x' vals : List ℝ) : Prop where
  /-- times stay strictly increasing -/
  sorted : t'.Pairwise (· < ·)
  /-- exactly the new times are added -/
  times : ∀ r, r ∈ t' ↔ r ∈ t ∨ r ∈ newT
  /-- one value per time -/
  len : x'.length = t'.length
  /-- stored pairs are kept -/
  old : ∀ p ∈ t.zip x, p ∈ t'.zip x'
  /-- the new values are those at the new times, in the order of the times -/
  new : List.Forall₂ (fun r v => (r, v) ∈ t'.zip x') newT vals

/-- A flag that is not set: both ends of the gap lie below the level. -/
def BelowUnlessHit (K : ℝ) (h : Bool) (g : ℝ × ℝ) : Prop := h = false → g.1 < K ∧ g.2 < K

end Ctb
