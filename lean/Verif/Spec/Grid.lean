import Verif.Basic.Prog
import Mathlib.Topology.Instances.ENNReal.Lemmas

/-!
# Grids that get finer and events about the values on them
-/

namespace Ctb

open Filter
open scoped ENNReal

/-- Partitions of `[0, T]` into segments of durations `g n`, the longest of which gets arbitrarily short. -/
structure FineGrids (T : ℝ) (g : ℕ → List ℝ) : Prop where
  two : ∀ n, 2 ≤ (g n).length
  pos : ∀ n, ∀ v ∈ g n, 0 < v
  total : ∀ n, (g n).sum = T
  fine : ∀ h, 0 < h → ∀ᶠ n in atTop, ∀ v ∈ g n, v < h

open Classical in
/-- Indicator of the event that all values satisfy `D`. -/
noncomputable def allIn (D : ℝ → Prop) (l : List ℝ) : ℝ≥0∞ := if ∀ y ∈ l, D y then 1 else 0

end Ctb
