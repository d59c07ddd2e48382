import Verif.Model.Interp
import Verif.Spec.Refine

/-! # Well-formed bridge skeletons -/

namespace Ctb

/-- The shape of a skeleton: strictly increasing times from 0 on, one value per time, one flag per gap. -/
structure EaSkel.Valid (s : EaSkel) : Prop where
  sorted : s.t.Pairwise (· < ·)
  start : s.t.head? = some 0
  len : s.x.length = s.t.length
  flags : ∀ hs, s.hitI = some hs → hs.length = s.t.length - 1

/-- All values between the tight edge (attained) and the loose edge (not attained). -/
def EaSkel.Within (s : EaSkel) : Prop :=
  (s.tight < s.loose → ∀ v ∈ s.x, s.tight ≤ v ∧ v < s.loose) ∧ (¬ s.tight < s.loose → ∀ v ∈ s.x, s.loose < v ∧ v ≤ s.tight)

/-- A gap whose flag is not set has both ends on the tight side of the hitting level. -/
def EaSkel.FlagsSound (s : EaSkel) : Prop :=
  ∀ hs, s.hitI = some hs →
    (s.tight < s.loose → List.Forall₂ (fun h g => h = false → g.1 < s.hitX ∧ g.2 < s.hitX) hs (pairsOf s.x)) ∧
    (¬ s.tight < s.loose → List.Forall₂ (fun h g => h = false → s.hitX < g.1 ∧ s.hitX < g.2) hs (pairsOf s.x))

/-- Gaps of a skeleton with their flags. -/
def flaggedGaps (t : List ℝ) (hs : List Bool) : List ((ℝ × ℝ) × Bool) := (pairsOf t).zip hs

/-- Flags of a refinement: a flagged new gap lies in a flagged old gap, and a flagged old gap contains a flagged new gap. -/
def FlagsRefine (t : List ℝ) (hs : List Bool) (t' : List ℝ) (hs' : List Bool) : Prop :=
  (∀ g', (g', true) ∈ flaggedGaps t' hs' → ∃ g, (g, true) ∈ flaggedGaps t hs ∧ g.1 ≤ g'.1 ∧ g'.2 ≤ g.2) ∧
    ∀ g, (g, true) ∈ flaggedGaps t hs → ∃ g', (g', true) ∈ flaggedGaps t' hs' ∧ g.1 ≤ g'.1 ∧ g'.2 ≤ g.2

end Ctb
