import Verif.Model.Ars
import Verif.Basic.Prog
import Mathlib.MeasureTheory.Measure.Lebesgue.Basic
import Mathlib.Analysis.Convex.Deriv
import Mathlib.MeasureTheory.Integral.Bochner.Set

/-! # What adaptive rejection sampling is supposed to do -/

namespace Ctb

open Set MeasureTheory
open scoped ENNReal

/-- The open support between two possibly infinite bounds. -/
def supp (lb ub : EReal) : Set ℝ := {t | lb < (t : EReal) ∧ (t : EReal) < ub}

/-- The support including its upper end. -/
def suppC (lb ub : EReal) : Set ℝ := {t | lb < (t : EReal) ∧ (t : EReal) ≤ ub}

/-- A concave function with derivative `df` on the support. -/
structure ConcaveDiff (f df : ℝ → ℝ) (S : Set ℝ) : Prop where
  conc : ConcaveOn ℝ S f
  der : ∀ a ∈ S, HasDerivAt f (df a) a

/-- The tangent of `f` at `a`. -/
def tangent (f df : ℝ → ℝ) (a t : ℝ) : ℝ := f a + (t - a) * df a

/-- A hull as the sampler builds it: at least one point, strictly increasing points of the support, with the values and derivatives
of `f`. -/
structure Hull.Ok (H : Hull) (f df : ℝ → ℝ) (S : Set ℝ) : Prop where
  ne : H.x ≠ []
  inc : H.x.Pairwise (· < ·)
  mem : ∀ a ∈ H.x, a ∈ S
  fx : H.fx = H.x.map f
  dfx : H.dfx = H.x.map df

/-- The upper hull: the lowest of the tangents. -/
def IsUpperHull (f df : ℝ → ℝ) (x : List ℝ) (t u : ℝ) : Prop := IsLeast {w | ∃ a ∈ x, w = tangent f df a t} u

/-- `f` strictly concave with derivative `df`. -/
structure StrictDiff (f df : ℝ → ℝ) (S : Set ℝ) : Prop where
  conc : StrictConcaveOn ℝ S f
  der : ∀ a ∈ S, HasDerivAt f (df a) a

/-- A hull whose envelope has finite mass: no flat tangent, and tangents falling off towards infinite ends. -/
structure Hull.Good (H : Hull) (f df : ℝ → ℝ) (lb ub : EReal) : Prop where
  ok : H.Ok f df (supp lb ub)
  slope : ∀ a ∈ H.x, df a ≠ 0
  left : lb = ⊥ → ∃ a ∈ H.x, 0 < df a
  right : ub = ⊤ → ∃ a ∈ H.x, df a < 0
  two : 2 ≤ H.x.length ∨ ub ≠ ⊤

/-- Bookkeeping invariant: sorted points with matching values and derivatives. -/
structure Hull.Book (H : Hull) (f df : ℝ → ℝ) (bound : ℕ) : Prop where
  sorted : H.x.Pairwise (· ≤ ·)
  fx : H.fx = H.x.map f
  dfx : H.dfx = H.x.map df
  size : H.x.length ≤ bound

/-- The pass of the loop without squeeze test: draw, evaluate `f`, accept or refine. -/
noncomputable def exactStep (f df : ℝ → ℝ) (lb ub : EReal) (maxPts : ℕ) (H : Hull) : Prog (ℝ × Bool × Hull) :=
  (Prog.lift (hullBreaks lb ub H.x H.fx H.dfx)).bind fun y =>
  .real (.uniform 0 1) fun z =>
  (Prog.lift (sampleEnvelope H.x H.fx H.dfx y z)).bind fun v =>
  (Prog.lift (evalUpper H.x H.fx H.dfx y v)).bind fun up =>
  .real (.uniform 0 1) fun u => open scoped Classical in
  .ret (if npLogLt u (f v - up) then (v, true, H) else if H.x.length < maxPts then (v, false, H.insert v (f v) (df v)) else (v, false, H))

/-- `∫_A exp f`. -/
noncomputable def expMass (f : ℝ → ℝ) (S A : Set ℝ) : ℝ≥0∞ := ∫⁻ t in A ∩ S, ENNReal.ofReal (Real.exp (f t))

open scoped Classical in
/-- `1` when the `i`-th value lies in the `i`-th set, for all `i`. -/
noncomputable def prodInd : List (Set ℝ) → List ℝ → ℝ≥0∞
  | [], _ => 1
  | _ :: _, [] => 0
  | A :: As, t :: l => A.indicator 1 t * prodInd As l

/-- `prodInd` on results. -/
noncomputable def drawsIn (As : List (Set ℝ)) : Res (List ℝ × Hull) → ℝ≥0∞
  | .ok r => prodInd As r.1
  | .error _ => 0

/-- `1` on exceptions (running out of fuel included). -/
def failInd {α : Type} : Res α → ℝ≥0∞
  | .ok _ => 0
  | .error _ => 1

end Ctb
