import Verif.Model.Adapt

/-! # Histories of adaptive samplers -/

namespace Ctb

/-- A sequence of `adapt(sample, prob)` calls. -/
def runAdapt {S σ : Type} (step : S → σ → ℝ → Res S) (s : S) : List (σ × ℝ) → Res S
  | [] => .ok s
  | x :: h => match step s x.1 x.2 with
    | .ok s' => runAdapt step s' h
    | .error e => .error e

/-- Number of calls up to and including the `m`-th change of scale: `1^air + 2^air + ... + m^air`. -/
def changeTime (air m : ℕ) : ℕ := ∑ i ∈ Finset.range m, (i + 1) ^ air

/-- `x` lies strictly inside the bounds (`none`: unbounded on that side). -/
def Inside (x : ℝ) (lb ub : Option ℝ) : Prop := (∀ l ∈ lb, l < x) ∧ (∀ u ∈ ub, x < u)

/-- Values the transforms accept: inside the bounds unless both bounds are finite, in which case the code does not
transform. -/
def Admissible (x : ℝ) (lb ub : Option ℝ) : Prop := lb = none ∨ ub = none → Inside x lb ub

end Ctb
