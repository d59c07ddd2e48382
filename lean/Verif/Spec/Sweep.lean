import Verif.Model.Sweep
import Verif.Spec.SwitchHidden
import Verif.Spec.Adapt
import Mathlib.LinearAlgebra.Matrix.PosDef

/-! # When the joint state of the switching chain is consistent -/

namespace Ctb

variable {ζ : Type} {p : ℕ}

/-- A parameter sampler in step with the row of `thi` it proposes for: it holds that row and the bounds of the model, and the covariances
it learns and proposes with are positive definite (what `np.random.multivariate_normal` factorises). -/
structure SamplerOk (lb ub : Fin p → Option ℝ) (row : Fin p → ℝ) (s : MvRw p) : Prop where
  state : s.state = row
  lb_eq : s.lb = lb
  ub_eq : s.ub = ub
  cov : s.cov.PosDef
  propCov : s.propCov.PosDef

/-- The state of the chain is consistent: the path fits the data and the regime sampler holds it; the rates form a generator; all parameters
are within their bounds; one sampler per regime, holding the row of that regime. -/
structure JointOk (d : ℕ) (t vt : List ℝ) (fin : ℝ) (lb ub : Fin p → Option ℝ) (s : SweepState p ζ) : Prop where
  hidden : Coherent d t vt fin s.hid
  gen : IsGenerator d s.lam
  rows : ∀ y j, Admissible (s.thi y j) (lb j) (ub j)
  count : s.samplers.length = d
  samplers : ∀ i q, s.samplers[i]? = some q → SamplerOk lb ub (s.thi i) q

end Ctb
