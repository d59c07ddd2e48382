import Verif.Model.SdeModels

/-! # Paths of seeds -/

namespace Ctb

/-- The value at time `τ` of the diffusion bridge whose normalised bridge has the value `w` there: rescaled, plus the straight line between
the end points. -/
noncomputable def pathVal (op : NormOp) (τ w : ℝ) : ℝ := op.scale * w + (op.x0 + τ / op.finT * (op.x1 - op.x0))

/-- `b` brackets `disc` on `[le, ue]`: what a sound answer of `eval_bounds_disc` is. -/
def SoundBounds (disc : ℝ → ℝ) (ebd : ℝ → ℝ → Res DiscBounds) : Prop :=
  ∀ le ue b, le ≤ ue → ebd le ue = .ok b → ∀ x, le ≤ x → x ≤ ue → b.2.1 ≤ disc x ∧ (disc x : WithTop ℝ) ≤ b.2.2

end Ctb
