import Verif.Model.Pool

set_option linter.unusedSectionVars false

/-! # Specification of pooled tasks -/

namespace Ctb

variable {α β σ : Type}

/-- The task never draws from the global generator. -/
def Task.OwnOnly : Task α → Prop
  | .ret _ => True
  | .err _ => True
  | .real g _ k => g = false ∧ ∀ x, (k x).OwnOnly
  | .nat g _ k => g = false ∧ ∀ n, (k n).OwnOnly

/-- What the task returns when run alone on its own generator. -/
def Task.runOwn (R : Rng σ) : Task α → σ → Res α
  | .ret a, _ => .ok a
  | .err e, _ => .error e
  | .real _ d k, s => let r := R.real d s; (k r.1).runOwn R r.2
  | .nat _ d k, s => let r := R.nat d s; (k r.1).runOwn R r.2

end Ctb
