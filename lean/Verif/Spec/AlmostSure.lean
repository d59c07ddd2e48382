import Verif.Basic.Law

/-! # Statements that hold with probability one -/

namespace Ctb

open MeasureTheory

/-- The result satisfies `P` almost surely: at every draw, for almost every value drawn. -/
def Prog.ASure {α : Type} (P : Res α → Prop) : Prog α → Prop
  | .ret a => P (.ok a)
  | .err e => P (.error e)
  | .real d k => ∀ᵐ x ∂d.law, (k x).ASure P
  | .nat d k => ∀ᵐ n ∂d.law, (k n).ASure P

end Ctb
