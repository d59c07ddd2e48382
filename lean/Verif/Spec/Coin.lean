import Mathlib.Data.Real.Basic

/-! # Searching batches of points for one that makes a coin fail -/

namespace Ctb

/-- A point `(mark, time)` drawn as a row. -/
def pointOf (row : List ℝ) : ℝ × ℝ := (row.headD 0, row.tail.headD 0)

/-- `Searched R s bs v s'`: the batches `bs` are examined in turn, `R s b v s'` being the examination of one batch from state `s`; the search
ends with `false` at the first batch that fails, with `true` after the last one. -/
inductive Searched {σ β : Type} (R : σ → β → Bool → σ → Prop) : σ → List β → Bool → σ → Prop
  | done (s : σ) : Searched R s [] true s
  | stop {s s' : σ} {b : β} : R s b true s' → Searched R s [b] false s'
  | go {s s1 s' : σ} {b : β} {bs : List β} {v : Bool} : R s b false s1 → Searched R s1 bs v s' → Searched R s (b :: bs) v s'

end Ctb
