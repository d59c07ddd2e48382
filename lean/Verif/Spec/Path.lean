import Verif.Model.MjpSkeleton

/-!
# What a jump path means

Independent of how the code slices and searches: a path is a list of (jump time, state) pairs; the state at time `s`
is the one attached to the latest jump not after `s`.
-/

namespace Ctb

variable {K : Type} [Field K] [LinearOrder K]

/-- State in force at time `s`: the state of the last listed jump whose time is `≤ s` (`none` before the first). -/
def stAt (l : List (K × ℕ)) (s : K) : Option ℕ := ((l.filter fun p => p.1 ≤ s).getLast?).map Prod.snd

/-- Jumps of a skeleton. -/
def Skel.jumps (sk : Skel K) : List (K × ℕ) := sk.t.zip sk.xt

/-- State of a skeleton at time `s`. -/
def Skel.stateAt (sk : Skel K) (s : K) : Option ℕ := stAt sk.jumps s

/-- A skeleton describes a path on `[0, fin)`: one state per jump time, first time 0, times strictly increasing and
below the horizon. -/
structure Skel.Valid (sk : Skel K) : Prop where
  len : sk.t.length = sk.xt.length
  head : sk.t.head? = some 0
  inc : sk.t.Pairwise (· < ·)
  lt : ∀ a ∈ sk.t, a < sk.fin

/-- No jump from a state to itself. -/
def Skel.Reduced (sk : Skel K) : Prop := sk.xt.IsChain (· ≠ ·)

/-- Breakpoints usable for partitioning a path with horizon `fin`: weakly increasing, in `[0, fin]`. -/
structure Breaks (fin : K) (l : List K) : Prop where
  sorted : l.Pairwise (· ≤ ·)
  nonneg : ∀ a ∈ l, 0 ≤ a
  le : ∀ a ∈ l, a ≤ fin

end Ctb
