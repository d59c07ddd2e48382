import Verif.Model.SwitchHidden
import Verif.Spec.Path
import Verif.Spec.Generator

/-!
# What an anchorage means

An anchorage lists times with the regime in force from that time on and the value of the process there.
-/

namespace Ctb

variable {K : Type} [Field K] [LinearOrder K] {V : Type}

/-- Last anchor time. -/
def Anchorage.fin (h : Anchorage K V) : K := h.t.getLast?.getD 0

/-- Regime in force at time `s`. -/
def Anchorage.stateAt (h : Anchorage K V) (s : K) : Option ℕ := stAt (h.t.zip h.yt) s

/-- There is an anchor at time `s` with value `v`. -/
def Anchorage.Has (h : Anchorage K V) (s : K) (v : V) : Prop := (s, v) ∈ h.t.zip h.vt

/-- One regime and one value per time; times start at 0 and increase strictly; at least one gap. -/
structure Anchorage.Valid (h : Anchorage K V) : Prop where
  leny : h.yt.length = h.t.length
  lenv : h.vt.length = h.t.length
  head : h.t.head? = some 0
  inc : h.t.Pairwise (· < ·)
  two : 2 ≤ h.t.length

/-- The regime attached to the last anchor is the one in force before it: no jump at the horizon. -/
def Anchorage.Closed (h : Anchorage K V) : Prop := h.yt.dropLast.getLast? = h.yt.getLast?

/-- The second anchorage starts with the regime and value with which the first ends. -/
def Anchorage.Joins (h h' : Anchorage K V) : Prop := h.yt.getLast? = h'.yt.head? ∧ h.vt.getLast? = h'.vt.head?

/-- An observation grid for the horizon `fin`: starts at 0, ends at `fin`, increases strictly, one value per time. -/
structure ObsGrid (t vt : List K) (fin : K) : Prop where
  len : t.length = vt.length
  head : t.head? = some 0
  last : t.getLast? = some fin
  inc : t.Pairwise (· < ·)
  two : 2 ≤ t.length

/-- `(z, h)` augments the path `y` for the observations `vt` at times `t`: anchors exactly at the observation times and the
jump times, the observed values at the observation times, the regimes of `y`, one seed per gap; pruning gives back `y`. -/
structure Augments {ζ : Type} (y : Skel K) (t vt : List K) (z : List ζ) (h : Anchorage K K) : Prop where
  valid : h.Valid
  closed : h.Closed
  fin : h.fin = y.fin
  state : ∀ s, h.stateAt s = y.stateAt s
  obs : ∀ c v, (c, v) ∈ t.zip vt → h.Has c v
  anchors : ∀ c, c ∈ h.t ↔ c ∈ t ∨ c ∈ y.t
  seeds : z.length + 1 = h.t.length
  prune : pruneAnchorage h = .ok y

/-- The hidden state fits the data `(t, vt)` on `[0, fin]`. -/
structure HiddenOk {ζ : Type} (t vt : List K) (fin : K) (z : List ζ) (h : Anchorage K K) : Prop where
  valid : h.Valid
  closed : h.Closed
  fin_eq : h.fin = fin
  seeds : z.length + 1 = h.t.length
  obs : ∀ c v, (c, v) ∈ t.zip vt → h.Has c v

/-- ... and the regime sampler holds the pruned anchorage, a path on the states `0, …, d-1`. -/
structure Coherent {ζ : Type} (d : ℕ) (t vt : List ℝ) (fin : ℝ) (s : HiddenState ζ) : Prop where
  ok : HiddenOk t vt fin s.z s.h
  sync : pruneAnchorage s.h = .ok s.sampler.state
  states : s.sampler.state.StatesLt d

/-- On each section `[c, c')` between neighbouring cut times, `res` follows `new` if the section was accepted and `old`
otherwise. -/
def Mixes (cuts : List K) (acc : List Bool) (old new res : K → Option ℕ) : Prop :=
  acc.length + 1 = cuts.length ∧
  ∀ (k : ℕ) (a b : K) (v : Bool), cuts[k]? = some a → cuts[k + 1]? = some b → acc[k]? = some v → ∀ s, a ≤ s → s < b →
    res s = if v then new s else old s

end Ctb
