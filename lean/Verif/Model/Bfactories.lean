import Verif.Basic.Prog
import Mathlib.Analysis.SpecialFunctions.Log.Basic

/-!
# Model of `ctbayes/misc/bfactories.py`: Bernoulli factories

A Python generator yielding coins is a state machine `σ → Prog (Bool × τ × σ)`; both coins of `sample_twocoin` act on one
state `σ`, so coins may share memory.  Log weights are finite reals.
-/

namespace Ctb

variable {σ τ : Type}

/-- `np.logaddexp` -/
noncomputable def logaddexp (a b : ℝ) : ℝ := Real.log (Real.exp a + Real.exp b)

/-- `np.log(u) < v` for `u ≥ 0`; `np.log(0.0)` is `-inf`. -/
def npLogLt (u v : ℝ) : Prop := u = 0 ∨ Real.log u < v

/-- A coin generator: what `next(c)` yields, and the generator state after it. -/
abbrev Coin (σ τ : Type) := σ → Prog (Bool × τ × σ)

/-- Result of `sample_twocoin`: `(accepted, escaped, proposal)`, with the coin state after the call. -/
abbrev Verdict (σ τ : Type) := (Bool × Bool × τ) × σ

open scoped Classical in
/-- Body of `for _ in range(max_props)` in `sample_twocoin`, misc/bfactories.py:46-66. -/
noncomputable def twocoinLoop (v1 : ℝ) (c1 c2 : Coin σ τ) (prPortkey : ℝ) (prop0 : τ) : ℕ → σ → Prog (Verdict σ τ)
  | 0, _ => .err .budget
  | n + 1, s => .real (.uniform 0 1) fun u =>
    if npLogLt u v1 then (c1 s).bind fun r =>
      if r.1 then .ret ((true, false, r.2.1), r.2.2)
      else .real (.uniform 0 1) fun u' =>
        if u' < prPortkey then .ret ((false, true, prop0), r.2.2) else twocoinLoop v1 c1 c2 prPortkey prop0 n r.2.2
    else (c2 s).bind fun r =>
      if r.1 then .ret ((false, false, r.2.1), r.2.2)
      else .real (.uniform 0 1) fun u' =>
        if u' < prPortkey then .ret ((false, true, prop0), r.2.2) else twocoinLoop v1 c1 c2 prPortkey prop0 n r.2.2

/-- `sample_twocoin`, misc/bfactories.py:9-66. -/
noncomputable def sampleTwocoin (w1 w2 : ℝ) (c1 c2 : Coin σ τ) (prPortkey : ℝ) (prop0 : τ) (maxProps : ℕ) (s : σ) :
    Prog (Verdict σ τ) :=
  twocoinLoop (w1 - logaddexp w1 w2) c1 c2 prPortkey prop0 maxProps s

/-- A generator driven by `send`: the state, the value sent (which side to flip), and what it yields. -/
abbrev SideCoin (σ τ : Type) := σ → Bool → Prog (Bool × τ × σ)

open scoped Classical in
/-- Loop of `sample_twocoin_joint`, misc/bfactories.py:101-121. -/
noncomputable def twocoinJointLoop (v1 : ℝ) (c : SideCoin σ τ) (prPortkey : ℝ) : ℕ → σ → Prog (Verdict σ τ)
  | 0, _ => .err .budget
  | n + 1, s => .real (.uniform 0 1) fun u =>
    if npLogLt u v1 then (c s true).bind fun r =>
      if r.1 then .ret ((true, false, r.2.1), r.2.2)
      else .real (.uniform 0 1) fun u' =>
        if u' < prPortkey then .ret ((false, true, r.2.1), r.2.2) else twocoinJointLoop v1 c prPortkey n r.2.2
    else (c s false).bind fun r =>
      if r.1 then .ret ((false, false, r.2.1), r.2.2)
      else .real (.uniform 0 1) fun u' =>
        if u' < prPortkey then .ret ((false, true, r.2.1), r.2.2) else twocoinJointLoop v1 c prPortkey n r.2.2

/-- `sample_twocoin_joint`, misc/bfactories.py:69-121.  `start` is `next(c)` of line 97: it runs the generator up to its
first `yield`. -/
noncomputable def sampleTwocoinJoint (w1 w2 : ℝ) (start : Prog σ) (c : SideCoin σ τ) (prPortkey : ℝ) (maxProps : ℕ) :
    Prog (Verdict σ τ) :=
  start.bind fun s => twocoinJointLoop (w1 - logaddexp w1 w2) c prPortkey maxProps s

end Ctb
