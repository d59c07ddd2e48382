import Verif.Basic.Law
import Verif.Model.Bfactories
import Mathlib.Algebra.BigOperators.Group.Finset.Basic

/-! # What a two-coin search is supposed to do -/

namespace Ctb

open scoped ENNReal

variable {σ τ : Type}

/-- Value `a` on heads, `b` on tails, `e` on an exception. -/
def coinVal (a b e : ℝ≥0∞) : Res (Bool × τ × σ) → ℝ≥0∞
  | .ok (true, _) => a
  | .ok (false, _) => b
  | .error _ => e

/-- From every state in `I` the coin shows heads with probability exactly `p`, tails with `1 - p`, never raises, and leads to a state
in `I`. -/
def IsCoin (I : Set σ) (c : Coin σ τ) (p : ℝ≥0∞) : Prop :=
  ∀ s ∈ I, (∀ a b e, (c s).lexp (coinVal a b e) = p * a + (1 - p) * b) ∧ ∀ r, (c s).Out (.ok r) → r.2.2 ∈ I

/-- A fair-comparison draw picks side one with this probability. -/
noncomputable def sideProb (w1 w2 : ℝ) : ℝ := Real.exp w1 / (Real.exp w1 + Real.exp w2)

/-- `k` unsuccessful rounds lead from coin state `s` to coin state `s'`: in each, a draw `u` picks a side, that side's coin
shows tails, and the portkey draw `u'` does not escape. -/
inductive FailRun (q : ℝ) (c : Bool → Coin σ τ) (prPortkey : ℝ) : ℕ → σ → σ → Prop
  | nil (s : σ) : FailRun q c prPortkey 0 s s
  | cons {k : ℕ} {s s' s'' : σ} {u u' : ℝ} {x : τ} {side : Bool} (hu : 0 ≤ u ∧ u < 1) (hside : side = true ↔ u < q)
      (hc : (c side s).Out (.ok (false, x, s'))) (hu' : 0 ≤ u' ∧ u' < 1) (hesc : prPortkey ≤ u')
      (h : FailRun q c prPortkey k s' s'') : FailRun q c prPortkey (k + 1) s s''

/-- The possible results of a two-coin search of `n` rounds: the first success with its side and proposal; an escape in a
failed round, reporting `esc` of that round's proposal; an exception of a coin; or the budget exception after `n` failed
rounds without escape. -/
def TwocoinResult (q : ℝ) (c : Bool → Coin σ τ) (prPortkey : ℝ) (esc : τ → τ) (n : ℕ) (s : σ) (r : Res (Verdict σ τ)) : Prop :=
  (∃ k < n, ∃ s1, FailRun q c prPortkey k s s1 ∧ ∃ u side x s2, (0 ≤ u ∧ u < 1) ∧ (side = true ↔ u < q) ∧
    (c side s1).Out (.ok (true, x, s2)) ∧ r = .ok ((side, false, x), s2)) ∨
  (∃ k < n, ∃ s1, FailRun q c prPortkey k s s1 ∧ ∃ u u' side x s2, (0 ≤ u ∧ u < 1) ∧ (side = true ↔ u < q) ∧
    (c side s1).Out (.ok (false, x, s2)) ∧ (0 ≤ u' ∧ u' < 1) ∧ u' < prPortkey ∧ r = .ok ((false, true, esc x), s2)) ∨
  (∃ k < n, ∃ s1, FailRun q c prPortkey k s s1 ∧ ∃ u side e, (0 ≤ u ∧ u < 1) ∧ (side = true ↔ u < q) ∧
    (c side s1).Out (.error e) ∧ r = .error e) ∨
  (∃ s1, FailRun q c prPortkey n s s1 ∧ r = .error .budget)

/-- Accepted: the verdict is `True`. -/
def Accepted (r : Res (Verdict σ τ)) : Prop := ∃ v, r = .ok v ∧ v.1.1 = true

/-- Returned, whatever the verdict. -/
def Returned (r : Res (Verdict σ τ)) : Prop := ∃ v, r = .ok v

end Ctb
