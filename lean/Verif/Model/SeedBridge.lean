import Verif.Model.Seed
import Verif.Model.Bfactories

/-!
# Model of `sample_bridge`, ea3lib/seed.py:30-62

A generator that yields forever is modelled by the first `m` values the caller takes; its state is empty.  `ζ` is the type of path seeds.
-/

namespace Ctb

open Classical

variable {ζ : Type}

/-- One round of the loop, ea3lib/seed.py:55-57: the uniform variable is drawn only after heads. -/
noncomputable def seedRound (raw : Prog ζ) (flip : ζ → Prog (Bool × ℝ × ζ)) : Prog (Bool × ζ) :=
  raw.bind fun z => (flip z).bind fun r =>
  if r.1 then .real (.uniform 0 1) fun u => .ret (decide (npLogLt u r.2.1), r.2.2) else .ret (false, r.2.2)

/-- The inner loop, ea3lib/seed.py:54-60: at most `k` proposals. -/
noncomputable def seedTry (raw : Prog ζ) (flip : ζ → Prog (Bool × ℝ × ζ)) : ℕ → Prog ζ
  | 0 => .err .budget
  | k + 1 => (seedRound raw flip).bind fun r => if r.1 then .ret r.2 else seedTry raw flip k

/-- `lb < ub` for bounds of which `none` is infinite. -/
def boundsLt : Option ℝ → Option ℝ → Prop
  | some l, some u => l < u
  | _, _ => True

/-- `sample_bridge`, ea3lib/seed.py:30-62: the first `m` bridges, with the default batch size 2 of the coin. -/
noncomputable def sampleSeedBridge (n F k : ℕ) (disc : ℝ → ℝ) (ebd : ℝ → ℝ → Res DiscBounds) (op : NormOp) (lb ub : Option ℝ) (maxProps : ℤ) (m : ℕ) :
    Prog (List EaSkel) :=
  if m = 0 then .ret [] else
  (Prog.assert (boundsLt lb ub)).bind fun _ =>
  (Prog.assert (0 ≤ maxProps)).bind fun _ =>
  Prog.replicate m (seedTry (sampleRawSeed n F op lb ub) (flipPoissonCoin n k disc ebd op 2) maxProps.toNat)

end Ctb
