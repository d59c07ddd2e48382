import Verif.Model.Seed

/-!
# Model of the evaluation of skeletons

Files: ea3lib/skeleton.py, ea3lib/seed.py (`__call__`).  The refined skeleton is dropped, only the values are returned.
-/

namespace Ctb

open Classical

/-- `Skeleton.__call__`, ea3lib/skeleton.py:18-21.  `self.t[-1]` of an empty array raises IndexError. -/
noncomputable def skelCall (n k : ℕ) (s : EaSkel) (t : List ℝ) : Prog (List ℝ) :=
  match s.t.getLast? with
  | none => .err .index
  | some f => if ∃ r ∈ t, f < r then .err .value else (interpolateSkel n k s t).bind fun r => .ret r.2

/-- `SeedSkeleton.__call__`, ea3lib/seed.py:18-24. -/
noncomputable def seedCall (n k : ℕ) (s : EaSkel) (t : List ℝ) (op : NormOp) : Prog (List ℝ) :=
  if ∃ r ∈ t, (op.denorm 1 none).1 < r then .err .value else (interpolateSeed n k op s t).bind fun r => .ret r.2

end Ctb
