import Verif.Basic.Numpy

/-!
# Model of `ctbayes/mjplib/skeleton.py`: the `Skeleton` tuple and its partitions (no randomness)

Numbers are elements of a linear ordered field `K`; states are natural numbers.
-/

namespace Ctb

variable {K : Type} [Field K] [LinearOrder K]

/-- `class Skeleton(NamedTuple)`, mjplib/skeleton.py:9-12. -/
structure Skel (K : Type) where
  t : List K
  xt : List ℕ
  fin : K
  deriving DecidableEq

/-- `self.xt[np.searchsorted(self.t, t, side='right') - 1]` for one time, mjplib/skeleton.py:17.  The index is
computed in `ℤ`: index `-1` wraps. -/
def Skel.lookup (sk : Skel K) (s : K) : Res ℕ :=
  match pyGet sk.xt ((searchRight sk.t s : ℤ) - 1) with
  | some x => .ok x
  | none => .error .index

/-- `Skeleton.__call__`, mjplib/skeleton.py:14-17. -/
def Skel.call (sk : Skel K) (ts : List K) : Res (List ℕ) :=
  if ts.any (fun s => sk.fin < s) then .error .value
  else ts.mapM sk.lookup

/-- `Skeleton.__eq__`, mjplib/skeleton.py:19-22.  Length checks guard the elementwise comparisons. -/
def Skel.pyEq (a b : Skel K) : Bool :=
  (a.t.length == b.t.length && (a.t.zip b.t).all fun p => p.1 == p.2) &&
  (a.xt.length == b.xt.length && (a.xt.zip b.xt).all fun p => p.1 == p.2) &&
  (a.fin == b.fin)

/-- `partition_skeleton`, mjplib/skeleton.py:314-342. -/
def partitionSkeleton (sk : Skel K) (new_t : List K) : List (Skel K) :=
  -- new_t = np.hstack([0, new_t, skel.fin_t])                                  (l.333)
  let nt := 0 :: (new_t ++ [sk.fin])
  -- slice_right, slice_left                                                     (l.334-335)
  let sr := nt.map (searchRight sk.t)
  let sl := nt.map (searchLeft sk.t)
  -- t = [hstack([0, skel.t[i0:i1] - init_t]) ...]                               (l.337-339)
  let t := (nt.zip (sr.zip sl.tail)).map fun p =>
    (0 : K) :: (pySlice sk.t (p.2.1 : ℤ) (p.2.2 : ℤ)).map (· - p.1)
  -- x = [skel.xt[i0 - 1:i0 - 1 + len(t_)] ...]                                  (l.340)
  let x := (sr.zip t).map fun p =>
    pySlice sk.xt ((p.1 : ℤ) - 1) ((p.1 : ℤ) - 1 + p.2.length)
  -- zip truncates the extra trailing difference                                 (l.342)
  (t.zip (x.zip (npDiff (nt ++ [sk.fin])))).map fun p => ⟨p.1, p.2.1, p.2.2⟩

/-- `paste_partition`, mjplib/skeleton.py:254-277.  An empty list of pieces makes the tuple unpacking of line 274
raise ValueError; a boolean mask whose length differs from the array makes numpy raise IndexError. -/
def pastePartition (partition : List (Skel K)) : Res (Skel K) :=
  -- partition = [skel for skel in partition if skel.fin_t != 0]                 (l.272)
  let ps := partition.filter fun sk => sk.fin ≠ 0
  -- breaks = hstack([0, cumsum(...)])                                           (l.273)
  let breaks := (0 : K) :: npCumsum (ps.map Skel.fin)
  let pairs := breaks.dropLast.zip ps
  if pairs.isEmpty then .error .value
  else
    let t := (pairs.map fun p => p.2.t.map (p.1 + ·)).flatten
    let x := (pairs.map fun p => p.2.xt).flatten
    -- ~is_virtual with is_virtual = hstack([False, x[1:] == x[:-1]])            (l.275)
    let keep := true :: List.zipWith (fun a b => decide (a ≠ b)) x.tail x.dropLast
    if t.length ≠ keep.length ∨ x.length ≠ keep.length then .error .index
    else .ok ⟨select t keep, select x keep, breaks.getLast (by simp [breaks])⟩

/-- `repartition_skeleton`, mjplib/skeleton.py:345-365. -/
def repartitionSkeleton (partition : List (Skel K)) (new_t : List K) : Res (List (Skel K)) := do
  let sk ← pastePartition partition
  pure (partitionSkeleton sk new_t)

/-- `est_stat`, mjplib/skeleton.py:400-407: `(xt == states[:, None]) @ ediff1d(t, to_end=fin_t - t[-1]) / fin_t`.
`t[-1]` of an empty array raises IndexError. -/
def estStat (sk : Skel K) (states : List ℕ) : Res (List K) :=
  match sk.t.getLast? with
  | none => .error .index
  | some tl =>
    let d := npDiff sk.t ++ [sk.fin - tl]
    .ok (states.map fun s => ((sk.xt.zip d).map fun p => if p.1 = s then p.2 else 0).sum / sk.fin)

end Ctb
