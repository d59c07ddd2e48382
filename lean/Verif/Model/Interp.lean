import Verif.Model.LayerPaths

/-!
# Model of the interpolation of a bridge skeleton

Files: sdelib/interpolators.py, ea3lib/skeleton.py, sdelib/transforms.py.  `n`, `k` are the proposal budgets of the samplers called.
-/

namespace Ctb

open Classical

/-- `np.insert(l, idx, vals)`: in front of every old position, the new values sent there, in their order. -/
def npInsert {α : Type} (l : List α) (idx : List ℕ) (vals : List α) : List α :=
  (List.range (l.length + 1)).flatMap fun i : ℕ => select vals (idx.map fun j => decide (j = i)) ++ (l[i]?).toList

/-- `np.unique(idx)` for positions in an array of length `n`. -/
def npUnique (n : ℕ) (idx : List ℕ) : List ℕ := (List.range (n + 1)).filter fun i => decide (i ∈ idx)

/-- `ue_x_sec`, sdelib/interpolators.py:143-148. -/
def ueSec (len : ℕ) (ue hitX : Option ℝ) : Option (List Bool) → List (Option ℝ)
  | none => List.replicate (len - 1) ue
  | some hs => hs.map fun h => if h then ue else hitX

/-- `hit_x_sec`, sdelib/interpolators.py:143-148. -/
def hitSec (len : ℕ) (hitX : Option ℝ) : Option (List Bool) → List (Option ℝ)
  | none => List.replicate (len - 1) none
  | some hs => hs.map fun h => if h then hitX else none

/-- Values and hit flags of one sector, sdelib/interpolators.py:150-152, for position `i`. -/
noncomputable def fillSector (n k : ℕ) (t x newT : List ℝ) (minX : ℝ) (ues hits : List (Option ℝ)) (i : ℕ) :
    Prog (List ℝ × Option (List Bool)) :=
  match pyGet t ((i : ℤ) - 1), pyGet t i, pyGet x ((i : ℤ) - 1), pyGet x i, pyGet ues ((i : ℤ) - 1), pyGet hits ((i : ℤ) - 1) with
  | some t0, some t1, some x0, some x1, some u, some h =>
    sampleLayerbr n k ((newT.filter fun r => decide (searchLeft t r = i)).map (· - t0)) (t1 - t0) x0 x1 minX u h
  | _, _, _, _, _, _ => .err .index

/-- What becomes of the flag `h` of the gap in front of position `i`, sdelib/interpolators.py:161-165. -/
def splitFlag (res : List (ℕ × List ℝ × Option (List Bool))) (i : ℕ) (h : Bool) : List Bool :=
  match res.find? fun r => decide (r.1 = i) with
  | none => [h]
  | some (_, xs, none) => List.replicate (xs.length + 1) h
  | some (_, _, some a) => a

/-- `stack_hit_i`, sdelib/interpolators.py:157-166. -/
def stackHits (res : List (ℕ × List ℝ × Option (List Bool))) (hs : List Bool) : List Bool :=
  (List.range hs.length).flatMap fun j : ℕ => splitFlag res (j + 1) (hs.getD j false)

/-- Result of the fill functions: times, values, positions of the new ones, flags. -/
abbrev Filled := List ℝ × List ℝ × List ℕ × Option (List Bool)

/-- `fill_wiener_inner`, sdelib/interpolators.py:115-168.  `np.min` of an empty array raises ValueError. -/
noncomputable def fillInner (n k : ℕ) (t x newT : List ℝ) (minX : ℝ) (ue hitX : Option ℝ) (hitI : Option (List Bool)) : Prog Filled :=
  if newT = [] then .ret (t, x, [], none)
  else if t = [] then .err .value
  else
  (Prog.assert ((∀ s ∈ t, 0 ≤ s) ∧ (∃ s ∈ t, ∀ r ∈ newT, s < r) ∧ ∃ s ∈ t, ∀ r ∈ newT, r < s)).bind fun _ =>
  if x = [] then .err .value else
  (Prog.assert (∀ v ∈ x, minX ≤ v)).bind fun _ =>
  (Prog.assert (∀ U, ue = some U → ∀ v ∈ x, v < U)).bind fun _ =>
  (Prog.assert (∀ U H, ue = some U → hitX = some H → minX < H ∧ H < U)).bind fun _ =>
  let ins := newT.map (searchLeft t)
  let sectors := npUnique t.length ins
  (Prog.mapM' (fillSector n k t x newT minX (ueSec t.length ue hitX hitI) (hitSec t.length hitX hitI)) sectors).bind fun res =>
  .ret (npInsert t ins newT, npInsert x ins (res.map Prod.fst).flatten, List.zipWith (· + ·) ins (List.range ins.length),
    hitI.map (stackHits (sectors.zip res)))

/-- `np.where(np.isin(l, s))[0]`. -/
noncomputable def whereIn (l s : List ℝ) : List ℕ := (List.range l.length).filter fun i => decide (l.getD i 0 ∈ s)

/-- `fill_wiener_outer`, sdelib/interpolators.py:61-112. -/
noncomputable def fillOuter (n k : ℕ) (t x newT : List ℝ) (minX : ℝ) (ue hitX : Option ℝ) (hitI : Option (List Bool)) : Prog Filled :=
  if t = [] ∨ newT = [] then .err .value else
  (Prog.assert ((∀ s ∈ t, 0 ≤ s) ∧ (∃ s ∈ t, ∀ r ∈ newT, s ≤ r) ∧ ∃ s ∈ t, ∀ r ∈ newT, r ≤ s)).bind fun _ =>
  if x = [] then .err .value else
  (Prog.assert (∀ v ∈ x, minX ≤ v)).bind fun _ =>
  (Prog.assert (∀ U, ue = some U → ∀ v ∈ x, v < U)).bind fun _ =>
  (Prog.assert (∀ U H, ue = some U → hitX = some H → minX < H ∧ H < U)).bind fun _ =>
  (fillInner n k t x (newT.filter fun r => decide (r ∉ t)) minX ue hitX hitI).bind fun r =>
  .ret (r.1, r.2.1, whereIn r.1 newT, r.2.2.2)

/-! ## Skeletons -/

/-- `Skeleton`, ea3lib/skeleton.py:10-16. -/
structure EaSkel where
  t : List ℝ
  x : List ℝ
  tight : ℝ
  loose : ℝ
  hitX : ℝ
  hitI : Option (List Bool)

/-- `transforms.reverse`, sdelib/transforms.py:7-28. -/
noncomputable def reversePath (t x : List ℝ) (finT : ℝ) : Res (List ℝ × List ℝ) :=
  if ¬ ∀ s ∈ t, 0 ≤ s ∧ s ≤ finT then .error .exception
  else if ¬ 0 ≤ finT then .error .assertion
  else .ok (t.reverse.map (finT - ·), x.reverse)

/-- `transforms.reflect` with times, sdelib/transforms.py:31-49. -/
noncomputable def reflectPath (t x : List ℝ) (c : ℝ) : Res (List ℝ × List ℝ) :=
  if t = [] then .error .value
  else if ¬ ∀ s ∈ t, 0 ≤ s then .error .assertion
  else .ok (t, x.map (2 * c - ·))

/-- `flip_skeleton`, ea3lib/skeleton.py:154-170. -/
noncomputable def flipSkel (s : EaSkel) : Res EaSkel :=
  match s.x.head?, s.x.getLast?, s.t.getLast? with
  | some x0, some x1, some f =>
    let c := (x0 + x1) / 2
    match reversePath s.t s.x f with
    | .error e => .error e
    | .ok q =>
      match reflectPath q.1 q.2 c with
      | .error e => .error e
      | .ok q => .ok ⟨q.1, q.2, 2 * c - s.tight, 2 * c - s.loose, 2 * c - s.hitX, s.hitI.map List.reverse⟩
  | _, _, _ => .error .index

/-- `interpolate_skeleton`, ea3lib/skeleton.py:124-151. -/
noncomputable def interpolateSkel (n k : ℕ) (s : EaSkel) (newT : List ℝ) : Prog (EaSkel × List ℝ) :=
  if newT = [] then .ret (s, [])
  else if s.tight < s.loose then
    (fillOuter n k s.t s.x newT s.tight (some s.loose) (some s.hitX) s.hitI).bind fun r =>
    .ret (⟨r.1, r.2.1, s.tight, s.loose, s.hitX, r.2.2.2⟩, r.2.2.1.map fun i : ℕ => r.2.1.getD i 0)
  else
    (Prog.lift (flipSkel s)).bind fun s' =>
    match s.t.getLast? with
    | none => .err .index
    | some f =>
    (Prog.lift (reversePath newT [] f)).bind fun q =>
    (fillOuter n k s'.t s'.x q.1 s'.tight (some s'.loose) (some s'.hitX) s'.hitI).bind fun r =>
    (Prog.lift (flipSkel ⟨r.1, r.2.1, s'.tight, s'.loose, s'.hitX, r.2.2.2⟩)).bind fun s'' =>
    .ret (s'', r.2.2.1.reverse.map fun i : ℕ => s''.x.getD (r.1.length - 1 - i) 0)

end Ctb
