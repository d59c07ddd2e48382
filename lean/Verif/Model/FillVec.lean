import Verif.Model.Interp

/-!
# Model of `fill_wiener_vector`, sdelib/interpolators.py:9-58

`x` is an array with one row per time; the rows of an array have equal width, which the theorems assume where it matters.  `t` is sorted, as
`np.searchsorted` requires.
-/

namespace Ctb

open Classical

/-- `sample_brownbr` of two rows, sdelib/paths.py:80-86.  The end enters through `np.outer`, which flattens: with rows of another width than 1 the
in-place addition of sdelib/paths.py:43 cannot be broadcast, after the assertion and the draws. -/
noncomputable def brownbrRows (s : List ℝ) (finT : ℝ) : List ℝ → List ℝ → Prog (List ℝ)
  | [a], [b] => sampleBrownbr s finT a b
  | _, _ => (sampleBrownbr s finT 0 0).bind fun _ => .err .value

/-- The bridge of one sector, sdelib/interpolators.py:52. -/
noncomputable def fillVecSector (t : List ℝ) (x : List (List ℝ)) (newT : List ℝ) (i : ℕ) : Prog (List ℝ) :=
  match pyGet t ((i : ℤ) - 1), pyGet t i, pyGet x ((i : ℤ) - 1), pyGet x i with
  | some t0, some t1, some x0, some x1 => brownbrRows ((newT.filter fun r => decide (searchRight t r = i)).map (· - t0)) (t1 - t0) x0 x1
  | _, _, _, _ => .err .index

/-- `fill_wiener_vector`, sdelib/interpolators.py:43-58.  `np.min` of an empty array raises ValueError; the chained comparison stops at the first
failure.  `np.vstack` of one-dimensional arrays makes a row of every sector: rows of different lengths raise ValueError, and so does the insertion of
rows of equal length other than 1 (as many rows as sectors, not as many as new times). -/
noncomputable def fillVec (t : List ℝ) (x : List (List ℝ)) (newT : List ℝ) : Prog (List ℝ × List (List ℝ) × List ℕ) :=
  if t = [] then .err .value else
  (Prog.assert (∀ s ∈ t, 0 ≤ s)).bind fun _ =>
  if newT = [] then .err .value else
  (Prog.assert ((∃ s ∈ t, ∀ r ∈ newT, s < r) ∧ ∃ s ∈ t, ∀ r ∈ newT, r ≤ s)).bind fun _ =>
  (Prog.assert (t.length = x.length)).bind fun _ =>
  let ins := newT.map (searchRight t)
  (Prog.mapM' (fillVecSector t x newT) (npUnique t.length ins)).bind fun rows =>
  if rows.all (fun r => decide (r.length = 1)) then
    .ret (npInsert t ins newT, npInsert x ins rows, List.zipWith (· + ·) ins (List.range ins.length))
  else .err .value

end Ctb
