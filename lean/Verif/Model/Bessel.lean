import Verif.Model.SdePaths
import Verif.Model.LayerPaths

/-!
# Model of `ctbayes/sdelib/paths.py` and `transforms.py`: Bessel process at given times, seeded Bessel bridge
-/

namespace Ctb

open Classical

/-- One row of the increments of `sample_wiener`, sdelib/paths.py:41-43. -/
noncomputable def rowInc (mu : List ℝ) (dt : ℝ) (z : List ℝ) : List ℝ := List.zipWith (fun zi mi => √dt * zi + dt * mi) z mu

/-- `np.cumsum(rows, axis=0)` continued from `acc`, sdelib/paths.py:43. -/
noncomputable def cumRows (acc : List ℝ) : List (List ℝ) → List (List ℝ)
  | [] => []
  | r :: rs => List.zipWith (· + ·) acc r :: cumRows (List.zipWith (· + ·) acc r) rs

/-- `sample_wiener`, sdelib/paths.py:9-45, for any number of columns: the rows of the result.  `standard_normal((len(t), len(init_x)))` fills its
rows one after the other.  Both arguments of `sample_bessel` have the same length. -/
noncomputable def sampleWienerVec (t initX mu : List ℝ) : Prog (List (List ℝ)) :=
  if t = [] then .err .value else
  (Prog.assert (∀ a ∈ t, 0 < a)).bind fun _ =>
  if ¬ ∀ d ∈ ediffBegin t, 0 ≤ d then .err .nan else
  (Prog.replicate t.length (Prog.replicate initX.length (Prog.draw (.normal 0 1)))).bind fun zs =>
  .ret ((cumRows (List.replicate initX.length 0) (List.zipWith (rowInc mu) (ediffBegin t) zs)).map (List.zipWith (· + ·) initX))

/-- `np.linalg.norm` of one row. -/
noncomputable def rowNorm (w : List ℝ) : ℝ := √((w.map (· ^ 2)).sum)

/-- `sample_bessel`, sdelib/paths.py:89-126. -/
noncomputable def sampleBessel (t : List ℝ) (initX : ℝ) (dim : ℕ) (mu : Option ℝ) : Prog (List ℝ) :=
  if t = [] then .err .value else
  (Prog.assert (∀ a ∈ t, 0 < a)).bind fun _ =>
  (Prog.assert (0 ≤ initX)).bind fun _ =>
  (Prog.assert (0 < dim)).bind fun _ =>
  (sampleWienerVec t (List.replicate (dim - 1) 0 ++ [initX]) (List.replicate (dim - 1) 0 ++ [mu.getD 0])).bind fun wt =>
  .ret (wt.map rowNorm)

/-- `gen_seeded_bessel3br`, sdelib/transforms.py:80-119.  `cols` are the columns of `z`; the first one receives the drift. -/
noncomputable def seededBessel3br (s : List ℝ) (cols : List (List ℝ)) (finT finX : ℝ) : Res (List ℝ × List ℝ) :=
  if s = [] then .error .value else
  if ¬ ∀ a ∈ s, 0 < a ∧ a < 1 then .error .assertion else
  if ¬ 0 < finT then .error .assertion else
  match cols with
  | [] => .error .index
  | c :: cs =>
    let t := s.map (· * finT)
    let c' := List.zipWith (fun zi ti => zi + finX * ti / finT ^ (3 / 2 : ℝ)) c t
    .ok (t, (List.range s.length).map fun j : ℕ => √finT * colNorm (c' :: cs) j)

end Ctb
