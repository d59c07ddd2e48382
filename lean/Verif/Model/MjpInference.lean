import Verif.Model.MjpSkeleton
import Mathlib.Analysis.SpecialFunctions.Log.Basic
import Mathlib.Algebra.BigOperators.Group.Finset.Basic

/-!
# Model of `ctbayes/mjplib/inference.py` and of `update_generator` in `ctbayes/switching/mcem.py`

Matrices over `dim` states are functions `ℕ → ℕ → Option ℝ`, read on indices below `dim`; `none` is NaN (the
hyper-parameters carry NaN on the diagonal, and numpy arithmetic propagates it).
-/

namespace Ctb

/-- A square array whose entries may be NaN. -/
abbrev NMat := ℕ → ℕ → Option ℝ

/-- A square array of numbers. -/
abbrev Mat := ℕ → ℕ → ℝ

/-- `x op y` with NaN propagation. -/
def nan2 (f : ℝ → ℝ → ℝ) : Option ℝ → Option ℝ → Option ℝ
  | some a, some b => some (f a b)
  | _, _ => none

/-- `np.nansum(row)` over `dim` entries. -/
noncomputable def nansum (dim : ℕ) (f : ℕ → Option ℝ) : ℝ := ∑ j ∈ Finset.range dim, (f j).getD 0

/-- `np.bincount(skel.xt[np.hstack([False, (skel.xt == i)[:-1]])], minlength=dim)[j]`, inference.py:34. -/
def transCount (xt : List ℕ) (i j : ℕ) : ℕ :=
  (select xt (false :: (xt.map fun x => decide (x = i)).dropLast)).count j

/-- `np.sum(np.ediff1d(skel.t, to_end=(0,))[skel.xt == i])`, inference.py:36.  The final entry is `0`: the time between
the last jump and the horizon is not counted. -/
noncomputable def holdTime (sk : Skel ℝ) (i : ℕ) : ℝ :=
  (select (npDiff sk.t ++ [0]) (sk.xt.map fun x => decide (x = i))).sum

/-- `update`, inference.py:8-37. -/
noncomputable def mjpUpdate (sk : Skel ℝ) (alp0 bet0 : NMat) : NMat × NMat :=
  -- np.fill_diagonal(trans, np.nan)
  let trans : NMat := fun i j => if i = j then none else some (transCount sk.xt i j : ℝ)
  (fun i j => nan2 (· + ·) (trans i j) (alp0 i j), fun i j => nan2 (· + ·) (some (holdTime sk i)) (bet0 i j))

/-- `np.fill_diagonal(gen, -np.nansum(gen, 1))`: inference.py:49, 83, 95. -/
noncomputable def fillDiag (dim : ℕ) (g : NMat) : NMat :=
  fun i j => if i = j then some (-(nansum dim (g i))) else g i j

/-- `eval_loglik`, inference.py:53-60: sum over consecutive jumps.  `gen` has no NaN here. -/
noncomputable def evalLoglik (sk : Skel ℝ) (gen : Mat) : ℝ :=
  (List.zipWith (fun (xx : ℕ × ℕ) (dt : ℝ) => Real.log (gen xx.1 xx.2) + dt * gen xx.1 xx.1)
    (sk.xt.dropLast.zip sk.xt.tail) (npDiff sk.t)).sum

/-- One entry of `np.where(gen > 0, gen, nan)` pushed through `(alp - 1) * log(g) - bet * g`, inference.py:71-72. -/
noncomputable def priorTerm (g : ℝ) (a b : Option ℝ) : Option ℝ :=
  if 0 < g then nan2 (· - ·) (a.map fun a => (a - 1) * Real.log g) (b.map fun b => b * g) else none

/-- `eval_logprior`, inference.py:63-72. -/
noncomputable def evalLogprior (dim : ℕ) (gen : Mat) (alp bet : NMat) : ℝ :=
  ∑ i ∈ Finset.range dim, nansum dim fun j => priorTerm (gen i j) (alp i j) (bet i j)

/-- `get_ev`, inference.py:75-84. -/
noncomputable def getEv (dim : ℕ) (alp bet : NMat) : NMat := fillDiag dim fun i j => nan2 (· / ·) (alp i j) (bet i j)

/-- `get_mode`, inference.py:87-96. -/
noncomputable def getMode (dim : ℕ) (alp bet : NMat) : NMat :=
  fillDiag dim fun i j => nan2 (fun a b => (a - 1) / b) (alp i j) (bet i j)

/-- One draw `ome.gamma(a, 1 / b)`, inference.py:48.  A negative shape or scale raises ValueError; `b = 0` gives the scale `inf` and a draw that is
not a finite number, the model's `nan`; the shape zero gives zero. -/
noncomputable def drawGamma (a b : ℝ) : Prog ℝ :=
  if a < 0 ∨ b < 0 then .err .value
  else if b = 0 then .err .nan
  else if a = 0 then .ret 0
  else .real (.gamma a (1 / b)) .ret

/-- The `dim × dim` draws `ome.gamma(alp, 1 / bet)`; a NaN parameter gives a NaN entry without consuming a draw that
matters.  Entries are drawn in row-major order, inference.py:48. -/
noncomputable def drawGammas (alp bet : NMat) : List (ℕ × ℕ) → Prog NMat
  | [] => .ret fun _ _ => none
  | (i, j) :: l =>
    match alp i j, bet i j with
    | some a, some b =>
      (drawGamma a b).bind fun x =>
        (drawGammas alp bet l).bind fun g => .ret fun i' j' => if i' = i ∧ j' = j then some x else g i' j'
    | _, _ => drawGammas alp bet l

/-- `sample_param`, inference.py:40-50. -/
noncomputable def sampleParam (dim : ℕ) (alp bet : NMat) : Prog NMat :=
  (drawGammas alp bet ((List.range dim).flatMap fun i => (List.range dim).map fun j => (i, j))).bind fun g =>
    .ret (fillDiag dim g)

/-- Mean over particles of NaN-able entries, `np.mean([...], 0)`. -/
noncomputable def nanMean (l : List (Option ℝ)) : Option ℝ :=
  (l.foldr (nan2 (· + ·)) (some 0)).map fun s => s / l.length

/-- `switching.mcem.update_generator` after pruning, switching/mcem.py:114-121.  The boolean assignment of line 119 fills
the NaN entries in row-major order with the row sums; with NaN exactly on the diagonal this is `fillDiag`. -/
noncomputable def emGenerator (dim : ℕ) (yy : List (Skel ℝ)) (alp0 bet0 : NMat) : NMat :=
  fillDiag dim fun i j =>
    nan2 (· / ·) (nanMean (yy.map fun y => ((mjpUpdate y alp0 bet0).1 i j).map (· - 1)))
      (nanMean (yy.map fun y => (mjpUpdate y alp0 bet0).2 i j))

/-- The objective of line 120: `np.mean([eval_loglik(y, lam)]) + eval_logprior(lam, *hyper_lam)`. -/
noncomputable def emObjective (dim : ℕ) (yy : List (Skel ℝ)) (alp0 bet0 : NMat) (gen : Mat) : ℝ :=
  (yy.map fun y => evalLoglik y gen).sum / yy.length + evalLogprior dim gen alp0 bet0

end Ctb
