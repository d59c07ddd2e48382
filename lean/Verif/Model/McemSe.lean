import Verif.Model.Mcem
import Mathlib.Analysis.Calculus.FDeriv.Basic
import Mathlib.LinearAlgebra.Matrix.NonsingularInverse
import Mathlib.Analysis.Normed.Module.FiniteDimension

/-!
# Model of the standard errors of the Monte Carlo EM

Files: ito/mcem.py, switching/mcem.py (`est_se`).  `F thi k` is the value of `f_obj` for particle `k`: after `update_objective` it draws nothing (C88).

Simplifications: `numdifftools.Gradient` and `Hessian` are the exact derivatives; bounds of length one are not broadcast.
-/

namespace Ctb

open Classical

variable {p n : ℕ}

/-- `max(min(x, ub), lb)`; `none` is an infinite bound. -/
noncomputable def clip1 (lb ub : Option ℝ) (x : ℝ) : ℝ :=
  let y := match ub with
    | none => x
    | some u => min x u
  match lb with
  | none => y
  | some l => max y l

/-- `np.max([np.min([thi_, opt_bounds[1]], 0), opt_bounds[0]], 0)`, ito/mcem.py:120, switching/mcem.py:159. -/
noncomputable def clipTo (lb ub : List (Option ℝ)) (x : Fin p → ℝ) : Fin p → ℝ := fun i => clip1 (lb.getD i none) (ub.getD i none) (x i)

/-- `Gradient(f)(x)`: the partial derivatives. -/
noncomputable def gradAt (f : (Fin p → ℝ) → ℝ) (x : Fin p → ℝ) : Fin p → ℝ := fun i => fderiv ℝ f x (Pi.single i 1)

/-- `Hessian(f)(x)`. -/
noncomputable def hessAt (f : (Fin p → ℝ) → ℝ) (x : Fin p → ℝ) : Fin p → Fin p → ℝ :=
  fun i j => fderiv ℝ (fun y => fderiv ℝ f y (Pi.single j 1)) x (Pi.single i 1)

/-- `np.cov(g.T)` for `g` of shape `(n, p)`. -/
noncomputable def npCov (g : Fin n → Fin p → ℝ) : Fin p → Fin p → ℝ :=
  fun i j => (∑ k, (g k i - (∑ l, g l i) / n) * (g k j - (∑ l, g l j) / n)) / (n - 1)

/-- `np.cov(Gradient(f)(x).T)`.  `Gradient` squeezes its result: for one particle it is a vector of length `p`, which `np.cov` takes for `p`
observations of one variable; the scalar is subtracted from every entry of the Hessian. -/
noncomputable def gradCov (g : Fin n → Fin p → ℝ) : Fin p → Fin p → ℝ :=
  if h : n = 1 then fun _ _ => (∑ i, (g ⟨0, h ▸ Nat.one_pos⟩ i - (∑ j, g ⟨0, h ▸ Nat.one_pos⟩ j) / p) ^ 2) / (p - 1) else npCov g

/-- `info`, ito/mcem.py:128, switching/mcem.py:170. -/
noncomputable def seInfo (clip : (Fin p → ℝ) → Fin p → ℝ) (F : (Fin p → ℝ) → Fin n → ℝ) (thi : Fin p → ℝ) : Matrix (Fin p) (Fin p) ℝ :=
  Matrix.of fun i j => hessAt (fun x => -((∑ k, F (clip x) k) / n)) thi i j - gradCov (fun k => gradAt (fun x => F (clip x) k) thi) i j

/-- The part of `est_se` for one parameter vector, ito/mcem.py:125-130, switching/mcem.py:166-172.  Bounds of another length raise ValueError, as
do `np.min` of an empty array and unpacking the results of no particle; `np.cov` of one observation is NaN, hence the comparison `> 0` false;
`np.linalg.inv` of a singular matrix raises LinAlgError. -/
noncomputable def seFrom (lb ub : List (Option ℝ)) (F : (Fin p → ℝ) → Fin n → ℝ) (thi : Fin p → ℝ) : Res (Option (Matrix (Fin p) (Fin p) ℝ)) :=
  if lb.length ≠ p ∨ ub.length ≠ p ∨ p = 0 ∨ n = 0 then .error .value
  else if ∃ i : Fin p, lb.getD i none = some (thi i) ∨ ub.getD i none = some (thi i) then .ok none
  else if n = 1 ∧ p = 1 then .ok none
  else if (seInfo (clipTo lb ub) F thi).det = 0 then .error .exception
  else if ∀ i, 0 < (seInfo (clipTo lb ub) F thi)⁻¹ i i then .ok (some (seInfo (clipTo lb ub) F thi)⁻¹) else .ok none

/-- `est_se`, ito/mcem.py:116-130. -/
noncomputable def itoEstSe (lb ub : Option (List (Option ℝ))) (buffer : ℝ) (F : (Fin p → ℝ) → Fin n → ℝ) (thi : Fin p → ℝ) :
    Res (Option (Matrix (Fin p) (Fin p) ℝ)) :=
  (bufferBounds lb ub p buffer).bind fun b => seFrom b.1 b.2 F thi

/-- `est_se`, switching/mcem.py:155-173, with `m` regimes; `F thi i` is `f_obj(thi, i)`.  The bounds are made for `len(thi)`, the number of
regimes, instead of the number of parameters. -/
noncomputable def swEstSe (m : ℕ) (lb ub : Option (List (Option ℝ))) (buffer : ℝ) (F : (ℕ → Fin p → ℝ) → ℕ → Fin n → ℝ) (thi : ℕ → Fin p → ℝ) :
    Res (List (Option (Matrix (Fin p) (Fin p) ℝ))) :=
  (bufferBounds lb ub m buffer).bind fun b =>
  (List.range m).mapM fun i => seFrom b.1 b.2 (fun x => F (Function.update thi i x) i) (thi i)

end Ctb
