import Verif.Basic.Prog
import Verif.Basic.Numpy
import Mathlib.Analysis.SpecialFunctions.Pow.Real
import Mathlib.LinearAlgebra.Matrix.Defs
import Mathlib.Data.Matrix.Mul

/-!
# Model of `ctbayes/misc/adapt.py`: constraint transforms and adaptive random-walk samplers

`MyopicMjpSampler.propose` is in `Verif.Model.MjpSampling`.  Bounds are `Option ℝ`, `none` for an infinite bound (the code
only asks `np.isinf`).
-/

namespace Ctb

/-! ## Transforms -/

/-- `np.log(x)`; the `-inf`/NaN of a non-positive argument is not followed. -/
noncomputable def npLog (x : ℝ) : Res ℝ := if 0 < x then .ok (Real.log x) else .error .nan

/-- `transform_to_reals`, misc/adapt.py:32-39. -/
noncomputable def transformToReals (x : ℝ) : Option ℝ → Option ℝ → Res (ℝ × ℝ)
  | none, none => .ok (x, 0)
  | some _, some _ => .ok (x, 0)
  | none, some ub => do let l ← npLog (ub - x); pure (l, -l)
  | some lb, none => do let l ← npLog (x - lb); pure (l, -l)

/-- `transform_to_const`, misc/adapt.py:42-49. -/
noncomputable def transformToConst (y : ℝ) : Option ℝ → Option ℝ → ℝ × ℝ
  | none, none => (y, 0)
  | some _, some _ => (y, 0)
  | none, some ub => (ub - Real.exp y, -y)
  | some lb, none => (lb + Real.exp y, -y)

/-! ## The scale schedule shared by the samplers -/

/-- The attributes `log_prop_scale`, `emp_prob`, `adapt_periods`, in Python list order. -/
structure Schedule where
  logScale : List ℝ
  empProb : List ℝ
  periods : List ℕ

/-- Parameters `opt_prob`, `adapt_decay`, `air` (`air` a non-negative integer). -/
structure AdaptPar where
  optProb : ℝ
  decay : ℝ
  air : ℕ

/-- `l[-1]` -/
def lastOf {α : Type} (l : List α) : Res α := match pyGet l (-1) with
  | some a => .ok a
  | none => .error .index

/-- `l[-2]` -/
def secondLastOf {α : Type} (l : List α) : Res α := match pyGet l (-2) with
  | some a => .ok a
  | none => .error .index

/-- Initial schedule, misc/adapt.py:62-64, 99-101 (`scale0 = -1.0`) and 129-131 (`scale0 = 0.0`). -/
def Schedule.init (scale0 : ℝ) (P : AdaptPar) : Schedule := ⟨[scale0], [P.optProb], [0, 1]⟩

/-- `np.mean(l)`; NaN for an empty array. -/
noncomputable def npMean (l : List ℝ) : Res ℝ := if l = [] then .error .nan else .ok (l.sum / l.length)

/-- The schedule part of `adapt`, misc/adapt.py:80-85 and 112-118 (`useMean = true`: the mean acceptance probability of the
period) and 143-147 (`useMean = false`: the last probability). -/
noncomputable def Schedule.adapt (useMean : Bool) (P : AdaptPar) (s : Schedule) (prob : ℝ) : Res Schedule := do
  let emp := s.empProb ++ [prob]
  let last ← lastOf s.periods
  if emp.length = last + 1 then
    let rate : ℝ := 1 / (s.periods.length : ℝ) ^ P.decay
    let prev ← secondLastOf s.periods
    let m ← if useMean then npMean (emp.drop prev) else pure prob
    let sc ← lastOf s.logScale
    pure ⟨s.logScale ++ [sc + rate * (m - P.optProb)], emp, s.periods ++ [last + s.periods.length ^ P.air]⟩
  else pure ⟨s.logScale, emp, s.periods⟩

/-! ## Multivariate random walk -/

/-- `seq_update_normal`, misc/adapt.py:8-29. -/
noncomputable def seqUpdateNormal {n : ℕ} (obs : Fin n → ℝ) (k : ℝ) (mean : Fin n → ℝ) (cov : Matrix (Fin n) (Fin n) ℝ) :
    (Fin n → ℝ) × Matrix (Fin n) (Fin n) ℝ :=
  let dev := fun i => obs i - mean i
  (fun i => mean i + dev i / k, fun i j => cov i j + (dev i * dev j - cov i j) / k)

/-- `MyopicMvRwSampler`, misc/adapt.py:52-66. -/
structure MvRw (n : ℕ) where
  state : Fin n → ℝ
  lb : Fin n → Option ℝ
  ub : Fin n → Option ℝ
  sched : Schedule
  mean : Fin n → ℝ
  cov : Matrix (Fin n) (Fin n) ℝ
  propCov : Matrix (Fin n) (Fin n) ℝ

/-- `MyopicMvRwSampler.__init__`, misc/adapt.py:54-66. -/
noncomputable def MvRw.init {n : ℕ} (P : AdaptPar) (x : Fin n → ℝ) (lb ub : Fin n → Option ℝ) : MvRw n :=
  ⟨x, lb, ub, .init (-1) P, 0, 1, 1⟩

/-- Results for all coordinates, or the first error. -/
def allOk {α : Type} : {n : ℕ} → (Fin n → Res α) → Res (Fin n → α)
  | 0, _ => .ok fun i => i.elim0
  | n + 1, f => do
    let a ← f 0
    let l ← allOk fun i : Fin n => f i.succ
    pure (Fin.cons a l)

/-- Vector of independent standard normal draws. -/
noncomputable def drawNormals : (n : ℕ) → Prog (Fin n → ℝ)
  | 0 => .ret fun i => i.elim0
  | n + 1 => .real (.normal 0 1) fun z => (drawNormals n).bind fun l => .ret (Fin.cons z l)

/-- `MyopicMvRwSampler.propose`, misc/adapt.py:68-73.  `np.random.multivariate_normal(m, C)` returns `m + R z` with
standard normal `z` and a factor `R` of `C` (`R Rᵀ = C`) computed by LAPACK; `root` is that factorisation.  The draw uses
the global `np.random`, not `ome` (see C73). -/
noncomputable def MvRw.propose {n : ℕ} (root : Matrix (Fin n) (Fin n) ℝ → Matrix (Fin n) (Fin n) ℝ) (s : MvRw n) :
    Prog ((Fin n → ℝ) × ℝ × ℝ) :=
  (Prog.lift (allOk fun i => transformToReals (s.state i) (s.lb i) (s.ub i))).bind fun r =>
  (Prog.lift (lastOf s.sched.logScale)).bind fun sc =>
  (drawNormals n).bind fun z =>
  let propReal := fun i => (r i).1 + (root (Real.exp sc • s.propCov)).mulVec z i
  let c := fun i => transformToConst (propReal i) (s.lb i) (s.ub i)
  .ret (fun i => (c i).1, ∑ i, (c i).2, ∑ i, (r i).2)

/-- `MyopicMvRwSampler.adapt`, misc/adapt.py:75-86. -/
noncomputable def MvRw.adapt {n : ℕ} (P : AdaptPar) (s : MvRw n) (sample : Fin n → ℝ) (prob : ℝ) : Res (MvRw n) := do
  let r ← allOk fun i => transformToReals (sample i) (s.lb i) (s.ub i)
  let mc := seqUpdateNormal (fun i => (r i).1) (1 + s.sched.empProb.length) s.mean s.cov
  let sched ← s.sched.adapt true P prob
  -- the covariance is handed to the proposal exactly when the scale changes (l.86)
  let changed := decide (sched.logScale.length ≠ s.sched.logScale.length)
  pure { s with state := sample, sched := sched, mean := mc.1, cov := mc.2, propCov := if changed then mc.2 else s.propCov }

/-! ## Scalar random walk and the jump-process sampler -/

/-- `MyopicRwSampler`, misc/adapt.py:89-101. -/
structure Rw where
  state : ℝ
  lb : Option ℝ
  ub : Option ℝ
  sched : Schedule

/-- `MyopicRwSampler.__init__`, misc/adapt.py:91-101. -/
noncomputable def Rw.init (P : AdaptPar) (x : ℝ) (lb ub : Option ℝ) : Rw := ⟨x, lb, ub, .init (-1) P⟩

/-- Python `sum(x)` of a number: a float is not iterable, TypeError. -/
def pySumFloat (_x : ℝ) : Res ℝ := .error .type

/-- `MyopicRwSampler.propose`, misc/adapt.py:103-108; line 108 applies `sum` to two floats. -/
noncomputable def Rw.propose (s : Rw) : Prog (ℝ × ℝ × ℝ) :=
  (Prog.lift (transformToReals s.state s.lb s.ub)).bind fun r =>
  (Prog.lift (lastOf s.sched.logScale)).bind fun sc =>
  .real (.normal r.1 (Real.exp sc)) fun y =>
  let c := transformToConst y s.lb s.ub
  (Prog.lift (pySumFloat c.2)).bind fun f =>
  (Prog.lift (pySumFloat r.2)).bind fun b =>
  .ret (c.1, f, b)

/-- `MyopicRwSampler.adapt`, misc/adapt.py:110-118. -/
noncomputable def Rw.adapt (P : AdaptPar) (s : Rw) (sample : ℝ) (prob : ℝ) : Res Rw := do
  let sched ← s.sched.adapt true P prob
  pure { s with state := sample, sched := sched }

/-- `MyopicMjpSampler` (state and schedule), misc/adapt.py:121-131; `σ` is the type of skeletons. -/
structure MjpAdaptive (σ : Type) where
  state : σ
  sched : Schedule

/-- `MyopicMjpSampler.__init__`, misc/adapt.py:123-131. -/
noncomputable def MjpAdaptive.init {σ : Type} (P : AdaptPar) (x : σ) : MjpAdaptive σ := ⟨x, .init 0 P⟩

/-- `MyopicMjpSampler.adapt`, misc/adapt.py:140-147. -/
noncomputable def MjpAdaptive.adapt {σ : Type} (P : AdaptPar) (s : MjpAdaptive σ) (sample : σ) (prob : ℝ) :
    Res (MjpAdaptive σ) := do
  let sched ← s.sched.adapt false P prob
  pure ⟨sample, sched⟩

end Ctb
