import Verif.Model.SwitchParams

/-!
# Model of the pooled calls, and of `euler_simulate`

`pool(delayed(f)(..., ome_) for ...)` (joblib, backend `loky`): ito/mcmc.py:119-126, switching/mcmc.py:74-77, 162-166.  Every task
gets its own generator, spawned from `ome`; a draw written `np.random.xxx(...)` instead uses the global generator of the worker process
that runs the task.  Tasks share nothing else: arguments are pickled.  A schedule is any interleaving of single draws.
-/

namespace Ctb

variable {α β σ : Type}

/-- A deterministic random number generator with states `σ`. -/
structure Rng (σ : Type) where
  real : RDist → σ → ℝ × σ
  nat : NDist → σ → ℕ × σ

/-- A task: a program whose draws say whether they use the global generator. -/
inductive Task (α : Type) : Type
  | ret (a : α)
  | err (e : PyErr)
  | real (glob : Bool) (d : RDist) (k : ℝ → Task α)
  | nat (glob : Bool) (d : NDist) (k : ℕ → Task α)

/-- Sequencing. -/
def Task.bind : Task α → (α → Task β) → Task β
  | .ret a, f => f a
  | .err e, _ => .err e
  | .real g d k, f => .real g d fun x => (k x).bind f
  | .nat g d k, f => .nat g d fun n => (k n).bind f

/-- A program all of whose draws use the same kind of generator. -/
def Task.ofProg (glob : Bool) : Prog α → Task α
  | .ret a => .ret a
  | .err e => .err e
  | .real d k => .real glob d fun x => ofProg glob (k x)
  | .nat d k => .nat glob d fun n => ofProg glob (k n)

/-- Result of a finished task. -/
def Task.result : Task α → Option (Res α)
  | .ret a => some (.ok a)
  | .err e => some (.error e)
  | _ => none

/-- A task, the state of its own generator, and the worker process that runs it. -/
structure Slot (α σ : Type) where
  task : Task α
  own : σ
  worker : ℕ

/-- The pool: the tasks, and the global generator of every worker process. -/
structure Pool (α σ : Type) where
  slots : List (Slot α σ)
  glob : ℕ → σ

/-- One draw of one task: the slot and the worker's global generator afterwards. -/
def Slot.advance (R : Rng σ) (s : Slot α σ) (g : σ) : Slot α σ × σ :=
  match s.task with
  | .ret _ => (s, g)
  | .err _ => (s, g)
  | .real false d k => let r := R.real d s.own; ({ s with task := k r.1, own := r.2 }, g)
  | .nat false d k => let r := R.nat d s.own; ({ s with task := k r.1, own := r.2 }, g)
  | .real true d k => let r := R.real d g; ({ s with task := k r.1 }, r.2)
  | .nat true d k => let r := R.nat d g; ({ s with task := k r.1 }, r.2)

/-- Task `i` makes one draw. -/
def Pool.step (R : Rng σ) (P : Pool α σ) (i : ℕ) : Pool α σ :=
  match P.slots[i]? with
  | none => P
  | some s =>
    let r := s.advance R (P.glob s.worker)
    ⟨P.slots.set i r.1, Function.update P.glob s.worker r.2⟩

/-- A schedule. -/
def Pool.run (R : Rng σ) (P : Pool α σ) (sched : List ℕ) : Pool α σ := sched.foldl (fun P i => P.step R i) P

/-- What `pool(...)` returns, in the order of the tasks, once all have finished. -/
def Pool.results (P : Pool α σ) : Option (List (Res α)) := P.slots.mapM fun s => s.task.result

/-- The part of `update_params_section` after the proposal, switching/mcmc.py:98-112. -/
noncomputable def paramsSectionRest {p : ℕ} {ζ : Type} (C : McmcControls) (O : ParamOps p ζ) (nil : Thi p) (z : List ζ)
    (h : Anchorage ℝ ℝ) (state : ℕ) (q : (Fin p → ℝ) × ℝ × ℝ) : Prog (Bool × Thi p × List ζ) :=
  let prime := Function.update nil state q.1
  let w := (O.weight prime state + q.2.2, O.weight nil state + q.2.1)
  (decideParam C w w z fun s up => (flipParamCoins O nil prime h state s up).bind fun r => .ret (r.1, r.2, r.2)).bind fun v =>
  .ret (v.1, if v.1 then prime else nil, v.2)

/-- `update_params_section` as a pooled task: `MyopicMvRwSampler.propose` draws from the global `np.random` (misc/adapt.py:71), the rest
from the task's generator. -/
noncomputable def paramsSectionTask {p : ℕ} {ζ : Type} (root : Matrix (Fin p) (Fin p) ℝ → Matrix (Fin p) (Fin p) ℝ) (C : McmcControls)
    (O : ParamOps p ζ) (nil : Thi p) (z : List ζ) (h : Anchorage ℝ ℝ) (s : MvRw p) (state : ℕ) : Task (Bool × Thi p × List ζ) :=
  (Task.ofProg true (s.propose root)).bind fun q => Task.ofProg false (paramsSectionRest C O nil z h state q)

/-! ## `euler_simulate` -/

/-- `np.arange(0, stop, step)` for a positive step. -/
noncomputable def npArange (stop step : ℝ) : List ℝ := (List.range ⌈stop / step⌉₊).map fun k : ℕ => (k : ℝ) * step

/-- The loop of `euler_simulate`, misc/testing.py:36-39: the columns of the trajectory array, given the rows of scaled noise. -/
noncomputable def eulerCols (dfunc vfunc : ℝ → ℝ) (res : ℝ) : List ℝ → List (List ℝ) → List (List ℝ)
  | x, [] => [x]
  | x, e :: es => x :: eulerCols dfunc vfunc res (List.zipWith (fun a b => a + dfunc a * res + vfunc a * b) x e) es

/-- `euler_simulate`, misc/testing.py:6-41, for `res > 0` and `fin_t ≥ 0`: the time grid and the columns of the trajectory array. -/
noncomputable def eulerSimulate (ndraws : ℕ) (finT x0 : ℝ) (dfunc vfunc : ℝ → ℝ) (res : ℝ) : Prog (List ℝ × List (List ℝ)) :=
  (Prog.replicate ⌊finT / res⌋₊ (Prog.replicate ndraws (Prog.draw (.normal 0 1)))).bind fun noise =>
  .ret (npArange finT res, eulerCols dfunc vfunc res (List.replicate ndraws x0) (noise.map fun r => r.map fun e => Real.sqrt res * e))

end Ctb
