import Verif.Basic.Generic
import Verif.Model.MjpInference
import Mathlib.Analysis.Normed.Algebra.MatrixExponential
import Mathlib.LinearAlgebra.Matrix.NonsingularInverse
import Mathlib.Order.WithBot

/-!
# Model of `ctbayes/mjplib/skeleton.py`: simulation of jump paths and Poisson processes, and
`MyopicMjpSampler.propose` in `ctbayes/misc/adapt.py`

Generators are arrays `Mat` read on `0..d-1`; `toM` is the same array as a Mathlib matrix.
`while` loops without a bound take a recursion budget and end in `PyErr.fuel` when it is used up.
-/

namespace Ctb

/-- The `d × d` array as a matrix. -/
def toM (d : ℕ) (g : Mat) : Matrix (Fin d) (Fin d) ℝ := fun i j => g i j

/-- `ome.choice(d, 1, p=q).item()`: numpy raises ValueError unless `q` is non-negative and sums to one. -/
noncomputable def pyChoice {d : ℕ} (q : Fin d → ℝ) : Prog (Fin d) :=
  if (∀ j, 0 ≤ q j) ∧ ∑ j, q j = 1 then
    .nat (.choice d fun j => if h : j < d then q ⟨j, h⟩ else 0) fun y =>
      if h : y < d then .ret ⟨y, h⟩ else .err .index
  else .err .value

/-- Python indexing of a state below `d`; anything else is an IndexError. -/
def asState (d : ℕ) (x : ℕ) : Prog (Fin d) := if h : x < d then .ret ⟨x, h⟩ else .err .index

/-- `get_stat`, mjplib/skeleton.py:391-397: `np.linalg.solve(gen.T - 1, -np.ones(dim))`; a singular matrix raises
`LinAlgError`, a subclass of ValueError.  `gen.T - 1` subtracts one from every entry. -/
noncomputable def getStat (d : ℕ) (g : Mat) : Res (Fin d → ℝ) :=
  let A := (toM d g).transpose - Matrix.of fun _ _ => (1 : ℝ)
  if A.det ≠ 0 then .ok (A⁻¹.mulVec fun _ => -1) else .error .value

/-! ## Forward simulation -/

/-- `ome.exponential(1 / rate)`: a zero rate has infinite scale and gives an infinite time (`⊤`); a negative scale
raises ValueError. -/
noncomputable def drawHold (rate : ℝ) : Prog (WithTop ℝ) :=
  if 0 < rate then .real (.exponential (1 / rate)) fun h => .ret (h : WithTop ℝ)
  else if rate = 0 then .ret ⊤ else .err .value

/-- `np.argmin(hold)` with the minimum: position of the first smallest entry; ValueError on an empty array. -/
noncomputable def argmin : List (WithTop ℝ) → Res (ℕ × WithTop ℝ)
  | [] => .error .value
  | [a] => .ok (0, a)
  | a :: b :: l =>
    match argmin (b :: l) with
    | .ok (k, m) => if a ≤ m then .ok (0, a) else .ok (k + 1, m)
    | .error e => .error e

/-- `np.delete(gen[x], x)`: rates out of `x`, own entry removed. -/
def exitRates (d : ℕ) (g : Mat) (x : ℕ) : List ℝ := (((List.range d).eraseIdx x).map fun j => g x j)

/-- The `while` loop of `sample_forwards`, mjplib/skeleton.py:128-134.  Returns the list of `(t, x)` without the last
entry (`t[:-1]`, `x[:-1]`), which is the first one with `t >= fin_t`. -/
noncomputable def forwardsLoop (d : ℕ) (g : Mat) (fin : ℝ) : ℕ → ℝ → ℕ → Prog (List (ℝ × ℕ))
  | 0, _, _ => .err .fuel
  | n + 1, t, x =>
    if t < fin then
      if x < d then
        (Prog.mapM' drawHold (exitRates d g x)).bind fun hold =>
        (Prog.lift (argmin hold)).bind fun mv =>
        match mv.2 with
        | ⊤ => .ret [(t, x)] -- t + inf = inf: the loop ends and this entry is dropped
        | (h : ℝ) =>
          (forwardsLoop d g fin n (t + h) (if x ≤ mv.1 then mv.1 + 1 else mv.1)).bind fun rest =>
            .ret ((t, x) :: rest)
      else .err .index
    else .ret []

/-- `sample_forwards`, mjplib/skeleton.py:102-134. -/
noncomputable def sampleForwards (fuel d : ℕ) (g : Mat) (fin : ℝ) (init : Option ℕ) : Prog (Skel ℝ) :=
  (match init with
    | some x => Prog.ret x
    | none => (Prog.lift (getStat d g)).bind fun p => (pyChoice p).bind fun x => .ret x.val).bind fun x0 =>
  (forwardsLoop d g fin fuel 0 x0).bind fun l => .ret ⟨l.map Prod.fst, l.map Prod.snd, fin⟩

/-! ## Bridges -/

/-- `rate_bound = -np.min(np.diag(gen))`, mjplib/skeleton.py:206. -/
noncomputable def rateBound {d : ℕ} [NeZero d] (G : Matrix (Fin d) (Fin d) ℝ) : ℝ :=
  -(Finset.univ.inf' ⟨0, Finset.mem_univ _⟩ fun j => G j j)

/-- `dtrans = np.identity(dim) + gen / rate_bound`, mjplib/skeleton.py:207.  (A zero `rate_bound` gives NaN in the source;
then `ctrans` is the identity and the NaN matrix is not read, see `sampleBridge`.) -/
noncomputable def dtrans {d : ℕ} [NeZero d] (G : Matrix (Fin d) (Fin d) ℝ) : Matrix (Fin d) (Fin d) ℝ :=
  1 + (1 / rateBound G) • G

/-- `get_trans`, mjplib/skeleton.py:381-388. -/
noncomputable def getTrans {d : ℕ} (fin : ℝ) (G : Matrix (Fin d) (Fin d) ℝ) : Matrix (Fin d) (Fin d) ℝ :=
  NormedSpace.exp (fin • G)

/-- `n`-th summand of the running sum in `sample_n_trans`, mjplib/skeleton.py:194, 199-202, without the logarithms:
`(rate_bound * fin_t)^n / n! * dtrans^n[init_x, fin_x]`. -/
noncomputable def nTransTerm {d : ℕ} [NeZero d] (G : Matrix (Fin d) (Fin d) ℝ) (fin : ℝ) (i f : Fin d) (n : ℕ) : ℝ :=
  (rateBound G * fin) ^ n / (n.factorial : ℝ) * (dtrans G ^ n) i f

/-- The `while p[-1] < u` loop, mjplib/skeleton.py:196-203, with `p` and `u` exponentiated (`exp` is increasing and maps
the `-inf` of both to 0). -/
noncomputable def nTransLoop (term : ℕ → ℝ) (u : ℝ) : ℕ → ℕ → ℝ → Res ℕ
  | 0, _, _ => .error .fuel
  | k + 1, n, p => if p < u then nTransLoop term u k (n + 1) (p + term (n + 1)) else .ok n

/-- `sample_n_trans` for the uniform draw `U`, mjplib/skeleton.py:191-203. -/
noncomputable def sampleNTrans {d : ℕ} [NeZero d] (fuel : ℕ) (G : Matrix (Fin d) (Fin d) ℝ) (fin : ℝ) (i f : Fin d)
    (U : ℝ) : Res ℕ :=
  nTransLoop (nTransTerm G fin i f) (U * getTrans fin G i f * Real.exp (rateBound G * fin)) fuel 0 (if i = f then 1 else 0)

/-- The loop of mjplib/skeleton.py:215-217; the argument is `n_trans - i`, counting down from `n_trans - 1` to 1. -/
noncomputable def bridgeSteps {d : ℕ} (P : Matrix (Fin d) (Fin d) ℝ) (f : Fin d) : ℕ → Fin d → Prog (List (Fin d))
  | 0, _ => .ret []
  | m + 1, x =>
    (pyChoice fun j => P x j * (P ^ (m + 1)) j f / (P ^ (m + 2)) x f).bind fun y =>
      (bridgeSteps P f m y).bind fun l => .ret (y :: l)

/-- Assembly of the bridge, mjplib/skeleton.py:220-224: sort the times, drop virtual jumps. -/
noncomputable def bridgeAssemble (fin : ℝ) (x : List ℕ) (us : List ℝ) : Skel ℝ :=
  let t := (0 : ℝ) :: npSort us
  let keep := true :: List.zipWith (fun a b => decide (a ≠ b)) x.tail x.dropLast
  ⟨select t keep, select x keep, fin⟩

/-- `sample_bridge` after the first uniform draw `U`, mjplib/skeleton.py:191-224. -/
noncomputable def bridgeFrom {d : ℕ} [NeZero d] (fuel : ℕ) (G : Matrix (Fin d) (Fin d) ℝ) (fin : ℝ) (i f : Fin d)
    (U : ℝ) : Prog (Skel ℝ) :=
  (Prog.lift (sampleNTrans fuel G fin i f U)).bind fun n =>
  if n = 0 ∨ (n = 1 ∧ i = f) then .ret ⟨[0], [i.val], fin⟩
  else
    (bridgeSteps (dtrans G) f (n - 1) i).bind fun xs =>
    (Prog.replicate n (.draw (.uniform 0 fin))).bind fun us =>
    .ret (bridgeAssemble fin (i.val :: xs.map Fin.val ++ [f.val]) us)

/-- `sample_bridge`, mjplib/skeleton.py:167-224. -/
noncomputable def sampleBridge {d : ℕ} [NeZero d] (fuel : ℕ) (G : Matrix (Fin d) (Fin d) ℝ) (fin : ℝ) (i f : Fin d) :
    Prog (Skel ℝ) :=
  .real (.uniform 0 1) fun U => bridgeFrom fuel G fin i f U

/-- `sample_backwards`, mjplib/skeleton.py:137-164. -/
noncomputable def sampleBackwards {d : ℕ} [NeZero d] (fuel : ℕ) (G : Matrix (Fin d) (Fin d) ℝ) (fin : ℝ) (f : Fin d) :
    Prog (Skel ℝ) :=
  (pyChoice fun i => getTrans fin G i f / ∑ k, getTrans fin G k f).bind fun i => sampleBridge fuel G fin i f

/-- `xt[0]` -/
def firstState (d : ℕ) (sk : Skel ℝ) : Prog (Fin d) :=
  match sk.xt.head? with
  | some x => asState d x
  | none => .err .index

/-- `xt[-1]` -/
def lastState (d : ℕ) (sk : Skel ℝ) : Prog (Fin d) :=
  match sk.xt.getLast? with
  | some x => asState d x
  | none => .err .index

/-- `mutate_partition`, mjplib/skeleton.py:280-311. -/
noncomputable def mutatePartition (fuel d : ℕ) [NeZero d] (g : Mat) (ps : List (Skel ℝ)) : Prog (List (Skel ℝ)) :=
  match ps with
  | [] => .err .index
  | [p] => (sampleForwards fuel d g p.fin none).bind fun q => .ret [q]
  | p :: p' :: rest =>
    let last := (p' :: rest).getLast (by simp)
    (lastState d p).bind fun x =>
    (sampleBackwards fuel (toM d g) p.fin x).bind fun initSkel =>
    (firstState d last).bind fun y =>
    (sampleForwards fuel d g last.fin (some y.val)).bind fun finSkel =>
    (Prog.mapM' (fun sk => (firstState d sk).bind fun a => (lastState d sk).bind fun b =>
      sampleBridge fuel (toM d g) sk.fin a b) (p' :: rest).dropLast).bind fun mids =>
    .ret (initSkel :: mids ++ [finSkel])

/-- `t[1:-1][ome.uniform(size=len(t) - 2) < p_cond]`, misc/adapt.py:136.  A negative size raises ValueError. -/
noncomputable def condTimes (pCond : ℝ) (t : List ℝ) : Prog (List ℝ) :=
  if t.length < 2 then .err .value
  else
    (Prog.replicate (t.length - 2) (.draw (.uniform 0 1))).bind fun us =>
      .ret (select (pySlice t 1 (-1)) (us.map fun u => decide (u < pCond)))

/-- `MyopicMjpSampler.propose`, misc/adapt.py:133-138. -/
noncomputable def mjpPropose (fuel d : ℕ) [NeZero d] (logScale : ℝ) (state : Skel ℝ) (g : Mat) (t : List ℝ) :
    Prog (Skel ℝ × List ℝ) :=
  (condTimes (1 / (1 + Real.exp logScale)) t).bind fun tc =>
  (mutatePartition fuel d g (partitionSkeleton state tc)).bind fun ps =>
  (Prog.lift (pastePartition ps)).bind fun prop => .ret (prop, tc)

/-! ## Poisson point processes -/

/-- One row of `ome.uniform(np.zeros(k), bound, (n, k))`. -/
noncomputable def drawRow (bound : List ℝ) : Prog (List ℝ) := Prog.mapM' (fun b => .draw (.uniform 0 b)) bound

/-- First coordinate of a point (rows are never empty here). -/
def firstCoord (row : List ℝ) : ℝ := row.headD 0

/-- `sample_ppp`, mjplib/skeleton.py:68-99.  `locations[np.argsort(locations[:, 0])]` sorts the rows by the first
coordinate; which of two tied rows comes first is not relevant to the statements.  `min(())` of an empty box raises
ValueError. -/
noncomputable def samplePpp (intensity : ℝ) (bound : List ℝ) : Prog (List (List ℝ)) :=
  (Prog.assert (0 < intensity)).bind fun _ =>
  if bound = [] then .err .value else
  (Prog.assert (∀ b ∈ bound, 0 < b)).bind fun _ =>
  .nat (.poisson (intensity * bound.prod)) fun n =>
  (Prog.replicate n (drawRow bound)).bind fun rows =>
  .ret (rows.insertionSort fun a b => firstCoord a ≤ firstCoord b)

/-- `batch_sizes`, mjplib/skeleton.py:53-55. -/
def batchSizes (n size : ℕ) : List ℕ :=
  List.replicate (n / size) size ++ if n % size ≠ 0 then [n % size] else []

/-- One batch, mjplib/skeleton.py:59-65; `lb` is the running upper end of the previous batch. Returns the new upper end
and the points. -/
noncomputable def pppBatch (n : ℕ) (b0 : ℝ) (bs : List ℝ) (lb : ℝ) (i : ℕ) : Prog (ℝ × List (List ℝ)) :=
  .real (.beta i (n + 1 - i)) fun z =>
  let ub := lb + b0 * z
  (if i = 1 then Prog.ret [ub]
   else (Prog.replicate (i - 1) (.draw (.uniform lb ub))).bind fun us => .ret (npSort us ++ [ub])).bind fun u0 =>
  (Prog.replicate i (drawRow bs)).bind fun u =>
  .ret (ub, List.zipWith (fun a r => a :: r) u0 u)

/-- The loop of mjplib/skeleton.py:57-65, drained into the list of batches. -/
noncomputable def pppLoop (n : ℕ) (b0 : ℝ) (bs : List ℝ) : ℝ → List ℕ → Prog (List (List (List ℝ)))
  | _, [] => .ret []
  | lb, i :: is =>
    (pppBatch n b0 bs lb i).bind fun r => (pppLoop n b0 bs r.1 is).bind fun rest => .ret (r.2 :: rest)

/-- `sample_batch_ppp`, mjplib/skeleton.py:28-65. -/
noncomputable def sampleBatchPpp (intensity : ℝ) (bounds : List ℝ) (size : ℤ) : Prog (List (List (List ℝ))) :=
  (Prog.assert (0 < intensity)).bind fun _ =>
  match bounds with
  | [] => .err .value
  | b0 :: bs =>
    (Prog.assert (∀ b ∈ b0 :: bs, 0 < b)).bind fun _ =>
    (Prog.assert (0 < size)).bind fun _ =>
    .nat (.poisson (intensity * (b0 :: bs).prod)) fun n => pppLoop n b0 bs 0 (batchSizes n size.toNat)

end Ctb
