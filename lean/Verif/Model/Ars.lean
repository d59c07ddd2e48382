import Verif.Basic.Numpy
import Verif.Model.Bfactories
import Mathlib.Data.EReal.Operations
import Mathlib.Analysis.SpecialFunctions.Log.Basic

/-!
# Model of `ctbayes/misc/ars.py`: adaptive rejection sampling

Bounds may be infinite, so the array `y` of envelope breakpoints is a list of extended reals.  `lo = none` is `-inf`.
A division by zero (equal slopes of neighbouring tangents, a tangent of slope zero) or an envelope of infinite mass makes
numpy go on with NaN or infinities; the model stops there with `nan`.
-/

namespace Ctb

open scoped Classical in
/-- `gen_upper`, misc/ars.py:102-115. -/
noncomputable def genUpper (x fx dfx : List ℝ) : Res (List ℝ) :=
  let den := List.zipWith (· - ·) dfx.dropLast dfx.tail
  if 0 ∈ den then .error .nan
  else .ok (List.zipWith (· / ·) (npDiff (List.zipWith (· - ·) fx (List.zipWith (· * ·) x dfx))) den)

/-- `np.array([lb, *gen_upper(x, fx, dfx), ub])`, misc/ars.py:49. -/
noncomputable def hullBreaks (lb ub : EReal) (x fx dfx : List ℝ) : Res (List EReal) :=
  (genUpper x fx dfx).bind fun c => .ok (lb :: c.map Real.toEReal ++ [ub])

open scoped Classical in
/-- `eval_upper`, misc/ars.py:118-136; indices wrap around as in Python. -/
noncomputable def evalUpper (x fx dfx : List ℝ) (y : List EReal) (v : ℝ) : Res ℝ :=
  let i : ℤ := (searchLeft y (v : EReal) : ℤ) - 1
  match pyGet fx i, pyGet x i, pyGet dfx i with
  | some f, some a, some d => .ok (f + (v - a) * d)
  | _, _, _ => .error .index

open scoped Classical in
/-- `eval_lower`, misc/ars.py:139-156. -/
noncomputable def evalLower (x fx : List ℝ) (v : ℝ) : Res (Option ℝ) :=
  let i : ℤ := (searchLeft x v : ℤ) - 1
  if i = -1 ∨ i = (x.length : ℤ) - 1 then .ok none
  else match pyGet x i, pyGet x (i + 1), pyGet fx i, pyGet fx (i + 1) with
    | some a, some b, some fa, some fb => .ok (some (((b - v) * fa + (v - a) * fb) / (b - a)))
    | _, _, _, _ => .error .index

/-! ## Drawing from the envelope -/

open scoped Classical in
/-- `np.exp(d * (y - a) + fa - offset) / d` at one breakpoint. -/
noncomputable def envVol (off : ℝ) (a fa d : ℝ) (y : EReal) : Res ℝ :=
  if d = 0 then .error .nan
  else if y = ⊥ then (if 0 < d then .ok 0 else .error .nan)
  else if y = ⊤ then (if d < 0 then .ok 0 else .error .nan)
  else .ok (Real.exp (d * (y.toReal - a) + fa - off) / d)

/-- All entries, or the first error. -/
def listOk {α : Type} : List (Res α) → Res (List α)
  | [] => .ok []
  | r :: l => r.bind fun a => (listOk l).bind fun as => .ok (a :: as)

open scoped Classical in
/-- `np.max(dfx * (y[1:] - x) + fx)`, misc/ars.py:182; minus infinities (a last tangent of negative slope up to `ub = inf`) do not
count. -/
noncomputable def envOffset (h : List (ℝ × ℝ × ℝ)) (y : List EReal) : Res ℝ :=
  let l := (h.zip y.tail).filterMap fun q => if q.2 = ⊤ then none else some (q.1.2.2 * (q.2.toReal - q.1.1) + q.1.2.1)
  match l with
  | [] => .error .nan
  | a :: l => .ok (l.foldl max a)

/-- The rows `(x, fx, dfx)` of the hull. -/
def hullRows (x fx dfx : List ℝ) : List (ℝ × ℝ × ℝ) := x.zip (fx.zip dfx)

open scoped Classical in
/-- `sample_envelope`, misc/ars.py:159-194, as a function of the uniform draw `z` of line 191. -/
noncomputable def sampleEnvelope (x fx dfx : List ℝ) (y : List EReal) (z : ℝ) : Res ℝ := do
  let rows := hullRows x fx dfx
  let off ← envOffset rows y
  let hi ← listOk ((rows.zip y.tail).map fun q => envVol off q.1.1 q.1.2.1 q.1.2.2 q.2)
  let lo ← listOk ((rows.zip y.dropLast).map fun q => envVol off q.1.1 q.1.2.1 q.1.2.2 q.2)
  let cdf := 0 :: cumsumFrom 0 (List.zipWith (· - ·) hi lo)
  match cdf.getLast? with
  | none => .error .index
  | some norm =>
    if norm = 0 then .error .nan
    else
      let i : ℤ := (searchLeft (cdf.map (· / norm)) z : ℤ) - 1
      match pyGet x i, pyGet fx i, pyGet dfx i, pyGet cdf i, pyGet lo i with
      | some a, some fa, some d, some c, some v =>
        let w := (norm * z - c + v) * d
        if w ≤ 0 then .error .nan else .ok (a + (Real.log w - fa + off) / d)
      | _, _, _, _, _ => .error .index

/-! ## The sampler -/

/-- Hull points with values and derivatives. -/
structure Hull where
  x : List ℝ
  fx : List ℝ
  dfx : List ℝ

/-- `np.sort(init)` with values and derivatives, misc/ars.py:43-44. -/
noncomputable def Hull.init (f df : ℝ → ℝ) (init : List ℝ) : Hull :=
  let x := npSort init
  ⟨x, x.map f, x.map df⟩

open scoped Classical in
/-- `np.insert` of a new point into the three arrays, misc/ars.py:66-67. -/
noncomputable def Hull.insert (H : Hull) (v fv dv : ℝ) : Hull :=
  let i := searchLeft H.x v
  ⟨H.x.insertIdx i v, H.fx.insertIdx i fv, H.dfx.insertIdx i dv⟩

open scoped Classical in
/-- Lines 54-67 of misc/ars.py given the envelope draw `v`, the two hull values and the uniform draw `u`: whether `v` is yielded,
and the hull afterwards. -/
noncomputable def arsDecide (f df : ℝ → ℝ) (maxPts : ℕ) (H : Hull) (v : ℝ) (lo : Option ℝ) (up u : ℝ) : Bool × Hull :=
  -- squeeze test; `lo = -inf` never passes it
  if ∃ l, lo = some l ∧ npLogLt u (l - up) then (true, H)
  else if npLogLt u (f v - up) then (true, H)
  else if H.x.length < maxPts then (false, H.insert v (f v) (df v))
  else (false, H)

/-- Body of the loop of `sample`, misc/ars.py:48-67: the proposed point, whether it is yielded, the new hull. -/
noncomputable def arsStep (f df : ℝ → ℝ) (lb ub : EReal) (maxPts : ℕ) (H : Hull) : Prog (ℝ × Bool × Hull) :=
  (Prog.lift (hullBreaks lb ub H.x H.fx H.dfx)).bind fun y =>
  .real (.uniform 0 1) fun z =>
  (Prog.lift (sampleEnvelope H.x H.fx H.dfx y z)).bind fun v =>
  (Prog.lift (evalLower H.x H.fx v)).bind fun lo =>
  (Prog.lift (evalUpper H.x H.fx H.dfx y v)).bind fun up =>
  .real (.uniform 0 1) fun u =>
  let r := arsDecide f df maxPts H v lo up u
  .ret (v, r.1, r.2)

/-- The loop of `sample`, misc/ars.py:46-67, until `n` values have been yielded (`n = max_draws`, or the number of values the caller
takes); returns the values and the hull.  `fuel` bounds the number of passes. -/
noncomputable def arsLoop (f df : ℝ → ℝ) (lb ub : EReal) (maxPts : ℕ) : ℕ → ℕ → Hull → Prog (List ℝ × Hull)
  | _, 0, H => .ret ([], H)
  | 0, _ + 1, _ => .err .fuel
  | fuel + 1, n + 1, H =>
    (arsStep f df lb ub maxPts H).bind fun r =>
    if r.2.1 then (arsLoop f df lb ub maxPts fuel n r.2.2).bind fun q => .ret (r.1 :: q.1, q.2)
    else arsLoop f df lb ub maxPts fuel (n + 1) r.2.2

/-- `sample`, misc/ars.py:7-67, with starting points given. -/
noncomputable def arsSample (f df : ℝ → ℝ) (lb ub : EReal) (init : List ℝ) (maxPts fuel n : ℕ) : Prog (List ℝ × Hull) :=
  arsLoop f df lb ub maxPts fuel n (.init f df init)

/-- `brace`, misc/ars.py:70-99, given the point `mode` that `scipy.optimize.minimize` returned. -/
noncomputable def brace (lb ub : EReal) (mode : ℝ) : ℝ × ℝ :=
  open scoped Classical in
  (if lb = ⊥ ∨ lb = ⊤ then mode - 1 else (mode + lb.toReal) / 2,
   if ub = ⊥ ∨ ub = ⊤ then mode + 1 else (mode + ub.toReal) / 2)

end Ctb
