import Verif.Model.SwitchHidden

/-!
# Model of the parameter update of `ctbayes/switching`, and of the decision step of `ctbayes/ito`

Files: switching/mcmc.py (lines 70-150), switching/static.py (`eval_biased_log_lik`), switching/models/ou.py, ou2.py, ou3.py,
ito/mcmc.py (lines 54-93).

`thi` is the parameter matrix: one row per regime, `p` columns.  `ζ` is the type of path seeds.
-/

namespace Ctb

variable {ζ : Type}

/-- `thi`, one row per regime. -/
abbrev Thi (p : ℕ) := ℕ → Fin p → ℝ

/-! ## Update of one regime's row -/

/-- What the parameter update needs of a model, at the current anchorage. -/
structure ParamOps (p : ℕ) (ζ : Type) where
  /-- `eval_param_weight(thi, h, mod, state)`, switching/mcmc.py:115-117; finite (every entry of `thi` is positive) -/
  weight : Thi p → ℕ → ℝ
  /-- `flip_param_coin` on one segment `(dt, y0, v0, v1)`, switching/mcmc.py:139-150, given `thi_nil` and `thi_prime` -/
  flip : Thi p → Thi p → ℝ × ℕ × ℝ × ℝ → ζ → Bool → Prog (Bool × ζ)

/-- `flip_param_coins`, switching/mcmc.py:128-136.  `zip(*[])` cannot be unpacked: ValueError. -/
noncomputable def flipParamCoins {p : ℕ} (O : ParamOps p ζ) (nil prime : Thi p) (h : Anchorage ℝ ℝ) (state : ℕ)
    (z : List ζ) (upside : Bool) : Prog (Bool × List ζ) :=
  let l := ((npDiff h.t).zip (h.yt.zip (h.vt.zip h.vt.tail))).zip z
  if l.isEmpty then .err .value
  else (Prog.mapM' (fun q => if q.1.2.1 = state then O.flip nil prime q.1 q.2 upside else .ret (true, q.2)) l).bind fun r =>
    .ret (r.all Prod.fst, r.map Prod.snd)

/-- The decision between `thi_nil` and `thi_prime` once both log-weights are known, switching/mcmc.py:101-109 (and
ito/mcmc.py:68-78 with the weights of that package): precoin and coin-only factory, or the weighted factory.  `wPre` are the
weights the precoin uses, `wFull` those of the weighted factory; a precoin that fails reports the current seeds `z`. -/
noncomputable def decideParam {τ : Type} (C : McmcControls) (wPre wFull : ℝ × ℝ) (z : τ) (c : SideCoin τ τ) : Prog (Bool × τ) :=
  if C.precoin then
    (flipPrecoin wPre.1 wPre.2).bind fun ok =>
    if ok then (sampleTwocoinJoint 0 0 (.ret z) c C.prPortkey C.maxProps).bind fun v => .ret (v.1.1, v.1.2.2)
    else .ret (false, z)
  else (sampleTwocoinJoint wFull.1 wFull.2 (.ret z) c C.prPortkey C.maxProps).bind fun v => .ret (v.1.1, v.1.2.2)

/-- `update_params_section`, switching/mcmc.py:86-112; `propose` is `param_samplers[state].propose`. -/
noncomputable def updateParamsSection {p : ℕ} (C : McmcControls) (O : ParamOps p ζ) (nil : Thi p) (z : List ζ)
    (h : Anchorage ℝ ℝ) (propose : Prog ((Fin p → ℝ) × ℝ × ℝ)) (state : ℕ) : Prog (Bool × Thi p × List ζ) :=
  propose.bind fun q =>
  let prime := Function.update nil state q.1
  let w := (O.weight prime state + q.2.2, O.weight nil state + q.2.1)
  (decideParam C w w z fun s up => (flipParamCoins O nil prime h state s up).bind fun r => .ret (r.1, r.2, r.2)).bind fun v =>
  .ret (v.1, if v.1 then prime else nil, v.2)

/-- `[z_part[y0][i] for i, y0 in enumerate(h.yt[:-1])]`, switching/mcmc.py:80, from row `i` on. -/
def pickSeeds (zp : List (List ζ)) : ℕ → List ℕ → Res (List ζ)
  | _, [] => .ok []
  | i, y :: ys => match zp[y]? with
    | none => .error .index
    | some zs => match zs[i]? with
      | none => .error .index
      | some x => (pickSeeds zp (i + 1) ys).bind fun l => .ok (x :: l)

/-- `param_samplers[i].adapt(...)` for every regime, switching/mcmc.py:81-82. -/
noncomputable def adaptAll {p : ℕ} (A : AdaptPar) (thi : Thi p) (acc : List Bool) : ℕ → List (MvRw p) → Res (List (MvRw p))
  | _, [] => .ok []
  | i, s :: ss => match acc[i]? with
    | none => .error .index
    | some a => (s.adapt A (thi i) (if a then 1 else 0)).bind fun s' => (adaptAll A thi acc (i + 1) ss).bind fun l => .ok (s' :: l)

/-- Row `i` of the new matrix is row `i` of the `i`-th section's result, switching/mcmc.py:79 (rows that do not exist keep the old
value; `thi_part[i][i]` always exists). -/
def diagRows {p : ℕ} (nil : Thi p) (part : List (Thi p)) : Thi p := fun i => ((part[i]?).getD nil) i

/-- `update_params`, switching/mcmc.py:70-83; one regime per element of `samplers`.  The workers' generators are independent
children of `ome`; the sections are run in order.  `zip(*[])` of no regimes cannot be unpacked: ValueError. -/
noncomputable def updateParams {p : ℕ} (root : Matrix (Fin p) (Fin p) ℝ → Matrix (Fin p) (Fin p) ℝ) (A : AdaptPar)
    (C : McmcControls) (O : ParamOps p ζ) (h : Anchorage ℝ ℝ) (nil : Thi p) (z : List ζ) (samplers : List (MvRw p)) :
    Prog (Thi p × List ζ × List (MvRw p)) :=
  (Prog.mapM' (fun q : MvRw p × ℕ => updateParamsSection C O nil z h (q.1.propose root) q.2) samplers.zipIdx).bind fun part =>
  if part.isEmpty then .err .value
  else
    let thi := diagRows nil (part.map fun a => a.2.1)
    (Prog.lift (pickSeeds (part.map fun a => a.2.2) 0 h.yt.dropLast)).bind fun z' =>
    (Prog.lift (adaptAll A thi (part.map fun a => a.1) 0 samplers)).bind fun s' => .ret (thi, z', s')

/-! ## Log-likelihood of the parameters -/

/-- The functions of a switching model that enter the likelihood, applied to whole arrays as in the code. -/
structure SwitchFns (p : ℕ) where
  /-- `eval_vol(thi, yt)` -/
  vol : Thi p → List ℕ → List ℝ
  /-- `sx_eval_drift(thi, yt, xt)` -/
  sx : Thi p → List ℕ → List ℝ → List ℝ
  /-- `reduce` -/
  red : ℝ → ℝ
  /-- `dv_reduce` -/
  dvRed : ℝ → ℝ

/-- The terms `p_del + p_vt`, one per segment, switching/static.py:73-79. -/
noncomputable def likTerms {p : ℕ} (M : SwitchFns p) (thi : Thi p) (h : Anchorage ℝ ℝ) : List ℝ :=
  let ys := h.yt.dropLast
  let xt := h.vt.map M.red
  let vol := M.vol thi ys
  let sig := List.zipWith (fun d v => d * v ^ 2) (npDiff h.t) vol
  let pDel := List.zipWith (fun d v => d / v ^ 2)
    (List.zipWith (· - ·) (M.sx thi ys xt.tail) (M.sx thi ys xt.dropLast)) vol
  let pVt := List.zipWith (· - ·)
    (List.zipWith (fun v s => Real.log |M.dvRed v| - Real.log (2 * Real.pi * s) / 2) h.vt.tail sig)
    (List.zipWith (fun d s => d ^ 2 / (2 * s)) (npDiff xt) sig)
  List.zipWith (· + ·) pDel pVt

/-- First output of `eval_biased_log_lik(thi, *h, restrict)`, switching/static.py:70-83.  Row `y ≥ n` of an `n`-row matrix raises
IndexError; arrays of different lengths cannot be combined: ValueError; an empty anchorage has one observation flag too many: IndexError.  The logarithm of a non-positive
variance (a zero volatility or duration) is the model's `nan`. -/
noncomputable def evalBiasedLogLik {p : ℕ} (M : SwitchFns p) (n : ℕ) (thi : Thi p) (h : Anchorage ℝ ℝ) (restrict : ℕ) : Res ℝ :=
  if ∃ y ∈ h.yt.dropLast, n ≤ y then .error .index
  else if h.yt.length ≠ h.t.length ∨ h.vt.length ≠ h.t.length then .error .value
  else if h.t = [] then .error .index
  else if ∃ s ∈ List.zipWith (fun d v => d * v ^ 2) (npDiff h.t) (M.vol thi h.yt.dropLast), s ≤ 0 then .error .nan
  else .ok (select (likTerms M thi h) (h.yt.dropLast.map fun y => decide (y = restrict))).sum

/-- `eval_log_prior` with its default scales, the same in switching/models/ou.py, ou2.py and ou3.py; `none` is `-inf`.  An entry that is
exactly zero gives `-(−inf + inf)`, the model's `nan`. -/
noncomputable def evalLogPrior (n : ℕ) (thi : Thi 2) : Res (Option ℝ) :=
  if ∃ i < n, ∃ j, thi i j < 0 then .ok none
  else if ∃ i < n, ∃ j, thi i j = 0 then .error .nan
  else .ok (some (-((List.range n).map fun i => Real.log (thi i 0) + Real.log (thi i 1) + Real.log (thi i 0) ^ 2 / 2 +
    Real.log (thi i 1 ^ 2) ^ 2 / 2).sum))

/-- `eval_param_weight(thi, h, mod, state)`, switching/mcmc.py:115-117. -/
noncomputable def evalParamWeight (M : SwitchFns 2) (n : ℕ) (thi : Thi 2) (h : Anchorage ℝ ℝ) (state : ℕ) : Res (Option ℝ) :=
  (evalBiasedLogLik M n thi h state).bind fun l => (evalLogPrior n thi).bind fun q => .ok (q.map (l + ·))

/-- switching/models/ou.py:7-32 -/
noncomputable def ouFns : SwitchFns 2 where
  vol thi ys := ys.map fun y => 1 / thi y 1
  sx thi ys xs := List.zipWith (fun y x => -thi y 0 * x ^ 2 / 2) ys xs
  red v := v
  dvRed v := v ^ 0

/-- switching/models/ou2.py:7-32 -/
noncomputable def ou2Fns : SwitchFns 2 where
  vol thi ys := ys.map fun y => thi y 0 / thi y 1
  sx thi ys xs := List.zipWith (fun y x => -thi y 0 * x ^ 2 / 2) ys xs
  red v := v
  dvRed v := v ^ 0

/-- switching/models/ou3.py:7-32.  `np.prod(thi[yt])` multiplies *all* entries of the selected rows: with an array `yt` it is one
number for the whole path. -/
noncomputable def ou3Fns : SwitchFns 2 where
  vol thi ys := ys.map fun y => thi y 0
  sx thi ys xs := xs.map fun x => -(ys.map fun y => thi y 0 * thi y 1).prod / 2 * x ^ 2 / 2
  red v := v
  dvRed v := v ^ 0

/-! ## The `ito` package -/

/-- `np.random.Generator.integers(0, n)`: `n ≤ 0` raises ValueError. -/
noncomputable def drawInteger (n : ℕ) : Prog ℕ :=
  if n = 0 then .err .value else .nat (.choice n fun _ => 1 / n) .ret

/-- `update_params` of `ito`, ito/mcmc.py:54-80, up to the decision: `lik` is `mod.eval_biased_loglik(·, mod.t, mod.vt)`, `prior` is
`mod.eval_log_prior`, `flip` is `flip_param_coins`.  The precoin (lines 88-93) uses the prior only; the weighted factory (lines
72-73, 83-85) uses prior and likelihood. -/
noncomputable def itoUpdateParams {n : ℕ} {τ : Type} (A : AdaptPar) (C : McmcControls) (lik prior : (Fin n → ℝ) → ℝ)
    (flip : (Fin n → ℝ) → (Fin n → ℝ) → SideCoin τ τ) (nil : Fin n → ℝ) (z : τ) (samplers : Fin n → Rw) :
    Prog ((Fin n → ℝ) × τ × (Fin n → Rw)) :=
  (drawInteger n).bind fun k =>
  if hk : k < n then
    let i : Fin n := ⟨k, hk⟩
    (samplers i).propose.bind fun q =>
    let prime := Function.update nil i q.1
    (decideParam C (prior prime + q.2.2, prior nil + q.2.1) (lik prime + prior prime + q.2.2, lik nil + prior nil + q.2.1)
      z (flip nil prime)).bind fun v =>
    let acc := if v.1 then prime else nil
    (Prog.lift ((samplers i).adapt A (acc i) (if v.1 then 1 else 0))).bind fun s' => .ret (acc, v.2, Function.update samplers i s')
  else .err .index

end Ctb
