import Verif.Model.HiddenWeight
import Verif.Model.Mcem
import Verif.Model.Adapt

/-!
# Model of the objective of the Monte Carlo EM

Files: ito/mcem.py (`update_objective`, `est_log_aug_lik`), switching/mcem.py (the same, `update_param`), ito/static.py
(`eval_biased_log_lik`).  `interp op z ts` is `seed.interpolate_seed(z, ts, *op, ome)`; the source has `interpolateSeed n k` there.  The model
of `update_objective` returns what the closure `f_obj` captures: `supp_t` and `new_zz`.

Simplifications: the workers of the pool run one after the other; numbers that are not finite stop the model with `nan`.
-/

namespace Ctb

open Classical

/-- `[np.sort(ome.uniform(high=dt, size=ctrl.n_disc_supports)) for dt in ...]`, ito/mcem.py:84, switching/mcem.py:106. -/
noncomputable def drawSupports (m : ℕ) (dts : List ℝ) : Prog (List (List ℝ)) :=
  Prog.mapM' (fun dt => (Prog.replicate m (.draw (.uniform 0 dt))).bind fun us => .ret (npSort us)) dts

/-- `-dt * np.mean(mod.eval_disc(thi, x_))`, ito/mcem.py:112, switching/mcem.py:149. -/
noncomputable def stDisc (disc : ℝ → ℝ) (dt : ℝ) (xs : List ℝ) : Res ℝ := (npMean (xs.map disc)).map fun m => -dt * m

/-! ## `ito` -/

/-- `eval_biased_log_lik`, ito/static.py:55-62. -/
noncomputable def itoBiasedLogLik {p : ℕ} (M : ItoFns p) (thi : Fin p → ℝ) (t vt : List ℝ) : Res ℝ :=
  if vt.length ≠ t.length then .error .value
  else if (∃ d ∈ npDiff t, d ≤ 0) ∨ ∃ v ∈ vt.tail, M.dvReduce thi v = 0 then .error .nan
  else
    let xt := vt.map (M.reduce thi)
    .ok (List.zipWith (fun (q : ℝ × ℝ) (r : ℝ × ℝ) => Real.log |M.dvReduce thi q.2| - Real.log (2 * Real.pi * q.1) / 2
      - (r.2 - r.1) ^ 2 / (2 * q.1) + M.sxDrift thi r.2 - M.sxDrift thi r.1) ((npDiff t).zip vt.tail) (xt.zip xt.tail)).sum

/-- `est_log_aug_lik`, ito/mcem.py:107-113.  Unpacking an empty `zip` raises ValueError. -/
noncomputable def itoEstLogAugLik {p : ℕ} {σ : Type} (interp : NormOp → σ → List ℝ → Prog (σ × List ℝ)) (M : ItoFns p) (t vt : List ℝ)
    (thi : Fin p → ℝ) (supp : List (List ℝ)) (z : List σ) : Prog (ℝ × List σ) :=
  (Prog.mapM' (fun q => interp q.2.2 q.2.1 q.1) (supp.zip (z.zip (itoNormops M thi t vt)))).bind fun r =>
  if r = [] then .err .value else
  (Prog.lift (((npDiff t).zip (r.map Prod.snd)).mapM fun q => stDisc (M.disc thi) q.1 q.2)).bind fun st =>
  (Prog.lift (itoBiasedLogLik M thi t vt)).bind fun l => .ret (l + st.sum, r.map Prod.fst)

/-- `update_objective`, ito/mcem.py:77-88: the supports and the interpolated particles. -/
noncomputable def itoUpdateObjective {p : ℕ} {σ : Type} (interp : NormOp → σ → List ℝ → Prog (σ × List ℝ)) (M : ItoFns p) (t vt : List ℝ)
    (m : ℕ) (thi : Fin p → ℝ) (zz : List (List σ)) : Prog (List (List ℝ) × List (List σ)) :=
  (drawSupports m (npDiff t)).bind fun supp =>
  (Prog.mapM' (itoEstLogAugLik interp M t vt thi supp) zz).bind fun r =>
  if r = [] then .err .value else .ret (supp, r.map Prod.snd)

/-- `f_obj`, ito/mcem.py:80-82. -/
noncomputable def itoFObj {p : ℕ} {σ : Type} (interp : NormOp → σ → List ℝ → Prog (σ × List ℝ)) (M : ItoFns p) (logPrior : (Fin p → ℝ) → ℝ)
    (t vt : List ℝ) (env : List (List ℝ) × List (List σ)) (thi : Fin p → ℝ) : Prog (List ℝ) :=
  (Prog.mapM' (itoEstLogAugLik interp M t vt thi env.1) env.2).bind fun r => .ret (r.map fun q => q.1 + logPrior thi)

/-! ## `switching` -/

/-- `restrict is None or y0 == restrict` -/
def takesPart (restrict : Option ℕ) (y : ℕ) : Prop := restrict = none ∨ restrict = some y

/-- `est_log_aug_lik`, switching/mcem.py:143-152. -/
noncomputable def swEstLogAugLik {p : ℕ} {σ : Type} (interp : NormOp → σ → List ℝ → Prog (σ × List ℝ)) (M : RegimeFns p) (S : SwitchFns p)
    (n : ℕ) (thi : Thi p) (h : Anchorage ℝ ℝ) (restrict : Option ℕ) (supp : List (List ℝ)) (z : List σ) : Prog (ℝ × List σ) :=
  (Prog.mapM' (fun q => if takesPart restrict q.2.1 then interp q.2.2.2 q.2.2.1 q.1 else .ret (q.2.2.1, []))
    (supp.zip (h.yt.zip (z.zip (swNormops M thi h.t h.yt h.vt))))).bind fun r =>
  if r = [] then .err .value else
  (Prog.lift ((((npDiff h.t).zip (h.yt.zip (r.map Prod.snd))).filter fun q => decide (takesPart restrict q.2.1)).mapM
    fun q => stDisc (M.disc thi q.2.1) q.1 q.2.2)).bind fun st =>
  (Prog.lift (evalBiasedLogLik2 S n thi h restrict)).bind fun l => .ret (l.1 + st.sum, r.map Prod.fst)

/-- `update_objective`, switching/mcem.py:97-111; a particle is a pair `(z, h)`.  All supports are drawn before anything is interpolated. -/
noncomputable def swUpdateObjective {p : ℕ} {σ : Type} (interp : NormOp → σ → List ℝ → Prog (σ × List ℝ)) (M : RegimeFns p)
    (S : SwitchFns p) (n m : ℕ) (thi : Thi p) (zh : List (List σ × Anchorage ℝ ℝ)) : Prog (List (List (List ℝ)) × List (List σ)) :=
  (Prog.mapM' (fun q => drawSupports m (npDiff q.2.t)) zh).bind fun supp =>
  (Prog.mapM' (fun q => swEstLogAugLik interp M S n thi q.1.2 none q.2 q.1.1) (zh.zip supp)).bind fun r =>
  if r = [] then .err .value else .ret (supp, r.map Prod.snd)

/-- `f_obj`, switching/mcem.py:101-104. -/
noncomputable def swFObj {p : ℕ} {σ : Type} (interp : NormOp → σ → List ℝ → Prog (σ × List ℝ)) (M : RegimeFns p) (S : SwitchFns p) (n : ℕ)
    (logPrior : Thi p → ℝ) (hh : List (Anchorage ℝ ℝ)) (env : List (List (List ℝ)) × List (List σ)) (thi : Thi p) (restrict : ℕ) :
    Prog (List ℝ) :=
  (Prog.mapM' (fun q => swEstLogAugLik interp M S n thi q.2.1 (some restrict) q.2.2 q.1) (env.2.zip (hh.zip env.1))).bind fun r =>
  .ret (r.map fun q => q.1 + logPrior thi)

/-- The objective reported by `update_param`, switching/mcem.py:70-82, when the minimisations end at the rows of `prime` (`opt_.fun` is the
value of `f_wrap_obj` there; the two changes of sign cancel). -/
noncomputable def swReportedObj {p : ℕ} {σ : Type} (interp : NormOp → σ → List ℝ → Prog (σ × List ℝ)) (M : RegimeFns p) (S : SwitchFns p) (n : ℕ)
    (logPrior : Thi p → ℝ) (hh : List (Anchorage ℝ ℝ)) (env : List (List (List ℝ)) × List (List σ)) (nil prime : Thi p) : Prog ℝ :=
  (Prog.mapM' (fun i => (swFObj interp M S n logPrior hh env (Function.update nil i (prime i)) i).bind fun v => Prog.lift (npMean v))
    (List.range n)).bind fun r => .ret r.sum

end Ctb
