import Verif.Model.McemObjective
import Verif.Model.Seed

/-!
# Model of the estimate of the augmented likelihood

Files: ito/mcem.py, switching/mcem.py (`est_aug_lik`).  `est op z` is `seed.est_poisson_coin(z, *op, ...)`: the logarithm of an estimate (`none` is
`-inf`), the integral of the lower bound of the discriminant, the interpolated seed.
-/

namespace Ctb

open Classical

/-- `l + sum(est_st_phi) + sum(st_lb_phi)`; one infinite summand makes the sum infinite. -/
noncomputable def augSum {σ : Type} (l : ℝ) (r : List (Option ℝ × ℝ × σ)) : Option ℝ :=
  (r.mapM (m := Option) fun (q : Option ℝ × ℝ × σ) => q.1).map fun e => l + e.sum + (r.map fun q => q.2.1).sum

/-- `est_aug_lik`, ito/mcem.py:99-104.  Unpacking an empty `zip` raises ValueError. -/
noncomputable def itoEstAugLik {p : ℕ} {σ : Type} (est : NormOp → σ → Prog (Option ℝ × ℝ × σ)) (M : ItoFns p) (t vt : List ℝ) (thi : Fin p → ℝ)
    (z : List σ) : Prog (Option ℝ × List σ) :=
  (Prog.mapM' (fun q => est q.2 q.1) (z.zip (itoNormops M thi t vt))).bind fun r =>
  if r = [] then .err .value else
  (Prog.lift (itoBiasedLogLik M thi t vt)).bind fun l => .ret (augSum l r, r.map fun q => q.2.2)

/-- `est_aug_lik`, switching/mcem.py:132-140: both outputs of `eval_biased_loglik` are added. -/
noncomputable def swEstAugLik {p : ℕ} {σ : Type} (est : ℕ → NormOp → σ → Prog (Option ℝ × ℝ × σ)) (M : RegimeFns p) (S : SwitchFns p) (n : ℕ)
    (thi : Thi p) (h : Anchorage ℝ ℝ) (restrict : Option ℕ) (z : List σ) : Prog (Option ℝ × List σ) :=
  (Prog.mapM' (fun q => if takesPart restrict q.2.1 then est q.2.1 q.2.2 q.1 else .ret (some 0, 0, q.1))
    (z.zip (h.yt.zip (swNormops M thi h.t h.yt h.vt)))).bind fun r =>
  if r = [] then .err .value else
  (Prog.lift (evalBiasedLogLik2 S n thi h restrict)).bind fun l => .ret (augSum (l.1 + l.2) r, r.map fun q => q.2.2)

end Ctb
