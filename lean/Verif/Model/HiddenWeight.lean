import Verif.Model.SwitchParams
import Verif.Model.Seed

/-!
# Model of `eval_biased_log_lik` with both outputs, and of `eval_hidden_weight`

Files: switching/static.py (lines 70-83), switching/mcmc.py (lines 198-202).
-/

namespace Ctb

/-- `np.where(m)[0]`, counting from `k`. -/
def whereFrom (k : ℕ) : List Bool → List ℕ
  | [] => []
  | true :: m => k :: whereFrom (k + 1) m
  | false :: m => whereFrom (k + 1) m

/-- `np.split(l, idx)` for an array of indices: the slices between neighbouring elements of `0, idx, len(l)`. -/
def npSplit {α : Type} (l : List α) (idx : List ℕ) : List (List α) :=
  let d := 0 :: (idx ++ [l.length])
  List.zipWith (fun a b => (l.take b).drop a) d d.tail

/-- `np.hstack([True, np.diff(yt) == 0])`, switching/static.py:74.  Regimes are compared for equality (the difference of the code's integers is
zero exactly if they agree). -/
def isObs (yt : List ℕ) : List Bool := true :: List.zipWith (fun a b => decide (b = a)) yt yt.tail

/-- `sig_t`, switching/static.py:75. -/
noncomputable def sigT {p : ℕ} (M : SwitchFns p) (thi : Thi p) (h : Anchorage ℝ ℝ) : List ℝ :=
  List.zipWith (fun d v => d * v ^ 2) (npDiff h.t) (M.vol thi h.yt.dropLast)

/-- `p_del`, switching/static.py:77. -/
noncomputable def pDelTerms {p : ℕ} (M : SwitchFns p) (thi : Thi p) (h : Anchorage ℝ ℝ) : List ℝ :=
  let xt := h.vt.map M.red
  List.zipWith (fun d v => d / v ^ 2)
    (List.zipWith (· - ·) (M.sx thi h.yt.dropLast xt.tail) (M.sx thi h.yt.dropLast xt.dropLast)) (M.vol thi h.yt.dropLast)

/-- `np.log(np.abs(dv_reduce(v[1:]))) - np.log(2 * np.pi * sig) / 2 - np.square(np.diff(reduce(v))) / (2 * sig)`, switching/static.py:78 and 79. -/
noncomputable def normTerms {p : ℕ} (M : SwitchFns p) (vt sig : List ℝ) : List ℝ :=
  List.zipWith (· - ·)
    (List.zipWith (fun v s => Real.log |M.dvRed v| - Real.log (2 * Real.pi * s) / 2) vt.tail sig)
    (List.zipWith (fun d s => d ^ 2 / (2 * s)) (npDiff (vt.map M.red)) sig)

/-- `sig_t_obs`, switching/static.py:76. -/
def sigObs (sig : List ℝ) (yt : List ℕ) : List ℝ := ((npSplit sig (whereFrom 0 (isObs yt))).tail.dropLast).map List.sum

/-- `eval_biased_log_lik(thi, *h, restrict)`, switching/static.py:70-83, with both outputs; `none` is the default `restrict=None`.  An empty
anchorage has one observation flag too many: IndexError. -/
noncomputable def evalBiasedLogLik2 {p : ℕ} (M : SwitchFns p) (n : ℕ) (thi : Thi p) (h : Anchorage ℝ ℝ) (restrict : Option ℕ) : Res (ℝ × ℝ) :=
  if ∃ y ∈ h.yt.dropLast, n ≤ y then .error .index
  else if h.yt.length ≠ h.t.length ∨ h.vt.length ≠ h.t.length then .error .value
  else if h.t = [] then .error .index
  else if ∃ s ∈ sigT M thi h, s ≤ 0 then .error .nan
  else
    let sel := match restrict with
      | none => h.yt.dropLast.map fun _ => true
      | some r => h.yt.dropLast.map fun y => decide (y = r)
    let pVt := normTerms M h.vt (sigT M thi h)
    let pObs := (normTerms M (select h.vt (isObs h.yt)) (sigObs (sigT M thi h) h.yt)).sum
    .ok ((select (List.zipWith (· + ·) (pDelTerms M thi h) pVt) sel).sum, pObs - (select pVt sel).sum)

/-- `eval_hidden_weight`, switching/mcmc.py:198-202.  `ebd y` is `mod.eval_bounds_disc(thi, y)`, `ops` is `mod.gen_normops(thi, *h)`. -/
noncomputable def evalHiddenWeight {p : ℕ} (M : SwitchFns p) (n : ℕ) (thi : Thi p) (ebd : ℕ → ℝ → ℝ → Res DiscBounds) (ops : List NormOp)
    (z : List EaSkel) (h : Anchorage ℝ ℝ) : Res ℝ :=
  ((z.zip (h.yt.zip ops)).mapM fun q => integrateDiscBound (ebd q.2.1) q.2.2 q.1).bind fun st =>
  (evalBiasedLogLik2 M n thi h none).bind fun b => .ok (st.sum + (b.1 + b.2))

end Ctb
