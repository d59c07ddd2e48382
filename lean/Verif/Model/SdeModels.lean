import Verif.Model.SwitchParams
import Mathlib.Analysis.SpecialFunctions.Pow.Real

/-!
# Model of the diffusion models and of the normalisation maps

Files: ito/models/ou.py, ito/models/cir.py, switching/models/ou.py, ou2.py, ou3.py, ito/static.py (`gen_normops`, `eval_disc`,
`norm_rsde`, `denorm_rsde`), switching/static.py (the same), ea3lib/seed.py (the bounds of `sample_raw_seed`).

Arrays of times and values are treated elementwise; `yt` is the regime of the segment (an integer), as in every use of these functions
other than `eval_biased_log_lik` (see `SwitchFns`).
-/

namespace Ctb

/-! ## Models of `ctbayes/ito` -/

/-- The functions of an `ito` model. -/
structure ItoFns (p : ℕ) where
  drift : (Fin p → ℝ) → ℝ → ℝ
  sxDrift : (Fin p → ℝ) → ℝ → ℝ
  dxDrift : (Fin p → ℝ) → ℝ → ℝ
  reduce : (Fin p → ℝ) → ℝ → ℝ
  dvReduce : (Fin p → ℝ) → ℝ → ℝ
  dereduce : (Fin p → ℝ) → ℝ → ℝ

/-- `eval_disc`, ito/static.py:64-67 -/
noncomputable def ItoFns.disc {p : ℕ} (M : ItoFns p) (thi : Fin p → ℝ) (x : ℝ) : ℝ := (M.drift thi x ^ 2 + M.dxDrift thi x) / 2

/-- What `eval_bounds_disc` returns: the global lower bound (`none` is NaN), the lower and the upper bound on the interval (the upper
bound may be `inf`). -/
abbrev DiscBounds := Option ℝ × ℝ × WithTop ℝ

/-- ito/models/ou.py:7-29 -/
noncomputable def itoOu : ItoFns 2 where
  drift thi x := -thi 0 * x
  sxDrift thi x := -thi 0 * x ^ 2 / 2
  dxDrift thi x := -x ^ 0 * thi 0
  reduce thi v := v / thi 1
  dvReduce thi v := v ^ 0 / thi 1
  dereduce thi x := x * thi 1

/-- The common body of `eval_bounds_disc` of all Ornstein-Uhlenbeck models (ito/models/ou.py:31-38, switching/models/ou.py:35-42,
ou2.py:35-42, ou3.py:35-42); `inf` is `eval_inf_disc`. -/
noncomputable def ouBoundsDisc (disc : ℝ → ℝ) (inf le ue : ℝ) : DiscBounds :=
  (some inf, if le < 0 ∧ 0 < ue then disc 0 else disc (min |le| |ue|), ((disc (max |le| |ue|) : ℝ) : WithTop ℝ))

/-- `eval_bounds_disc`, ito/models/ou.py:31-41 -/
noncomputable def itoOuBounds (thi : Fin 2 → ℝ) (le ue : ℝ) : DiscBounds := ouBoundsDisc (itoOu.disc thi) (-thi 0 / 2) le ue

/-- `eval_grad`, ito/models/ou.py:43-49 -/
noncomputable def itoOuEvalGrad (thi : Fin 2 → ℝ) (finT v0 v1 t z : ℝ) : Fin 2 → ℝ :=
  let v := (1 - t / finT) * v0 + t / finT * v1
  ![thi 0 * (finT * z ^ 2 + (v / thi 1) ^ 2 + 2 * Real.sqrt finT * z * v / thi 1) - 1,
    -thi 0 ^ 2 * (Real.sqrt finT * z * v / thi 1 ^ 2 + v ^ 2 / thi 1 ^ 3)]

/-- `eval_bounds_grad`, ito/models/ou.py:51-59 -/
noncomputable def itoOuGrad (nil prime : Fin 2 → ℝ) (finT v0 v1 lbz ubz : ℝ) : Fin 2 → ℝ :=
  let z := max |lbz| |ubz|
  let v := max |v0| |v1|
  let bet := max (nil 0) (prime 0)
  let sig := min (nil 1) (prime 1)
  ![bet * (finT * z ^ 2 + (v / sig) ^ 2 + 2 * Real.sqrt finT * z * v / sig) + 1 / 2,
    bet ^ 2 * (Real.sqrt finT * z * v / sig ^ 2 + v ^ 2 / sig ^ 3)]

/-- ito/models/cir.py:7-29, for positive arguments of `eval_drift` and positive `thi[2]`. -/
noncomputable def itoCir : ItoFns 3 where
  drift thi x := (2 * thi 0 * thi 1 / thi 2 ^ 2 - 1 / 2) / x - thi 0 / 2 * x
  sxDrift thi x := (2 * thi 0 * thi 1 / thi 2 ^ 2 - 1 / 2) * Real.log x - thi 0 / 4 * x ^ 2
  dxDrift thi x := (1 / 2 - 2 * thi 0 * thi 1 / thi 2 ^ 2) / x ^ 2 - thi 0 / 2
  reduce thi v := 2 * Real.sqrt v / thi 2
  dvReduce thi v := 1 / (Real.sqrt v * thi 2)
  dereduce thi x := (x * thi 2 / 2) ^ 2

/-- `f_argmin_disc`, ito/models/cir.py:48-49 (only called where the radicand is not negative). -/
noncomputable def cirArgmin (thi : Fin 3 → ℝ) : ℝ := ((4 * thi 1 / thi 2 ^ 2 - 2 / thi 0) ^ 2 - 1 / thi 0 ^ 2) ^ ((1 : ℝ) / 4)

/-- `eval_bounds_disc`, ito/models/cir.py:31-46.  At zero `eval_disc` is `inf - inf`, NaN: an
edge equal to zero is the model's `nan`, a minimiser equal to zero makes the first component NaN. -/
noncomputable def itoCirBounds (thi : Fin 3 → ℝ) (le ue : ℝ) : Res DiscBounds :=
  if le = 0 ∨ ue = 0 then .error .nan
  else
    let e0 := itoCir.disc thi le
    let e1 := itoCir.disc thi ue
    if 4 * thi 0 * thi 1 < 3 * thi 2 ^ 2 then .ok (none, min e0 e1, ((max e0 e1 : ℝ) : WithTop ℝ))
    else
      let a := cirArgmin thi
      let m := if a = 0 then none else some (itoCir.disc thi a)
      if le < 0 then match m with
        | none => .error .nan
        | some l => .ok (m, l, ⊤)
      else if a ≤ le then .ok (m, e0, (e1 : WithTop ℝ))
      else if ue ≤ a then .ok (m, e1, (e0 : WithTop ℝ))
      else .ok (m, itoCir.disc thi a, ((max e0 e1 : ℝ) : WithTop ℝ))

/-- `eval_grad`, ito/models/cir.py:54-56 -/
def itoCirEvalGrad (_thi : Fin 3 → ℝ) (_finT _v0 _v1 _t _z : ℝ) : Fin 3 → ℝ := fun _ => 0

/-- `eval_bounds_grad`, ito/models/cir.py:58-60 -/
def itoCirGrad (_nil _prime : Fin 3 → ℝ) (_finT _v0 _v1 _lbz _ubz : ℝ) : Fin 3 → ℝ := fun _ => 0

/-! ## Models of `ctbayes/switching` -/

/-- The functions of a switching model at one regime `y`. -/
structure RegimeFns (p : ℕ) where
  vol : Thi p → ℕ → ℝ
  drift : Thi p → ℕ → ℝ → ℝ
  sxDrift : Thi p → ℕ → ℝ → ℝ
  dxDrift : Thi p → ℕ → ℝ → ℝ
  reduce : ℝ → ℝ
  dvReduce : ℝ → ℝ
  dereduce : ℝ → ℝ

/-- `eval_disc`, switching/static.py:83-86 -/
noncomputable def RegimeFns.disc {p : ℕ} (M : RegimeFns p) (thi : Thi p) (y : ℕ) (x : ℝ) : ℝ :=
  ((M.drift thi y x / M.vol thi y) ^ 2 + M.dxDrift thi y x) / 2

/-- switching/models/ou.py:7-33 -/
noncomputable def swOu : RegimeFns 2 where
  vol thi y := 1 / thi y 1
  drift thi y x := -thi y 0 * x
  sxDrift thi y x := -thi y 0 * x ^ 2 / 2
  dxDrift thi y _ := -thi y 0
  reduce v := v
  dvReduce v := v ^ 0
  dereduce x := x

/-- switching/models/ou2.py:7-33 -/
noncomputable def swOu2 : RegimeFns 2 where
  vol thi y := thi y 0 / thi y 1
  drift thi y x := -thi y 0 * x
  sxDrift thi y x := -thi y 0 * x ^ 2 / 2
  dxDrift thi y _ := -thi y 0
  reduce v := v
  dvReduce v := v ^ 0
  dereduce x := x

/-- switching/models/ou3.py:7-33 -/
noncomputable def swOu3 : RegimeFns 2 where
  vol thi y := thi y 0
  drift thi y x := -(thi y 0 * thi y 1) * x
  sxDrift thi y x := -(thi y 0 * thi y 1) / 2 * x ^ 2 / 2
  dxDrift thi y _ := -(thi y 0 * thi y 1) / 2
  reduce v := v
  dvReduce v := v ^ 0
  dereduce x := x

/-- `eval_bounds_disc`, switching/models/ou.py:35-45 -/
noncomputable def swOuBounds (thi : Thi 2) (y : ℕ) (le ue : ℝ) : DiscBounds := ouBoundsDisc (swOu.disc thi y) (-thi y 0 / 2) le ue

/-- `eval_bounds_disc`, switching/models/ou2.py:35-45 -/
noncomputable def swOu2Bounds (thi : Thi 2) (y : ℕ) (le ue : ℝ) : DiscBounds := ouBoundsDisc (swOu2.disc thi y) (-thi y 0 / 2) le ue

/-- `eval_bounds_disc`, switching/models/ou3.py:35-45 -/
noncomputable def swOu3Bounds (thi : Thi 2) (y : ℕ) (le ue : ℝ) : DiscBounds :=
  ouBoundsDisc (swOu3.disc thi y) (-(thi y 0 * thi y 1) / 2) le ue

/-- `eval_bounds_grad`, switching/models/ou.py:47-55 -/
noncomputable def swOuGrad (nil prime : Fin 2 → ℝ) (finT v0 v1 lbz ubz : ℝ) : Fin 2 → ℝ :=
  let z := max |lbz| |ubz|
  let v := max |v0| |v1|
  let bet := max (nil 0) (prime 0)
  let gam := max (nil 1) (prime 1)
  ![bet * (finT * z ^ 2 + (v * gam) ^ 2 + 2 * Real.sqrt finT * z * v * gam) + 1 / 2,
    bet ^ 2 * (Real.sqrt finT * z * v + v ^ 2 * gam)]

/-- `eval_bounds_grad`, switching/models/ou2.py:47-55 -/
noncomputable def swOu2Grad (nil prime : Fin 2 → ℝ) (finT v0 v1 lbz ubz : ℝ) : Fin 2 → ℝ :=
  let z := max |lbz| |ubz|
  let v := max |v0| |v1|
  let bet := max (nil 0) (prime 0)
  let lam := max (nil 1) (prime 1)
  ![bet * finT * z ^ 2 + lam * Real.sqrt finT * z * v + 1 / 2,
    lam * v ^ 2 + bet * Real.sqrt finT * z * v]

/-- `eval_bounds_grad`, switching/models/ou3.py:47-55 -/
noncomputable def swOu3Grad (nil prime : Fin 2 → ℝ) (finT v0 v1 lbz ubz : ℝ) : Fin 2 → ℝ :=
  let z := max |lbz| |ubz|
  let v := max |v0| |v1|
  let rho := max (nil 0) (prime 0)
  let lam := max (nil 1) (prime 1)
  ![lam ^ 2 * (rho * finT * z ^ 2 + Real.sqrt finT * z * v) + lam / 2,
    lam * (rho ^ 2 * finT * z ^ 2 + v ^ 2 + 2 * rho * Real.sqrt finT * z * v) + rho / 2]

/-- The intensity in `flip_param_coin`, ito/mcmc.py:109-111. -/
noncomputable def itoIntensity {p : ℕ} (nil prime : Fin p → ℝ) (g : Fin p → ℝ) : ℝ :=
  (∑ i, if nil i ≠ prime i then |nil i - prime i| else 0) * ∑ i, if nil i ≠ prime i then |g i| else 0

/-- The intensity in `flip_param_coin`, switching/mcmc.py:143-145, for the rows of the segment's regime. -/
noncomputable def swIntensity {p : ℕ} (nil prime : Fin p → ℝ) (g : Fin p → ℝ) : ℝ :=
  (∑ i, if nil i ≠ prime i then |nil i - prime i| else 0) * ∑ i, if nil i ≠ prime i then g i else 0

/-! ## Normalisation maps -/

/-- The data of one pair `(norm_rsde(...), denorm_rsde(...))`; `scale` is `np.sqrt(fin_t)` in `ito`, `np.sqrt(fin_t) * eval_vol(thi, y0)`
in `switching`. -/
structure NormOp where
  finT : ℝ
  scale : ℝ
  x0 : ℝ
  x1 : ℝ

/-- `norm_rsde`, ito/static.py:69-75, switching/static.py:88-95. -/
noncomputable def NormOp.norm (n : NormOp) (t : ℝ) (x : Option ℝ) : ℝ × Option ℝ :=
  let s := t / n.finT
  (s, x.map fun x => (x - n.x0 - s * (n.x1 - n.x0)) / n.scale)

/-- `denorm_rsde`, ito/static.py:77-83, switching/static.py:97-104. -/
noncomputable def NormOp.denorm (n : NormOp) (s : ℝ) (z : Option ℝ) : ℝ × Option ℝ :=
  (s * n.finT, z.map fun z => z * n.scale + n.x0 + s * (n.x1 - n.x0))

/-- `gen_normops` of `ito`, ito/static.py:45-48 -/
noncomputable def itoNormops {p : ℕ} (M : ItoFns p) (thi : Fin p → ℝ) (t vt : List ℝ) : List NormOp :=
  let xt := vt.map (M.reduce thi)
  ((npDiff t).zip (xt.zip xt.tail)).map fun q => ⟨q.1, Real.sqrt q.1, q.2.1, q.2.2⟩

/-- `gen_normops` of `switching`, switching/static.py:39-44 -/
noncomputable def swNormops {p : ℕ} (M : RegimeFns p) (thi : Thi p) (t : List ℝ) (yt : List ℕ) (vt : List ℝ) : List NormOp :=
  let xt := vt.map M.reduce
  ((npDiff t).zip (yt.dropLast.zip (xt.zip xt.tail))).map fun q => ⟨q.1, Real.sqrt q.1 * M.vol thi q.2.1, q.2.2.1, q.2.2.2⟩

/-- `lb_z` in `sample_raw_seed`, ea3lib/seed.py:77-78; `none` is `-inf`. -/
noncomputable def seedLb (n : NormOp) (lb : Option ℝ) : Option ℝ :=
  lb.map fun b => max ((n.norm (n.denorm 0 none).1 (some b)).2.getD 0) ((n.norm (n.denorm 1 none).1 (some b)).2.getD 0)

/-- `ub_z` in `sample_raw_seed`, ea3lib/seed.py:79; `none` is `inf`. -/
noncomputable def seedUb (n : NormOp) (ub : Option ℝ) : Option ℝ :=
  ub.map fun b => min ((n.norm (n.denorm 0 none).1 (some b)).2.getD 0) ((n.norm (n.denorm 1 none).1 (some b)).2.getD 0)

end Ctb
