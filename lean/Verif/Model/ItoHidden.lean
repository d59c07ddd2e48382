import Verif.Model.Seed
import Verif.Model.SwitchParams

/-!
# Model of `ctbayes/ito/mcmc.py`: the update of the bridges

Lines 45-52 and 119-162, and `sample_aug` of ito/static.py:50-53.  `ζ` is the type of path seeds; the lower bound integral and the Poisson coin of
one bridge are parameters, instantiated by `itoSdeOps`.  The workers of `update_sde` run one after the other: their generators are independent
children of `ome`.
-/

namespace Ctb

variable {ζ : Type}

/-- `sample_aug`, ito/static.py:50-53. -/
noncomputable def itoSampleAug {p : ℕ} (n F : ℕ) (M : ItoFns p) (lb ub : Option ℝ) (thi : Fin p → ℝ) (t vt : List ℝ) : Prog (List EaSkel) :=
  Prog.mapM' (fun op => sampleRawSeed n F op lb ub) (itoNormops M thi t vt)

/-- What the update of a bridge needs of a model at fixed parameters. -/
structure SdeOps (ζ : Type) where
  /-- `mod.gen_normops(thi, ·, ·)` -/
  ops : List ℝ → List ℝ → List NormOp
  /-- `seed.integrate_disc_bound` -/
  weight : NormOp → ζ → Res ℝ
  /-- `seed.flip_poisson_coin` with the batch size of the controls -/
  flip : NormOp → ζ → Prog (Bool × ℝ × ζ)

/-- The functions that `ito/static.py` passes. -/
noncomputable def itoSdeOps {p : ℕ} (n k : ℕ) (M : ItoFns p) (ebd : (Fin p → ℝ) → ℝ → ℝ → Res DiscBounds) (thi : Fin p → ℝ) (size : ℤ) : SdeOps EaSkel where
  ops := itoNormops M thi
  weight := integrateDiscBound (ebd thi)
  flip op z := flipPoissonCoin n k (M.disc thi) (ebd thi) op size z

/-- `eval_sde_weight`, ito/mcmc.py:146-150. -/
noncomputable def evalSdeWeight (O : SdeOps ζ) (t vt : List ℝ) (z : List ζ) : Res ℝ :=
  match listOk ((z.zip (O.ops t vt)).map fun q => O.weight q.2 q.1) with
  | .error e => .error e
  | .ok ws => .ok ws.sum

/-- `flip_sde_coins`, ito/mcmc.py:153-159.  `zip(*[])` cannot be unpacked: ValueError. -/
noncomputable def flipSdeCoins (O : SdeOps ζ) (t vt : List ℝ) (z : List ζ) : Prog (Bool × List ζ) :=
  let l := z.zip (O.ops t vt)
  if l.isEmpty then .err .value
  else (Prog.mapM' (fun q => O.flip q.2 q.1) l).bind fun r => .ret (r.all Prod.fst, r.map fun r => r.2.2)

/-- One step of the generator `coin`, ito/mcmc.py:132-137; `new_z_, = new_z` raises ValueError unless there is one element. -/
noncomputable def sdeCoin (O : SdeOps ζ) (t vt : List ℝ) : Coin ζ ζ := fun z =>
  (flipSdeCoins O t vt [z]).bind fun r =>
  match r.2 with
  | [z'] => .ret (r.1, z', z')
  | _ => .err .value

/-- `submod`, ito/mcmc.py:139: times and values of one bridge. -/
def subModel (t vt : List ℝ) (sector : ℕ) : Res (List ℝ × List ℝ) :=
  match pyGet t sector with
  | none => .error .index
  | some t0 => .ok ((pySlice t sector (sector + 2)).map (· - t0), pySlice vt sector (sector + 2))

/-- `update_sde_bridge`, ito/mcmc.py:129-143.  The two generators are state machines on the pair of their current seeds. -/
noncomputable def updateSdeBridge (C : McmcControls) (O : SdeOps ζ) (t vt : List ℝ) (sector : ℕ) (zN zP : ζ) : Prog ζ :=
  (Prog.lift (subModel t vt sector)).bind fun m =>
  (Prog.lift (evalSdeWeight O m.1 m.2 [zN])).bind fun wN =>
  (Prog.lift (evalSdeWeight O m.1 m.2 [zP])).bind fun wP =>
  let c1 : Coin (ζ × ζ) ζ := fun s => (sdeCoin O m.1 m.2 s.1).bind fun r => .ret (r.1, r.2.1, (r.2.2, s.2))
  let c2 : Coin (ζ × ζ) ζ := fun s => (sdeCoin O m.1 m.2 s.2).bind fun r => .ret (r.1, r.2.1, (s.1, r.2.2))
  (sampleTwocoin wP wN c1 c2 C.prPortkey zN C.maxProps (zP, zN)).bind fun v => .ret v.1.2.2

/-- `update_sde`, ito/mcmc.py:119-126, with `aug` for `mod.sample_aug(thi, mod.t, mod.vt, ome)`. -/
noncomputable def updateSde (C : McmcControls) (O : SdeOps ζ) (aug : Prog (List ζ)) (t vt : List ℝ) (zN : List ζ) : Prog (List ζ) :=
  aug.bind fun zP =>
  Prog.mapM' (fun q => updateSdeBridge C O t vt q.1 q.2.1 q.2.2) ((List.range zN.length).zip (zN.zip zP))

/-- `update_joint`, ito/mcmc.py:45-51: parameters, then bridges under the new parameters. -/
noncomputable def itoUpdateJoint {n : ℕ} (A : AdaptPar) (C : McmcControls) (lik prior : (Fin n → ℝ) → ℝ)
    (flip : (Fin n → ℝ) → (Fin n → ℝ) → SideCoin (List ζ) (List ζ)) (O : (Fin n → ℝ) → SdeOps ζ) (aug : (Fin n → ℝ) → Prog (List ζ)) (t vt : List ℝ)
    (thi : Fin n → ℝ) (z : List ζ) (samplers : Fin n → Rw) : Prog ((Fin n → ℝ) × List ζ × (Fin n → Rw)) :=
  (itoUpdateParams A C lik prior flip thi z samplers).bind fun r =>
  (updateSde C (O r.1) (aug r.1) t vt r.2.1).bind fun z' => .ret (r.1, z', r.2.2)

end Ctb
