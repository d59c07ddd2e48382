import Verif.Model.GenGibbs
import Verif.Model.SwitchParams

/-!
# Model of a whole iteration of `sample_posterior`, `ctbayes/switching/mcmc.py`

The pieces are `gibbsGenerator` (lines 243-246), `updateParams` (lines 70-83) and `updateHidden` (lines 153-170).
-/

namespace Ctb

variable {ζ : Type} {p : ℕ}

/-- What one iteration reads and writes: `thi`, `lam`, the hidden state with its sampler, and `param_samplers`. -/
structure SweepState (p : ℕ) (ζ : Type) where
  thi : Thi p
  lam : Mat
  hid : HiddenState ζ
  samplers : List (MvRw p)

/-- The `d × d` matrix as numbers; an entry that is NaN makes the following draws meaningless, the model's `nan`. -/
noncomputable def matOf (d : ℕ) (m : NMat) : Res Mat :=
  if ∃ i < d, ∃ j < d, m i j = none then .error .nan else .ok fun i j => (m i j).getD 0

/-- `update_joint`, switching/mcmc.py:58-67; `alp0`, `bet0` are `mod.hyper_lam`, `PO` and `HO` the operations of the model, `obsT` is `mod.t`. -/
noncomputable def sweepJoint (root : Matrix (Fin p) (Fin p) ℝ → Matrix (Fin p) (Fin p) ℝ) (fuel d : ℕ) [NeZero d] (A : AdaptPar) (C : McmcControls)
    (PO : Anchorage ℝ ℝ → ParamOps p ζ) (HO : Thi p → HiddenOps ζ) (obsT : List ℝ) (alp0 bet0 : NMat) (s : SweepState p ζ) : Prog (SweepState p ζ) :=
  (gibbsGenerator d s.hid.h alp0 bet0).bind fun m =>
  (Prog.lift (matOf d m)).bind fun lam =>
  (updateParams root A C (PO s.hid.h) s.hid.h s.thi s.hid.z s.samplers).bind fun r =>
  (updateHidden fuel d A C (HO r.1) obsT lam { s.hid with z := r.2.1 }).bind fun hid => .ret ⟨r.1, lam, hid, r.2.2⟩

/-- Start of `sample_posterior`, switching/mcmc.py:38-43: the expected generator, one copy of `init_thi` per regime, a drawn regime path
and its augmentation, and fresh samplers. -/
noncomputable def sweepInit (fuel d : ℕ) [NeZero d] (A : AdaptPar) (HO : Thi p → HiddenOps ζ) (finT : ℝ) (alp0 bet0 : NMat) (thi0 : Fin p → ℝ)
    (lb ub : Fin p → Option ℝ) : Prog (SweepState p ζ) :=
  (Prog.lift (matOf d (getEv d alp0 bet0))).bind fun lam =>
  (initHidden fuel d A (HO fun _ => thi0) finT lam).bind fun hid => .ret ⟨fun _ => thi0, lam, hid, List.replicate d (.init A thi0 lb ub)⟩

/-- The first `n` iterations of the loop, switching/mcmc.py:44-46, 53-55. -/
noncomputable def sweepLoop (step : SweepState p ζ → Prog (SweepState p ζ)) : ℕ → SweepState p ζ → Prog (SweepState p ζ)
  | 0, s => .ret s
  | n + 1, s => (step s).bind fun s' => sweepLoop step n s'

/-- The state after `n` iterations of `sample_posterior`, switching/mcmc.py:35-46. -/
noncomputable def sweepRun (root : Matrix (Fin p) (Fin p) ℝ → Matrix (Fin p) (Fin p) ℝ) (fuel d : ℕ) [NeZero d] (A : AdaptPar) (C : McmcControls)
    (PO : Anchorage ℝ ℝ → ParamOps p ζ) (HO : Thi p → HiddenOps ζ) (obsT : List ℝ) (finT : ℝ) (alp0 bet0 : NMat) (thi0 : Fin p → ℝ)
    (lb ub : Fin p → Option ℝ) (n : ℕ) : Prog (SweepState p ζ) :=
  (sweepInit fuel d A HO finT alp0 bet0 thi0 lb ub).bind (sweepLoop (sweepJoint root fuel d A C PO HO obsT alp0 bet0) n)

end Ctb
