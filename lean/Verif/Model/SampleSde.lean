import Verif.Model.ItoStatic
import Verif.Model.Seed
import Verif.Model.RawSkel

/-!
# Model of the simulation of diffusions by rejection

Files: ea3lib/skeleton.py (`sample_skeleton`), ito/static.py (`sample_sde`).  An iterator of end points is a program `next` over its state.  A
generator that yields forever is modelled by the first `m` values the caller takes.
-/

namespace Ctb

/-- One round of the loop of `sample_skeleton`, ea3lib/skeleton.py:47-48, with the end point `x`. -/
noncomputable def skelRound (raw : ℝ → Prog EaSkel) (flip : EaSkel → Prog (Bool × EaSkel)) (x : ℝ) : Prog (Bool × EaSkel) :=
  (raw x).bind flip

/-- The inner loop of `sample_skeleton`, ea3lib/skeleton.py:46-52: at most `k` proposals. -/
noncomputable def skelTry {σ : Type} (next : σ → Prog (ℝ × σ)) (raw : ℝ → Prog EaSkel) (flip : EaSkel → Prog (Bool × EaSkel)) :
    ℕ → σ → Prog (EaSkel × σ)
  | 0, _ => .err .budget
  | k + 1, s =>
    (next s).bind fun e =>
    (skelRound raw flip e.1).bind fun r =>
    if r.1 then .ret (r.2, e.2) else skelTry next raw flip k e.2

/-- The outer loop, ea3lib/skeleton.py:44-54, with what the consumer does to each skeleton before asking for the next. -/
noncomputable def skelStream {σ β : Type} (next : σ → Prog (ℝ × σ)) (raw : ℝ → Prog EaSkel) (flip : EaSkel → Prog (Bool × EaSkel))
    (post : EaSkel → Prog β) (maxProps : ℕ) : ℕ → σ → Prog (List β)
  | 0, _ => .ret []
  | m + 1, s =>
    (skelTry next raw flip maxProps s).bind fun r =>
    (post r.1).bind fun b =>
    (skelStream next raw flip post maxProps m r.2).bind fun l => .ret (b :: l)

/-- `itertools.repeat`. -/
def repeatNext (x : ℝ) : Unit → Prog (ℝ × Unit) := fun _ => .ret (x, ())

/-- The next value of the adaptive rejection sampler; `fuel` bounds its passes. -/
noncomputable def arsNext (f df : ℝ → ℝ) (lb ub : EReal) (fuel : ℕ) (H : Hull) : Prog (ℝ × Hull) :=
  (arsLoop f df lb ub 100 fuel 1 H).bind fun r =>
  match r.1 with
  | [x] => .ret (x, r.2)
  | _ => .err .fuel

/-- The numerical bound as the samplers of edges see it: `none` is infinite. -/
noncomputable def optBound (b : EReal) : Option ℝ := open Classical in if b = ⊥ ∨ b = ⊤ then none else some b.toReal

/-- Budgets of the nested loops. -/
structure SdeBudget where
  n : ℕ
  F : ℕ
  k : ℕ
  ars : ℕ
  props : ℕ

/-- `skeleton.interpolate_skeleton(x_, t, ome)[1]` through `dereduce`, ito/static.py:27. -/
noncomputable def sdeValues {p : ℕ} (M : ItoFns p) (B : SdeBudget) (thi : Fin p → ℝ) (t : List ℝ) (s : EaSkel) : Prog (List ℝ) :=
  (interpolateSkel B.n B.k s t).bind fun r => .ret (r.2.map (M.dereduce thi))

/-- `sample_skeleton` as called by `sample_sde`, ito/static.py:26-27; `flip_poisson_coin` has its default batch size 2. -/
noncomputable def sdeStream {p : ℕ} {σ : Type} (M : ItoFns p) (ebd : (Fin p → ℝ) → ℝ → ℝ → Res DiscBounds) (lb ub : EReal) (B : SdeBudget)
    (thi : Fin p → ℝ) (t : List ℝ) (finT x0 : ℝ) (next : σ → Prog (ℝ × σ)) (m : ℕ) (s : σ) : Prog (List (List ℝ)) :=
  skelStream next (fun x1 => sampleRawSkel B.n B.F finT x0 x1 (optBound lb) (optBound ub))
    (flipSkelCoin B.n B.k (M.disc thi) (ebd thi) 2) (sdeValues M B thi t) B.props m s

/-- `sample_sde`, ito/static.py:16-27: the first `m` paths.  With `fin_v = None` the end point comes from `sample_conv_endpt`. -/
noncomputable def sampleSde {p : ℕ} (M : ItoFns p) (ebd : (Fin p → ℝ) → ℝ → ℝ → Res DiscBounds) (lb ub : EReal) (B : SdeBudget) (mode : ℝ)
    (thi : Fin p → ℝ) (t : List ℝ) (finT v0 : ℝ) (v1 : Option ℝ) (m : ℕ) : Prog (List (List ℝ)) :=
  let x0 := M.reduce thi v0
  match v1 with
  | none =>
    let f := convF M thi finT x0
    let df := convDf M thi finT x0
    sdeStream M ebd lb ub B thi t finT x0 (arsNext f df lb ub B.ars) m (Hull.init f df (convInit lb ub mode))
  | some v1 => sdeStream M ebd lb ub B thi t finT x0 (repeatNext (M.reduce thi v1)) m ()

end Ctb
