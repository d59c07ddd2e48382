import Verif.Lemmas.RegSeed
import Verif.Model.HiddenWeight

/-!
# Seeds and coins have laws that depend measurably on the normalisation and on the model
-/

set_option linter.unusedSectionVars false

namespace Ctb

open MeasureTheory Set Classical
open scoped ENNReal

variable {X Y Z α β γ : Type} [MeasurableSpace X] [MeasurableSpace Y] [MeasurableSpace Z] [MeasurableSpace α] [MeasurableSpace β] [MeasurableSpace γ]

variable {T a b m x0 x1 : X → ℝ} {t x newT : X → List ℝ}

/-! ## Normalisations -/

/-- The fields of a normalisation. -/
def NormOp.tup (n : NormOp) : ℝ × ℝ × ℝ × ℝ := (n.finT, n.scale, n.x0, n.x1)

instance : MeasurableSpace NormOp := MeasurableSpace.comap NormOp.tup inferInstance

instance : Inhabited NormOp := ⟨⟨0, 0, 0, 0⟩⟩

theorem measurable_opTup : Measurable NormOp.tup := comap_measurable _

variable {op op0 op1 : X → NormOp}

@[fun_prop] theorem Measurable.opFinT (h : Measurable op) : Measurable fun x => (op x).finT := (measurable_opTup.comp h).fst
@[fun_prop] theorem Measurable.opScale (h : Measurable op) : Measurable fun x => (op x).scale := (measurable_opTup.comp h).snd.fst
@[fun_prop] theorem Measurable.opX0 (h : Measurable op) : Measurable fun x => (op x).x0 := (measurable_opTup.comp h).snd.snd.fst
@[fun_prop] theorem Measurable.opX1 (h : Measurable op) : Measurable fun x => (op x).x1 := (measurable_opTup.comp h).snd.snd.snd

@[fun_prop] theorem Measurable.opMk {a b c d : X → ℝ} (ha : Measurable a) (hb : Measurable b) (hc : Measurable c) (hd : Measurable d) :
    Measurable fun x => NormOp.mk (a x) (b x) (c x) (d x) := by
  refine measurable_comap_iff.2 ?_
  show Measurable fun x => (a x, b x, c x, d x)
  fun_prop

theorem reg_sampleRawSeed (n F : ℕ) (ho : Measurable op) (lb ub : Option ℝ) : Reg fun x => sampleRawSeed n F (op x) lb ub := by
  have h1 : Measurable fun x => seedLb (op x) lb := by
    cases lb with
    | none => exact measurable_const
    | some b =>
      simp only [seedLb, NormOp.norm, NormOp.denorm, Option.map_some, Option.getD_some]
      fun_prop
  have h2 : Measurable fun x => seedUb (op x) ub := by
    cases ub with
    | none => exact measurable_const
    | some b =>
      simp only [seedUb, NormOp.norm, NormOp.denorm, Option.map_some, Option.getD_some]
      fun_prop
  exact reg_sampleRawSkel n F (by fun_prop) (by fun_prop) (by fun_prop) h1 h2

theorem reg_interpolateSeedOp (n k : ℕ) (ho : Measurable op) {s : X → EaSkel} (hs : Measurable s) (hn : Measurable newT) : Reg fun y => interpolateSeed n k (op y) (s y) (newT y) := by
  have h1 : Measurable fun y => (newT y).map fun t => ((op y).norm t none).1 := by
    refine Measurable.listMap hn ?_
    simp only [NormOp.norm]
    fun_prop
  have h2 : Measurable fun y : X × EaSkel × List ℝ => (newT y.1).map fun t => ((op y.1).norm t none).1 := h1.comp measurable_fst
  unfold interpolateSeed
  dsimp only
  refine Reg.bind (reg_interpolateSkel n k hs h1) (Reg.ite' ?_ (Reg.ret (Measurable.prodMk (by fun_prop) ?_)) (Reg.err _))
  · exact Measurable.discrete (f := fun y : X × EaSkel × List ℝ => (y.2.2.length, ((newT y.1).map fun t => ((op y.1).norm t none).1).length)) (Measurable.prodMk (by fun_prop) (Measurable.length h2)) (fun q => q.1 = q.2)
  · refine Measurable.zipWith' (f := fun (y : X × EaSkel × List ℝ) s z => ((op y.1).denorm s (some z)).2.getD 0) h2 (by fun_prop) ?_
    simp only [NormOp.denorm, Option.map_some, Option.getD_some]
    fun_prop

/-! ## Coins -/

section
variable {disc disc0 disc1 : X → ℝ → ℝ} {ebd : X → ℝ → ℝ → Res DiscBounds}

theorem meas_isBelowOf (hd : Measurable fun q : X × ℝ => disc q.1 q.2) {t le : X → List ℝ} (ht : Measurable t) (hl : Measurable le) :
    Measurable fun q : X × (ℝ × ℝ) × ℝ => isBelow (disc q.1) (t q.1) (le q.1) q.2.1 q.2.2 := by
  have h1 : Measurable fun q : X × (ℝ × ℝ) × ℝ => lowerAt (t q.1) (le q.1) q.2.1.2 := by
    unfold lowerAt
    refine Measurable.pyGet (by fun_prop) ?_
    exact Measurable.discrete (f := fun q : X × (ℝ × ℝ) × ℝ => Ctb.searchRight (t q.1) q.2.1.2) (by fun_prop) (fun n : ℕ => (n : ℤ) - 1)
  refine Measurable.optionCases h1 (f := fun q o => match o with
    | some l => (.ok (decide (q.2.1.1 < disc q.1 q.2.2 - l)) : Res Bool)
    | none => .error .index) measurable_const (Measurable.resOk (Measurable.decide ?_))
  have h2 : Measurable fun q : (X × (ℝ × ℝ) × ℝ) × ℝ => disc q.1.1 q.1.2.2 := hd.comp (by fun_prop : Measurable fun q : (X × (ℝ × ℝ) × ℝ) × ℝ => (q.1.1, q.1.2.2))
  fun_prop

theorem meas_anyBelowOf (hd : Measurable fun q : X × ℝ => disc q.1 q.2) {t le xs : X → List ℝ} {ps : X → List (ℝ × ℝ)} (ht : Measurable t) (hl : Measurable le) (hp : Measurable ps) (hx : Measurable xs) :
    Measurable fun q => anyBelow (disc q) (t q) (le q) (ps q) (xs q) := by
  have h1 : Measurable fun q => Ctb.listOk (List.zipWith (isBelow (disc q) (t q) (le q)) (ps q) (xs q)) := Measurable.listOk (Measurable.zipWith' hp hx (meas_isBelowOf hd ht hl))
  refine Measurable.resCases h1 (f := fun q r => match r with
    | .error e => (.error e : Res Bool)
    | .ok bs => .ok (bs.any id)) (fun _ => measurable_const) (Measurable.resOk (Measurable.anyBool measurable_snd))

theorem reg_poissonStepOf {σ : Type} [MeasurableSpace σ] {interp : X → σ → List ℝ → Prog (σ × List ℝ)} (hi : Reg fun q : X × σ × List ℝ => interp q.1 q.2.1 q.2.2)
    (hd : Measurable fun q : X × ℝ => disc q.1 q.2) {t le : X → List ℝ} (ht : Measurable t) (hl : Measurable le) :
    Reg fun q : X × σ × List (ℝ × ℝ) => poissonStep (interp q.1) (disc q.1) (t q.1) (le q.1) q.2.1 q.2.2 := by
  unfold poissonStep
  have h1 : Measurable fun q : X × σ × List (ℝ × ℝ) => q.2.2.map Prod.snd := Measurable.listMap (by fun_prop) (by fun_prop)
  refine Reg.bind (hi.comp (f := fun q : X × σ × List (ℝ × ℝ) => (q.1, q.2.1, q.2.2.map Prod.snd)) (by fun_prop)) (Reg.bind (Reg.lift ?_) (Reg.ret (by fun_prop)))
  refine meas_anyBelowOf (X := (X × σ × List (ℝ × ℝ)) × σ × List ℝ) (disc := fun q => disc q.1.1) ?_ (by fun_prop) (by fun_prop) (by fun_prop) (by fun_prop)
  exact hd.comp (by fun_prop : Measurable fun q : ((X × σ × List (ℝ × ℝ)) × σ × List ℝ) × ℝ => (q.1.1.1, q.2))

theorem meas_opBounds (he : Measurable fun q : X × ℝ × ℝ => ebd q.1 q.2.1 q.2.2) (ho : Measurable op) {z : X → EaSkel} (hz : Measurable z) :
    Measurable fun x => ebd x (min (min (z x).tight (z x).loose * (op x).scale + (op x).x1) (min (z x).tight (z x).loose * (op x).scale + (op x).x0))
      (max (max (z x).tight (z x).loose * (op x).scale + (op x).x1) (max (z x).tight (z x).loose * (op x).scale + (op x).x0)) :=
  he.comp (Measurable.prodMk measurable_id (Measurable.prodMk (by fun_prop) (by fun_prop)))

theorem meas_stLb {f : X → ℝ} (hf : Measurable f) {l : X → ℝ} (hl : Measurable l) : Measurable fun x => stLbDisc [0, f x] [l x] := by
  simp only [stLbDisc, npDiff, List.zipWith_cons_cons, List.zipWith_nil_left, List.sum_cons, List.sum_nil]
  fun_prop

theorem reg_flipPoissonCoinOf (n k : ℕ) (hd : Measurable fun q : X × ℝ => disc q.1 q.2) (he : Measurable fun q : X × ℝ × ℝ => ebd q.1 q.2.1 q.2.2) (ho : Measurable op) (size : ℤ)
    {z : X → EaSkel} (hz : Measurable z) : Reg fun x => flipPoissonCoin n k (disc x) (ebd x) (op x) size (z x) := by
  simp only [flipPoissonCoin_one]
  refine Reg.bind (Reg.lift (meas_opBounds he ho hz)) ?_
  refine Reg.optionCases (X := X × DiscBounds) (p := fun y o => match o with
    | none => .ret (false, stLbDisc [0, (op y.1).finT] [y.2.2.1], z y.1)
    | some u => (batchCoin (poissonStep (interpolateSeed n k (op y.1)) (disc y.1) [0, (op y.1).finT] [y.2.2.1]) (u - y.2.2.1) (1 * (op y.1).finT) size (z y.1)).bind
        fun r => .ret (r.1, stLbDisc [0, (op y.1).finT] [y.2.2.1], r.2)) (o := fun y => (y.2.2.2 : Option ℝ)) (by show Measurable fun y : X × DiscBounds => y.2.2.2; fun_prop) (Reg.ret ?_) (Reg.bind ?_ (Reg.ret ?_))
  · exact measurable_const.prodMk ((meas_stLb (by fun_prop) (by fun_prop)).prodMk (hz.comp measurable_fst))
  · refine reg_batchCoin (X := (X × DiscBounds) × ℝ) (step := fun y => poissonStep (interpolateSeed n k (op y.1.1)) (disc y.1.1) [0, (op y.1.1).finT] [y.1.2.2.1]) (h := fun y => y.2 - y.1.2.2.1)
      (T := fun y => 1 * (op y.1.1).finT) (s := fun y => z y.1.1) ?_ (by fun_prop) (by fun_prop) size (by fun_prop)
    refine reg_poissonStepOf (X := (X × DiscBounds) × ℝ) (interp := fun y => interpolateSeed n k (op y.1.1)) (disc := fun y => disc y.1.1) (t := fun y => [0, (op y.1.1).finT]) (le := fun y => [y.1.2.2.1])
      (reg_interpolateSeedOp n k (by fun_prop) (by fun_prop) (by fun_prop)) ?_ (by fun_prop) (by fun_prop)
    exact hd.comp (by fun_prop : Measurable fun q : ((X × DiscBounds) × ℝ) × ℝ => (q.1.1.1, q.2))
  · exact measurable_snd.fst.prodMk ((meas_stLb (by fun_prop) (by fun_prop)).prodMk measurable_snd.snd)

theorem meas_dualGap {u : Bool} {p q : X → ℝ} (hp : Measurable p) (hq : Measurable q) : Measurable fun x => dualGap u (p x) (q x) := by
  unfold dualGap
  cases u <;> simp only [if_true, Bool.false_eq_true, if_false] <;> fun_prop

theorem reg_dualStep (guard : Bool) (n k : ℕ) {h : X → ℝ} (hh : Measurable h) (h0 : Measurable op0) (h1 : Measurable op1) (hd0 : Measurable fun q : X × ℝ => disc0 q.1 q.2)
    (hd1 : Measurable fun q : X × ℝ => disc1 q.1 q.2) (upside : Bool) :
    Reg fun q : X × EaSkel × List (ℝ × ℝ) => dualStep guard (interpolateSeed n k (op0 q.1)) (interpolateSeed n k (op1 q.1)) (disc0 q.1) (disc1 q.1) (h q.1) upside q.2.1 q.2.2 := by
  unfold dualStep
  dsimp only
  have m1 : ∀ {W : Type} [MeasurableSpace W] {f : W → List (ℝ × ℝ)}, Measurable f → Measurable fun w => (f w).map Prod.snd := fun hf => Measurable.listMap hf (by fun_prop)
  have mg : Measurable fun y : ((X × EaSkel × List (ℝ × ℝ)) × EaSkel × List ℝ) × EaSkel × List ℝ =>
      List.zipWith (fun x0 x1 => dualGap upside (disc0 y.1.1.1 x0) (disc1 y.1.1.1 x1)) y.1.2.2 y.2.2 := by
    refine Measurable.zipWith' (f := fun (y : ((X × EaSkel × List (ℝ × ℝ)) × EaSkel × List ℝ) × EaSkel × List ℝ) x0 x1 => dualGap upside (disc0 y.1.1.1 x0) (disc1 y.1.1.1 x1))
      (by fun_prop) (by fun_prop) (meas_dualGap ?_ ?_)
    · exact hd0.comp (by fun_prop : Measurable fun q : (((X × EaSkel × List (ℝ × ℝ)) × EaSkel × List ℝ) × EaSkel × List ℝ) × ℝ × ℝ => (q.1.1.1.1, q.2.1))
    · exact hd1.comp (by fun_prop : Measurable fun q : (((X × EaSkel × List (ℝ × ℝ)) × EaSkel × List ℝ) × EaSkel × List ℝ) × ℝ × ℝ => (q.1.1.1.1, q.2.2))
  refine Reg.bind (reg_interpolateSeedOp n k (by fun_prop) (by fun_prop) (m1 (by fun_prop))) (Reg.bind (reg_interpolateSeedOp n k (by fun_prop) (by fun_prop) (m1 (by fun_prop))) (Reg.ite' ?_ (Reg.err _) (Reg.bind ?_ (Reg.ret ?_))))
  · exact Measurable.discrete (f := fun y : ((X × EaSkel × List (ℝ × ℝ)) × EaSkel × List ℝ) × EaSkel × List ℝ => (y.1.2.2.length, y.2.2.length)) (by fun_prop) (fun q => ¬ q.1 = q.2)
  · cases guard with
    | false => exact Reg.ret (by fun_prop)
    | true =>
      simp only [if_true]
      refine Reg.assert' (Measurable.not ?_)
      exact Measurable.memEx (P := fun (y : ((X × EaSkel × List (ℝ × ℝ)) × EaSkel × List ℝ) × EaSkel × List ℝ) g => h y.1.1.1 < g) mg (by fun_prop)
  · refine Measurable.prodMk (Measurable.anyBool ?_) (by fun_prop)
    refine Measurable.zipWith' (by fun_prop) (mg.comp measurable_fst) (Measurable.decide (by fun_prop))

theorem reg_flipDualCoin (guard : Bool) (n k : ℕ) {h : X → ℝ} (hh : Measurable h) (h0 : Measurable op0) (h1 : Measurable op1) (hd0 : Measurable fun q : X × ℝ => disc0 q.1 q.2)
    (hd1 : Measurable fun q : X × ℝ => disc1 q.1 q.2) (upside : Bool) (size : ℤ) {z : X → EaSkel} (hz : Measurable z) :
    Reg fun x => flipDualCoin guard n k (h x) (op0 x) (op1 x) (disc0 x) (disc1 x) upside size (z x) := by
  unfold flipDualCoin
  refine reg_batchCoin (step := fun x => dualStep guard (interpolateSeed n k (op0 x)) (interpolateSeed n k (op1 x)) (disc0 x) (disc1 x) (h x) upside) (T := fun x => ((op0 x).denorm 1 none).1)
    ?_ hh ?_ size hz
  · exact reg_dualStep guard n k hh h0 h1 hd0 hd1 upside
  · simp only [NormOp.denorm]
    fun_prop

end

end Ctb
