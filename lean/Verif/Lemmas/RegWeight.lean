import Verif.Lemmas.RegSwitch
import Verif.Model.HiddenWeight
import Verif.Props.HiddenLaw

/-!
# The weights of hidden states are measurable
-/

set_option linter.unusedSectionVars false

namespace Ctb

open MeasureTheory ProbabilityTheory Set Classical
open scoped ENNReal

variable {X : Type} [MeasurableSpace X]

/-- Functions of a switching model that are measurable jointly in parameters and values. -/
structure MeasSwitch {p : ℕ} (M : SwitchFns p) : Prop where
  vol : Measurable fun q : Thi p × List ℕ => M.vol q.1 q.2
  sx : Measurable fun q : Thi p × List ℕ × List ℝ => M.sx q.1 q.2.1 q.2.2
  red : Measurable M.red
  dvRed : Measurable M.dvRed

variable {p : ℕ} {M : SwitchFns p} {thi : X → Thi p} {h : X → Anchorage ℝ ℝ}

theorem meas_sigT (hM : MeasSwitch M) (ht : Measurable thi) (hh : Measurable h) : Measurable fun x => sigT M (thi x) (h x) := by
  unfold sigT
  exact Measurable.zipWith' (f := fun _ d v => d * v ^ 2) (Measurable.npDiff (by fun_prop)) (hM.vol.comp (by fun_prop : Measurable fun x => (thi x, (h x).yt.dropLast))) (by fun_prop)

theorem meas_pDel (hM : MeasSwitch M) (ht : Measurable thi) (hh : Measurable h) : Measurable fun x => pDelTerms M (thi x) (h x) := by
  unfold pDelTerms
  have hx : Measurable fun x => (h x).vt.map M.red := Measurable.listMap (f := fun _ => M.red) (by fun_prop) (hM.red.comp measurable_snd)
  refine Measurable.zipWith' (f := fun _ d v => d / v ^ 2) (Measurable.zipWith' (f := fun _ a b => a - b) (hM.sx.comp (by fun_prop : Measurable fun x => (thi x, (h x).yt.dropLast, ((h x).vt.map M.red).tail)))
    (hM.sx.comp (by fun_prop : Measurable fun x => (thi x, (h x).yt.dropLast, ((h x).vt.map M.red).dropLast))) (by fun_prop)) (hM.vol.comp (by fun_prop : Measurable fun x => (thi x, (h x).yt.dropLast))) (by fun_prop)

theorem meas_normTerms (hM : MeasSwitch M) {v s : X → List ℝ} (hv : Measurable v) (hs : Measurable s) : Measurable fun x => normTerms M (v x) (s x) := by
  unfold normTerms
  refine Measurable.zipWith' (f := fun _ a b => a - b) (Measurable.zipWith' (f := fun _ v s => Real.log |M.dvRed v| - Real.log (2 * Real.pi * s) / 2) (by fun_prop) hs ?_)
    (Measurable.zipWith' (f := fun _ d s => d ^ 2 / (2 * s)) (Measurable.npDiff (Measurable.listMap (f := fun _ => M.red) hv (hM.red.comp measurable_snd))) hs (by fun_prop)) (by fun_prop)
  have h1 : Measurable fun q : X × ℝ × ℝ => |M.dvRed q.2.1| := (measurable_abs).comp (hM.dvRed.comp (by fun_prop))
  exact (Real.measurable_log.comp h1).sub (by fun_prop)

theorem meas_npSplit {l : X → List ℝ} {i : X → List ℕ} (hl : Measurable l) (hi : Measurable i) : Measurable fun x => npSplit (l x) (i x) := by
  unfold npSplit
  have hd : Measurable fun x => 0 :: (i x ++ [(l x).length]) := by fun_prop
  exact Measurable.zipWith' (f := fun x a b => ((l x).take b).drop a) hd (Measurable.tail hd) (Measurable.drop (Measurable.take (by fun_prop) (by fun_prop)) (by fun_prop))

theorem meas_sigObs {s : X → List ℝ} {y : X → List ℕ} (hs : Measurable s) (hy : Measurable y) : Measurable fun x => sigObs (s x) (y x) := by
  unfold sigObs
  have hi : Measurable fun x => whereFrom 0 (isObs (y x)) := Measurable.discrete hy fun l => whereFrom 0 (isObs l)
  exact Measurable.listMap (f := fun _ => List.sum) (Measurable.dropLast (Measurable.tail (meas_npSplit hs hi))) (by fun_prop)

theorem meas_biasedLogLik (hM : MeasSwitch M) (n : ℕ) (ht : Measurable thi) (hh : Measurable h) : Measurable fun x => evalBiasedLogLik2 M n (thi x) (h x) none := by
  have h1 := meas_sigT hM ht hh
  have hs : Measurable fun x => (h x).yt.dropLast.map fun _ => true := Measurable.discrete (f := fun x => (h x).yt) (by fun_prop) fun l : List ℕ => l.dropLast.map fun _ => true
  have hb : Measurable fun x => isObs (h x).yt := Measurable.discrete (f := fun x => (h x).yt) (by fun_prop) isObs
  have h2 : Measurable fun x => normTerms M (h x).vt (sigT M (thi x) (h x)) := meas_normTerms hM (by fun_prop) h1
  have h3 : Measurable fun x => (normTerms M (select (h x).vt (isObs (h x).yt)) (sigObs (sigT M (thi x) (h x)) (h x).yt)).sum :=
    Measurable.listSum (meas_normTerms hM (Measurable.select (by fun_prop) hb) (meas_sigObs h1 (by fun_prop)))
  unfold evalBiasedLogLik2
  refine Measurable.ite' ?_ measurable_const (Measurable.ite' ?_ measurable_const (Measurable.ite' (Measurable.isNil (by fun_prop)) measurable_const (Measurable.ite' ?_ measurable_const (Measurable.resOk (Measurable.prodMk ?_ ?_)))))
  · exact Measurable.discrete (f := fun x => (h x).yt) (by fun_prop) fun l : List ℕ => ∃ y ∈ l.dropLast, n ≤ y
  · exact Measurable.discrete (f := fun x => ((h x).yt.length, (h x).vt.length, (h x).t.length)) (by fun_prop) fun q : ℕ × ℕ × ℕ => q.1 ≠ q.2.2 ∨ q.2.1 ≠ q.2.2
  · exact Measurable.memEx h1 (by fun_prop)
  · exact Measurable.listSum (Measurable.select (Measurable.zipWith' (f := fun _ a b => a + b) (meas_pDel hM ht hh) h2 (by fun_prop)) hs)
  · exact h3.sub (Measurable.listSum (Measurable.select h2 hs))

theorem meas_hiddenWeight (hM : MeasSwitch M) (n : ℕ) {ebd : X → ℕ → ℝ → ℝ → Res DiscBounds} (he : ∀ y, Measurable fun q : X × ℝ × ℝ => ebd q.1 y q.2.1 q.2.2) {ops : X → List NormOp}
    (ho : Measurable ops) {z : X → List EaSkel} (hz : Measurable z) (ht : Measurable thi) (hh : Measurable h) :
    Measurable fun x => evalHiddenWeight M n (thi x) (ebd x) (ops x) (z x) (h x) := by
  unfold evalHiddenWeight
  refine Measurable.resBind (Measurable.resMapM (f := fun x (q : EaSkel × ℕ × NormOp) => integrateDiscBound (ebd x q.2.1) q.2.2 q.1) ?_ (Measurable.zip hz (Measurable.zip (by fun_prop) ho)))
    (Measurable.resBind (meas_biasedLogLik hM n (by fun_prop) (by fun_prop)) (by fun_prop))
  exact Measurable.natCases (f := fun (q : X × EaSkel × ℕ × NormOp) y => integrateDiscBound (ebd q.1 y) q.2.2.2 q.2.1) (c := fun q => q.2.2.1) (by fun_prop) fun y =>
    meas_integrateDiscBound (X := X × EaSkel × ℕ × NormOp) (ebd := fun q => ebd q.1 y) ((he y).comp (by fun_prop : Measurable fun q : (X × EaSkel × ℕ × NormOp) × ℝ × ℝ => (q.1.1, q.2))) (by fun_prop) (by fun_prop)

/-! ## The operations of the library's models -/

/-- The operations the hidden-state update uses, for a model of the library: `sample_aug`, switching/static.py:46-58, `eval_hidden_weight`, switching/mcmc.py:198-202 (where
it is a number), `reduce` and `flip_poisson_coin` on a segment, switching/mcmc.py:214-220. -/
noncomputable def swHiddenOps {p : ℕ} (M : SwitchFns p) (R : RegimeFns p) (ebd : Thi p → ℕ → ℝ → ℝ → Res DiscBounds) (n nb F k : ℕ) (lb ub : Option ℝ) (size : ℤ) (t vt : List ℝ)
    (thi : Thi p) : HiddenOps EaSkel where
  aug y := sampleAug (R.vol thi) R.reduce R.dereduce (augSeed R thi nb F lb ub) y t vt
  weight z h := resGetD 0 (evalHiddenWeight M n thi (ebd thi) (swNormops R thi h.t h.yt h.vt) z h)
  red := R.reduce
  flip s z := (flipPoissonCoin nb k (R.disc thi s.2.1) (ebd thi s.2.1) (segOp (R.vol thi) s) size z).bind fun r => .ret (r.1, r.2.2)

theorem meas_segOpOf {vol : X → ℕ → ℝ} (hv : ∀ y, Measurable fun x => vol x y) {s : X → ℝ × ℕ × ℝ × ℝ} (hs : Measurable s) : Measurable fun x => segOp (vol x) (s x) := by
  have h : Measurable fun q : X × ℕ => vol q.1 q.2 := measurable_from_prod_countable_left hv
  have h' : Measurable fun x => vol x (s x).2.1 := h.comp (by fun_prop : Measurable fun x => (x, (s x).2.1))
  unfold segOp
  fun_prop

theorem measOps_switch {p : ℕ} {M : SwitchFns p} {R : RegimeFns p} {ebd : Thi p → ℕ → ℝ → ℝ → Res DiscBounds} (hM : MeasSwitch M) (hR : MeasRegime R) (hd : Measurable R.dereduce)
    (he : ∀ y, Measurable fun q : Thi p × ℝ × ℝ => ebd q.1 y q.2.1 q.2.2) (n nb F k : ℕ) (lb ub : Option ℝ) (size : ℤ) :
    MeasOps fun q : (List ℝ × List ℝ) × Thi p => swHiddenOps M R ebd n nb F k lb ub size q.1.1 q.1.2 q.2 where
  aug := by
    refine reg_sampleAugOf (X := ((List ℝ × List ℝ) × Thi p) × Skel ℝ) (vol := fun q => R.vol q.1.2) (raw := fun q => augSeed R q.1.2 nb F lb ub) (fun y => (hR.vol y).comp (by fun_prop)) hR.reduce hd ?_ (by fun_prop) (by fun_prop) (by fun_prop)
    exact reg_sampleRawSeed (X := (((List ℝ × List ℝ) × Thi p) × Skel ℝ) × ℝ × ℕ × ℝ × ℝ) (op := fun q => segOp (R.vol q.1.1.2) q.2) nb F
      (meas_segOpOf (vol := fun q : (((List ℝ × List ℝ) × Thi p) × Skel ℝ) × ℝ × ℕ × ℝ × ℝ => R.vol q.1.1.2) (fun y => (hR.vol y).comp (by fun_prop)) (by fun_prop)) lb ub
  weight := by
    refine (measurable_resGetD 0).comp ?_
    refine meas_hiddenWeight hM n (X := ((List ℝ × List ℝ) × Thi p) × List EaSkel × Anchorage ℝ ℝ) (ebd := fun q => ebd q.1.2) (fun y => (he y).comp (by fun_prop : Measurable fun q : (((List ℝ × List ℝ) × Thi p) × List EaSkel × Anchorage ℝ ℝ) × ℝ × ℝ => (q.1.1.2, q.2))) ?_ (by fun_prop) (by fun_prop) (by fun_prop)
    have hx : Measurable fun q : ((List ℝ × List ℝ) × Thi p) × List EaSkel × Anchorage ℝ ℝ => q.2.2.vt.map R.reduce := Measurable.listMap (f := fun _ => R.reduce) (by fun_prop) (hR.reduce.comp measurable_snd)
    exact Measurable.listMap (f := fun (q : ((List ℝ × List ℝ) × Thi p) × List EaSkel × Anchorage ℝ ℝ) s => segOp (R.vol q.1.2) s) (Measurable.segments (by fun_prop) (by fun_prop) hx)
      (meas_segOpOf (vol := fun q : (((List ℝ × List ℝ) × Thi p) × List EaSkel × Anchorage ℝ ℝ) × ℝ × ℕ × ℝ × ℝ => R.vol q.1.1.2) (fun y => (hR.vol y).comp (by fun_prop)) measurable_snd)
  red := hR.reduce.comp measurable_snd
  flip := by
    refine Reg.bind ?_ (Reg.ret (by fun_prop))
    refine Reg.natCases (p := fun (q : ((List ℝ × List ℝ) × Thi p) × (ℝ × ℕ × ℝ × ℝ) × EaSkel) y => flipPoissonCoin nb k (R.disc q.1.2 y) (ebd q.1.2 y) (segOp (R.vol q.1.2) q.2.1) size q.2.2)
      (c := fun q => q.2.1.2.1) (by fun_prop) fun y => ?_
    exact reg_flipPoissonCoinOf (X := ((List ℝ × List ℝ) × Thi p) × (ℝ × ℕ × ℝ × ℝ) × EaSkel) nb k (disc := fun q => R.disc q.1.2 y) (ebd := fun q => ebd q.1.2 y)
      ((hR.disc y).comp (by fun_prop : Measurable fun q : (((List ℝ × List ℝ) × Thi p) × (ℝ × ℕ × ℝ × ℝ) × EaSkel) × ℝ => (q.1.1.2, q.2)))
      ((he y).comp (by fun_prop : Measurable fun q : (((List ℝ × List ℝ) × Thi p) × (ℝ × ℕ × ℝ × ℝ) × EaSkel) × ℝ × ℝ => (q.1.1.2, q.2)))
      (meas_segOpOf (vol := fun q : ((List ℝ × List ℝ) × Thi p) × (ℝ × ℕ × ℝ × ℝ) × EaSkel => R.vol q.1.2) (fun y => (hR.vol y).comp (by fun_prop)) (by fun_prop)) size (by fun_prop)

theorem massOps_switch {p : ℕ} (M : SwitchFns p) (R : RegimeFns p) (ebd : Thi p → ℕ → ℝ → ℝ → Res DiscBounds) (n nb F k : ℕ) (lb ub : Option ℝ) (size : ℤ) (t vt : List ℝ) (thi : Thi p) :
    MassOps (swHiddenOps M R ebd n nb F k lb ub size t vt thi) where
  aug _ := mass_sampleAugOf (raw := augSeed R thi nb F lb ub) _ _ _ (fun _ _ _ _ => mass_rawSkel ..) _ _ _
  flip _ _ := (mass_flipPoissonCoin ..).bind fun _ _ => .ret _

theorem measSwitch_ou : MeasSwitch ouFns where
  vol := Measurable.listMap (f := fun (q : Thi 2 × List ℕ) y => 1 / q.1 y 1) measurable_snd (Measurable.natCases (f := fun (q : (Thi 2 × List ℕ) × ℕ) y => 1 / q.1.1 y 1) (c := fun q => q.2) (by fun_prop) fun y => by fun_prop)
  sx := Measurable.zipWith' (f := fun (q : Thi 2 × List ℕ × List ℝ) y x => -q.1 y 0 * x ^ 2 / 2) (by fun_prop) (by fun_prop)
    (Measurable.natCases (f := fun (q : (Thi 2 × List ℕ × List ℝ) × ℕ × ℝ) y => -q.1.1 y 0 * q.2.2 ^ 2 / 2) (c := fun q => q.2.1) (by fun_prop) fun y => by fun_prop)
  red := measurable_id
  dvRed := by simp only [ouFns]; fun_prop

theorem measSwitch_ou2 : MeasSwitch ou2Fns where
  vol := Measurable.listMap (f := fun (q : Thi 2 × List ℕ) y => q.1 y 0 / q.1 y 1) measurable_snd (Measurable.natCases (f := fun (q : (Thi 2 × List ℕ) × ℕ) y => q.1.1 y 0 / q.1.1 y 1) (c := fun q => q.2) (by fun_prop) fun y => by fun_prop)
  sx := Measurable.zipWith' (f := fun (q : Thi 2 × List ℕ × List ℝ) y x => -q.1 y 0 * x ^ 2 / 2) (by fun_prop) (by fun_prop)
    (Measurable.natCases (f := fun (q : (Thi 2 × List ℕ × List ℝ) × ℕ × ℝ) y => -q.1.1 y 0 * q.2.2 ^ 2 / 2) (c := fun q => q.2.1) (by fun_prop) fun y => by fun_prop)
  red := measurable_id
  dvRed := by simp only [ou2Fns]; fun_prop

theorem measSwitch_ou3 : MeasSwitch ou3Fns where
  vol := Measurable.listMap (f := fun (q : Thi 2 × List ℕ) y => q.1 y 0) measurable_snd (Measurable.natCases (f := fun (q : (Thi 2 × List ℕ) × ℕ) y => q.1.1 y 0) (c := fun q => q.2) (by fun_prop) fun y => by fun_prop)
  sx := by
    have h1 : Measurable fun q : Thi 2 × List ℕ × List ℝ => (q.2.1.map fun y => q.1 y 0 * q.1 y 1).prod := by
      have h2 : ∀ l : List ℕ, Measurable fun q : Thi 2 => (l.map fun y => q y 0 * q y 1).prod := fun l => by
        induction l with
        | nil => exact measurable_const
        | cons y l ih =>
          simp only [List.map_cons, List.prod_cons]
          fun_prop
      have h3 : Measurable fun q : Thi 2 × List ℕ => (q.2.map fun y => q.1 y 0 * q.1 y 1).prod := measurable_from_prod_countable_left h2
      exact h3.comp (by fun_prop : Measurable fun q : Thi 2 × List ℕ × List ℝ => (q.1, q.2.1))
    exact Measurable.listMap (f := fun (q : Thi 2 × List ℕ × List ℝ) x => -(q.2.1.map fun y => q.1 y 0 * q.1 y 1).prod / 2 * x ^ 2 / 2) (by fun_prop)
      ((((h1.comp measurable_fst).neg.div_const 2).mul (measurable_snd.pow_const 2)).div_const 2)
  red := measurable_id
  dvRed := by simp only [ou3Fns]; fun_prop

theorem meas_boundsOu (y : ℕ) : Measurable fun q : Thi 2 × ℝ × ℝ => (.ok (swOuBounds q.1 y q.2.1 q.2.2) : Res DiscBounds) := by
  unfold swOuBounds
  refine Measurable.resOk (Measurable.ouBounds (disc := fun q : Thi 2 × ℝ × ℝ => swOu.disc q.1 y) ?_ (by fun_prop) (by fun_prop) (by fun_prop))
  simp only [RegimeFns.disc, swOu]
  fun_prop

theorem meas_boundsOu2 (y : ℕ) : Measurable fun q : Thi 2 × ℝ × ℝ => (.ok (swOu2Bounds q.1 y q.2.1 q.2.2) : Res DiscBounds) := by
  unfold swOu2Bounds
  refine Measurable.resOk (Measurable.ouBounds (disc := fun q : Thi 2 × ℝ × ℝ => swOu2.disc q.1 y) ?_ (by fun_prop) (by fun_prop) (by fun_prop))
  simp only [RegimeFns.disc, swOu2]
  fun_prop

theorem meas_boundsOu3 (y : ℕ) : Measurable fun q : Thi 2 × ℝ × ℝ => (.ok (swOu3Bounds q.1 y q.2.1 q.2.2) : Res DiscBounds) := by
  unfold swOu3Bounds
  refine Measurable.resOk (Measurable.ouBounds (disc := fun q : Thi 2 × ℝ × ℝ => swOu3.disc q.1 y) ?_ (by fun_prop) (by fun_prop) (by fun_prop))
  simp only [RegimeFns.disc, swOu3]
  fun_prop

end Ctb
