import Verif.Lemmas.RegSweep
import Verif.Lemmas.RegEm
import Verif.Lemmas.RegArs
import Verif.Model.McemObjective

/-!
# The objective of Monte Carlo EM has a measurable law
-/

set_option linter.unusedSectionVars false

namespace Ctb

open MeasureTheory Set Classical

variable {X Y : Type} [MeasurableSpace X] [MeasurableSpace Y]

theorem reg_drawSupports (m : ℕ) {dts : X → List ℝ} (hd : Measurable dts) : Reg fun x => drawSupports m (dts x) := by
  unfold drawSupports
  refine Reg.mapM' (f := fun _ dt => (Prog.replicate m (.draw (.uniform 0 dt))).bind fun us => .ret (npSort us)) ?_ hd
  exact Reg.bind (Reg.replicate m (Reg.unif measurable_const measurable_snd)) (Reg.ret (meas_npSort measurable_snd))

theorem mass_drawSupports (m : ℕ) (dts : List ℝ) : Mass1 (drawSupports m dts) :=
  Mass1.mapM' fun _ _ => ((Mass1.unif ..).replicate m).bind fun _ _ => .ret _

theorem meas_stDisc {disc : X → ℝ → ℝ} (hd : Measurable fun q : X × ℝ => disc q.1 q.2) {dt : X → ℝ} {xs : X → List ℝ} (ht : Measurable dt) (hx : Measurable xs) :
    Measurable fun x => stDisc (disc x) (dt x) (xs x) := by
  have e : (fun x => stDisc (disc x) (dt x) (xs x)) = fun x => (npMean ((xs x).map (disc x))).bind fun m => .ok (-dt x * m) := by
    funext x; unfold stDisc; cases npMean ((xs x).map (disc x)) <;> rfl
  rw [e]
  exact Measurable.resBind (meas_npMean (Measurable.listMap hx hd)) (Measurable.resOk (by fun_prop))

/-! ## `ito` -/

section ito
variable {p : ℕ} {M : ItoFns p} {ebd : (Fin p → ℝ) → ℝ → ℝ → Res DiscBounds} {thi : X → Fin p → ℝ} {t vt : X → List ℝ}

theorem meas_itoBiased (hM : MeasModel M ebd) (hD : MeasDrift M) (hR : Measurable fun q : (Fin p → ℝ) × ℝ => M.dvReduce q.1 q.2) (hth : Measurable thi) (ht : Measurable t) (hv : Measurable vt) :
    Measurable fun x => itoBiasedLogLik M (thi x) (t x) (vt x) := by
  have hx : Measurable fun x => (vt x).map (M.reduce (thi x)) := Measurable.listMap (f := fun x v => M.reduce (thi x) v) hv
    (hM.reduce.comp (by fun_prop : Measurable fun q : X × ℝ => (thi q.1, q.2)))
  have hdv : Measurable fun q : X × ℝ => M.dvReduce (thi q.1) q.2 := hR.comp (by fun_prop : Measurable fun q : X × ℝ => (thi q.1, q.2))
  unfold itoBiasedLogLik
  refine Measurable.ite' ?_ measurable_const (Measurable.ite' ?_ measurable_const (Measurable.resOk (Measurable.listSum ?_)))
  · exact Measurable.discrete ((Measurable.length hv).prodMk (Measurable.length ht)) fun q : ℕ × ℕ => q.1 ≠ q.2
  · refine Measurable.or (Measurable.memEx (P := fun _ d => d ≤ 0) (by fun_prop) (by fun_prop)) (Measurable.memEx (P := fun x v => M.dvReduce (thi x) v = 0) (by fun_prop) ?_)
    exact Measurable.eqReal hdv measurable_const
  · refine Measurable.zipWith' (f := fun x (q : ℝ × ℝ) (r : ℝ × ℝ) => Real.log |M.dvReduce (thi x) q.2| - Real.log (2 * Real.pi * q.1) / 2
      - (r.2 - r.1) ^ 2 / (2 * q.1) + M.sxDrift (thi x) r.2 - M.sxDrift (thi x) r.1) (by fun_prop) (by fun_prop) ?_
    have h1 : Measurable fun q : X × (ℝ × ℝ) × ℝ × ℝ => M.dvReduce (thi q.1) q.2.1.2 := hR.comp (by fun_prop : Measurable fun q : X × (ℝ × ℝ) × ℝ × ℝ => (thi q.1, q.2.1.2))
    have h2 : Measurable fun q : X × (ℝ × ℝ) × ℝ × ℝ => M.sxDrift (thi q.1) q.2.2.2 := hD.sxDrift.comp (by fun_prop : Measurable fun q : X × (ℝ × ℝ) × ℝ × ℝ => (thi q.1, q.2.2.2))
    have h3 : Measurable fun q : X × (ℝ × ℝ) × ℝ × ℝ => M.sxDrift (thi q.1) q.2.2.1 := hD.sxDrift.comp (by fun_prop : Measurable fun q : X × (ℝ × ℝ) × ℝ × ℝ => (thi q.1, q.2.2.1))
    fun_prop

theorem reg_itoEstLogAugLik (hM : MeasModel M ebd) (hD : MeasDrift M) (hR : Measurable fun q : (Fin p → ℝ) × ℝ => M.dvReduce q.1 q.2) (n k : ℕ) (hth : Measurable thi) (ht : Measurable t)
    (hv : Measurable vt) {supp : X → List (List ℝ)} (hs : Measurable supp) {z : X → List EaSkel} (hz : Measurable z) :
    Reg fun x => itoEstLogAugLik (interpolateSeed n k) M (t x) (vt x) (thi x) (supp x) (z x) := by
  unfold itoEstLogAugLik
  have ho := Measurable.itoNormops hM hth ht hv
  refine Reg.bind (Reg.mapM' (f := fun _ (q : List ℝ × EaSkel × NormOp) => interpolateSeed n k q.2.2 q.2.1 q.1) (reg_interpolateSeedOp n k (by fun_prop) (by fun_prop) (by fun_prop)) (by fun_prop)) ?_
  refine Reg.ite' (Measurable.isNil measurable_snd) (Reg.err _) (Reg.bind (Reg.lift ?_) (Reg.bind (Reg.lift ?_) (Reg.ret ?_)))
  · have h : Measurable fun q : X × List (EaSkel × List ℝ) => q.2.map Prod.snd := Measurable.listMap (f := fun _ => Prod.snd) (by fun_prop) (by fun_prop)
    refine Measurable.resMapM (f := fun (q : X × List (EaSkel × List ℝ)) (r : ℝ × List ℝ) => stDisc (M.disc (thi q.1)) r.1 r.2) ?_ (by fun_prop)
    refine meas_stDisc (X := (X × List (EaSkel × List ℝ)) × ℝ × List ℝ) (disc := fun q => M.disc (thi q.1.1)) ?_ (by fun_prop) (by fun_prop)
    exact hM.disc.comp (by fun_prop : Measurable fun q : ((X × List (EaSkel × List ℝ)) × ℝ × List ℝ) × ℝ => (thi q.1.1.1, q.2))
  · exact (meas_itoBiased hM hD hR hth ht hv).comp (by fun_prop : Measurable fun q : (X × List (EaSkel × List ℝ)) × List ℝ => q.1.1)
  · have h : Measurable fun q : ((X × List (EaSkel × List ℝ)) × List ℝ) × ℝ => q.1.1.2.map Prod.fst := Measurable.listMap (f := fun _ => Prod.fst) (by fun_prop) (by fun_prop)
    fun_prop

theorem reg_itoUpdateObjective (hM : MeasModel M ebd) (hD : MeasDrift M) (hR : Measurable fun q : (Fin p → ℝ) × ℝ => M.dvReduce q.1 q.2) (n k m : ℕ) (hth : Measurable thi) (ht : Measurable t)
    (hv : Measurable vt) {zz : X → List (List EaSkel)} (hz : Measurable zz) : Reg fun x => itoUpdateObjective (interpolateSeed n k) M (t x) (vt x) m (thi x) (zz x) := by
  unfold itoUpdateObjective
  refine Reg.bind (reg_drawSupports m (by fun_prop)) (Reg.bind (Reg.mapM' (f := fun (q : X × List (List ℝ)) z => itoEstLogAugLik (interpolateSeed n k) M (t q.1) (vt q.1) (thi q.1) q.2 z)
    (reg_itoEstLogAugLik hM hD hR n k (by fun_prop) (by fun_prop) (by fun_prop) (by fun_prop) (by fun_prop)) (by fun_prop)) (Reg.ite' (Measurable.isNil measurable_snd) (Reg.err _) (Reg.ret ?_)))
  have h : Measurable fun q : (X × List (List ℝ)) × List (ℝ × List EaSkel) => q.2.map Prod.snd := Measurable.listMap (f := fun _ => Prod.snd) (by fun_prop) (by fun_prop)
  fun_prop

theorem mass_itoEstLogAugLik (M : ItoFns p) (n k : ℕ) (t vt : List ℝ) (thi : Fin p → ℝ) (supp : List (List ℝ)) (z : List EaSkel) :
    Mass1 (itoEstLogAugLik (interpolateSeed n k) M t vt thi supp z) :=
  (Mass1.mapM' fun _ _ => mass_interpolateSeed ..).bind fun _ _ => Mass1.ite (fun _ => .err _) fun _ => Mass1.lift.bind fun _ _ => Mass1.lift.bind fun _ _ => .ret _

theorem mass_itoUpdateObjective (M : ItoFns p) (n k m : ℕ) (t vt : List ℝ) (thi : Fin p → ℝ) (zz : List (List EaSkel)) :
    Mass1 (itoUpdateObjective (interpolateSeed n k) M t vt m thi zz) :=
  (mass_drawSupports ..).bind fun _ _ => (Mass1.mapM' fun _ _ => mass_itoEstLogAugLik ..).bind fun _ _ => Mass1.ite (fun _ => .err _) fun _ => .ret _

end ito

/-! ## `switching` -/

section switching
variable {p : ℕ} {M : SwitchFns p} {R : RegimeFns p} {thi : X → Thi p} {h : X → Anchorage ℝ ℝ}

theorem meas_swNormops (hR : MeasRegime R) (hth : Measurable thi) (hh : Measurable h) : Measurable fun x => swNormops R (thi x) (h x).t (h x).yt (h x).vt := by
  have h1 : Measurable fun x => (h x).vt.map R.reduce := Measurable.listMap (f := fun _ v => R.reduce v) (by fun_prop) (hR.reduce.comp measurable_snd)
  unfold swNormops
  refine Measurable.listMap (f := fun x (q : ℝ × ℕ × ℝ × ℝ) => NormOp.mk q.1 (√q.1 * R.vol (thi x) q.2.1) q.2.2.1 q.2.2.2) (by fun_prop) ?_
  have h2 : Measurable fun q : Thi p × ℕ => R.vol q.1 q.2 := measurable_from_prod_countable_left hR.vol
  have h3 : Measurable fun q : X × ℝ × ℕ × ℝ × ℝ => R.vol (thi q.1) q.2.2.1 := h2.comp (by fun_prop : Measurable fun q : X × ℝ × ℕ × ℝ × ℝ => (thi q.1, q.2.2.1))
  fun_prop

theorem takesPart_none (y : ℕ) : takesPart none y ↔ True := ⟨fun _ => trivial, fun _ => .inl rfl⟩

theorem reg_swEstLogAugLik (hM : MeasSwitch M) (hR : MeasRegime R) (K n k : ℕ) (hth : Measurable thi) (hh : Measurable h) {supp : X → List (List ℝ)} (hs : Measurable supp)
    {z : X → List EaSkel} (hz : Measurable z) : Reg fun x => swEstLogAugLik (interpolateSeed n k) R M K (thi x) (h x) none (supp x) (z x) := by
  unfold swEstLogAugLik
  simp only [takesPart_none, if_true, decide_true, List.filter_true]
  have ho := meas_swNormops hR hth hh
  refine Reg.bind (Reg.mapM' (f := fun _ (q : List ℝ × ℕ × EaSkel × NormOp) => interpolateSeed n k q.2.2.2 q.2.2.1 q.1) (reg_interpolateSeedOp n k (by fun_prop) (by fun_prop) (by fun_prop)) (by fun_prop)) ?_
  refine Reg.ite' (Measurable.isNil measurable_snd) (Reg.err _) (Reg.bind (Reg.lift ?_) (Reg.bind (Reg.lift ?_) (Reg.ret ?_)))
  · have hmap : Measurable fun q : X × List (EaSkel × List ℝ) => q.2.map Prod.snd := Measurable.listMap (f := fun _ => Prod.snd) (by fun_prop) (by fun_prop)
    refine Measurable.resMapM (f := fun (q : X × List (EaSkel × List ℝ)) (r : ℝ × ℕ × List ℝ) => stDisc (R.disc (thi q.1) r.2.1) r.1 r.2.2) ?_ (by fun_prop)
    refine meas_stDisc (X := (X × List (EaSkel × List ℝ)) × ℝ × ℕ × List ℝ) (disc := fun q => R.disc (thi q.1.1) q.2.2.1) ?_ (by fun_prop) (by fun_prop)
    have h2 : Measurable fun q : (Thi p × ℝ) × ℕ => R.disc q.1.1 q.2 q.1.2 := measurable_from_prod_countable_left hR.disc
    exact h2.comp (by fun_prop : Measurable fun q : ((X × List (EaSkel × List ℝ)) × ℝ × ℕ × List ℝ) × ℝ => ((thi q.1.1.1, q.2), q.1.2.2.1))
  · exact (meas_biasedLogLik hM K hth hh).comp (by fun_prop : Measurable fun q : (X × List (EaSkel × List ℝ)) × List ℝ => q.1.1)
  · have hmap : Measurable fun q : ((X × List (EaSkel × List ℝ)) × List ℝ) × ℝ × ℝ => q.1.1.2.map Prod.fst := Measurable.listMap (f := fun _ => Prod.fst) (by fun_prop) (by fun_prop)
    fun_prop

theorem reg_swUpdateObjective (hM : MeasSwitch M) (hR : MeasRegime R) (K n k m : ℕ) (hth : Measurable thi) {zh : X → List (List EaSkel × Anchorage ℝ ℝ)} (hz : Measurable zh) :
    Reg fun x => swUpdateObjective (interpolateSeed n k) R M K m (thi x) (zh x) := by
  unfold swUpdateObjective
  refine Reg.bind (Reg.mapM' (f := fun _ (q : List EaSkel × Anchorage ℝ ℝ) => drawSupports m (npDiff q.2.t)) (reg_drawSupports m (by fun_prop)) hz) (Reg.bind
    (Reg.mapM' (f := fun (x : X × List (List (List ℝ))) (q : (List EaSkel × Anchorage ℝ ℝ) × List (List ℝ)) => swEstLogAugLik (interpolateSeed n k) R M K (thi x.1) q.1.2 none q.2 q.1.1)
      (reg_swEstLogAugLik hM hR K n k (by fun_prop) (by fun_prop) (by fun_prop) (by fun_prop)) (by fun_prop)) (Reg.ite' (Measurable.isNil measurable_snd) (Reg.err _) (Reg.ret ?_)))
  have hmap : Measurable fun q : (X × List (List (List ℝ))) × List (ℝ × List EaSkel) => q.2.map Prod.snd := Measurable.listMap (f := fun _ => Prod.snd) (by fun_prop) (by fun_prop)
  fun_prop

theorem mass_swEstLogAugLik (M : SwitchFns p) (R : RegimeFns p) (K n k : ℕ) (thi : Thi p) (h : Anchorage ℝ ℝ) (r : Option ℕ) (supp : List (List ℝ)) (z : List EaSkel) :
    Mass1 (swEstLogAugLik (interpolateSeed n k) R M K thi h r supp z) :=
  (Mass1.mapM' fun _ _ => Mass1.ite (fun _ => mass_interpolateSeed ..) fun _ => .ret _).bind fun _ _ => Mass1.ite (fun _ => .err _) fun _ => Mass1.lift.bind fun _ _ => Mass1.lift.bind fun _ _ => .ret _

theorem mass_swUpdateObjective (M : SwitchFns p) (R : RegimeFns p) (K n k m : ℕ) (thi : Thi p) (zh : List (List EaSkel × Anchorage ℝ ℝ)) :
    Mass1 (swUpdateObjective (interpolateSeed n k) R M K m thi zh) :=
  (Mass1.mapM' fun _ _ => mass_drawSupports ..).bind fun _ _ => (Mass1.mapM' fun _ _ => mass_swEstLogAugLik ..).bind fun _ _ => Mass1.ite (fun _ => .err _) fun _ => .ret _

end switching

end Ctb
