import Verif.Lemmas.AugMeas
import Verif.Lemmas.RegSde
import Verif.Lemmas.MassOne
import Verif.Model.ItoHidden
import Verif.Model.SkelCall

/-!
# Two coins, estimates and updates have laws
-/

set_option linter.unusedSectionVars false

namespace Ctb

open MeasureTheory Set Classical
open scoped ENNReal

variable {X Y Z α β γ σ τ : Type} [MeasurableSpace X] [MeasurableSpace Y] [MeasurableSpace Z] [MeasurableSpace α] [MeasurableSpace β] [MeasurableSpace γ] [MeasurableSpace σ]
  [MeasurableSpace τ]

/-! ## Two coins -/

@[fun_prop] theorem Measurable.npLogLt {u v : X → ℝ} (hu : Measurable u) (hv : Measurable v) : Measurable fun x => Ctb.npLogLt (u x) (v x) := by
  unfold Ctb.npLogLt
  fun_prop

@[fun_prop] theorem Measurable.logaddexp {u v : X → ℝ} (hu : Measurable u) (hv : Measurable v) : Measurable fun x => Ctb.logaddexp (u x) (v x) := by
  unfold Ctb.logaddexp
  fun_prop

theorem reg_twocoinLoop {v1 : X → ℝ} (hv : Measurable v1) {c1 c2 : X → Coin σ τ} (h1 : Reg fun q : X × σ => c1 q.1 q.2) (h2 : Reg fun q : X × σ => c2 q.1 q.2) (pr : ℝ)
    {prop0 : X → τ} (h0 : Measurable prop0) : ∀ n, Reg fun q : X × σ => twocoinLoop (v1 q.1) (c1 q.1) (c2 q.1) pr (prop0 q.1) n q.2
  | 0 => Reg.err _
  | n + 1 => by
    have ih := reg_twocoinLoop hv h1 h2 pr h0 n
    have hc : ∀ {c : X → Coin σ τ} (b : Bool), (Reg fun q : X × σ => c q.1 q.2) → Reg fun q : (X × σ) × ℝ => (c q.1.1 q.1.2).bind fun r =>
        if r.1 then (.ret ((b, false, r.2.1), r.2.2) : Prog (Verdict σ τ))
        else .real (.uniform 0 1) fun u' =>
          if u' < pr then .ret ((false, true, prop0 q.1.1), r.2.2) else twocoinLoop (v1 q.1.1) (c1 q.1.1) (c2 q.1.1) pr (prop0 q.1.1) n r.2.2 := by
      intro c b hc
      refine Reg.bind (hc.comp measurable_fst) (Reg.ite' (by fun_prop) (Reg.ret (by fun_prop)) (Reg.real (DMeas.uniform measurable_const measurable_const)
        (Reg.ite' (by fun_prop) (Reg.ret (by fun_prop)) ?_)))
      exact ih.comp (f := fun q : (((X × σ) × ℝ) × Bool × τ × σ) × ℝ => (q.1.1.1.1, q.1.2.2.2)) (by fun_prop)
    unfold twocoinLoop
    exact Reg.real (DMeas.uniform measurable_const measurable_const) (Reg.ite' (by fun_prop) (hc true h1) (hc false h2))

theorem reg_sampleTwocoin {w1 w2 : X → ℝ} (hw1 : Measurable w1) (hw2 : Measurable w2) {c1 c2 : X → Coin σ τ} (h1 : Reg fun q : X × σ => c1 q.1 q.2)
    (h2 : Reg fun q : X × σ => c2 q.1 q.2) (pr : ℝ) {prop0 : X → τ} (h0 : Measurable prop0) (n : ℕ) {s : X → σ} (hs : Measurable s) :
    Reg fun x => sampleTwocoin (w1 x) (w2 x) (c1 x) (c2 x) pr (prop0 x) n (s x) :=
  (reg_twocoinLoop (v1 := fun x => w1 x - logaddexp (w1 x) (w2 x)) (by fun_prop) h1 h2 pr h0 n).comp (f := fun x => (x, s x)) (by fun_prop)

theorem mass_twocoinLoop {σ τ : Type} (v1 : ℝ) {c1 c2 : Coin σ τ} (h1 : ∀ s, Mass1 (c1 s)) (h2 : ∀ s, Mass1 (c2 s)) (pr : ℝ) (prop0 : τ) :
    ∀ n s, Mass1 (twocoinLoop v1 c1 c2 pr prop0 n s)
  | 0, _ => .err _
  | n + 1, s => by
    refine .real _ _ (mass_uniform ..) fun _ _ => .ite (fun _ => (h1 s).bind fun _ _ => .ite (fun _ => .ret _) fun _ => .real _ _ (mass_uniform ..) fun _ _ => .ite (fun _ => .ret _) fun _ => mass_twocoinLoop v1 h1 h2 pr prop0 n _)
      fun _ => (h2 s).bind fun _ _ => .ite (fun _ => .ret _) fun _ => .real _ _ (mass_uniform ..) fun _ _ => .ite (fun _ => .ret _) fun _ => mass_twocoinLoop v1 h1 h2 pr prop0 n _

theorem Measurable.allFst [Inhabited β] {l : X → List (Bool × β)} (hl : Measurable l) : Measurable fun x => (l x).all Prod.fst := by
  have e : ∀ x, (l x).all Prod.fst = ((l x).map Prod.fst).all id := fun x => by rw [List.all_map]; rfl
  simp only [e]
  exact Measurable.discrete (f := fun x => (l x).map Prod.fst) (Measurable.listMap (f := fun _ q => q.1) hl (by fun_prop)) (·.all id)

/-! ## The update of bridges -/

section
variable {p : ℕ} {M : ItoFns p} {ebd : (Fin p → ℝ) → ℝ → ℝ → Res DiscBounds} {thi : X → Fin p → ℝ} {t vt : X → List ℝ}

theorem Measurable.itoNormops (hM : MeasModel M ebd) (hth : Measurable thi) (ht : Measurable t) (hv : Measurable vt) : Measurable fun x => Ctb.itoNormops M (thi x) (t x) (vt x) := by
  have h1 : Measurable fun x => (vt x).map (M.reduce (thi x)) := Measurable.listMap (f := fun x v => M.reduce (thi x) v) hv
    (hM.reduce.comp (by fun_prop : Measurable fun q : X × ℝ => (thi q.1, q.2)))
  unfold Ctb.itoNormops
  exact Measurable.listMap (f := fun _ (q : ℝ × ℝ × ℝ) => NormOp.mk q.1 √q.1 q.2.1 q.2.2) (by fun_prop) (by fun_prop)

theorem reg_itoSampleAug (hM : MeasModel M ebd) (n F : ℕ) (lb ub : Option ℝ) (hth : Measurable thi) (ht : Measurable t) (hv : Measurable vt) :
    Reg fun x => itoSampleAug n F M lb ub (thi x) (t x) (vt x) :=
  Reg.mapM' (f := fun _ op => sampleRawSeed n F op lb ub) (reg_sampleRawSeed n F measurable_snd lb ub) (Measurable.itoNormops hM hth ht hv)

theorem meas_evalSdeWeight (hM : MeasModel M ebd) (n k : ℕ) (size : ℤ) (hth : Measurable thi) (ht : Measurable t) (hv : Measurable vt) {z : X → List EaSkel} (hz : Measurable z) :
    Measurable fun x => evalSdeWeight (itoSdeOps n k M ebd (thi x) size) (t x) (vt x) (z x) := by
  have h1 : Measurable fun x => (z x).zip (Ctb.itoNormops M (thi x) (t x) (vt x)) := Measurable.zip hz (Measurable.itoNormops hM hth ht hv)
  have h2 : Measurable fun q : X × EaSkel × NormOp => integrateDiscBound (ebd (thi q.1)) q.2.2 q.2.1 :=
    meas_integrateDiscBound (X := X × EaSkel × NormOp) (ebd := fun q => ebd (thi q.1))
      (hM.bounds.comp (by fun_prop : Measurable fun q : (X × EaSkel × NormOp) × ℝ × ℝ => (thi q.1.1, q.2))) (by fun_prop) (by fun_prop)
  exact Measurable.resCases (Measurable.listOk (Measurable.listMap (f := fun x (q : EaSkel × NormOp) => integrateDiscBound (ebd (thi x)) q.2 q.1) h1 h2)) (f := fun _ r => match r with
    | .error e => (.error e : Res ℝ)
    | .ok ws => .ok ws.sum) (fun _ => measurable_const) (by fun_prop)

theorem reg_flipSdeCoins (hM : MeasModel M ebd) (n k : ℕ) (size : ℤ) (hth : Measurable thi) (ht : Measurable t) (hv : Measurable vt) {z : X → List EaSkel} (hz : Measurable z) :
    Reg fun x => flipSdeCoins (itoSdeOps n k M ebd (thi x) size) (t x) (vt x) (z x) := by
  have h1 : Measurable fun x => (z x).zip (Ctb.itoNormops M (thi x) (t x) (vt x)) := Measurable.zip hz (Measurable.itoNormops hM hth ht hv)
  have h2 : Reg fun q : X × EaSkel × NormOp => flipPoissonCoin n k (M.disc (thi q.1)) (ebd (thi q.1)) q.2.2 size q.2.1 :=
    reg_flipPoissonCoinOf (X := X × EaSkel × NormOp) n k (disc := fun q => M.disc (thi q.1)) (ebd := fun q => ebd (thi q.1))
      (hM.disc.comp (by fun_prop : Measurable fun q : (X × EaSkel × NormOp) × ℝ => (thi q.1.1, q.2)))
      (hM.bounds.comp (by fun_prop : Measurable fun q : (X × EaSkel × NormOp) × ℝ × ℝ => (thi q.1.1, q.2))) (by fun_prop) size (by fun_prop)
  unfold flipSdeCoins
  refine Reg.ite' ?_ (Reg.err _) (Reg.bind (Reg.mapM' h2 h1) (Reg.ret (Measurable.prodMk (Measurable.allFst measurable_snd) ?_)))
  · simp only [List.isEmpty_iff]
    exact Measurable.isNil h1
  · exact Measurable.listMap (f := fun _ (r : Bool × ℝ × EaSkel) => r.2.2) (by fun_prop) (by fun_prop)

theorem reg_sdeCoin (hM : MeasModel M ebd) (n k : ℕ) (size : ℤ) (hth : Measurable thi) (ht : Measurable t) (hv : Measurable vt) {z : X → EaSkel} (hz : Measurable z) :
    Reg fun x => sdeCoin (itoSdeOps n k M ebd (thi x) size) (t x) (vt x) (z x) := by
  have e : ∀ x, sdeCoin (itoSdeOps n k M ebd (thi x) size) (t x) (vt x) (z x) = (flipSdeCoins (itoSdeOps n k M ebd (thi x) size) (t x) (vt x) [z x]).bind fun r =>
      if r.2.length = 1 then .ret (r.1, r.2.headD (z x), r.2.headD (z x)) else .err .value := by
    intro x
    unfold sdeCoin
    congr 1
    funext r
    rcases r with ⟨b, _ | ⟨a, _ | ⟨a', l⟩⟩⟩ <;> simp
  simp only [e]
  refine Reg.bind (reg_flipSdeCoins hM n k size hth ht hv (by fun_prop)) (Reg.ite' ?_ (Reg.ret (by fun_prop)) (Reg.err _))
  exact Measurable.discrete (f := fun y : X × Bool × List EaSkel => y.2.2.length) (by fun_prop) (· = 1)

theorem Measurable.pySlice' [Inhabited α] {l : X → List α} (hl : Measurable l) (i j : ℤ) : Measurable fun x => pySlice (l x) i j := by
  unfold pySlice
  have h : ∀ i : ℤ, Measurable fun x => pyClip (l x).length i := fun i => Measurable.discrete (f := fun x => (l x).length) (Measurable.length hl) (pyClip · i)
  exact Measurable.drop (Measurable.take hl (h j)) (h i)

theorem meas_subModel (ht : Measurable t) (hv : Measurable vt) (i : ℕ) : Measurable fun x => subModel (t x) (vt x) i := by
  unfold subModel
  refine Measurable.optionCases (o := fun x => pyGet (t x) i) (by fun_prop) (f := fun x o => match o with
    | none => (.error .index : Res (List ℝ × List ℝ))
    | some t0 => .ok ((pySlice (t x) i (i + 2)).map (· - t0), pySlice (vt x) i (i + 2))) measurable_const (Measurable.resOk (Measurable.prodMk ?_ ?_))
  · exact Measurable.listMap (f := fun q a => a - q.2) ((Measurable.pySlice' ht _ _).comp measurable_fst) (by fun_prop)
  · exact (Measurable.pySlice' hv _ _).comp measurable_fst

theorem reg_updateSdeBridge (hM : MeasModel M ebd) (n k : ℕ) (size : ℤ) (C : McmcControls) (hth : Measurable thi) (ht : Measurable t) (hv : Measurable vt) (i : ℕ) {zN zP : X → EaSkel}
    (hN : Measurable zN) (hP : Measurable zP) : Reg fun x => updateSdeBridge C (itoSdeOps n k M ebd (thi x) size) (t x) (vt x) i (zN x) (zP x) := by
  unfold updateSdeBridge
  refine Reg.bind (Reg.lift (meas_subModel ht hv i)) (Reg.bind (Reg.lift (meas_evalSdeWeight hM n k size (by fun_prop) (by fun_prop) (by fun_prop) (by fun_prop)))
    (Reg.bind (Reg.lift (meas_evalSdeWeight hM n k size (by fun_prop) (by fun_prop) (by fun_prop) (by fun_prop))) (Reg.bind ?_ (Reg.ret (by fun_prop)))))
  refine reg_sampleTwocoin (by fun_prop) (by fun_prop) (Reg.bind (reg_sdeCoin hM n k size (by fun_prop) (by fun_prop) (by fun_prop) (by fun_prop)) (Reg.ret (by fun_prop)))
    (Reg.bind (reg_sdeCoin hM n k size (by fun_prop) (by fun_prop) (by fun_prop) (by fun_prop)) (Reg.ret (by fun_prop))) _ (by fun_prop) _ (by fun_prop)

theorem reg_updateSde (hM : MeasModel M ebd) (n F k : ℕ) (lb ub : Option ℝ) (size : ℤ) (C : McmcControls) (hth : Measurable thi) (ht : Measurable t) (hv : Measurable vt)
    {z : X → List EaSkel} (hz : Measurable z) :
    Reg fun x => updateSde C (itoSdeOps n k M ebd (thi x) size) (itoSampleAug n F M lb ub (thi x) (t x) (vt x)) (t x) (vt x) (z x) := by
  unfold updateSde
  refine Reg.bind (reg_itoSampleAug hM n F lb ub hth ht hv) (Reg.mapM' (f := fun (y : X × List EaSkel) (q : ℕ × EaSkel × EaSkel) =>
    updateSdeBridge C (itoSdeOps n k M ebd (thi y.1) size) (t y.1) (vt y.1) q.1 q.2.1 q.2.2) ?_ ?_)
  · exact Reg.natCases (p := fun (y : (X × List EaSkel) × ℕ × EaSkel × EaSkel) i => updateSdeBridge C (itoSdeOps n k M ebd (thi y.1.1) size) (t y.1.1) (vt y.1.1) i y.2.2.1 y.2.2.2)
      (c := fun y => y.2.1) (by fun_prop) fun i => reg_updateSdeBridge hM n k size C (by fun_prop) (by fun_prop) (by fun_prop) i (by fun_prop) (by fun_prop)
  · have : Measurable fun y : X × List EaSkel => List.range (z y.1).length := Measurable.discrete (f := fun y : X × List EaSkel => (z y.1).length) (by fun_prop) List.range
    fun_prop

end

/-! ## Mass of the updates -/

theorem mass_updateSdeBridge {p : ℕ} (M : ItoFns p) (ebd : (Fin p → ℝ) → ℝ → ℝ → Res DiscBounds) (n k : ℕ) (size : ℤ) (C : McmcControls) (thi : Fin p → ℝ) (t vt : List ℝ)
    (i : ℕ) (zN zP : EaSkel) : Mass1 (updateSdeBridge C (itoSdeOps n k M ebd thi size) t vt i zN zP) := by
  have hc : ∀ t vt z, Mass1 (sdeCoin (itoSdeOps n k M ebd thi size) t vt z) := fun t vt z => by
    refine Mass1.bind (.ite (fun _ => .err _) fun _ => (Mass1.mapM' fun _ _ => mass_flipPoissonCoin ..).bind fun _ _ => .ret _) fun r _ => ?_
    split
    · exact .ret _
    · exact .err _
  exact Mass1.lift.bind fun _ _ => Mass1.lift.bind fun _ _ => Mass1.lift.bind fun _ _ =>
    (mass_twocoinLoop _ (fun _ => (hc ..).bind fun _ _ => .ret _) (fun _ => (hc ..).bind fun _ _ => .ret _) ..).bind fun _ _ => .ret _

theorem mass_itoSampleAug {p : ℕ} (M : ItoFns p) (n F : ℕ) (lb ub : Option ℝ) (thi : Fin p → ℝ) (t vt : List ℝ) : Mass1 (itoSampleAug n F M lb ub thi t vt) :=
  Mass1.mapM' fun _ _ => mass_rawSkel ..

theorem mass_updateSde {p : ℕ} (M : ItoFns p) (ebd : (Fin p → ℝ) → ℝ → ℝ → Res DiscBounds) (n F k : ℕ) (lb ub : Option ℝ) (size : ℤ) (C : McmcControls) (thi : Fin p → ℝ)
    (t vt : List ℝ) (z : List EaSkel) : Mass1 (updateSde C (itoSdeOps n k M ebd thi size) (itoSampleAug n F M lb ub thi t vt) t vt z) :=
  (mass_itoSampleAug ..).bind fun _ _ => Mass1.mapM' fun _ _ => mass_updateSdeBridge ..

/-! ## Estimates -/

theorem reg_samplePpp {h : X → ℝ} {b : X → List ℝ} (hh : Measurable h) (hb : Measurable b) : Reg fun x => samplePpp (h x) (b x) := by
  unfold samplePpp
  have hprod : Measurable fun x => (b x).prod := Measurable.listRec hb (f := fun _ l => l.prod) (h := fun p => p.1) (g := fun p => p.2.1 * p.2.2.2) (by fun_prop) (by fun_prop) measurable_const
    (fun _ _ _ => List.prod_cons)
  refine Reg.bind (Reg.assert' (by fun_prop)) (Reg.ite' (by fun_prop) (Reg.err _) (Reg.bind (Reg.assert' (Measurable.memAll (by fun_prop) (by fun_prop)))
    (Reg.poisson ?_ fun n => Reg.bind (Reg.replicate n (reg_drawRow (by fun_prop))) (Reg.ret ?_))))
  · exact Measurable.mul (by fun_prop) (hprod.comp (by fun_prop))
  · refine Measurable.insertionSort (r := fun a b : List ℝ => firstCoord a ≤ firstCoord b) ?_ (by fun_prop)
    unfold firstCoord
    fun_prop

theorem mass_samplePpp (h : ℝ) (b : List ℝ) : Mass1 (samplePpp h b) :=
  Mass1.assert.bind fun _ _ => .ite (fun _ => .err _) fun _ => Mass1.assert.bind fun _ _ => .nat _ _ (mass_poisson _) fun _ _ => (Mass1.replicate (mass_drawRow _) _).bind fun _ _ => .ret _

theorem Measurable.sumLog {l : X → List ℝ} (hl : Measurable l) : Measurable fun x => Ctb.sumLog (l x) := by
  unfold Ctb.sumLog
  refine Measurable.ite' (Measurable.memEx hl (by fun_prop)) measurable_const (Measurable.ite' (by fun_prop) measurable_const (Measurable.resOk (Measurable.some ?_)))
  exact Measurable.listSum (Measurable.listMap (f := fun _ a => Real.log a) hl (by fun_prop))

/-- The estimate of a seed with its one pair of bounds. -/
theorem estPoissonCoin_one (n k : ℕ) (disc : ℝ → ℝ) (ebd : ℝ → ℝ → Res DiscBounds) (op : NormOp) (z : EaSkel) : estPoissonCoin n k disc ebd op z =
    (Prog.lift (ebd (min (min z.tight z.loose * op.scale + op.x1) (min z.tight z.loose * op.scale + op.x0))
      (max (max z.tight z.loose * op.scale + op.x1) (max z.tight z.loose * op.scale + op.x0)))).bind fun b =>
    match (b.2.2 : Option ℝ) with
    | none => .ret (none, stLbDisc [0, op.finT] [b.2.1], z)
    | some u => (samplePpp (u - b.2.1) [1 * op.finT]).bind fun rows =>
      if rows = [] then .ret (some 0, stLbDisc [0, op.finT] [b.2.1], z) else
      (interpolateSeed n k op z (rows.map firstCoord)).bind fun q =>
      (Prog.lift (sumLog (q.2.map fun x => u - disc x))).bind fun v =>
      .ret (v.map fun v => v - q.2.length * Real.log (u - b.2.1), stLbDisc [0, op.finT] [b.2.1], q.1) := by
  unfold estPoissonCoin seedEst
  rw [boundDiscPath_one]
  cases ebd (min (min z.tight z.loose * op.scale + op.x1) (min z.tight z.loose * op.scale + op.x0)) (max (max z.tight z.loose * op.scale + op.x1) (max z.tight z.loose * op.scale + op.x0)) with
  | error e => rfl
  | ok b =>
    obtain ⟨c, l, u⟩ := b
    cases u with
    | top => rfl
    | coe u => rfl

section
variable {disc : X → ℝ → ℝ} {ebd : X → ℝ → ℝ → Res DiscBounds} {op : X → NormOp}

theorem reg_estPoissonCoin (n k : ℕ) (hd : Measurable fun q : X × ℝ => disc q.1 q.2) (he : Measurable fun q : X × ℝ × ℝ => ebd q.1 q.2.1 q.2.2) (ho : Measurable op)
    {z : X → EaSkel} (hz : Measurable z) : Reg fun x => estPoissonCoin n k (disc x) (ebd x) (op x) (z x) := by
  simp only [estPoissonCoin_one]
  refine Reg.bind (Reg.lift (meas_opBounds he ho hz)) ?_
  refine Reg.optionCases (X := X × DiscBounds) (p := fun y o => match o with
    | none => .ret (none, stLbDisc [0, (op y.1).finT] [y.2.2.1], z y.1)
    | some u => (samplePpp (u - y.2.2.1) [1 * (op y.1).finT]).bind fun rows =>
      if rows = [] then .ret (some 0, stLbDisc [0, (op y.1).finT] [y.2.2.1], z y.1) else
      (interpolateSeed n k (op y.1) (z y.1) (rows.map firstCoord)).bind fun q =>
      (Prog.lift (sumLog (q.2.map fun x => u - disc y.1 x))).bind fun v =>
      .ret (v.map fun v => v - q.2.length * Real.log (u - y.2.2.1), stLbDisc [0, (op y.1).finT] [y.2.2.1], q.1)) (o := fun y => (y.2.2.2 : Option ℝ))
    (by show Measurable fun y : X × DiscBounds => y.2.2.2; fun_prop) (Reg.ret ?_)
    (Reg.bind (reg_samplePpp (by fun_prop) (by fun_prop)) (Reg.ite' (by fun_prop) (Reg.ret ?_) (Reg.bind (reg_interpolateSeedOp n k (by fun_prop) (by fun_prop) ?_) (Reg.bind (Reg.lift (Measurable.sumLog ?_)) (Reg.ret ?_)))))
  · exact measurable_const.prodMk ((meas_stLb (by fun_prop) (by fun_prop)).prodMk (hz.comp measurable_fst))
  · exact measurable_const.prodMk ((meas_stLb (by fun_prop) (by fun_prop)).prodMk (by fun_prop))
  · refine Measurable.listMap (f := fun _ r => firstCoord r) (by fun_prop) ?_
    unfold firstCoord
    fun_prop
  · refine Measurable.listMap (f := fun (y : (((X × DiscBounds) × ℝ) × List (List ℝ)) × EaSkel × List ℝ) a => y.1.1.2 - disc y.1.1.1.1 a) (by fun_prop) ?_
    exact Measurable.sub (by fun_prop) (hd.comp (by fun_prop : Measurable fun q : ((((X × DiscBounds) × ℝ) × List (List ℝ)) × EaSkel × List ℝ) × ℝ => (q.1.1.1.1.1, q.2)))
  · refine Measurable.prodMk (Measurable.optionMap (by fun_prop) ?_) ((meas_stLb (by fun_prop) (by fun_prop)).prodMk (by fun_prop))
    have hl : Measurable fun q : (((((X × DiscBounds) × ℝ) × List (List ℝ)) × EaSkel × List ℝ) × Option ℝ) × ℝ => (q.1.1.2.2.length : ℝ) :=
      Measurable.discrete (f := fun q : (((((X × DiscBounds) × ℝ) × List (List ℝ)) × EaSkel × List ℝ) × Option ℝ) × ℝ => q.1.1.2.2.length) (by fun_prop) (fun n : ℕ => (n : ℝ))
    fun_prop

theorem mass_estPoissonCoin (n k : ℕ) (disc : ℝ → ℝ) (ebd : ℝ → ℝ → Res DiscBounds) (op : NormOp) (z : EaSkel) : Mass1 (estPoissonCoin n k disc ebd op z) := by
  rw [estPoissonCoin_one]
  refine Mass1.lift.bind fun b _ => ?_
  split
  · exact .ret _
  · exact (mass_samplePpp ..).bind fun _ _ => .ite (fun _ => .ret _) fun _ => (mass_interpolateSeed ..).bind fun _ _ => Mass1.lift.bind fun _ _ => .ret _

end

/-! ## Coins of the parameters -/

theorem itoFlipParam_one {p : ℕ} (guard : Bool) (n k : ℕ) (M : ItoFns p) (grad : (Fin p → ℝ) → (Fin p → ℝ) → ℝ → ℝ → ℝ → ℝ → ℝ → Fin p → ℝ)
    (nil prime : Fin p → ℝ) (T v0 v1 : ℝ) (upside : Bool) (size : ℤ) (z : EaSkel) : itoFlipParam guard n k M grad nil prime T v0 v1 upside size z =
      flipDualCoin guard n k (itoIntensity nil prime (grad nil prime T v0 v1 z.loose z.tight)) ⟨T - 0, √(T - 0), M.reduce nil v0, M.reduce nil v1⟩
        ⟨T - 0, √(T - 0), M.reduce prime v0, M.reduce prime v1⟩ (M.disc nil) (M.disc prime) upside size z := rfl

theorem swFlipParam_one {p : ℕ} (guard : Bool) (n k : ℕ) (M : RegimeFns p) (grad : (Fin p → ℝ) → (Fin p → ℝ) → ℝ → ℝ → ℝ → ℝ → ℝ → Fin p → ℝ)
    (nil prime : Thi p) (T : ℝ) (y : ℕ) (v0 v1 : ℝ) (upside : Bool) (size : ℤ) (z : EaSkel) : swFlipParam guard n k M grad nil prime T y v0 v1 upside size z =
      flipDualCoin guard n k (swIntensity (nil y) (prime y) (grad (nil y) (prime y) T v0 v1 z.loose z.tight)) ⟨T - 0, √(T - 0) * M.vol nil y, M.reduce v0, M.reduce v1⟩
        ⟨T - 0, √(T - 0) * M.vol prime y, M.reduce v0, M.reduce v1⟩ (M.disc nil y) (M.disc prime y) upside size z := rfl

theorem mass_flipDualCoin (guard : Bool) (n k : ℕ) (h : ℝ) (op0 op1 : NormOp) (disc0 disc1 : ℝ → ℝ) (upside : Bool) (size : ℤ) (z : EaSkel) :
    Mass1 (flipDualCoin guard n k h op0 op1 disc0 disc1 upside size z) := by
  refine mass_batchCoin (fun _ _ => (mass_interpolateSeed ..).bind fun _ _ => (mass_interpolateSeed ..).bind fun _ _ => .ite (fun _ => .err _) fun _ => Mass1.bind ?_ fun _ _ => .ret _) ..
  cases guard
  · exact .ret _
  · exact Mass1.assert

/-- Arguments of a gradient bound. -/
abbrev GradArg (p : ℕ) := (Fin p → ℝ) × (Fin p → ℝ) × ℝ × ℝ × ℝ × ℝ × ℝ

theorem meas_itoIntensity {p : ℕ} {nil prime g : X → Fin p → ℝ} (hn : Measurable nil) (hp : Measurable prime) (hg : Measurable g) : Measurable fun x => itoIntensity (nil x) (prime x) (g x) := by
  unfold itoIntensity
  refine Measurable.mul (Finset.measurable_sum _ fun i _ => Measurable.ite' ?_ ?_ measurable_const) (Finset.measurable_sum _ fun i _ => Measurable.ite' ?_ ?_ measurable_const)
  · exact Measurable.not (Measurable.eqReal (by fun_prop) (by fun_prop))
  · fun_prop
  · exact Measurable.not (Measurable.eqReal (by fun_prop) (by fun_prop))
  · fun_prop

theorem meas_swIntensity {p : ℕ} {nil prime g : X → Fin p → ℝ} (hn : Measurable nil) (hp : Measurable prime) (hg : Measurable g) : Measurable fun x => swIntensity (nil x) (prime x) (g x) := by
  unfold swIntensity
  refine Measurable.mul (Finset.measurable_sum _ fun i _ => Measurable.ite' ?_ ?_ measurable_const) (Finset.measurable_sum _ fun i _ => Measurable.ite' ?_ ?_ measurable_const)
  · exact Measurable.not (Measurable.eqReal (by fun_prop) (by fun_prop))
  · fun_prop
  · exact Measurable.not (Measurable.eqReal (by fun_prop) (by fun_prop))
  · fun_prop

theorem reg_itoFlipParam {p : ℕ} {M : ItoFns p} {ebd : (Fin p → ℝ) → ℝ → ℝ → Res DiscBounds} (hM : MeasModel M ebd) {grad : (Fin p → ℝ) → (Fin p → ℝ) → ℝ → ℝ → ℝ → ℝ → ℝ → Fin p → ℝ}
    (hg : Measurable fun q : GradArg p => grad q.1 q.2.1 q.2.2.1 q.2.2.2.1 q.2.2.2.2.1 q.2.2.2.2.2.1 q.2.2.2.2.2.2) (guard : Bool) (n k : ℕ) (upside : Bool) (size : ℤ) :
    Reg fun q : ((Fin p → ℝ) × (Fin p → ℝ)) × (ℝ × ℝ × ℝ) × EaSkel => itoFlipParam guard n k M grad q.1.1 q.1.2 q.2.1.1 q.2.1.2.1 q.2.1.2.2 upside size q.2.2 := by
  simp only [itoFlipParam_one]
  have hr : ∀ {W : Type} [MeasurableSpace W] {a : W → Fin p → ℝ} {v : W → ℝ}, Measurable a → Measurable v → Measurable fun w => M.reduce (a w) (v w) := fun ha hv => hM.reduce.comp (ha.prodMk hv)
  have hd : ∀ {W : Type} [MeasurableSpace W] {a : W → Fin p → ℝ} {v : W → ℝ}, Measurable a → Measurable v → Measurable fun w => M.disc (a w) (v w) := fun ha hv => hM.disc.comp (ha.prodMk hv)
  refine reg_flipDualCoin (X := ((Fin p → ℝ) × (Fin p → ℝ)) × (ℝ × ℝ × ℝ) × EaSkel) guard n k
    (h := fun q => itoIntensity q.1.1 q.1.2 (grad q.1.1 q.1.2 q.2.1.1 q.2.1.2.1 q.2.1.2.2 q.2.2.loose q.2.2.tight))
    (op0 := fun q => ⟨q.2.1.1 - 0, √(q.2.1.1 - 0), M.reduce q.1.1 q.2.1.2.1, M.reduce q.1.1 q.2.1.2.2⟩)
    (op1 := fun q => ⟨q.2.1.1 - 0, √(q.2.1.1 - 0), M.reduce q.1.2 q.2.1.2.1, M.reduce q.1.2 q.2.1.2.2⟩)
    (disc0 := fun q => M.disc q.1.1) (disc1 := fun q => M.disc q.1.2) (z := fun q => q.2.2)
    (meas_itoIntensity (by fun_prop) (by fun_prop) ?_) (Measurable.opMk (by fun_prop) (by fun_prop) (hr (by fun_prop) (by fun_prop)) (hr (by fun_prop) (by fun_prop)))
    (Measurable.opMk (by fun_prop) (by fun_prop) (hr (by fun_prop) (by fun_prop)) (hr (by fun_prop) (by fun_prop))) (hd (by fun_prop) (by fun_prop)) (hd (by fun_prop) (by fun_prop)) upside size (by fun_prop)
  exact hg.comp (by fun_prop : Measurable fun q : ((Fin p → ℝ) × (Fin p → ℝ)) × (ℝ × ℝ × ℝ) × EaSkel => (q.1.1, q.1.2, q.2.1.1, q.2.1.2.1, q.2.1.2.2, q.2.2.loose, q.2.2.tight))

/-- A switching model whose functions of one regime are measurable. -/
structure MeasRegime {p : ℕ} (M : RegimeFns p) : Prop where
  vol : ∀ y, Measurable fun thi : Thi p => M.vol thi y
  disc : ∀ y, Measurable fun q : Thi p × ℝ => M.disc q.1 y q.2
  reduce : Measurable M.reduce

theorem reg_swFlipParam {p : ℕ} {M : RegimeFns p} (hM : MeasRegime M) {grad : (Fin p → ℝ) → (Fin p → ℝ) → ℝ → ℝ → ℝ → ℝ → ℝ → Fin p → ℝ}
    (hg : Measurable fun q : GradArg p => grad q.1 q.2.1 q.2.2.1 q.2.2.2.1 q.2.2.2.2.1 q.2.2.2.2.2.1 q.2.2.2.2.2.2) (guard : Bool) (n k : ℕ) (upside : Bool) (size : ℤ) :
    Reg fun q : (Thi p × Thi p) × (ℝ × ℕ × ℝ × ℝ) × EaSkel => swFlipParam guard n k M grad q.1.1 q.1.2 q.2.1.1 q.2.1.2.1 q.2.1.2.2.1 q.2.1.2.2.2 upside size q.2.2 := by
  simp only [swFlipParam_one]
  refine Reg.natCases (p := fun (q : (Thi p × Thi p) × (ℝ × ℕ × ℝ × ℝ) × EaSkel) y => flipDualCoin guard n k (swIntensity (q.1.1 y) (q.1.2 y) (grad (q.1.1 y) (q.1.2 y) q.2.1.1 q.2.1.2.2.1 q.2.1.2.2.2 q.2.2.loose q.2.2.tight))
    ⟨q.2.1.1 - 0, √(q.2.1.1 - 0) * M.vol q.1.1 y, M.reduce q.2.1.2.2.1, M.reduce q.2.1.2.2.2⟩
    ⟨q.2.1.1 - 0, √(q.2.1.1 - 0) * M.vol q.1.2 y, M.reduce q.2.1.2.2.1, M.reduce q.2.1.2.2.2⟩ (M.disc q.1.1 y) (M.disc q.1.2 y) upside size q.2.2) (c := fun q => q.2.1.2.1) (by fun_prop) fun y => ?_
  have hr := hM.reduce
  have hv : ∀ {W : Type} [MeasurableSpace W] {a : W → Thi p}, Measurable a → Measurable fun w => M.vol (a w) y := fun ha => (hM.vol y).comp ha
  have hd : ∀ {W : Type} [MeasurableSpace W] {a : W → Thi p} {v : W → ℝ}, Measurable a → Measurable v → Measurable fun w => M.disc (a w) y (v w) := fun ha hv => (hM.disc y).comp (ha.prodMk hv)
  have h1 : Measurable fun q : (Thi p × Thi p) × (ℝ × ℕ × ℝ × ℝ) × EaSkel => q.1.1 y := (measurable_pi_apply y).comp measurable_fst.fst
  have h2 : Measurable fun q : (Thi p × Thi p) × (ℝ × ℕ × ℝ × ℝ) × EaSkel => q.1.2 y := (measurable_pi_apply y).comp measurable_fst.snd
  refine reg_flipDualCoin guard n k (meas_swIntensity h1 h2 ?_) (Measurable.opMk (by fun_prop) (Measurable.mul (by fun_prop) (hv (by fun_prop))) (by fun_prop) (by fun_prop))
    (Measurable.opMk (by fun_prop) (Measurable.mul (by fun_prop) (hv (by fun_prop))) (by fun_prop) (by fun_prop)) (hd (by fun_prop) (by fun_prop)) (hd (by fun_prop) (by fun_prop)) upside size (by fun_prop)
  exact hg.comp (by fun_prop : Measurable fun q : (Thi p × Thi p) × (ℝ × ℕ × ℝ × ℝ) × EaSkel => (q.1.1 y, q.1.2 y, q.2.1.1, q.2.1.2.2.1, q.2.1.2.2.2, q.2.2.loose, q.2.2.tight))

/-! ## Evaluation of skeletons -/

theorem reg_skelCall (n k : ℕ) : Reg fun q : EaSkel × List ℝ => skelCall n k q.1 q.2 := by
  unfold skelCall
  refine Reg.optionCases (X := EaSkel × List ℝ) (p := fun y o => match o with
    | none => .err .index
    | some f => if ∃ r ∈ y.2, f < r then .err .value else (interpolateSkel n k y.1 y.2).bind fun r => .ret r.2) (o := fun y => y.1.t.getLast?) (by fun_prop) (Reg.err _) ?_
  exact Reg.ite' (Measurable.memEx (P := fun (y : (EaSkel × List ℝ) × ℝ) r => y.2 < r) (by fun_prop) (by fun_prop)) (Reg.err _) (Reg.bind (reg_interpolateSkel n k (by fun_prop) (by fun_prop)) (Reg.ret (by fun_prop)))

theorem reg_seedCall (n k : ℕ) : Reg fun q : EaSkel × List ℝ × NormOp => seedCall n k q.1 q.2.1 q.2.2 := by
  unfold seedCall
  refine Reg.ite' (Measurable.memEx (P := fun (y : EaSkel × List ℝ × NormOp) r => (y.2.2.denorm 1 none).1 < r) (by fun_prop) ?_) (Reg.err _)
    (Reg.bind (reg_interpolateSeedOp n k (by fun_prop) (by fun_prop) (by fun_prop)) (Reg.ret (by fun_prop)))
  simp only [NormOp.denorm]
  fun_prop

theorem mass_skelCall (n k : ℕ) (s : EaSkel) (t : List ℝ) : Mass1 (skelCall n k s t) := by
  unfold skelCall
  split
  · exact .err _
  · exact .ite (fun _ => .err _) fun _ => (mass_interpolateSkel ..).bind fun _ _ => .ret _

theorem mass_seedCall (n k : ℕ) (s : EaSkel) (t : List ℝ) (op : NormOp) : Mass1 (seedCall n k s t op) :=
  .ite (fun _ => .err _) fun _ => (mass_interpolateSeed ..).bind fun _ _ => .ret _

end Ctb
