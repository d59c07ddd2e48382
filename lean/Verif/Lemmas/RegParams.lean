import Verif.Lemmas.RegSwitch
import Verif.Model.Sweep

/-!
# The updates of parameters have measurable laws
-/

set_option linter.unusedSectionVars false

namespace Ctb

open MeasureTheory ProbabilityTheory Set Classical
open scoped ENNReal

variable {X Y Z α β γ ζ σ τ : Type} [MeasurableSpace X] [MeasurableSpace Y] [MeasurableSpace Z] [MeasurableSpace α] [MeasurableSpace β] [MeasurableSpace γ] [MeasurableSpace ζ] [Inhabited ζ]
  [MeasurableSpace σ] [MeasurableSpace τ] [Inhabited τ] {n : ℕ}

/-! ## The random walk -/

/-- The entries of a matrix. -/
def matEnt (A : Matrix (Fin n) (Fin n) ℝ) : Fin n → Fin n → ℝ := A

/-- The fields of a random-walk sampler. -/
def MvRw.tup (s : MvRw n) : ((Fin n → ℝ) × (Fin n → Option ℝ) × (Fin n → Option ℝ)) × Schedule × (Fin n → ℝ) × (Fin n → Fin n → ℝ) × (Fin n → Fin n → ℝ) :=
  ((s.state, s.lb, s.ub), s.sched, s.mean, matEnt s.cov, matEnt s.propCov)

instance : MeasurableSpace (MvRw n) := MeasurableSpace.comap MvRw.tup inferInstance
instance : Inhabited (MvRw n) := ⟨⟨0, fun _ => none, fun _ => none, default, 0, 0, 0⟩⟩

theorem measurable_rwTup : Measurable (MvRw.tup (n := n)) := comap_measurable _

@[fun_prop] theorem Measurable.rwState {s : X → MvRw n} (hs : Measurable s) : Measurable fun x => (s x).state := (measurable_rwTup.comp hs).fst.fst
@[fun_prop] theorem Measurable.rwLb {s : X → MvRw n} (hs : Measurable s) : Measurable fun x => (s x).lb := (measurable_rwTup.comp hs).fst.snd.fst
@[fun_prop] theorem Measurable.rwUb {s : X → MvRw n} (hs : Measurable s) : Measurable fun x => (s x).ub := (measurable_rwTup.comp hs).fst.snd.snd
@[fun_prop] theorem Measurable.rwSched {s : X → MvRw n} (hs : Measurable s) : Measurable fun x => (s x).sched := (measurable_rwTup.comp hs).snd.fst
@[fun_prop] theorem Measurable.rwMean {s : X → MvRw n} (hs : Measurable s) : Measurable fun x => (s x).mean := (measurable_rwTup.comp hs).snd.snd.fst
@[fun_prop] theorem Measurable.rwCov {s : X → MvRw n} (hs : Measurable s) : Measurable fun x => matEnt (s x).cov := (measurable_rwTup.comp hs).snd.snd.snd.fst
@[fun_prop] theorem Measurable.rwProp {s : X → MvRw n} (hs : Measurable s) : Measurable fun x => matEnt (s x).propCov := (measurable_rwTup.comp hs).snd.snd.snd.snd

theorem Measurable.rwMk {a m : X → Fin n → ℝ} {l u : X → Fin n → Option ℝ} {c : X → Schedule} {A B : X → Matrix (Fin n) (Fin n) ℝ} (ha : Measurable a) (hl : Measurable l) (hu : Measurable u)
    (hc : Measurable c) (hm : Measurable m) (hA : Measurable fun x => matEnt (A x)) (hB : Measurable fun x => matEnt (B x)) : Measurable fun x => MvRw.mk (a x) (l x) (u x) (c x) (m x) (A x) (B x) := by
  refine measurable_comap_iff.2 ?_
  show Measurable fun x => ((a x, l x, u x), c x, m x, matEnt (A x), matEnt (B x))
  fun_prop

theorem meas_npLog {f : X → ℝ} (hf : Measurable f) : Measurable fun x => npLog (f x) := by
  unfold npLog
  exact Measurable.ite' (by fun_prop) (by fun_prop) measurable_const

theorem meas_toReals {f : X → ℝ} {l u : X → Option ℝ} (hf : Measurable f) (hl : Measurable l) (hu : Measurable u) : Measurable fun x => transformToReals (f x) (l x) (u x) := by
  refine Measurable.optionCases (o := l) hl (f := fun x o => transformToReals (f x) o (u x)) ?_ ?_
  · refine Measurable.optionCases (o := u) hu (f := fun x o => transformToReals (f x) none o) (by simp only [transformToReals]; fun_prop) ?_
    have e : ∀ q : X × ℝ, transformToReals (f q.1) none (some q.2) = (npLog (q.2 - f q.1)).bind fun v => .ok (v, -v) := fun q => rfl
    simp only [e]
    exact Measurable.resBind (meas_npLog (by fun_prop)) (by fun_prop)
  · refine Measurable.optionCases (o := fun q : X × ℝ => u q.1) (by fun_prop) (f := fun q o => transformToReals (f q.1) (some q.2) o) ?_ (by simp only [transformToReals]; fun_prop)
    have e : ∀ q : X × ℝ, transformToReals (f q.1) (some q.2) none = (npLog (f q.1 - q.2)).bind fun v => .ok (v, -v) := fun q => rfl
    simp only [e]
    exact Measurable.resBind (meas_npLog (by fun_prop)) (by fun_prop)

theorem meas_toConst {f : X → ℝ} {l u : X → Option ℝ} (hf : Measurable f) (hl : Measurable l) (hu : Measurable u) : Measurable fun x => transformToConst (f x) (l x) (u x) := by
  refine Measurable.optionCases (o := l) hl (f := fun x o => transformToConst (f x) o (u x)) ?_ ?_
  · refine Measurable.optionCases (o := u) hu (f := fun x o => transformToConst (f x) none o) (by simp only [transformToConst]; fun_prop) ?_
    simp only [transformToConst]
    fun_prop
  · refine Measurable.optionCases (o := fun q : X × ℝ => u q.1) (by fun_prop) (f := fun q o => transformToConst (f q.1) (some q.2) o) ?_ (by simp only [transformToConst]; fun_prop)
    simp only [transformToConst]
    fun_prop

theorem meas_allOk [Inhabited α] : ∀ {n : ℕ} {f : X → Fin n → Res α}, (∀ i, Measurable fun x => f x i) → Measurable fun x => allOk (f x)
  | 0, f, _ => by
    simp only [allOk]
    exact measurable_const
  | n + 1, f, h => by
    have e : ∀ x, allOk (f x) = (f x 0).bind fun a => (allOk fun i : Fin n => f x i.succ).bind fun l => .ok (Fin.cons a l : Fin (n + 1) → α) := fun x => rfl
    simp only [e]
    refine Measurable.resBind (h 0) (Measurable.resBind ((meas_allOk fun i => h i.succ).comp measurable_fst) (Measurable.resOk (measurable_pi_iff.2 fun i => ?_)))
    refine Fin.cases ?_ (fun i => ?_) i
    · simp only [Fin.cons_zero]
      fun_prop
    · simp only [Fin.cons_succ]
      fun_prop

theorem reg_drawNormals : ∀ n : ℕ, Reg fun _ : X => drawNormals n
  | 0 => Reg.ret measurable_const
  | n + 1 => by
    unfold drawNormals
    refine Reg.real (DMeas.const _) (Reg.bind ((reg_drawNormals n).comp measurable_fst) (Reg.ret (measurable_pi_iff.2 fun i => ?_)))
    refine Fin.cases ?_ (fun i => ?_) i
    · simp only [Fin.cons_zero]
      fun_prop
    · simp only [Fin.cons_succ]
      fun_prop

theorem mass_drawNormals : ∀ n : ℕ, Mass1 (drawNormals n)
  | 0 => .ret _
  | n + 1 => .real _ _ (mass_normal 0 1) fun _ _ => (mass_drawNormals n).bind fun _ _ => .ret _

/-- A factorisation of matrices whose entries are measurable in the entries. -/
def MeasRoot (root : Matrix (Fin n) (Fin n) ℝ → Matrix (Fin n) (Fin n) ℝ) : Prop := Measurable fun A : Fin n → Fin n → ℝ => matEnt (root (Matrix.of A))

theorem reg_rwPropose {root : Matrix (Fin n) (Fin n) ℝ → Matrix (Fin n) (Fin n) ℝ} (hr : MeasRoot root) {s : X → MvRw n} (hs : Measurable s) : Reg fun x => (s x).propose root := by
  unfold MvRw.propose
  refine Reg.bind (Reg.lift (meas_allOk fun i => meas_toReals (by fun_prop) (by fun_prop) (by fun_prop))) (Reg.bind (Reg.lift (meas_lastOf (by fun_prop))) (Reg.bind (reg_drawNormals n) (Reg.ret ?_)))
  have h1 : Measurable fun q : ((X × (Fin n → ℝ × ℝ)) × ℝ) × (Fin n → ℝ) => matEnt (root (Real.exp q.1.2 • (s q.1.1.1).propCov)) := by
    have h2 : Measurable fun q : ((X × (Fin n → ℝ × ℝ)) × ℝ) × (Fin n → ℝ) => fun i j => Real.exp q.1.2 * matEnt (s q.1.1.1).propCov i j := by fun_prop
    exact hr.comp h2
  have h3 : ∀ i, Measurable fun q : ((X × (Fin n → ℝ × ℝ)) × ℝ) × (Fin n → ℝ) => (q.1.1.2 i).1 + (root (Real.exp q.1.2 • (s q.1.1.1).propCov)).mulVec q.2 i := by
    intro i
    have h4 : Measurable fun q : ((X × (Fin n → ℝ × ℝ)) × ℝ) × (Fin n → ℝ) => ∑ j, matEnt (root (Real.exp q.1.2 • (s q.1.1.1).propCov)) i j * q.2 j := by
      refine Finset.measurable_sum _ fun j _ => ?_
      exact ((measurable_pi_apply j).comp ((measurable_pi_apply i).comp h1)).mul (by fun_prop)
    exact (by fun_prop : Measurable fun q : ((X × (Fin n → ℝ × ℝ)) × ℝ) × (Fin n → ℝ) => (q.1.1.2 i).1).add h4
  have h5 : ∀ i, Measurable fun q : ((X × (Fin n → ℝ × ℝ)) × ℝ) × (Fin n → ℝ) => transformToConst ((q.1.1.2 i).1 + (root (Real.exp q.1.2 • (s q.1.1.1).propCov)).mulVec q.2 i) ((s q.1.1.1).lb i) ((s q.1.1.1).ub i) :=
    fun i => meas_toConst (h3 i) (by fun_prop) (by fun_prop)
  exact Measurable.prodMk (measurable_pi_iff.2 fun i => (h5 i).fst) (Measurable.prodMk (Finset.measurable_sum _ fun i _ => (h5 i).snd) (Finset.measurable_sum _ fun i _ => by fun_prop))

theorem mass_rwPropose (root : Matrix (Fin n) (Fin n) ℝ → Matrix (Fin n) (Fin n) ℝ) (s : MvRw n) : Mass1 (s.propose root) :=
  Mass1.lift.bind fun _ _ => Mass1.lift.bind fun _ _ => (mass_drawNormals n).bind fun _ _ => .ret _

theorem meas_rwAdapt (P : AdaptPar) {s : X → MvRw n} {v : X → Fin n → ℝ} {w : X → ℝ} (hs : Measurable s) (hv : Measurable v) (hw : Measurable w) : Measurable fun x => (s x).adapt P (v x) (w x) := by
  have e : ∀ x, (s x).adapt P (v x) (w x) = (allOk fun i => transformToReals (v x i) ((s x).lb i) ((s x).ub i)).bind fun r => ((s x).sched.adapt true P (w x)).bind fun c =>
      .ok ⟨v x, (s x).lb, (s x).ub, c, (seqUpdateNormal (fun i => (r i).1) (1 + (s x).sched.empProb.length) (s x).mean (s x).cov).1, (seqUpdateNormal (fun i => (r i).1) (1 + (s x).sched.empProb.length) (s x).mean (s x).cov).2,
        if c.logScale.length ≠ (s x).sched.logScale.length then (seqUpdateNormal (fun i => (r i).1) (1 + (s x).sched.empProb.length) (s x).mean (s x).cov).2 else (s x).propCov⟩ := fun x => by
    unfold MvRw.adapt
    simp only [decide_eq_true_eq]
    rfl
  simp only [e]
  refine Measurable.resBind (meas_allOk fun i => meas_toReals (by fun_prop) (by fun_prop) (by fun_prop)) (Measurable.resBind (meas_schedAdapt true P (by fun_prop) (by fun_prop)) (Measurable.resOk ?_))
  have hl : Measurable fun q : (X × (Fin n → ℝ × ℝ)) × Schedule => (1 : ℝ) + (s q.1.1).sched.empProb.length := Measurable.discrete (f := fun q : (X × (Fin n → ℝ × ℝ)) × Schedule => (s q.1.1).sched.empProb.length) (by fun_prop) fun k : ℕ => (1 : ℝ) + k
  have hm : Measurable fun q : (X × (Fin n → ℝ × ℝ)) × Schedule => (seqUpdateNormal (fun i => (q.1.2 i).1) (1 + (s q.1.1).sched.empProb.length) (s q.1.1).mean (s q.1.1).cov).1 := by
    unfold seqUpdateNormal
    dsimp only
    refine measurable_pi_iff.2 fun i => ?_
    fun_prop
  have hc : Measurable fun q : (X × (Fin n → ℝ × ℝ)) × Schedule => matEnt (seqUpdateNormal (fun i => (q.1.2 i).1) (1 + (s q.1.1).sched.empProb.length) (s q.1.1).mean (s q.1.1).cov).2 := by
    have h1 : ∀ i j, Measurable fun q : (X × (Fin n → ℝ × ℝ)) × Schedule => matEnt (s q.1.1).cov i j +
        (((q.1.2 i).1 - (s q.1.1).mean i) * ((q.1.2 j).1 - (s q.1.1).mean j) - matEnt (s q.1.1).cov i j) / (1 + (s q.1.1).sched.empProb.length) := by
      intro i j
      fun_prop
    exact measurable_pi_iff.2 fun i => measurable_pi_iff.2 fun j => h1 i j
  refine Measurable.rwMk (by fun_prop) (by fun_prop) (by fun_prop) (by fun_prop) hm hc ?_
  have e2 : ∀ q : (X × (Fin n → ℝ × ℝ)) × Schedule, matEnt (if q.2.logScale.length ≠ (s q.1.1).sched.logScale.length then
      (seqUpdateNormal (fun i => (q.1.2 i).1) (1 + (s q.1.1).sched.empProb.length) (s q.1.1).mean (s q.1.1).cov).2 else (s q.1.1).propCov) = if q.2.logScale.length ≠ (s q.1.1).sched.logScale.length then
      matEnt (seqUpdateNormal (fun i => (q.1.2 i).1) (1 + (s q.1.1).sched.empProb.length) (s q.1.1).mean (s q.1.1).cov).2 else matEnt (s q.1.1).propCov := fun q => apply_ite matEnt _ _ _
  simp only [e2]
  refine Measurable.ite' ?_ hc (by fun_prop)
  exact Measurable.discrete (f := fun q : (X × (Fin n → ℝ × ℝ)) × Schedule => (q.2.logScale.length, (s q.1.1).sched.logScale.length)) (by fun_prop) fun q : ℕ × ℕ => q.1 ≠ q.2

/-! ## The decision between two parameters -/

theorem reg_twocoinJointLoop {v1 : X → ℝ} (hv : Measurable v1) {c : X → SideCoin σ τ} (h1 : ∀ b, Reg fun q : X × σ => c q.1 q.2 b) (pr : ℝ) :
    ∀ n, Reg fun q : X × σ => twocoinJointLoop (v1 q.1) (c q.1) pr n q.2
  | 0 => Reg.err _
  | n + 1 => by
    have ih := reg_twocoinJointLoop hv h1 pr n
    have hc : ∀ b : Bool, Reg fun q : (X × σ) × ℝ => (c q.1.1 q.1.2 b).bind fun r =>
        if r.1 then (.ret ((b, false, r.2.1), r.2.2) : Prog (Verdict σ τ))
        else .real (.uniform 0 1) fun u' =>
          if u' < pr then .ret ((false, true, r.2.1), r.2.2) else twocoinJointLoop (v1 q.1.1) (c q.1.1) pr n r.2.2 := by
      intro b
      refine Reg.bind ((h1 b).comp (f := fun q : (X × σ) × ℝ => q.1) (by fun_prop)) (Reg.ite' (by fun_prop) (Reg.ret (by fun_prop)) (Reg.real (DMeas.uniform measurable_const measurable_const)
        (Reg.ite' (by fun_prop) (Reg.ret (by fun_prop)) ?_)))
      exact ih.comp (f := fun q : (((X × σ) × ℝ) × Bool × τ × σ) × ℝ => (q.1.1.1.1, q.1.2.2.2)) (by fun_prop)
    unfold twocoinJointLoop
    exact Reg.real (DMeas.uniform measurable_const measurable_const) (Reg.ite' (by fun_prop) (hc true) (hc false))

theorem mass_twocoinJointLoop {σ τ : Type} (v1 : ℝ) {c : SideCoin σ τ} (h1 : ∀ s b, Mass1 (c s b)) (pr : ℝ) : ∀ n s, Mass1 (twocoinJointLoop v1 c pr n s)
  | 0, _ => .err _
  | n + 1, s => by
    refine .real _ _ (mass_uniform ..) fun _ _ => .ite (fun _ => (h1 s _).bind fun _ _ => .ite (fun _ => .ret _) fun _ => .real _ _ (mass_uniform ..) fun _ _ => .ite (fun _ => .ret _) fun _ => mass_twocoinJointLoop v1 h1 pr n _)
      fun _ => (h1 s _).bind fun _ _ => .ite (fun _ => .ret _) fun _ => .real _ _ (mass_uniform ..) fun _ _ => .ite (fun _ => .ret _) fun _ => mass_twocoinJointLoop v1 h1 pr n _

theorem reg_decideParam (C : McmcControls) {w1 w2 : X → ℝ × ℝ} (hw1 : Measurable w1) (hw2 : Measurable w2) {z : X → τ} (hz : Measurable z) {c : X → SideCoin τ τ}
    (hc : ∀ b, Reg fun q : X × τ => c q.1 q.2 b) : Reg fun x => decideParam C (w1 x) (w2 x) (z x) (c x) := by
  have h : ∀ {a b : X → ℝ}, Measurable a → Measurable b → Reg fun x => (sampleTwocoinJoint (a x) (b x) (.ret (z x)) (c x) C.prPortkey C.maxProps).bind fun v => Prog.ret (v.1.1, v.1.2.2) := by
    intro a b ha hb
    exact Reg.bind ((reg_twocoinJointLoop (v1 := fun x => a x - logaddexp (a x) (b x)) (by fun_prop) hc C.prPortkey C.maxProps).comp (f := fun x => (x, z x)) (by fun_prop)) (Reg.ret (by fun_prop))
  unfold decideParam
  split_ifs
  · refine Reg.bind (reg_flipPrecoin (by fun_prop) (by fun_prop)) (Reg.ite' ?_ ((h measurable_const measurable_const).comp measurable_fst) (Reg.ret (by fun_prop)))
    exact Measurable.discrete (f := fun q : X × Bool => q.2) (by fun_prop) fun b : Bool => b = true
  · exact h (by fun_prop) (by fun_prop)

theorem mass_decideParam {τ : Type} (C : McmcControls) (w1 w2 : ℝ × ℝ) (z : τ) {c : SideCoin τ τ} (hc : ∀ s b, Mass1 (c s b)) : Mass1 (decideParam C w1 w2 z c) := by
  have h : ∀ a b : ℝ, Mass1 ((sampleTwocoinJoint a b (.ret z) c C.prPortkey C.maxProps).bind fun v => Prog.ret (v.1.1, v.1.2.2)) := fun a b => (mass_twocoinJointLoop _ hc ..).bind fun _ _ => .ret _
  unfold decideParam
  split_ifs
  · exact (Mass1.real _ _ (mass_uniform ..) fun _ _ => .ret _).bind fun _ _ => .ite (fun _ => h _ _) fun _ => .ret _
  · exact h _ _

/-! ## The update of the parameters of all regimes -/

/-- Operations of the parameter update that depend measurably on other quantities. -/
structure MeasParamOps {p : ℕ} (O : X → ParamOps p ζ) : Prop where
  weight : ∀ i, Measurable fun q : X × Thi p => (O q.1).weight q.2 i
  flip : ∀ b, Reg fun q : X × (Thi p × Thi p) × (ℝ × ℕ × ℝ × ℝ) × ζ => (O q.1).flip q.2.1.1 q.2.1.2 q.2.2.1 q.2.2.2 b

/-- Operations whose coins have mass one. -/
structure MassParamOps {p : ℕ} {ζ : Type} (O : ParamOps p ζ) : Prop where
  flip : ∀ a b s z u, Mass1 (O.flip a b s z u)

theorem MeasParamOps.comp {p : ℕ} {O : X → ParamOps p ζ} (hO : MeasParamOps O) {f : Y → X} (hf : Measurable f) : MeasParamOps fun y => O (f y) where
  weight i := (hO.weight i).comp (by fun_prop : Measurable fun q : Y × Thi p => (f q.1, q.2))
  flip b := (hO.flip b).comp (f := fun q : Y × (Thi p × Thi p) × (ℝ × ℕ × ℝ × ℝ) × ζ => (f q.1, q.2)) (by fun_prop)

theorem reg_flipParamCoins {p : ℕ} {O : X → ParamOps p ζ} (hO : MeasParamOps O) {a b : X → Thi p} {h : X → Anchorage ℝ ℝ} {z : X → List ζ} (ha : Measurable a) (hb : Measurable b)
    (hh : Measurable h) (hz : Measurable z) (i : ℕ) (u : Bool) : Reg fun x => flipParamCoins (O x) (a x) (b x) (h x) i (z x) u := by
  have hl : Measurable fun x => ((npDiff (h x).t).zip ((h x).yt.zip ((h x).vt.zip (h x).vt.tail))).zip (z x) :=
    Measurable.zip (Measurable.zip (Measurable.npDiff (by fun_prop)) (Measurable.zip (by fun_prop) (Measurable.zip (by fun_prop) (Measurable.tail (by fun_prop))))) hz
  unfold flipParamCoins
  refine Reg.ite' ?_ (Reg.err _) (Reg.bind (Reg.mapM' (f := fun x (q : (ℝ × ℕ × ℝ × ℝ) × ζ) => if q.1.2.1 = i then (O x).flip (a x) (b x) q.1 q.2 u else .ret (true, q.2)) ?_ hl)
    (Reg.ret (Measurable.prodMk (Measurable.allFst measurable_snd) (Measurable.listMap (f := fun _ (r : Bool × ζ) => r.2) (by fun_prop) (by fun_prop)))))
  · simp only [List.isEmpty_iff]
    exact Measurable.isNil hl
  · refine Reg.ite' (Measurable.discrete (f := fun q : X × (ℝ × ℕ × ℝ × ℝ) × ζ => q.2.1.2.1) (by fun_prop) (· = i)) ?_ (Reg.ret (by fun_prop))
    exact (hO.flip u).comp (f := fun q : X × (ℝ × ℕ × ℝ × ℝ) × ζ => (q.1, (a q.1, b q.1), q.2)) (by fun_prop)

theorem mass_flipParamCoins {p : ℕ} {ζ : Type} {O : ParamOps p ζ} (hO : MassParamOps O) (a b : Thi p) (h : Anchorage ℝ ℝ) (i : ℕ) (z : List ζ) (u : Bool) : Mass1 (flipParamCoins O a b h i z u) :=
  .ite (fun _ => .err _) fun _ => (Mass1.mapM' fun _ _ => .ite (fun _ => hO.flip ..) fun _ => .ret _).bind fun _ _ => .ret _

theorem meas_updateRow {p : ℕ} {a : X → Thi p} {v : X → Fin p → ℝ} (ha : Measurable a) (hv : Measurable v) (i : ℕ) : Measurable fun x => Function.update (a x) i (v x) := by
  refine measurable_pi_iff.2 fun j => ?_
  by_cases h : j = i
  · subst h
    simp only [Function.update_self]
    exact hv
  · simp only [Function.update_of_ne h]
    exact (measurable_pi_apply j).comp ha

theorem reg_updateParamsSection {p : ℕ} (C : McmcControls) {O : X → ParamOps p ζ} (hO : MeasParamOps O) {a : X → Thi p} {z : X → List ζ} {h : X → Anchorage ℝ ℝ} (ha : Measurable a)
    (hz : Measurable z) (hh : Measurable h) {pr : X → Prog ((Fin p → ℝ) × ℝ × ℝ)} (hp : Reg pr) (i : ℕ) : Reg fun x => updateParamsSection C (O x) (a x) (z x) (h x) (pr x) i := by
  have hu : Measurable fun q : X × (Fin p → ℝ) × ℝ × ℝ => Function.update (a q.1) i q.2.1 := meas_updateRow (by fun_prop) (by fun_prop) i
  have w1 : Measurable fun q : X × (Fin p → ℝ) × ℝ × ℝ => (O q.1).weight (Function.update (a q.1) i q.2.1) i + q.2.2.2 :=
    ((hO.weight i).comp (measurable_fst.prodMk hu)).add (by fun_prop)
  have w2 : Measurable fun q : X × (Fin p → ℝ) × ℝ × ℝ => (O q.1).weight (a q.1) i + q.2.2.1 :=
    ((hO.weight i).comp (by fun_prop : Measurable fun q : X × (Fin p → ℝ) × ℝ × ℝ => (q.1, a q.1))).add (by fun_prop)
  unfold updateParamsSection
  refine Reg.bind hp (Reg.bind (reg_decideParam C (w1.prodMk w2) (w1.prodMk w2) (by fun_prop) fun b => ?_) (Reg.ret ?_))
  · exact Reg.bind (reg_flipParamCoins (X := (X × (Fin p → ℝ) × ℝ × ℝ) × List ζ) (hO.comp (f := fun q : (X × (Fin p → ℝ) × ℝ × ℝ) × List ζ => q.1.1) (by fun_prop)) (by fun_prop) (hu.comp measurable_fst) (by fun_prop) (by fun_prop) i b)
      (Reg.ret (by fun_prop))
  · refine Measurable.prodMk (by fun_prop) (Measurable.prodMk (Measurable.ite' ?_ (hu.comp measurable_fst) (by fun_prop)) (by fun_prop))
    exact Measurable.discrete (f := fun q : (X × (Fin p → ℝ) × ℝ × ℝ) × Bool × List ζ => q.2.1) (by fun_prop) fun b : Bool => b = true

theorem mass_updateParamsSection {p : ℕ} {ζ : Type} (C : McmcControls) {O : ParamOps p ζ} (hO : MassParamOps O) (a : Thi p) (z : List ζ) (h : Anchorage ℝ ℝ) {pr : Prog ((Fin p → ℝ) × ℝ × ℝ)}
    (hp : Mass1 pr) (i : ℕ) : Mass1 (updateParamsSection C O a z h pr i) :=
  hp.bind fun _ _ => (mass_decideParam C _ _ _ fun _ _ => (mass_flipParamCoins hO ..).bind fun _ _ => .ret _).bind fun _ _ => .ret _

theorem meas_getIdx [Inhabited α] {l : X → List α} (hl : Measurable l) (i : ℕ) : Measurable fun x => (l x)[i]? := by
  have e : ∀ x, (l x)[i]? = ((l x).drop i).head? := fun x => by rw [List.head?_drop]
  simp only [e]
  exact Measurable.listCases (f := fun _ (l : List α) => l.head?) (Measurable.drop hl measurable_const) measurable_const (Measurable.some (by fun_prop))

theorem meas_pickSeeds {zp : X → List (List ζ)} (hz : Measurable zp) (ys : List ℕ) : ∀ i : ℕ, Measurable fun x => pickSeeds (zp x) i ys := by
  induction ys with
  | nil => exact fun i => measurable_const
  | cons y ys ih =>
    intro i
    have e : ∀ x, pickSeeds (zp x) i (y :: ys) = (optRes .index (zp x)[y]?).bind fun zs => (optRes .index zs[i]?).bind fun v => (pickSeeds (zp x) (i + 1) ys).bind fun l => .ok (v :: l) := by
      intro x
      simp only [pickSeeds]
      cases (zp x)[y]? with
      | none => rfl
      | some zs =>
        show (match zs[i]? with
          | none => _
          | some v => _) = (optRes PyErr.index zs[i]?).bind _
        cases zs[i]? <;> rfl
    simp only [e]
    refine Measurable.resBind (Measurable.optRes (meas_getIdx hz y) _) (Measurable.resBind (Measurable.optRes (meas_getIdx measurable_snd i) _) (Measurable.resBind ((ih (i + 1)).comp (by fun_prop : Measurable fun q : (X × List ζ) × ζ => q.1.1)) ?_))
    fun_prop

theorem meas_pickSeeds' {zp : X → List (List ζ)} {ys : X → List ℕ} (hz : Measurable zp) (hy : Measurable ys) (i : ℕ) : Measurable fun x => pickSeeds (zp x) i (ys x) := by
  have h : Measurable fun q : X × List ℕ => pickSeeds (zp q.1) i q.2 := measurable_from_prod_countable_left fun ys => meas_pickSeeds hz ys i
  exact h.comp (by fun_prop : Measurable fun x => (x, ys x))

theorem meas_adaptAll {p : ℕ} (A : AdaptPar) {a : X → Thi p} (ha : Measurable a) (acc : List Bool) {s : X → List (MvRw p)} (hs : Measurable s) : Measurable fun x => adaptAll A (a x) acc 0 (s x) := by
  have key : ∀ (n i : ℕ), Measurable fun q : Thi p × List (MvRw p) => adaptAll A q.1 acc i (q.2.take n) := by
    intro n
    induction n with
    | zero =>
      intro i
      simp only [List.take_zero, adaptAll]
      exact measurable_const
    | succ n ih =>
      intro i
      refine Measurable.listCases (X := Thi p × List (MvRw p)) (f := fun q (l : List (MvRw p)) => adaptAll A q.1 acc i (l.take (n + 1))) measurable_snd ?_ ?_
      · simp only [List.take_nil, adaptAll]
        exact measurable_const
      · simp only [List.take_succ_cons, adaptAll]
        cases acc[i]? with
        | none => exact measurable_const
        | some b =>
          refine Measurable.resBind (meas_rwAdapt A (by fun_prop) ?_ measurable_const) (Measurable.resBind ((ih (i + 1)).comp (by fun_prop : Measurable fun q : ((Thi p × List (MvRw p)) × MvRw p × List (MvRw p)) × MvRw p => (q.1.1.1, q.1.2.2))) (by fun_prop))
          exact (measurable_pi_apply i).comp (by fun_prop : Measurable fun q : (Thi p × List (MvRw p)) × MvRw p × List (MvRw p) => q.1.1)
  have h2 : Measurable fun q : (Thi p × List (MvRw p)) × ℕ => adaptAll A q.1.1 acc 0 (q.1.2.take q.2) := measurable_from_prod_countable_left fun n => key n 0
  have e : ∀ x, adaptAll A (a x) acc 0 (s x) = adaptAll A (a x) acc 0 ((s x).take (s x).length) := fun x => by rw [List.take_length]
  simp only [e]
  exact h2.comp (by fun_prop : Measurable fun x => ((a x, s x), (s x).length))

theorem meas_adaptAll' {p : ℕ} (A : AdaptPar) {a : X → Thi p} {acc : X → List Bool} {s : X → List (MvRw p)} (ha : Measurable a) (hc : Measurable acc) (hs : Measurable s) :
    Measurable fun x => adaptAll A (a x) (acc x) 0 (s x) := by
  have h : Measurable fun q : X × List Bool => adaptAll A (a q.1) q.2 0 (s q.1) := measurable_from_prod_countable_left fun acc => meas_adaptAll A ha acc hs
  exact h.comp (by fun_prop : Measurable fun x => (x, acc x))

theorem meas_diagRows {p : ℕ} {a : X → Thi p} {l : X → List (Thi p)} (ha : Measurable a) (hl : Measurable l) : Measurable fun x => diagRows (a x) (l x) := by
  unfold diagRows
  refine measurable_pi_iff.2 fun i => ?_
  exact (measurable_pi_apply i).comp (Measurable.optGetD (meas_getIdx hl i) ha)

theorem meas_zipIdx [Inhabited α] {l : X → List α} (hl : Measurable l) : Measurable fun x => (l x).zipIdx := by
  have e : ∀ x, (l x).zipIdx = (l x).zip (List.range (l x).length) := fun x => by rw [List.zipIdx_eq_zip_range', ← List.range_eq_range']
  simp only [e]
  exact Measurable.zip hl (Measurable.discrete (f := fun x => (l x).length) (by fun_prop) List.range)

theorem reg_updateParams {p : ℕ} {root : Matrix (Fin p) (Fin p) ℝ → Matrix (Fin p) (Fin p) ℝ} (hr : MeasRoot root) (A : AdaptPar) (C : McmcControls) {O : X → ParamOps p ζ} (hO : MeasParamOps O)
    {h : X → Anchorage ℝ ℝ} {a : X → Thi p} {z : X → List ζ} {s : X → List (MvRw p)} (hh : Measurable h) (ha : Measurable a) (hz : Measurable z) (hs : Measurable s) :
    Reg fun x => updateParams root A C (O x) (h x) (a x) (z x) (s x) := by
  unfold updateParams
  have h1 : Reg fun q : X × MvRw p × ℕ => updateParamsSection C (O q.1) (a q.1) (z q.1) (h q.1) (q.2.1.propose root) q.2.2 := by
    refine Reg.natCases (p := fun (q : X × MvRw p × ℕ) i => updateParamsSection C (O q.1) (a q.1) (z q.1) (h q.1) (q.2.1.propose root) i) (c := fun q => q.2.2) (by fun_prop) fun i => ?_
    exact reg_updateParamsSection C (hO.comp (f := fun q : X × MvRw p × ℕ => q.1) (by fun_prop)) (by fun_prop) (by fun_prop) (by fun_prop) (reg_rwPropose hr (by fun_prop)) i
  have hthi : Measurable fun q : X × List (Bool × Thi p × List ζ) => diagRows (a q.1) (q.2.map fun a => a.2.1) :=
    meas_diagRows (by fun_prop) (Measurable.listMap (f := fun _ (a : Bool × Thi p × List ζ) => a.2.1) measurable_snd (by fun_prop))
  refine Reg.bind (Reg.mapM' (f := fun x (q : MvRw p × ℕ) => updateParamsSection C (O x) (a x) (z x) (h x) (q.1.propose root) q.2) h1 (meas_zipIdx hs)) (Reg.ite' ?_ (Reg.err _)
    (Reg.bind (Reg.lift (meas_pickSeeds' ?_ (Measurable.dropLast (by fun_prop)) 0)) (Reg.bind (Reg.lift (meas_adaptAll' A (hthi.comp measurable_fst) ?_ (by fun_prop))) (Reg.ret ?_))))
  · simp only [List.isEmpty_iff]
    exact Measurable.isNil measurable_snd
  · exact Measurable.listMap (f := fun _ (a : Bool × Thi p × List ζ) => a.2.2) measurable_snd (by fun_prop)
  · exact Measurable.listMap (f := fun _ (a : Bool × Thi p × List ζ) => a.1) (by fun_prop) (by fun_prop)
  · exact (hthi.comp (by fun_prop : Measurable fun q : ((X × List (Bool × Thi p × List ζ)) × List ζ) × List (MvRw p) => q.1.1)).prodMk (by fun_prop)

theorem mass_updateParams {p : ℕ} {ζ : Type} (root : Matrix (Fin p) (Fin p) ℝ → Matrix (Fin p) (Fin p) ℝ) (A : AdaptPar) (C : McmcControls) {O : ParamOps p ζ} (hO : MassParamOps O)
    (h : Anchorage ℝ ℝ) (a : Thi p) (z : List ζ) (s : List (MvRw p)) : Mass1 (updateParams root A C O h a z s) :=
  (Mass1.mapM' fun _ _ => mass_updateParamsSection C hO _ _ _ (mass_rwPropose ..) _).bind fun _ _ => .ite (fun _ => .err _) fun _ => Mass1.lift.bind fun _ _ => Mass1.lift.bind fun _ _ => .ret _

/-! ## The whole iteration -/

section sweep

variable {p : ℕ}

/-- The fields of the state of the chain. -/
def SweepState.tup (s : SweepState p ζ) : Thi p × Mat × HiddenState ζ × List (MvRw p) := (s.thi, s.lam, s.hid, s.samplers)

instance : MeasurableSpace (SweepState p ζ) := MeasurableSpace.comap SweepState.tup inferInstance
instance : Inhabited (SweepState p ζ) := ⟨⟨fun _ _ => 0, fun _ _ => 0, default, []⟩⟩

theorem measurable_sweepTup : Measurable (SweepState.tup (p := p) (ζ := ζ)) := comap_measurable _

@[fun_prop] theorem Measurable.swThi {s : X → SweepState p ζ} (hs : Measurable s) : Measurable fun x => (s x).thi := (measurable_sweepTup.comp hs).fst
@[fun_prop] theorem Measurable.swLam {s : X → SweepState p ζ} (hs : Measurable s) : Measurable fun x => (s x).lam := (measurable_sweepTup.comp hs).snd.fst
@[fun_prop] theorem Measurable.swHid {s : X → SweepState p ζ} (hs : Measurable s) : Measurable fun x => (s x).hid := (measurable_sweepTup.comp hs).snd.snd.fst
@[fun_prop] theorem Measurable.swSamplers {s : X → SweepState p ζ} (hs : Measurable s) : Measurable fun x => (s x).samplers := (measurable_sweepTup.comp hs).snd.snd.snd

@[fun_prop] theorem Measurable.sweepMk {a : X → Thi p} {g : X → Mat} {h : X → HiddenState ζ} {l : X → List (MvRw p)} (ha : Measurable a) (hg : Measurable g) (hh : Measurable h) (hl : Measurable l) :
    Measurable fun x => SweepState.mk (a x) (g x) (h x) (l x) := by
  refine measurable_comap_iff.2 ?_
  show Measurable fun x => (a x, g x, h x, l x)
  fun_prop

theorem meas_matOf (d : ℕ) {m : X → NMat} (hm : Measurable m) : Measurable fun x => matOf d (m x) := by
  unfold matOf
  refine Measurable.ite' ?_ measurable_const (Measurable.resOk (measurable_pi_iff.2 fun i => measurable_pi_iff.2 fun j => Measurable.optGetD (meas_entry hm i j) measurable_const))
  have e : ∀ x, (∃ i < d, ∃ j < d, m x i j = none) ↔ ∃ i ∈ Finset.range d, ∃ j ∈ Finset.range d, m x i j = none := fun x => by simp only [Finset.mem_range]
  simp only [e]
  have h0 : ∀ i j, MeasurableSet {x | m x i j = none} := fun i j => (Measurable.optionCases (o := fun x => m x i j) (meas_entry hm i j) (f := fun _ o => (decide (o = none) : Bool)) (by simp) (by simp)) |> fun h => by
    have := h (measurableSet_singleton true)
    simpa [Set.preimage] using this
  refine measurableSet_setOfPred.1 ?_
  have e2 : {x | ∃ i ∈ Finset.range d, ∃ j ∈ Finset.range d, m x i j = none} = ⋃ i ∈ Finset.range d, ⋃ j ∈ Finset.range d, {x | m x i j = none} := by
    ext x
    simp only [mem_ofPred_eq, mem_iUnion, exists_prop]
  rw [e2]
  exact Finset.measurableSet_biUnion _ fun i _ => Finset.measurableSet_biUnion _ fun j _ => h0 i j

theorem mass_gibbsGenerator (d : ℕ) (h : Anchorage ℝ ℝ) (a b : NMat) : Mass1 (gibbsGenerator d h a b) := Mass1.lift.bind fun _ _ => mass_sampleParam ..

variable {root : Matrix (Fin p) (Fin p) ℝ → Matrix (Fin p) (Fin p) ℝ} (fuel d : ℕ) [NeZero d] (A : AdaptPar) (C : McmcControls)

/-- One iteration, jointly in the data, the hyper-parameters and the state. -/
theorem reg_sweepJoint (hr : MeasRoot root) {PO : X → Anchorage ℝ ℝ → ParamOps p ζ} {HO : X → Thi p → HiddenOps ζ} (hP : MeasParamOps fun q : X × Anchorage ℝ ℝ => PO q.1 q.2) (hH : MeasOps fun q : X × Thi p => HO q.1 q.2)
    {t : X → List ℝ} {a b : X → NMat} {s : X → SweepState p ζ} (ht : Measurable t) (ha : Measurable a) (hb : Measurable b) (hs : Measurable s) :
    Reg fun x => sweepJoint root fuel d A C (PO x) (HO x) (t x) (a x) (b x) (s x) := by
  unfold sweepJoint
  refine Reg.bind (reg_gibbsGenerator d (by fun_prop) ha hb) (Reg.bind (Reg.lift (meas_matOf d measurable_snd)) (Reg.bind (reg_updateParams hr A C ?_ (by fun_prop) (by fun_prop) (by fun_prop) (by fun_prop))
    (Reg.bind (reg_updateHidden fuel d A C ?_ (by fun_prop) (by fun_prop) (by fun_prop)) (Reg.ret (by fun_prop)))))
  · exact hP.comp (f := fun q : (X × NMat) × Mat => (q.1.1, (s q.1.1).hid.h)) (by fun_prop)
  · exact hH.comp (f := fun q : ((X × NMat) × Mat) × Thi p × List ζ × List (MvRw p) => (q.1.1.1, q.2.1)) (by fun_prop)

theorem mass_sweepJoint {ζ : Type} (root : Matrix (Fin p) (Fin p) ℝ → Matrix (Fin p) (Fin p) ℝ) {PO : Anchorage ℝ ℝ → ParamOps p ζ} {HO : Thi p → HiddenOps ζ} (hP : ∀ h, MassParamOps (PO h)) (hH : ∀ a, MassOps (HO a)) (t : List ℝ) (a b : NMat)
    (s : SweepState p ζ) : Mass1 (sweepJoint root fuel d A C PO HO t a b s) :=
  (mass_gibbsGenerator ..).bind fun _ _ => Mass1.lift.bind fun _ _ => (mass_updateParams root A C (hP _) ..).bind fun _ _ => (mass_updateHidden fuel d A C (hH _) ..).bind fun _ _ => .ret _

theorem reg_sweepLoop {step : X → SweepState p ζ → Prog (SweepState p ζ)} (hs : Reg fun q : X × SweepState p ζ => step q.1 q.2) : ∀ n, Reg fun q : X × SweepState p ζ => sweepLoop (step q.1) n q.2
  | 0 => Reg.ret measurable_snd
  | n + 1 => by
    unfold sweepLoop
    exact Reg.bind hs ((reg_sweepLoop hs n).comp (f := fun q : (X × SweepState p ζ) × SweepState p ζ => (q.1.1, q.2)) (by fun_prop))

theorem mass_sweepLoop {ζ : Type} {step : SweepState p ζ → Prog (SweepState p ζ)} (hs : ∀ s, Mass1 (step s)) : ∀ n s, Mass1 (sweepLoop step n s)
  | 0, _ => .ret _
  | n + 1, s => (hs s).bind fun _ _ => mass_sweepLoop hs n _

theorem reg_sweepInit {HO : X → Thi p → HiddenOps ζ} (hH : MeasOps fun q : X × Thi p => HO q.1 q.2) {T : X → ℝ} {a b : X → NMat} {v : X → Fin p → ℝ} (lb ub : Fin p → Option ℝ) (hT : Measurable T)
    (ha : Measurable a) (hb : Measurable b) (hv : Measurable v) : Reg fun x => sweepInit fuel d A (HO x) (T x) (a x) (b x) (v x) lb ub := by
  have hev : Measurable fun x => getEv d (a x) (b x) := by
    unfold getEv
    exact meas_fillDiag d (measurable_pi_iff.2 fun i => measurable_pi_iff.2 fun j => meas_nan2 (by fun_prop) (meas_entry ha i j) (meas_entry hb i j))
  have hc : Measurable fun x => (fun _ => v x : Thi p) := measurable_pi_iff.2 fun _ => hv
  unfold sweepInit
  refine Reg.bind (Reg.lift (meas_matOf d hev)) (Reg.bind (reg_initHidden fuel d A (hH.comp (f := fun q : X × Mat => (q.1, fun _ => v q.1)) (measurable_fst.prodMk (hc.comp measurable_fst))) (by fun_prop) (by fun_prop)) (Reg.ret ?_))
  refine Measurable.sweepMk (hc.comp (by fun_prop : Measurable fun q : (X × Mat) × HiddenState ζ => q.1.1)) (by fun_prop) (by fun_prop) ?_
  have hi : Measurable fun q : (X × Mat) × HiddenState ζ => MvRw.init A (v q.1.1) lb ub := by
    unfold MvRw.init
    exact Measurable.rwMk (by fun_prop) (by fun_prop) (by fun_prop) (by fun_prop) (by fun_prop) (by fun_prop) (by fun_prop)
  have : ∀ n : ℕ, Measurable fun q : (X × Mat) × HiddenState ζ => List.replicate n (MvRw.init A (v q.1.1) lb ub) := by
    intro n
    induction n with
    | zero => exact measurable_const
    | succ n ih =>
      simp only [List.replicate_succ]
      fun_prop
  exact this d

theorem mass_sweepInit {ζ : Type} {HO : Thi p → HiddenOps ζ} (hH : ∀ a, MassOps (HO a)) (T : ℝ) (a b : NMat) (v : Fin p → ℝ) (lb ub : Fin p → Option ℝ) : Mass1 (sweepInit fuel d A HO T a b v lb ub) :=
  Mass1.lift.bind fun _ _ => (mass_initHidden fuel d A (hH _) ..).bind fun _ _ => .ret _

end sweep

end Ctb
