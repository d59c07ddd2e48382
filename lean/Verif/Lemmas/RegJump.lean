import Verif.Lemmas.RegUpdate
import Mathlib.MeasureTheory.Constructions.BorelSpace.ContinuousLinearMap
import Mathlib.Analysis.Normed.Algebra.MatrixExponential
import Mathlib.Topology.Instances.Matrix

/-!
# The samplers of jump processes have measurable laws
-/

set_option linter.unusedSectionVars false

namespace Ctb

open MeasureTheory ProbabilityTheory Set Classical
open scoped ENNReal

variable {X Y Z α β γ : Type} [MeasurableSpace X] [MeasurableSpace Y] [MeasurableSpace Z] [MeasurableSpace α] [MeasurableSpace β] [MeasurableSpace γ]

/-! ## Paths -/

/-- The fields of a path. -/
def Skel.tup (s : Skel ℝ) : List ℝ × List ℕ × ℝ := (s.t, s.xt, s.fin)

instance : MeasurableSpace (Skel ℝ) := MeasurableSpace.comap Skel.tup inferInstance

instance : Inhabited (Skel ℝ) := ⟨⟨[], [], 0⟩⟩

theorem measurable_jumpTup : Measurable Skel.tup := comap_measurable _

@[fun_prop] theorem Measurable.jumpT {s : X → Skel ℝ} (hs : Measurable s) : Measurable fun x => (s x).t := (measurable_jumpTup.comp hs).fst
@[fun_prop] theorem Measurable.jumpX {s : X → Skel ℝ} (hs : Measurable s) : Measurable fun x => (s x).xt := (measurable_jumpTup.comp hs).snd.fst
@[fun_prop] theorem Measurable.jumpFin {s : X → Skel ℝ} (hs : Measurable s) : Measurable fun x => (s x).fin := (measurable_jumpTup.comp hs).snd.snd

@[fun_prop] theorem Measurable.jumpMk {t : X → List ℝ} {xt : X → List ℕ} {f : X → ℝ} (ht : Measurable t) (hx : Measurable xt) (hf : Measurable f) :
    Measurable fun y => Skel.mk (t y) (xt y) (f y) := by
  refine measurable_comap_iff.2 ?_
  show Measurable fun y => (t y, xt y, f y)
  fun_prop

/-! ## Draws -/

theorem DMeas.exponential {f : X → ℝ} (hf : Measurable f) : DMeas fun x => .exponential (f x) := by
  intro W _ u F hu hF
  have hd : Measurable fun q : ℝ × ℝ => gammaPDF 1 (1 / q.1) q.2 := by
    unfold gammaPDF gammaPDFReal
    refine ENNReal.measurable_ofReal.comp (Measurable.ite (measurableSet_le measurable_const measurable_snd) ?_ measurable_const)
    fun_prop
  have e : ∀ w, ∫⁻ y, F w y ∂(RDist.exponential (f (u w))).law = ∫⁻ y, gammaPDF 1 (1 / f (u w)) y * F w y := by
    intro w
    have hw : Measurable (F w) := hF.comp (measurable_const.prodMk measurable_id)
    exact lintegral_withDensity_eq_lintegral_mul _ (hd.comp ((measurable_const (a := f (u w))).prodMk measurable_id)) hw
  simp only [e]
  refine Measurable.lintegral_prod_right' (f := fun q : W × ℝ => gammaPDF 1 (1 / f (u q.1)) q.2 * F q.1 q.2) ?_
  exact (hd.comp (((hf.comp hu).comp measurable_fst).prodMk measurable_snd)).mul hF

/-- A draw from finitely many values. -/
theorem Reg.choice {d : ℕ} {q : X → ℕ → ℝ} (hq : ∀ i, Measurable fun x => q x i) {k : X → ℕ → Prog α} (hk : ∀ n, Reg fun x => k x n) :
    Reg fun x => .nat (.choice d (q x)) (k x) where
  meas u F hu h1 h2 := by
    simp only [Prog.lexp_nat, NDist.law, lintegral_sum_measure, lintegral_smul_measure]
    refine Measurable.ennreal_tsum fun i => ?_
    simp only [lintegral_dirac' _ (measurable_of_countable _)]
    exact (((hq i).comp hu).ennreal_ofReal).mul ((hk i).meas u F hu h1 h2)
  add x F G hF := by
    simp only [Prog.lexp_nat]
    rw [← lintegral_add_left (measurable_of_countable _)]
    refine lintegral_congr fun n => (hk n).add x F G hF
  sup x F hF hm := by
    simp only [Prog.lexp_nat]
    rw [← lintegral_iSup (fun n => measurable_of_countable _)]
    · exact lintegral_congr fun n => (hk n).sup x F hF hm
    · intro a b hab n
      exact Prog.lexp_mono _ fun r => hm hab r

theorem measurable_ball_fin {d : ℕ} {P : X → Fin d → Prop} (hP : ∀ j, Measurable fun x => P x j) : Measurable fun x => ∀ j, P x j :=
  Measurable.forall hP

theorem reg_pyChoice {d : ℕ} {q : X → Fin d → ℝ} (hq : ∀ j, Measurable fun x => q x j) : Reg fun x => pyChoice (q x) := by
  unfold pyChoice
  have h1 : Measurable fun x => ∀ j, 0 ≤ q x j := measurable_ball_fin fun j => by have := hq j; fun_prop
  have h2 : Measurable fun x => ∑ j, q x j := Finset.measurable_sum _ fun j _ => hq j
  refine Reg.ite' (by fun_prop) (Reg.choice (fun i => ?_) fun n => ?_) (Reg.err _)
  · by_cases h : i < d
    · simpa [h] using hq ⟨i, h⟩
    · simp [h]
  · by_cases h : n < d
    · simp only [h, dite_true]; exact Reg.ret measurable_const
    · simp only [h, dite_false]; exact Reg.err _

theorem reg_asState (d : ℕ) {x : X → ℕ} (hx : Measurable x) : Reg fun y => asState d (x y) :=
  Reg.natCases hx (p := fun _ n => asState d n) fun n => by
    unfold asState
    by_cases h : n < d
    · simp only [h, dite_true]; exact Reg.ret measurable_const
    · simp only [h, dite_false]; exact Reg.err _

/-! ## Matrices -/

section Mats

variable {d : ℕ}

theorem measurable_det {A : X → Matrix (Fin d) (Fin d) ℝ} (hA : ∀ i j, Measurable fun x => A x i j) : Measurable fun x => (A x).det := by
  simp only [Matrix.det_apply]
  refine Finset.measurable_sum _ fun s _ => ?_
  have : Measurable fun x => ∏ i, A x (s i) i := Finset.measurable_prod _ fun i _ => hA _ _
  exact this.const_smul _

theorem measurable_matMul {A B : X → Matrix (Fin d) (Fin d) ℝ} (hA : ∀ i j, Measurable fun x => A x i j) (hB : ∀ i j, Measurable fun x => B x i j) (i j) :
    Measurable fun x => (A x * B x) i j := by
  simp only [Matrix.mul_apply]
  exact Finset.measurable_sum _ fun k _ => (hA i k).mul (hB k j)

theorem measurable_matPow {A : X → Matrix (Fin d) (Fin d) ℝ} (hA : ∀ i j, Measurable fun x => A x i j) (n : ℕ) (i j) :
    Measurable fun x => (A x ^ n) i j := by
  induction n generalizing i j with
  | zero => simp only [pow_zero]; exact measurable_const
  | succ n ih => simp only [pow_succ]; exact measurable_matMul ih hA i j

theorem measurable_matInv {A : X → Matrix (Fin d) (Fin d) ℝ} (hA : ∀ i j, Measurable fun x => A x i j) (i j) : Measurable fun x => (A x)⁻¹ i j := by
  simp only [Matrix.inv_def, Matrix.smul_apply, smul_eq_mul, Ring.inverse_eq_inv']
  refine (measurable_det hA).inv.mul ?_
  simp only [Matrix.adjugate_apply]
  refine measurable_det fun a b => ?_
  simp only [Matrix.updateRow_apply]
  split_ifs
  · exact measurable_const
  · exact hA _ _

theorem measurable_matExp {A : X → Matrix (Fin d) (Fin d) ℝ} (hA : ∀ i j, Measurable fun x => A x i j) (i j) :
    Measurable fun x => (NormedSpace.exp (A x)) i j := by
  have hc : Continuous fun B : Matrix (Fin d) (Fin d) ℝ => (NormedSpace.exp B) i j := by
    open scoped Matrix.Norms.Operator in
    have h : Continuous (NormedSpace.exp : Matrix (Fin d) (Fin d) ℝ → _) := NormedSpace.exp_continuous
    exact h.matrix_elem i j
  have hm : Measurable fun B : Fin d → Fin d → ℝ => (NormedSpace.exp (Matrix.of B)) i j := by
    have : Continuous fun B : Fin d → Fin d → ℝ => (NormedSpace.exp (Matrix.of B)) i j := hc.comp (continuous_id (X := Fin d → Fin d → ℝ))
    exact this.measurable
  exact hm.comp (f := fun x i j => A x i j) (measurable_pi_lambda _ fun i => measurable_pi_lambda _ fun j => hA i j)

variable [NeZero d]

theorem measurable_rateBound {A : X → Matrix (Fin d) (Fin d) ℝ} (hA : ∀ i j, Measurable fun x => A x i j) : Measurable fun x => rateBound (A x) := by
  unfold rateBound
  refine Measurable.neg (measurable_of_Ici fun c => ?_)
  have : (fun x => Finset.univ.inf' ⟨0, Finset.mem_univ _⟩ fun j => A x j j) ⁻¹' Ici c = ⋂ j, {x | c ≤ A x j j} := by
    ext x
    simp only [mem_preimage, mem_Ici, mem_iInter, mem_ofPred_eq]
    exact ⟨fun h i => h.trans (Finset.inf'_le _ (Finset.mem_univ i)), fun h => Finset.le_inf' _ _ fun i _ => h i⟩
  rw [this]
  exact MeasurableSet.iInter fun j => measurableSet_le measurable_const (hA j j)

theorem measurable_dtrans {A : X → Matrix (Fin d) (Fin d) ℝ} (hA : ∀ i j, Measurable fun x => A x i j) (i j) : Measurable fun x => dtrans (A x) i j := by
  simp only [dtrans, Matrix.add_apply, Matrix.smul_apply, smul_eq_mul]
  have := measurable_rateBound hA
  have := hA i j
  fun_prop

theorem measurable_getTrans {A : X → Matrix (Fin d) (Fin d) ℝ} {f : X → ℝ} (hA : ∀ i j, Measurable fun x => A x i j) (hf : Measurable f) (i j) :
    Measurable fun x => getTrans (f x) (A x) i j := by
  unfold getTrans
  refine measurable_matExp (A := fun x => f x • A x) (fun i j => ?_) i j
  simp only [Matrix.smul_apply, smul_eq_mul]
  exact hf.mul (hA i j)

theorem measurable_nTransTerm {A : X → Matrix (Fin d) (Fin d) ℝ} {f : X → ℝ} (hA : ∀ i j, Measurable fun x => A x i j) (hf : Measurable f) (i j : Fin d) (n : ℕ) :
    Measurable fun x => nTransTerm (A x) (f x) i j n := by
  unfold nTransTerm
  exact ((((measurable_rateBound hA).mul hf).pow_const n).div_const _).mul (measurable_matPow (measurable_dtrans hA) n i j)

end Mats

/-! ## Forward simulation -/

theorem reg_drawHold {r : X → ℝ} (hr : Measurable r) : Reg fun x => drawHold (r x) := by
  have h1 : Reg fun x => Prog.real (.exponential (1 / r x)) fun h => .ret (h : WithTop ℝ) :=
    Reg.real (DMeas.exponential (measurable_const.div hr)) (Reg.ret (Measurable.coeTop measurable_snd))
  have h2 : Reg fun x => if r x = 0 then Prog.ret (⊤ : WithTop ℝ) else .err .value :=
    Reg.ite' (Measurable.eqReal hr measurable_const) (Reg.ret measurable_const) (Reg.err _)
  exact Reg.ite' (Measurable.ltReal measurable_const hr) h1 h2

theorem Measurable.topCases {o : X → WithTop ℝ} (ho : Measurable o) {f : X → WithTop ℝ → Y} (h0 : Measurable fun x => f x ⊤)
    (h1 : Measurable fun q : X × ℝ => f q.1 (q.2 : WithTop ℝ)) : Measurable fun x => f x (o x) :=
  Measurable.optionCases (α := ℝ) (o := o) ho (f := f) h0 h1

theorem Reg.topCases {o : X → WithTop ℝ} (ho : Measurable o) {p : X → WithTop ℝ → Prog β} (h0 : Reg fun x => p x ⊤)
    (h1 : Reg fun q : X × ℝ => p q.1 (q.2 : WithTop ℝ)) : Reg fun x => p x (o x) :=
  Reg.optionCases (α := ℝ) (o := o) (p := p) ho h0 h1

theorem meas_leTop {a b : X → WithTop ℝ} (ha : Measurable a) (hb : Measurable b) : Measurable fun x => a x ≤ b x := by
  refine Measurable.topCases hb (f := fun x o => a x ≤ o) ?_ ?_
  · simp only [le_top]; exact measurable_const
  · refine Measurable.topCases (X := X × ℝ) (o := fun x => a x.1) (ha.comp measurable_fst) (f := fun x o => o ≤ (x.2 : WithTop ℝ)) ?_ ?_
    · simp only [top_le_iff, WithTop.coe_ne_top]; exact measurable_const
    · simp only [WithTop.coe_le_coe]; fun_prop

theorem meas_argmin {l : X → List (WithTop ℝ)} (hl : Measurable l) : Measurable fun x => argmin (l x) := by
  have h : Measurable fun q : Unit × List (WithTop ℝ) => argmin q.2 := by
    refine measurable_listRec (X := Unit) (f := fun _ l => argmin l) (h := fun p => p.1)
      (g := fun p : Unit × WithTop ℝ × List (WithTop ℝ) × Res (ℕ × WithTop ℝ) => if p.2.2.1 = [] then .ok (0, p.2.1) else
        p.2.2.2.bind fun q => if p.2.1 ≤ q.2 then .ok (0, p.2.1) else .ok (q.1 + 1, q.2)) ?_ (by fun_prop) measurable_const ?_
    · refine Measurable.ite' (by fun_prop) (by fun_prop) (Measurable.resBind (by fun_prop) (Measurable.ite' (meas_leTop (by fun_prop) (by fun_prop)) (by fun_prop) (by fun_prop)))
    · intro _ a l
      cases l with
      | nil => rfl
      | cons b l =>
        simp only [argmin, reduceCtorEq, if_false]
        cases argmin (b :: l) <;> rfl
  exact h.comp (f := fun x => ((), l x)) (measurable_const.prodMk hl)

theorem meas_exitRates (d : ℕ) {g : X → Mat} {x : X → ℕ} (hg : Measurable g) (hx : Measurable x) : Measurable fun y => exitRates d (g y) (x y) := by
  refine Measurable.natCases (f := fun y i => exitRates d (g y) i) hx fun i => ?_
  unfold exitRates
  refine Measurable.listMap measurable_const ?_
  refine Measurable.natCases (f := fun (q : X × ℕ) j => g q.1 i j) measurable_snd fun j => ?_
  exact (measurable_pi_apply j).comp ((measurable_pi_apply i).comp (hg.comp measurable_fst))

theorem reg_forwardsLoop (d : ℕ) {g : X → Mat} {f t : X → ℝ} {x : X → ℕ} (hg : Measurable g) (hf : Measurable f) (ht : Measurable t) (hx : Measurable x) (n : ℕ) :
    Reg fun y => forwardsLoop d (g y) (f y) n (t y) (x y) := by
  have h : Reg fun q : (Mat × ℝ) × ℝ × ℕ => forwardsLoop d q.1.1 q.1.2 n q.2.1 q.2.2 := by
    induction n with
    | zero => exact Reg.err _
    | succ n ih =>
      simp only [forwardsLoop]
      refine Reg.ite' (by fun_prop) (Reg.ite' (Measurable.discrete (f := fun q : (Mat × ℝ) × ℝ × ℕ => q.2.2) (by fun_prop) (· < d)) ?_ (Reg.err _)) (Reg.ret measurable_const)
      refine Reg.bind (Reg.mapM' (reg_drawHold measurable_snd) (meas_exitRates d (by fun_prop) (by fun_prop))) (Reg.bind (Reg.lift (meas_argmin measurable_snd)) ?_)
      refine Reg.topCases (p := fun (q : (((Mat × ℝ) × ℝ × ℕ) × List (WithTop ℝ)) × ℕ × WithTop ℝ) (o : WithTop ℝ) => match o with
        | ⊤ => Prog.ret [(q.1.1.2.1, q.1.1.2.2)]
        | (h : ℝ) => (forwardsLoop d q.1.1.1.1 q.1.1.1.2 n (q.1.1.2.1 + h) (if q.1.1.2.2 ≤ q.2.1 then q.2.1 + 1 else q.2.1)).bind fun rest =>
            .ret ((q.1.1.2.1, q.1.1.2.2) :: rest)) (o := fun q => q.2.2) (by fun_prop) (Reg.ret (by fun_prop)) ?_
      refine Reg.bind (ih.comp (f := fun q : ((((Mat × ℝ) × ℝ × ℕ) × List (WithTop ℝ)) × ℕ × WithTop ℝ) × ℝ => (q.1.1.1.1, (q.1.1.1.2.1 + q.2, if q.1.1.1.2.2 ≤ q.1.2.1 then q.1.2.1 + 1 else q.1.2.1))) ?_)
        (Reg.ret (by fun_prop))
      have : Measurable fun q : ((((Mat × ℝ) × ℝ × ℕ) × List (WithTop ℝ)) × ℕ × WithTop ℝ) × ℝ => if q.1.1.1.2.2 ≤ q.1.2.1 then q.1.2.1 + 1 else q.1.2.1 :=
        Measurable.discrete (f := fun q : ((((Mat × ℝ) × ℝ × ℕ) × List (WithTop ℝ)) × ℕ × WithTop ℝ) × ℝ => (q.1.1.1.2.2, q.1.2.1)) (by fun_prop) fun q => if q.1 ≤ q.2 then q.2 + 1 else q.2
      fun_prop
  exact h.comp (f := fun y => ((g y, f y), (t y, x y))) (by fun_prop)

theorem meas_toM (d : ℕ) {g : X → Mat} (hg : Measurable g) (i j : Fin d) : Measurable fun x => toM d (g x) i j :=
  (measurable_pi_apply (j : ℕ)).comp ((measurable_pi_apply (i : ℕ)).comp hg)

theorem meas_getStat (d : ℕ) {g : X → Mat} (hg : Measurable g) : Measurable fun x => getStat d (g x) := by
  have hA : ∀ i j, Measurable fun x => ((toM d (g x)).transpose - Matrix.of fun _ _ => (1 : ℝ) : Matrix (Fin d) (Fin d) ℝ) i j := fun i j => by
    simp only [Matrix.sub_apply, Matrix.transpose_apply, Matrix.of_apply]
    exact (meas_toM d hg j i).sub measurable_const
  unfold getStat
  refine Measurable.ite' ?_ (Measurable.resOk (measurable_pi_lambda _ fun i => ?_)) measurable_const
  · exact (Measurable.eqReal (measurable_det hA) measurable_const).not
  · simp only [Matrix.mulVec, dotProduct]
    exact Finset.measurable_sum _ fun j _ => (measurable_matInv hA i j).mul measurable_const

theorem reg_sampleForwards (fuel d : ℕ) {g : X → Mat} {f : X → ℝ} (hg : Measurable g) (hf : Measurable f) {o : X → Option ℕ} (ho : Measurable o) :
    Reg fun x => sampleForwards fuel d (g x) (f x) (o x) := by
  unfold sampleForwards
  refine Reg.bind ?_ (Reg.bind (reg_forwardsLoop d (by fun_prop) (by fun_prop) (by fun_prop) (by fun_prop) fuel) (Reg.ret ?_))
  · refine Reg.optionCases (p := fun x o => match o with
      | some x => Prog.ret x
      | none => (Prog.lift (getStat d (g x))).bind fun p => (pyChoice p).bind fun x => .ret x.val) ho ?_ (Reg.ret measurable_snd)
    exact Reg.bind (Reg.lift (meas_getStat d hg)) (Reg.bind (reg_pyChoice fun j => by fun_prop) (Reg.ret (Measurable.discrete measurable_snd Fin.val)))
  · exact Measurable.jumpMk (Measurable.listMap (by fun_prop) (by fun_prop)) (Measurable.listMap (by fun_prop) (by fun_prop)) (by fun_prop)

/-! ## Bridges -/

section Bridges

variable {d : ℕ} [NeZero d]

theorem meas_nTransLoop {term : X → ℕ → ℝ} (ht : ∀ n, Measurable fun x => term x n) {u p : X → ℝ} (hu : Measurable u) (hp : Measurable p) (k n : ℕ) :
    Measurable fun x => nTransLoop (term x) (u x) k n (p x) := by
  induction k generalizing n p with
  | zero => exact measurable_const
  | succ k ih =>
    simp only [nTransLoop]
    have := ht (n + 1)
    exact Measurable.ite' (by fun_prop) (ih (by fun_prop) (n + 1)) measurable_const

theorem meas_sampleNTrans (fuel : ℕ) {A : X → Matrix (Fin d) (Fin d) ℝ} {f U : X → ℝ} (hA : ∀ i j, Measurable fun x => A x i j) (hf : Measurable f) (hU : Measurable U)
    (i j : Fin d) : Measurable fun x => sampleNTrans fuel (A x) (f x) i j (U x) := by
  unfold sampleNTrans
  refine meas_nTransLoop (fun n => measurable_nTransTerm hA hf i j n) ?_ measurable_const _ _
  exact (hU.mul (measurable_getTrans hA hf i j)).mul ((measurable_rateBound hA).mul hf).exp

theorem reg_bridgeSteps {P : X → Matrix (Fin d) (Fin d) ℝ} (hP : ∀ i j, Measurable fun x => P x i j) (f : Fin d) (m : ℕ) {x : X → Fin d} (hx : Measurable x) :
    Reg fun y => bridgeSteps (P y) f m (x y) := by
  induction m generalizing X with
  | zero => exact Reg.ret measurable_const
  | succ m ih =>
    simp only [bridgeSteps]
    refine Reg.bind (reg_pyChoice fun j => ?_) (Reg.bind (ih (P := fun q : X × Fin d => P q.1) (fun i j => (hP i j).comp measurable_fst) measurable_snd) (Reg.ret (by fun_prop)))
    have h : ∀ i, Measurable fun y => P y i j * (P y ^ (m + 1)) j f / (P y ^ (m + 2)) i f := fun i =>
      ((hP i j).mul (measurable_matPow hP _ _ _)).div (measurable_matPow hP _ _ _)
    have h' : Measurable fun q : X × Fin d => P q.1 q.2 j * (P q.1 ^ (m + 1)) j f / (P q.1 ^ (m + 2)) q.2 f := measurable_from_prod_countable_left h
    exact h'.comp (measurable_id.prodMk hx)

theorem meas_npSort {l : X → List ℝ} (hl : Measurable l) {dec : ∀ a b : ℝ, Decidable (a ≤ b)} : Measurable fun x => @npSort ℝ _ dec (l x) := by
  unfold npSort
  exact Measurable.insertionSort (by fun_prop) hl

theorem meas_bridgeAssemble {f : X → ℝ} {x : X → List ℕ} {us : X → List ℝ} (hf : Measurable f) (hx : Measurable x) (hu : Measurable us) :
    Measurable fun y => bridgeAssemble (f y) (x y) (us y) := by
  unfold bridgeAssemble
  have hk : Measurable fun y => true :: List.zipWith (fun a b => decide (a ≠ b)) (x y).tail (x y).dropLast :=
    Measurable.discrete hx fun l => true :: List.zipWith (fun a b => decide (a ≠ b)) l.tail l.dropLast
  refine Measurable.jumpMk (Measurable.select (Measurable.cons measurable_const (meas_npSort hu)) ?_) (Measurable.select hx ?_) hf
  · exact hk
  · exact hk

theorem reg_bridgeFrom (fuel : ℕ) {A : X → Matrix (Fin d) (Fin d) ℝ} {f U : X → ℝ} (hA : ∀ i j, Measurable fun x => A x i j) (hf : Measurable f) (hU : Measurable U)
    (i j : Fin d) : Reg fun x => bridgeFrom fuel (A x) (f x) i j (U x) := by
  unfold bridgeFrom
  refine Reg.bind (Reg.lift (meas_sampleNTrans fuel hA hf hU i j)) ?_
  refine Reg.natCases (p := fun (q : X × ℕ) n => if n = 0 ∨ (n = 1 ∧ i = j) then Prog.ret (Skel.mk [0] [i.val] (f q.1))
    else (bridgeSteps (dtrans (A q.1)) j (n - 1) i).bind fun xs => (Prog.replicate n (.draw (.uniform 0 (f q.1)))).bind fun us =>
      .ret (bridgeAssemble (f q.1) (i.val :: xs.map Fin.val ++ [j.val]) us)) measurable_snd fun n => ?_
  refine Reg.ite' measurable_const (Reg.ret (by fun_prop)) ?_
  refine Reg.bind (reg_bridgeSteps (fun a b => (measurable_dtrans hA a b).comp measurable_fst) j _ measurable_const) (Reg.bind (Reg.replicate n (Reg.unif (by fun_prop) (by fun_prop))) (Reg.ret ?_))
  exact meas_bridgeAssemble (by fun_prop) (Measurable.discrete (f := fun q : ((X × ℕ) × List (Fin d)) × List ℝ => q.1.2) (by fun_prop) fun l => i.val :: l.map Fin.val ++ [j.val]) (by fun_prop)

theorem reg_sampleBridge (fuel : ℕ) {A : X → Matrix (Fin d) (Fin d) ℝ} {f : X → ℝ} (hA : ∀ i j, Measurable fun x => A x i j) (hf : Measurable f) {i j : X → Fin d}
    (hi : Measurable i) (hj : Measurable j) : Reg fun x => sampleBridge fuel (A x) (f x) (i x) (j x) := by
  refine Reg.countable (fun (c : Fin d × Fin d) x => sampleBridge fuel (A x) (f x) c.1 c.2) (c := fun x => (i x, j x)) (fun c => (hi.prodMk hj) (measurableSet_singleton c)) (fun c => ?_) fun _ => rfl
  unfold sampleBridge
  exact Reg.real (DMeas.const _) (reg_bridgeFrom fuel (fun a b => (hA a b).comp measurable_fst) (by fun_prop) measurable_snd _ _)

theorem reg_sampleBackwards (fuel : ℕ) {A : X → Matrix (Fin d) (Fin d) ℝ} {f : X → ℝ} (hA : ∀ i j, Measurable fun x => A x i j) (hf : Measurable f) {j : X → Fin d}
    (hj : Measurable j) : Reg fun x => sampleBackwards fuel (A x) (f x) (j x) := by
  refine Reg.countable (fun (c : Fin d) x => sampleBackwards fuel (A x) (f x) c) (c := j) (fun c => hj (measurableSet_singleton c)) (fun c => ?_) fun _ => rfl
  unfold sampleBackwards
  refine Reg.bind (reg_pyChoice fun i => ?_) (reg_sampleBridge fuel (fun a b => (hA a b).comp measurable_fst) (by fun_prop) measurable_snd measurable_const)
  exact (measurable_getTrans hA hf i c).div (Finset.measurable_sum _ fun k _ => measurable_getTrans hA hf k c)

theorem reg_firstState (d : ℕ) {s : X → Skel ℝ} (hs : Measurable s) : Reg fun x => firstState d (s x) := by
  unfold firstState
  exact Reg.optionCases (p := fun _ o => match o with | some x => asState d x | none => .err .index) (o := fun x => (s x).xt.head?) (by fun_prop) (Reg.err _) (reg_asState d measurable_snd)

theorem reg_lastState (d : ℕ) {s : X → Skel ℝ} (hs : Measurable s) : Reg fun x => lastState d (s x) := by
  unfold lastState
  exact Reg.optionCases (p := fun _ o => match o with | some x => asState d x | none => .err .index) (o := fun x => (s x).xt.getLast?) (by fun_prop) (Reg.err _) (reg_asState d measurable_snd)

theorem reg_mutatePartition (fuel : ℕ) {g : X → Mat} {ps : X → List (Skel ℝ)} (hg : Measurable g) (hp : Measurable ps) : Reg fun x => mutatePartition fuel d (g x) (ps x) := by
  refine Reg.listCases (p := fun x l => mutatePartition fuel d (g x) l) hp (Reg.err _) ?_
  refine Reg.listCases (X := X × Skel ℝ × List (Skel ℝ)) (p := fun x l => mutatePartition fuel d (g x.1) (x.2.1 :: l)) (l := fun x => x.2.2) (by fun_prop) ?_ ?_
  · exact Reg.bind (reg_sampleForwards fuel d (by fun_prop) (by fun_prop) measurable_const) (Reg.ret (by fun_prop))
  · have e : ∀ q : (X × Skel ℝ × List (Skel ℝ)) × Skel ℝ × List (Skel ℝ), mutatePartition fuel d (g q.1.1) (q.1.2.1 :: q.2.1 :: q.2.2) =
        (lastState d q.1.2.1).bind fun x =>
        (sampleBackwards fuel (toM d (g q.1.1)) q.1.2.1.fin x).bind fun initSkel =>
        (firstState d ((q.2.1 :: q.2.2).getLast?.getD default)).bind fun y =>
        (sampleForwards fuel d (g q.1.1) ((q.2.1 :: q.2.2).getLast?.getD default).fin (some y.val)).bind fun finSkel =>
        (Prog.mapM' (fun sk => (firstState d sk).bind fun a => (lastState d sk).bind fun b =>
          sampleBridge fuel (toM d (g q.1.1)) sk.fin a b) (q.2.1 :: q.2.2).dropLast).bind fun mids =>
        .ret (initSkel :: mids ++ [finSkel]) := by
      intro q
      rw [List.getLast?_eq_getLast_of_ne_nil (by simp)]
      rfl
    refine (congrArg Reg (funext e)).mpr ?_
    refine Reg.bind (reg_lastState d (by fun_prop)) (Reg.bind (reg_sampleBackwards fuel (fun i j => meas_toM d (by fun_prop) i j) (by fun_prop) measurable_snd)
      (Reg.bind (reg_firstState d (by fun_prop)) (Reg.bind (reg_sampleForwards fuel d (by fun_prop) (by fun_prop) ?_) (Reg.bind (Reg.mapM' ?_ (by fun_prop)) (Reg.ret (by fun_prop))))))
    · exact Measurable.discrete measurable_snd fun y : Fin d => some y.val
    · exact Reg.bind (reg_firstState d measurable_snd) (Reg.bind (reg_lastState d (by fun_prop)) (reg_sampleBridge fuel (fun i j => meas_toM d (by fun_prop) i j) (by fun_prop) (by fun_prop) (by fun_prop)))

end Bridges

/-! ## Cutting and pasting -/

theorem meas_searchRight {l : X → List ℝ} {v : X → ℝ} (hl : Measurable l) (hv : Measurable v) {dec : ∀ a b : ℝ, Decidable (a ≤ b)} :
    Measurable fun x => @Ctb.searchRight ℝ _ dec (l x) (v x) := by
  unfold Ctb.searchRight
  exact Measurable.length (Measurable.takeWhile (P := fun x a => @Decidable.decide (a ≤ v x) (dec _ _)) hl (Measurable.decide (by fun_prop)))

theorem meas_pySlice [Inhabited α] {l : X → List α} {i j : X → ℤ} (hl : Measurable l) (hi : Measurable i) (hj : Measurable j) : Measurable fun x => pySlice (l x) (i x) (j x) := by
  have h : ∀ c : ℤ × ℤ, Measurable fun x => pySlice (l x) c.1 c.2 := fun c => Measurable.pySlice' hl _ _
  have h' : Measurable fun q : X × ℤ × ℤ => pySlice (l q.1) q.2.1 q.2.2 := measurable_from_prod_countable_left h
  exact h'.comp (measurable_id.prodMk (hi.prodMk hj))

theorem meas_partitionSkeleton {s : X → Skel ℝ} {t : X → List ℝ} (hs : Measurable s) (ht : Measurable t) : Measurable fun x => partitionSkeleton (s x) (t x) := by
  unfold partitionSkeleton
  dsimp only
  have hn : Measurable fun x => 0 :: (t x ++ [(s x).fin]) := by fun_prop
  have hr : Measurable fun x => (0 :: (t x ++ [(s x).fin])).map (searchRight (s x).t) := Measurable.listMap hn (meas_searchRight (by fun_prop) (by fun_prop))
  have hl : Measurable fun x => (0 :: (t x ++ [(s x).fin])).map (searchLeft (s x).t) := Measurable.listMap hn (Measurable.searchLeft (by fun_prop) (by fun_prop))
  have h1 := Measurable.listMap (f := fun x (p : ℝ × ℕ × ℕ) => (0 : ℝ) :: (pySlice (s x).t (p.2.1 : ℤ) (p.2.2 : ℤ)).map (· - p.1)) (Measurable.zip hn (Measurable.zip hr (Measurable.tail hl))) (by
    refine Measurable.cons measurable_const (Measurable.listMap (meas_pySlice (by fun_prop) ?_ ?_) (by fun_prop))
    · exact Measurable.discrete (f := fun q : X × ℝ × ℕ × ℕ => q.2.2.1) (by fun_prop) fun n => (n : ℤ)
    · exact Measurable.discrete (f := fun q : X × ℝ × ℕ × ℕ => q.2.2.2) (by fun_prop) fun n => (n : ℤ))
  have h2 := Measurable.listMap (f := fun x (p : ℕ × List ℝ) => pySlice (s x).xt ((p.1 : ℤ) - 1) ((p.1 : ℤ) - 1 + p.2.length)) (Measurable.zip hr h1) (by
    refine meas_pySlice (by fun_prop) ?_ ?_
    · exact Measurable.discrete (f := fun q : X × ℕ × List ℝ => q.2.1) (by fun_prop) fun n => (n : ℤ) - 1
    · exact Measurable.discrete (f := fun q : X × ℕ × List ℝ => (q.2.1, q.2.2.length)) (by fun_prop) fun n => (n.1 : ℤ) - 1 + n.2)
  exact Measurable.listMap (Measurable.zip h1 (Measurable.zip h2 (Measurable.npDiff (Measurable.append hn (by fun_prop))))) (by fun_prop)

theorem meas_pastePartition {ps : X → List (Skel ℝ)} (hp : Measurable ps) : Measurable fun x => pastePartition (ps x) := by
  have hq : Measurable fun x => (ps x).filter fun sk => decide (sk.fin ≠ 0) := Measurable.filter hp (Measurable.decide (Measurable.eqReal (by fun_prop) measurable_const).not)
  have hb : Measurable fun x => (0 : ℝ) :: npCumsum (((ps x).filter fun sk => decide (sk.fin ≠ 0)).map Skel.fin) := Measurable.cons measurable_const (Measurable.npCumsum (Measurable.listMap hq (by fun_prop)))
  have hz := Measurable.zip (Measurable.dropLast hb) hq
  have ht := Measurable.flatten (Measurable.listMap (f := fun _ (p : ℝ × Skel ℝ) => p.2.t.map (p.1 + ·)) hz (Measurable.listMap (by fun_prop) (by fun_prop)))
  have hx := Measurable.flatten (Measurable.listMap (f := fun _ (p : ℝ × Skel ℝ) => p.2.xt) hz (by fun_prop))
  have hk := Measurable.discrete hx fun l => true :: List.zipWith (fun a b => decide (a ≠ b)) l.tail l.dropLast
  have hl : Measurable fun x => ((0 : ℝ) :: npCumsum (((ps x).filter fun sk => decide (sk.fin ≠ 0)).map Skel.fin)).getLast (by simp) := by
    refine (congrArg Measurable (funext fun x => ?_)).mpr (Measurable.optGetD (d := fun _ => (0 : ℝ)) (Measurable.getLast? hb) measurable_const)
    rw [List.getLast?_eq_getLast_of_ne_nil (by simp)]
    rfl
  unfold pastePartition
  dsimp only
  refine Measurable.ite' ?_ measurable_const (Measurable.ite' ?_ measurable_const (Measurable.resOk (Measurable.jumpMk (Measurable.select ht hk) (Measurable.select hx hk) hl)))
  · simp only [List.isEmpty_iff]
    exact Measurable.isNil hz
  · exact Measurable.discrete (f := fun x => (_, _, _)) ((Measurable.length ht).prodMk ((Measurable.length hx).prodMk (Measurable.length hk))) fun q : ℕ × ℕ × ℕ => q.1 ≠ q.2.2 ∨ q.2.1 ≠ q.2.2

/-! ## Regime proposals -/

theorem reg_condTimes {p : X → ℝ} {t : X → List ℝ} (hp : Measurable p) (ht : Measurable t) : Reg fun x => condTimes (p x) (t x) := by
  unfold condTimes
  refine Reg.ite' (Measurable.discrete (f := fun x => (t x).length) (by fun_prop) (· < 2)) (Reg.err _) (Reg.bind ?_ (Reg.ret ?_))
  · exact Reg.natCases (c := fun x => (t x).length - 2) (p := fun _ n => Prog.replicate n (.draw (.uniform 0 1))) (Measurable.discrete (f := fun x => (t x).length) (by fun_prop) (· - 2))
      fun n => Reg.replicate n (p := fun _ => .draw (.uniform 0 1)) (Reg.draw (DMeas.const _))
  · exact Measurable.select (Measurable.pySlice' (by fun_prop) _ _) (Measurable.listMap measurable_snd (Measurable.decide (by fun_prop)))

theorem reg_mjpPropose (fuel : ℕ) {d : ℕ} [NeZero d] {l : X → ℝ} {s : X → Skel ℝ} {g : X → Mat} {t : X → List ℝ} (hl : Measurable l) (hs : Measurable s) (hg : Measurable g) (ht : Measurable t) :
    Reg fun x => mjpPropose fuel d (l x) (s x) (g x) (t x) := by
  unfold mjpPropose
  refine Reg.bind (reg_condTimes (by fun_prop) ht) (Reg.bind (reg_mutatePartition fuel (by fun_prop) (meas_partitionSkeleton (by fun_prop) (by fun_prop)))
    (Reg.bind (Reg.lift (meas_pastePartition measurable_snd)) (Reg.ret (by fun_prop))))

end Ctb
