import Verif.Lemmas.RegJump
import Verif.Lemmas.MassJump
import Verif.Model.Bessel
import Verif.Model.FillVec
import Verif.Model.Pool
import Verif.Model.MjpFixtures
import Verif.Model.GenGibbs
import Mathlib.MeasureTheory.Function.Floor

/-!
# Wiener processes in several dimensions, Bessel processes, Euler schemes, generators and random-walk proposals have measurable laws
-/

set_option linter.unusedSectionVars false

namespace Ctb

open MeasureTheory ProbabilityTheory Set Classical
open scoped ENNReal

variable {X Y Z α β γ : Type} [MeasurableSpace X] [MeasurableSpace Y] [MeasurableSpace Z] [MeasurableSpace α] [MeasurableSpace β] [MeasurableSpace γ]

/-! ## Paths -/

theorem reg_normalRows {c k : X → ℕ} (hc : Measurable c) (hk : Measurable k) : Reg fun x => Prog.replicate (c x) (Prog.replicate (k x) (.draw (.normal 0 1))) :=
  Reg.natCases hc (p := fun x n => Prog.replicate n (Prog.replicate (k x) (.draw (.normal 0 1)))) fun n => Reg.replicate n (reg_normals hk)

theorem mass_normalRows (c k : ℕ) : Mass1 (Prog.replicate c (Prog.replicate k (.draw (.normal 0 1)))) := ((Mass1.draw (mass_normal 0 1)).replicate k).replicate c

theorem meas_addRows {l m : X → List ℝ} (hl : Measurable l) (hm : Measurable m) : Measurable fun x => List.zipWith (· + ·) (l x) (m x) :=
  Measurable.zipWith' hl hm (by fun_prop)

theorem meas_cumRows {acc : X → List ℝ} {rs : X → List (List ℝ)} (ha : Measurable acc) (hr : Measurable rs) : Measurable fun x => cumRows (acc x) (rs x) := by
  have h : Measurable fun q : List ℝ × List (List ℝ) => cumRows q.1 q.2 :=
    measurable_listRec (X := List ℝ) (f := fun a l => cumRows a l) (h := fun p => List.zipWith (· + ·) p.1 p.2.1)
      (g := fun p : List ℝ × List ℝ × List (List ℝ) × List (List ℝ) => List.zipWith (· + ·) p.1 p.2.1 :: p.2.2.2)
      (Measurable.cons (meas_addRows (by fun_prop) (by fun_prop)) (by fun_prop)) (meas_addRows (by fun_prop) (by fun_prop)) measurable_const fun _ _ _ => rfl
  exact h.comp (ha.prodMk hr)

theorem meas_rowInc {mu z : X → List ℝ} {dt : X → ℝ} (hm : Measurable mu) (hd : Measurable dt) (hz : Measurable z) : Measurable fun x => rowInc (mu x) (dt x) (z x) := by
  unfold rowInc
  exact Measurable.zipWith' hz hm (by fun_prop)

theorem reg_sampleWienerVec {t x0 mu : X → List ℝ} (ht : Measurable t) (h0 : Measurable x0) (hm : Measurable mu) : Reg fun x => sampleWienerVec (t x) (x0 x) (mu x) := by
  unfold sampleWienerVec
  refine Reg.ite' (Measurable.isNil ht) (Reg.err _) (Reg.bind (Reg.assert' (Measurable.memAll ht (by fun_prop))) (Reg.ite' ?_ (Reg.err _)
    (Reg.bind (reg_normalRows (by fun_prop) (by fun_prop)) (Reg.ret ?_))))
  · exact (Measurable.memAll (by fun_prop) (by fun_prop)).not
  · refine Measurable.listMap (meas_cumRows ?_ ?_) (meas_addRows (by fun_prop) (by fun_prop))
    · exact Measurable.discrete (f := fun q : (X × Unit) × List (List ℝ) => (x0 q.1.1).length) (by fun_prop) fun n => List.replicate n (0 : ℝ)
    · exact Measurable.zipWith' (by fun_prop) (by fun_prop) (meas_rowInc (by fun_prop) (by fun_prop) (by fun_prop))

theorem mass_sampleWienerVec (t x0 mu : List ℝ) : Mass1 (sampleWienerVec t x0 mu) :=
  .ite (fun _ => .err _) fun _ => Mass1.assert.bind fun _ _ => .ite (fun _ => .err _) fun _ => (mass_normalRows _ _).bind fun _ _ => .ret _

theorem reg_sampleBessel {t : X → List ℝ} {x0 : X → ℝ} {mu : X → Option ℝ} (ht : Measurable t) (h0 : Measurable x0) (hm : Measurable mu) (dim : ℕ) :
    Reg fun x => sampleBessel (t x) (x0 x) dim (mu x) := by
  unfold sampleBessel
  refine Reg.ite' (Measurable.isNil ht) (Reg.err _) (Reg.bind (Reg.assert' (Measurable.memAll ht (by fun_prop))) (Reg.bind (Reg.assert' (by fun_prop)) (Reg.bind (Reg.assert' measurable_const)
    (Reg.bind (reg_sampleWienerVec (by fun_prop) (by fun_prop) (by fun_prop)) (Reg.ret (Measurable.listMap measurable_snd ?_))))))
  unfold rowNorm
  have : Measurable fun q : (((((X × Unit) × Unit) × Unit) × List (List ℝ)) × List ℝ) => (q.2.map (· ^ 2)).sum := Measurable.listSum (Measurable.listMap (by fun_prop) (by fun_prop))
  fun_prop

theorem mass_sampleBessel (t : List ℝ) (x0 : ℝ) (dim : ℕ) (mu : Option ℝ) : Mass1 (sampleBessel t x0 dim mu) :=
  .ite (fun _ => .err _) fun _ => Mass1.assert.bind fun _ _ => Mass1.assert.bind fun _ _ => Mass1.assert.bind fun _ _ => (mass_sampleWienerVec ..).bind fun _ _ => .ret _

theorem meas_eulerCols {df vf : ℝ → ℝ} (hd : Measurable df) (hv : Measurable vf) {r : X → ℝ} {x : X → List ℝ} {es : X → List (List ℝ)} (hr : Measurable r) (hx : Measurable x)
    (he : Measurable es) : Measurable fun y => eulerCols df vf (r y) (x y) (es y) := by
  have h : Measurable fun q : (ℝ × List ℝ) × List (List ℝ) => eulerCols df vf q.1.1 q.1.2 q.2 := by
    refine measurable_listRec (X := ℝ × List ℝ) (f := fun a l => eulerCols df vf a.1 a.2 l) (h := fun p => (p.1.1, List.zipWith (fun a b => a + df a * p.1.1 + vf a * b) p.1.2 p.2.1))
      (g := fun p : (ℝ × List ℝ) × List ℝ × List (List ℝ) × List (List ℝ) => p.1.2 :: p.2.2.2) (by fun_prop) ?_ ?_ fun _ _ _ => rfl
    · exact Measurable.prodMk (by fun_prop) (Measurable.zipWith' (by fun_prop) (by fun_prop) (by fun_prop))
    · show Measurable fun x : ℝ × List ℝ => [x.2]
      fun_prop
  exact h.comp (f := fun y => ((r y, x y), es y)) (by fun_prop)

theorem meas_npArange {s r : X → ℝ} (hs : Measurable s) (hr : Measurable r) : Measurable fun x => npArange (s x) (r x) := by
  unfold npArange
  refine Measurable.listMap (Measurable.discrete (f := fun x => ⌈s x / r x⌉₊) (Nat.measurable_ceil.comp (hs.div hr)) List.range) ?_
  have : Measurable fun q : X × ℕ => (q.2 : ℝ) := Measurable.discrete (f := fun q : X × ℕ => q.2) measurable_snd fun n => (n : ℝ)
  fun_prop

theorem reg_eulerSimulate (n : ℕ) {df vf : ℝ → ℝ} (hd : Measurable df) (hv : Measurable vf) {f x r : X → ℝ} (hf : Measurable f) (hx : Measurable x) (hr : Measurable r) :
    Reg fun y => eulerSimulate n (f y) (x y) df vf (r y) := by
  unfold eulerSimulate
  refine Reg.bind (reg_normalRows (Nat.measurable_floor.comp (hf.div hr)) measurable_const) (Reg.ret (Measurable.prodMk (meas_npArange (by fun_prop) (by fun_prop))
    (meas_eulerCols hd hv (by fun_prop) ?_ ?_)))
  · induction n with
    | zero => exact measurable_const
    | succ n ih => simp only [List.replicate_succ]; fun_prop
  · exact Measurable.listMap measurable_snd (Measurable.listMap measurable_snd (by fun_prop))

theorem mass_eulerSimulate (n : ℕ) (f x : ℝ) (df vf : ℝ → ℝ) (r : ℝ) : Mass1 (eulerSimulate n f x df vf r) := (mass_normalRows _ _).bind fun _ _ => .ret _

/-! ## Vector paths -/

theorem reg_brownbrRows {s : X → List ℝ} {T : X → ℝ} {a b : X → List ℝ} (hs : Measurable s) (hT : Measurable T) (ha : Measurable a) (hb : Measurable b) :
    Reg fun x => brownbrRows (s x) (T x) (a x) (b x) := by
  have e : ∀ x, brownbrRows (s x) (T x) (a x) (b x) = if (a x).length = 1 ∧ (b x).length = 1 then sampleBrownbr (s x) (T x) ((a x).headD 0) ((b x).headD 0)
      else (sampleBrownbr (s x) (T x) 0 0).bind fun _ => .err .value := by
    intro x
    rcases a x with _ | ⟨a0, _ | ⟨a1, a2⟩⟩ <;> rcases b x with _ | ⟨b0, _ | ⟨b1, b2⟩⟩ <;> simp [brownbrRows]
  refine (congrArg Reg (funext e)).mpr (Reg.ite' ?_ (reg_sampleBrownbr (by fun_prop) (by fun_prop) (by fun_prop) (by fun_prop))
    (Reg.bind (reg_sampleBrownbr (by fun_prop) (by fun_prop) (by fun_prop) (by fun_prop)) (Reg.err _)))
  exact Measurable.discrete (f := fun x => ((a x).length, (b x).length)) (by fun_prop) fun q => q.1 = 1 ∧ q.2 = 1

theorem mass_brownbrRows (s : List ℝ) (T : ℝ) (a b : List ℝ) : Mass1 (brownbrRows s T a b) := by
  unfold brownbrRows
  split
  · exact mass_brownbr ..
  · exact (mass_brownbr ..).bind fun _ _ => .err _

theorem reg_fillVecSector {t : X → List ℝ} {x : X → List (List ℝ)} {nt : X → List ℝ} {i : X → ℕ} (ht : Measurable t) (hx : Measurable x) (hn : Measurable nt) (hi : Measurable i) :
    Reg fun y => fillVecSector (t y) (x y) (nt y) (i y) := by
  refine Reg.natCases (p := fun y i => fillVecSector (t y) (x y) (nt y) i) hi fun i => ?_
  have e : ∀ y, fillVecSector (t y) (x y) (nt y) i = (Prog.lift (optRes .index (pyGet (t y) ((i : ℤ) - 1)))).bind fun t0 => (Prog.lift (optRes .index (pyGet (t y) i))).bind fun t1 =>
      (Prog.lift (optRes .index (pyGet (x y) ((i : ℤ) - 1)))).bind fun x0 => (Prog.lift (optRes .index (pyGet (x y) i))).bind fun x1 =>
      brownbrRows (((nt y).filter fun r => decide (searchRight (t y) r = i)).map (· - t0)) (t1 - t0) x0 x1 := by
    intro y
    unfold fillVecSector
    cases pyGet (t y) ((i : ℤ) - 1) <;> cases pyGet (t y) i <;> cases pyGet (x y) ((i : ℤ) - 1) <;> cases pyGet (x y) i <;> rfl
  refine (congrArg Reg (funext e)).mpr ?_
  refine Reg.bind (Reg.lift (by fun_prop)) (Reg.bind (Reg.lift (by fun_prop)) (Reg.bind (Reg.lift (by fun_prop)) (Reg.bind (Reg.lift (by fun_prop)) (reg_brownbrRows (Measurable.listMap ?_ (by fun_prop)) (by fun_prop) (by fun_prop) (by fun_prop)))))
  refine Measurable.filter (by fun_prop) (Measurable.decide ?_)
  exact Measurable.discrete (f := fun q : ((((X × ℝ) × ℝ) × List ℝ) × List ℝ) × ℝ => searchRight (t q.1.1.1.1.1) q.2) (meas_searchRight (by fun_prop) (by fun_prop)) (· = i)

theorem mass_fillVecSector (t : List ℝ) (x : List (List ℝ)) (nt : List ℝ) (i : ℕ) : Mass1 (fillVecSector t x nt i) := by
  unfold fillVecSector
  split
  · exact mass_brownbrRows ..
  · exact .err _

theorem mass_fillVec (t : List ℝ) (x : List (List ℝ)) (nt : List ℝ) : Mass1 (fillVec t x nt) :=
  .ite (fun _ => .err _) fun _ => Mass1.assert.bind fun _ _ => .ite (fun _ => .err _) fun _ => Mass1.assert.bind fun _ _ => Mass1.assert.bind fun _ _ =>
    (Mass1.mapM' fun _ _ => mass_fillVecSector ..).bind fun _ _ => .ite (fun _ => .ret _) fun _ => .err _

/-! ## Generators and partitions -/

theorem reg_sampleTrialGenerator (d : ℕ) : Reg fun _ : X => sampleTrialGenerator d := by
  unfold sampleTrialGenerator
  refine Reg.bind (reg_normals measurable_const) (Reg.ret (measurable_pi_lambda _ fun i => measurable_pi_lambda _ fun j => ?_))
  have h : ∀ i j, Measurable fun q : X × List ℝ => (if i = j then 0 else Real.exp (q.2.getD (j + d * i) 0) : ℝ) := fun i j => by
    split_ifs <;> fun_prop
  dsimp only
  split_ifs with e
  · exact (Finset.measurable_sum _ fun k _ => h i k).neg
  · simpa [e] using h i j

theorem mass_sampleTrialGenerator (d : ℕ) : Mass1 (sampleTrialGenerator d) := ((Mass1.draw (mass_normal 0 1)).replicate _).bind fun _ _ => .ret _

theorem reg_samplePartition {s : X → Skel ℝ} {l : X → ℝ} (hs : Measurable s) (hl : Measurable l) : Reg fun x => samplePartition (s x) (l x) := by
  unfold samplePartition
  refine Reg.ite' (by fun_prop) (Reg.err _) (Reg.poisson (by fun_prop) fun n => Reg.ret ?_)
  have h : Measurable fun x => innerLinspace (s x).fin n := by
    unfold innerLinspace
    refine Measurable.listMap measurable_const ?_
    have : Measurable fun q : X × ℕ => (q.2 : ℝ) := Measurable.discrete (f := fun q : X × ℕ => q.2) measurable_snd fun n => (n : ℝ)
    fun_prop
  exact (meas_partitionSkeleton hs h).prodMk h

theorem mass_samplePartition (s : Skel ℝ) (l : ℝ) : Mass1 (samplePartition s l) := .ite (fun _ => .err _) fun _ => .nat _ _ (mass_poisson _) fun _ _ => .ret _

theorem reg_fillVec {t : X → List ℝ} {x : X → List (List ℝ)} {nt : X → List ℝ} (ht : Measurable t) (hx : Measurable x) (hn : Measurable nt) :
    Reg fun y => fillVec (t y) (x y) (nt y) := by
  have hi : Measurable fun y => (nt y).map (searchRight (t y)) := Measurable.listMap hn (meas_searchRight (by fun_prop) (by fun_prop))
  have h1 : Measurable fun y => (∃ s ∈ t y, ∀ r ∈ nt y, s < r) ∧ ∃ s ∈ t y, ∀ r ∈ nt y, r ≤ s :=
    (Measurable.memEx ht (Measurable.memAll (hn.comp measurable_fst) (by fun_prop))).and (Measurable.memEx ht (Measurable.memAll (hn.comp measurable_fst) (by fun_prop)))
  have h2 : Measurable fun y => (t y).length = (x y).length := Measurable.discrete (f := fun y => ((t y).length, (x y).length)) (by fun_prop) fun q => q.1 = q.2
  have h3 : Reg fun y => Prog.mapM' (fillVecSector (t y) (x y) (nt y)) (npUnique (t y).length ((nt y).map (searchRight (t y)))) :=
    Reg.mapM' (f := fun y => fillVecSector (t y) (x y) (nt y)) (reg_fillVecSector (ht.comp measurable_fst) (hx.comp measurable_fst) (hn.comp measurable_fst) measurable_snd) (Measurable.npUnique (by fun_prop) hi)
  have h4 : Reg fun q : X × List (List ℝ) => if q.2.all (fun r => decide (r.length = 1)) then
      Prog.ret (npInsert (t q.1) ((nt q.1).map (searchRight (t q.1))) (nt q.1), npInsert (x q.1) ((nt q.1).map (searchRight (t q.1))) q.2,
        List.zipWith (· + ·) ((nt q.1).map (searchRight (t q.1))) (List.range ((nt q.1).map (searchRight (t q.1))).length)) else .err .value := by
    refine Reg.ite' ?_ (Reg.ret ?_) (Reg.err _)
    · simp only [List.all_eq_true, decide_eq_true_eq]
      exact Measurable.memAll measurable_snd (Measurable.discrete (f := fun q : (X × List (List ℝ)) × List ℝ => q.2.length) (by fun_prop) (· = 1))
    · have hi' : Measurable fun q : X × List (List ℝ) => (nt q.1).map (searchRight (t q.1)) := hi.comp measurable_fst
      refine Measurable.prodMk (Measurable.npInsert (by fun_prop) hi' (by fun_prop)) (Measurable.prodMk (Measurable.npInsert (by fun_prop) hi' (by fun_prop)) ?_)
      exact Measurable.discrete hi' fun l => List.zipWith (· + ·) l (List.range l.length)
  unfold fillVec
  dsimp only
  refine Reg.ite' (Measurable.isNil ht) (Reg.err _) (Reg.bind (Reg.assert' (Measurable.memAll ht (by fun_prop))) (Reg.ite' (Measurable.isNil (by fun_prop)) (Reg.err _)
    (Reg.bind (Reg.assert' (h1.comp measurable_fst)) (Reg.bind (Reg.assert' (h2.comp (by fun_prop : Measurable fun q : (X × Unit) × Unit => q.1.1))) ?_))))
  exact (Reg.bind (q := fun y rows => if rows.all (fun r => decide (r.length = 1)) then
      Prog.ret (npInsert (t y) ((nt y).map (searchRight (t y))) (nt y), npInsert (x y) ((nt y).map (searchRight (t y))) rows,
        List.zipWith (· + ·) ((nt y).map (searchRight (t y))) (List.range ((nt y).map (searchRight (t y))).length)) else .err .value) h3 h4).comp (f := fun q : ((X × Unit) × Unit) × Unit => q.1.1.1) (by fun_prop)

/-! ## The gamma draws of a generator -/

theorem measurable_realGamma : Measurable Real.Gamma := by
  have hs : ({x : ℝ | ∀ m : ℕ, x ≠ -m}ᶜ).Countable := by
    refine (countable_range fun m : ℕ => -(m : ℝ)).mono fun x hx => ?_
    simp only [mem_compl_iff, mem_ofPred_eq, not_forall, not_not] at hx
    obtain ⟨m, rfl⟩ := hx
    exact ⟨m, rfl⟩
  have hm : MeasurableSet {x : ℝ | ∀ m : ℕ, x ≠ -m} := hs.measurableSet.of_compl
  refine measurable_of_restrict_of_restrict_compl hm ?_ ?_
  · refine Continuous.measurable (continuousOn_iff_continuous_restrict.1 fun x hx => (Real.differentiableAt_Gamma hx).continuousAt.continuousWithinAt)
  · have := hs.to_subtype
    exact measurable_of_countable _

theorem DMeas.gamma {a b : X → ℝ} (ha : Measurable a) (hb : Measurable b) : DMeas fun x => .gamma (a x) (b x) := by
  intro W _ u F hu hF
  have hd : Measurable fun q : (ℝ × ℝ) × ℝ => gammaPDF q.1.1 (1 / q.1.2) q.2 := by
    unfold gammaPDF gammaPDFReal
    have h2 : Measurable fun q : (ℝ × ℝ) × ℝ => Real.Gamma q.1.1 := measurable_realGamma.comp (by fun_prop : Measurable fun q : (ℝ × ℝ) × ℝ => q.1.1)
    refine ENNReal.measurable_ofReal.comp (Measurable.ite (measurableSet_le measurable_const measurable_snd) ?_ measurable_const)
    fun_prop
  have e : ∀ w, ∫⁻ y, F w y ∂(RDist.gamma (a (u w)) (b (u w))).law = ∫⁻ y, gammaPDF (a (u w)) (1 / b (u w)) y * F w y := by
    intro w
    have hw : Measurable (F w) := hF.comp (measurable_const.prodMk measurable_id)
    exact lintegral_withDensity_eq_lintegral_mul _ (hd.comp ((measurable_const (a := (a (u w), b (u w)))).prodMk measurable_id)) hw
  simp only [e]
  refine Measurable.lintegral_prod_right' (f := fun q : W × ℝ => gammaPDF (a (u q.1)) (1 / b (u q.1)) q.2 * F q.1 q.2) ?_
  exact (hd.comp ((((ha.comp hu).comp measurable_fst).prodMk ((hb.comp hu).comp measurable_fst)).prodMk measurable_snd)).mul hF

theorem meas_entry {a : X → NMat} (ha : Measurable a) (i j : ℕ) : Measurable fun x => a x i j := (measurable_pi_apply j).comp ((measurable_pi_apply i).comp ha)

theorem reg_drawGamma {a b : X → ℝ} (ha : Measurable a) (hb : Measurable b) : Reg fun x => drawGamma (a x) (b x) := by
  unfold drawGamma
  exact Reg.ite' (by fun_prop) (Reg.err _) (Reg.ite' (Measurable.eqReal hb measurable_const) (Reg.err _) (Reg.ite' (Measurable.eqReal ha measurable_const) (Reg.ret measurable_const)
    (Reg.real (DMeas.gamma (a := a) (b := fun x => 1 / b x) ha (by fun_prop)) (Reg.ret measurable_snd))))

theorem mass_drawGamma (a b : ℝ) : Mass1 (drawGamma a b) := by
  unfold drawGamma
  refine .ite (fun _ => .err _) fun h1 => .ite (fun _ => .err _) fun h2 => .ite (fun _ => .ret _) fun h3 => .real _ _ (mass_gamma ?_ ?_) fun _ _ => .ret _
  · exact lt_of_le_of_ne (not_lt.1 fun h => h1 (Or.inl h)) (Ne.symm h3)
  · exact lt_of_le_of_ne (not_lt.1 fun h => h1 (Or.inr h)) (Ne.symm h2)

theorem reg_drawGammas {a b : X → NMat} (ha : Measurable a) (hb : Measurable b) (l : List (ℕ × ℕ)) : Reg fun x => drawGammas (a x) (b x) l := by
  induction l with
  | nil => exact Reg.ret measurable_const
  | cons q l ih =>
    obtain ⟨i, j⟩ := q
    have h0 : Reg fun q : (X × ℝ) × ℝ => (drawGamma q.1.2 q.2).bind fun y => (drawGammas (a q.1.1) (b q.1.1) l).bind fun g => .ret fun i' j' => if i' = i ∧ j' = j then some y else g i' j' := by
      refine Reg.bind (reg_drawGamma (a := fun q : (X × ℝ) × ℝ => q.1.2) (b := fun q => q.2) (by fun_prop) (by fun_prop))
        (Reg.bind (p := fun q : ((X × ℝ) × ℝ) × ℝ => drawGammas (a q.1.1.1) (b q.1.1.1) l) (ih.comp (f := fun q : ((X × ℝ) × ℝ) × ℝ => q.1.1.1) (by fun_prop))
          (Reg.ret (measurable_pi_lambda _ fun i' => measurable_pi_lambda _ fun j' => ?_)))
      split_ifs
      · fun_prop
      · exact meas_entry measurable_snd i' j'
    have h1 := Reg.optionCases (X := X × ℝ) (p := fun x (o : Option ℝ) => match o with
      | some b' => (drawGamma x.2 b').bind fun y => (drawGammas (a x.1) (b x.1) l).bind fun g => .ret fun i' j' => if i' = i ∧ j' = j then some y else g i' j'
      | none => drawGammas (a x.1) (b x.1) l) (o := fun x => b x.1 i j) ((meas_entry hb i j).comp measurable_fst) (ih.comp measurable_fst) h0
    have h2 := Reg.optionCases (p := fun x (o : Option ℝ) => match o with
      | some a' => (match b x i j with
        | some b' => (drawGamma a' b').bind fun y => (drawGammas (a x) (b x) l).bind fun g => .ret fun i' j' => if i' = i ∧ j' = j then some y else g i' j'
        | none => drawGammas (a x) (b x) l)
      | none => drawGammas (a x) (b x) l) (o := fun x => a x i j) (meas_entry ha i j) ih h1
    refine (congrArg Reg (funext fun x => ?_)).mpr h2
    simp only [drawGammas]
    cases a x i j <;> cases b x i j <;> rfl

theorem meas_fillDiag (d : ℕ) {a : X → NMat} (ha : Measurable a) : Measurable fun x => fillDiag d (a x) := by
  unfold fillDiag nansum
  refine measurable_pi_lambda _ fun i => measurable_pi_lambda _ fun j => ?_
  split_ifs
  · exact Measurable.some (Finset.measurable_sum _ fun k _ => Measurable.optGetD (meas_entry ha i k) measurable_const).neg
  · exact meas_entry ha i j

theorem reg_sampleParam (d : ℕ) {a b : X → NMat} (ha : Measurable a) (hb : Measurable b) : Reg fun x => sampleParam d (a x) (b x) :=
  Reg.bind (reg_drawGammas ha hb _) (Reg.ret (meas_fillDiag d measurable_snd))

theorem mass_drawGammas (a b : NMat) (l : List (ℕ × ℕ)) : Mass1 (drawGammas a b l) := by
  induction l with
  | nil => exact .ret _
  | cons q l ih =>
    obtain ⟨i, j⟩ := q
    simp only [drawGammas]
    split
    · exact (mass_drawGamma _ _).bind fun _ _ => ih.bind fun _ _ => .ret _
    · exact ih

theorem mass_sampleParam (d : ℕ) (a b : NMat) : Mass1 (sampleParam d a b) := (mass_drawGammas a b _).bind fun _ _ => .ret _

end Ctb
