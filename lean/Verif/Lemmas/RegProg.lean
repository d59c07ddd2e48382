import Verif.Basic.Law
import Verif.Lemmas.MeasList
import Mathlib.MeasureTheory.Measure.WithDensityFinite

/-!
# Families of programs with measurable laws

`Reg p`: expectations over the result of `p x` are measurable in `x`, additive and continuous along increasing sequences.
-/

set_option linter.unusedSectionVars false

namespace Ctb

open MeasureTheory ProbabilityTheory Set
open scoped ENNReal

variable {X Y α β γ : Type} [MeasurableSpace X] [MeasurableSpace Y] [MeasurableSpace α] [MeasurableSpace β] [MeasurableSpace γ]

/-- A family of programs whose results have laws depending measurably on the parameter. -/
structure Reg (p : X → Prog α) : Prop where
  meas : ∀ {W : Type} [MeasurableSpace W] (u : W → X) (F : W → Res α → ℝ≥0∞), Measurable u → Measurable (fun q : W × α => F q.1 (.ok q.2)) →
    (∀ e, Measurable fun w => F w (.error e)) → Measurable fun w => (p (u w)).lexp (F w)
  add : ∀ x (F G : Res α → ℝ≥0∞), Measurable (fun a => F (.ok a)) → (p x).lexp (fun r => F r + G r) = (p x).lexp F + (p x).lexp G
  sup : ∀ x (F : ℕ → Res α → ℝ≥0∞), (∀ n, Measurable fun a => F n (.ok a)) → Monotone F → (p x).lexp (fun r => ⨆ n, F n r) = ⨆ n, (p x).lexp (F n)

theorem Reg.meas' {p : X → Prog α} (h : Reg p) {F : Res α → ℝ≥0∞} (hF : Measurable fun a => F (.ok a)) : Measurable fun x => (p x).lexp F :=
  h.meas id (fun _ => F) measurable_id (hF.comp measurable_snd) fun _ => measurable_const

theorem Reg.ret {f : X → α} (hf : Measurable f) : Reg fun x => .ret (f x) where
  meas u F hu h _ := h.comp (measurable_id.prodMk (hf.comp hu))
  add _ _ _ _ := rfl
  sup _ _ _ _ := rfl

theorem Reg.err (e : PyErr) : Reg fun _ : X => (.err e : Prog α) where
  meas u F _ _ h := h e
  add _ _ _ _ := rfl
  sup _ _ _ _ := rfl

theorem Reg.comp {p : Y → Prog α} (hp : Reg p) {f : X → Y} (hf : Measurable f) : Reg fun x => p (f x) where
  meas u F hu h1 h2 := hp.meas (fun w => f (u w)) F (hf.comp hu) h1 h2
  add x F G hF := hp.add (f x) F G hF
  sup x F hF hm := hp.sup (f x) F hF hm

theorem Reg.bind {p : X → Prog α} {q : X → α → Prog β} (hp : Reg p) (hq : Reg fun y : X × α => q y.1 y.2) : Reg fun x => (p x).bind (q x) where
  meas u F hu h1 h2 := by
    simp only [Prog.lexp_bind]
    refine hp.meas u (fun w => Prog.cont (q (u w)) (F w) Prog.lexp) hu ?_ h2
    refine hq.meas (W := _ × α) (fun y => (u y.1, y.2)) (fun y => F y.1) ((hu.comp measurable_fst).prodMk measurable_snd) ?_ fun e => (h2 e).comp measurable_fst
    exact h1.comp ((measurable_fst.comp measurable_fst).prodMk measurable_snd)
  add x F G hF := by
    simp only [Prog.lexp_bind]
    rw [← hp.add]
    · congr 1
      funext r
      cases r with
      | error e => rfl
      | ok a => exact hq.add (x, a) F G hF
    · exact hq.meas (fun a => (x, a)) (fun _ => F) (measurable_const.prodMk measurable_id) (hF.comp measurable_snd) fun _ => measurable_const
  sup x F hF hm := by
    simp only [Prog.lexp_bind]
    rw [← hp.sup]
    · congr 1
      funext r
      cases r with
      | error e => rfl
      | ok a => exact hq.sup (x, a) F hF hm
    · intro n
      exact hq.meas (fun a => (x, a)) (fun _ => F n) (measurable_const.prodMk measurable_id) ((hF n).comp measurable_snd) fun _ => measurable_const
    · intro m n hmn r
      cases r with
      | error e => exact hm hmn _
      | ok a => exact Prog.lexp_mono _ fun r => hm hmn r

theorem Reg.ite {P : X → Prop} [DecidablePred P] (hP : MeasurableSet {x | P x}) {p q : X → Prog α} (hp : Reg p) (hq : Reg q) :
    Reg fun x => if P x then p x else q x where
  meas u F hu h1 h2 := by
    have : (fun w => (if P (u w) then p (u w) else q (u w)).lexp (F w)) = fun w => if P (u w) then (p (u w)).lexp (F w) else (q (u w)).lexp (F w) := by
      funext w; split_ifs <;> rfl
    rw [this]
    exact Measurable.ite (hu hP) (hp.meas u F hu h1 h2) (hq.meas u F hu h1 h2)
  add x F G hF := by
    split_ifs
    · exact hp.add x F G hF
    · exact hq.add x F G hF
  sup x F hF hm := by
    split_ifs
    · exact hp.sup x F hF hm
    · exact hq.sup x F hF hm

theorem Reg.assert {P : X → Prop} [DecidablePred P] (hP : MeasurableSet {x | P x}) : Reg fun x => Prog.assert (P x) :=
  Reg.ite hP (Reg.ret measurable_const) (Reg.err _)

/-- Countably many measurable cases. -/
theorem Reg.countable {ι : Type} [Countable ι] {p : X → Prog α} (q : ι → X → Prog α) {c : X → ι} (hc : ∀ i, MeasurableSet {x | c x = i})
    (hq : ∀ i, Reg (q i)) (he : ∀ x, p x = q (c x) x) : Reg p where
  meas {W} _ u F hu h1 h2 := by
    intro S hS
    have e : (fun w => (p (u w)).lexp (F w)) ⁻¹' S = ⋃ i, (u ⁻¹' {x | c x = i} ∩ (fun w => (q i (u w)).lexp (F w)) ⁻¹' S) := by
      ext w
      simp only [mem_preimage, mem_iUnion, mem_inter_iff, mem_setOf_eq, he]
      exact ⟨fun h => ⟨_, rfl, h⟩, by rintro ⟨i, rfl, h⟩; exact h⟩
    rw [e]
    exact MeasurableSet.iUnion fun i => (hu (hc i)).inter ((hq i).meas u F hu h1 h2 hS)
  add x F G hF := by rw [he]; exact (hq _).add x F G hF
  sup x F hF hm := by rw [he]; exact (hq _).sup x F hF hm

/-- Cases by a natural number. -/
theorem Reg.natCases {p : X → ℕ → Prog α} {c : X → ℕ} (hc : Measurable c) (hq : ∀ i, Reg fun x => p x i) : Reg fun x => p x (c x) :=
  Reg.countable (fun i x => p x i) (fun i => hc (measurableSet_singleton i)) hq fun _ => rfl

/-- Cases by an optional value. -/
theorem Reg.optionCases [Inhabited α] {p : X → Option α → Prog β} {o : X → Option α} (ho : Measurable o) (h0 : Reg fun x => p x none)
    (h1 : Reg fun y : X × α => p y.1 (some y.2)) : Reg fun x => p x (o x) := by
  classical
  have e : (fun x => p x (o x)) = fun x => if o x = none then p x none else p x (some ((o x).getD default)) := by
    funext x
    cases h : o x <;> simp
  rw [e]
  exact Reg.ite (ho measurableSet_none) h0 (h1.comp (measurable_id.prodMk ((measurable_getD default).comp ho)))

/-- Cases by the length of a list. -/
theorem Reg.listLengths [Inhabited α] {p : X → List α → Prog β} (h : ∀ n, Reg fun y : X × (Fin n → α) => p y.1 (List.ofFn y.2)) :
    Reg fun y : X × List α => p y.1 y.2 := by
  refine Reg.countable (fun n y => p y.1 (List.ofFn fun i : Fin n => y.2.getD i default)) (c := fun y => y.2.length)
    (fun n => (measurable_length.comp measurable_snd) (measurableSet_singleton n)) (fun n => ?_) fun y => ?_
  · exact (h n).comp (measurable_fst.prodMk (measurable_pi_lambda _ fun i => (measurable_getD_list _ _).comp measurable_snd))
  · congr 1
    apply List.ext_getElem (by simp)
    intro i h1 h2
    simp [List.getD_eq_getElem?_getD]

/-- Recursion over a list: from the programs for lists of one length to those of the next. -/
theorem Reg.listRec [Inhabited α] {p : X → List α → Prog β} (h0 : Reg fun x => p x [])
    (h1 : ∀ n, (Reg fun y : X × (Fin n → α) => p y.1 (List.ofFn y.2)) → Reg fun y : X × α × (Fin n → α) => p y.1 (y.2.1 :: List.ofFn y.2.2)) :
    Reg fun y : X × List α => p y.1 y.2 := by
  refine Reg.listLengths fun n => ?_
  induction n with
  | zero => simpa using h0.comp (measurable_fst (α := X) (β := Fin 0 → α))
  | succ n ih =>
    have := (h1 n ih).comp (f := fun y : X × (Fin (n + 1) → α) => (y.1, y.2 0, fun i : Fin n => y.2 i.succ)) (by fun_prop)
    simpa [List.ofFn_succ] using this

theorem Reg.listCases [Inhabited α] {p : X → List α → Prog β} {l : X → List α} (hl : Measurable l) (h0 : Reg fun x => p x [])
    (h1 : Reg fun y : X × α × List α => p y.1 (y.2.1 :: y.2.2)) : Reg fun x => p x (l x) := by
  have := Reg.listRec (p := p) h0 fun n _ => h1.comp (f := fun y : X × α × (Fin n → α) => (y.1, y.2.1, List.ofFn y.2.2))
    (measurable_fst.prodMk ((measurable_fst.comp measurable_snd).prodMk ((measurable_ofFn n).comp (measurable_snd.comp measurable_snd))))
  exact this.comp (measurable_id.prodMk hl)

theorem Reg.mapM' [Inhabited α] [Inhabited β] {f : X → α → Prog β} (hf : Reg fun y : X × α => f y.1 y.2) {l : X → List α} (hl : Measurable l) :
    Reg fun x => Prog.mapM' (f x) (l x) := by
  have h : Reg fun y : X × List α => Prog.mapM' (f y.1) y.2 := by
    refine Reg.listRec (p := fun x l => Prog.mapM' (f x) l) (Reg.ret measurable_const) fun n ih => ?_
    simp only [Prog.mapM']
    refine Reg.bind (hf.comp (measurable_fst.prodMk (measurable_fst.comp measurable_snd))) ?_
    refine Reg.bind (ih.comp (f := fun y : (X × α × (Fin n → α)) × β => (y.1.1, y.1.2.2)) (by fun_prop)) ?_
    exact Reg.ret (Measurable.cons (by fun_prop) (by fun_prop))
  exact h.comp (measurable_id.prodMk hl)

theorem Reg.replicate [Inhabited α] (n : ℕ) {p : X → Prog α} (hp : Reg p) : Reg fun x => Prog.replicate n (p x) := by
  induction n with
  | zero => exact Reg.ret measurable_const
  | succ n ih =>
    refine Reg.bind hp ?_
    refine Reg.bind (ih.comp measurable_fst) ?_
    exact Reg.ret (Measurable.cons (by fun_prop) (by fun_prop))

theorem Reg.lift_ite {P : X → Prop} [DecidablePred P] (hP : MeasurableSet {x | P x}) {p q : X → Res α} (hp : Reg fun x => Prog.lift (p x))
    (hq : Reg fun x => Prog.lift (q x)) : Reg fun x => Prog.lift (if P x then p x else q x) := by
  have : (fun x => Prog.lift (if P x then p x else q x)) = fun x => if P x then Prog.lift (p x) else Prog.lift (q x) := by
    funext x; split_ifs <;> rfl
  rw [this]
  exact Reg.ite hP hp hq

/-! ## Draws -/

/-- Draws whose distribution depends measurably on the parameter. -/
def DMeas (d : X → RDist) : Prop := ∀ {W : Type} [MeasurableSpace W] (u : W → X) (F : W → ℝ → ℝ≥0∞), Measurable u → Measurable (fun q : W × ℝ => F q.1 q.2) →
  Measurable fun w => ∫⁻ y, F w y ∂(d (u w)).law

theorem Reg.real {d : X → RDist} (hd : DMeas d) {k : X → ℝ → Prog α} (hk : Reg fun y : X × ℝ => k y.1 y.2) : Reg fun x => .real (d x) (k x) := by
  have h : Reg fun x => Prog.draw (d x) := by
    refine ⟨fun u F hu h1 _ => hd u (fun w y => F w (.ok y)) hu h1, fun x F G hF => ?_, fun x F hF hm => ?_⟩
    · exact lintegral_add_left hF _
    · exact lintegral_iSup (fun n => hF n) fun m n hmn y => hm hmn _
  exact h.bind hk

theorem Reg.draw {d : X → RDist} (hd : DMeas d) : Reg fun x => Prog.draw (d x) := Reg.real hd (Reg.ret measurable_snd)

instance RDist.law_sfinite (d : RDist) : SFinite d.law := by
  cases d <;> simp only [RDist.law]
  · infer_instance
  · unfold betaMeasure; infer_instance
  · unfold expMeasure gammaMeasure; infer_instance
  · infer_instance
  · infer_instance
  · unfold gammaMeasure; infer_instance

theorem DMeas.const (d : RDist) : DMeas fun _ : X => d := by
  intro W _ u F _ hF
  exact Measurable.lintegral_prod_right' hF

theorem DMeas.uniform {f g : X → ℝ} (hf : Measurable f) (hg : Measurable g) : DMeas fun x => .uniform (f x) (g x) := by
  intro W _ u F hu hF
  have e : ∀ w, ∫⁻ y, F w y ∂(RDist.uniform (f (u w)) (g (u w))).law =
      ∫⁻ v in Ico (0 : ℝ) 1, F w (f (u w) + (g (u w) - f (u w)) * v) := by
    intro w
    have hw : Measurable (F w) := hF.comp (measurable_const.prodMk measurable_id)
    simp only [RDist.law]
    rw [lintegral_map hw (by fun_prop)]
  simp only [e]
  have hf' := hf.comp hu
  have hg' := hg.comp hu
  refine Measurable.lintegral_prod_right' (f := fun q : W × ℝ => F q.1 (f (u q.1) + (g (u q.1) - f (u q.1)) * q.2)) ?_
  refine hF.comp (measurable_fst.prodMk (g := fun q : W × ℝ => f (u q.1) + (g (u q.1) - f (u q.1)) * q.2) ?_)
  exact (hf'.comp measurable_fst).add (((hg'.comp measurable_fst).sub (hf'.comp measurable_fst)).mul measurable_snd)

theorem DMeas.wald {f g : X → ℝ} (hf : Measurable f) (hg : Measurable g) : DMeas fun x => .wald (f x) (g x) := by
  intro W _ u F hu hF
  have hd : Measurable fun q : (ℝ × ℝ) × ℝ => (if 0 < q.2 then ENNReal.ofReal (Real.sqrt (q.1.2 / (2 * Real.pi * q.2 ^ 3)) *
      Real.exp (-(q.1.2 * (q.2 - q.1.1) ^ 2) / (2 * q.1.1 ^ 2 * q.2))) else 0 : ℝ≥0∞) := by
    refine Measurable.ite (measurableSet_lt measurable_const measurable_snd) ?_ measurable_const
    fun_prop
  have e : ∀ w, ∫⁻ y, F w y ∂(RDist.wald (f (u w)) (g (u w))).law = ∫⁻ y, (if 0 < y then ENNReal.ofReal (Real.sqrt (g (u w) / (2 * Real.pi * y ^ 3)) *
      Real.exp (-(g (u w) * (y - f (u w)) ^ 2) / (2 * f (u w) ^ 2 * y))) else 0) * F w y := by
    intro w
    have hw : Measurable (F w) := hF.comp (measurable_const.prodMk measurable_id)
    exact lintegral_withDensity_eq_lintegral_mul _ (hd.comp ((measurable_const (a := (f (u w), g (u w)))).prodMk measurable_id)) hw
  simp only [e]
  refine Measurable.lintegral_prod_right' (f := fun q : W × ℝ => (if 0 < q.2 then ENNReal.ofReal (Real.sqrt (g (u q.1) / (2 * Real.pi * q.2 ^ 3)) *
      Real.exp (-(g (u q.1) * (q.2 - f (u q.1)) ^ 2) / (2 * f (u q.1) ^ 2 * q.2))) else 0) * F q.1 q.2) ?_
  refine Measurable.mul ?_ hF
  exact hd.comp ((((hf.comp hu).comp measurable_fst).prodMk ((hg.comp hu).comp measurable_fst)).prodMk measurable_snd)

/-- A Poisson number with measurable mean. -/
theorem Reg.poisson {f : X → ℝ} (hf : Measurable f) {k : X → ℕ → Prog α} (hk : ∀ n, Reg fun x => k x n) : Reg fun x => .nat (.poisson (f x)) (k x) where
  meas u F hu h1 h2 := by
    simp only [Prog.lexp_nat, NDist.law]
    simp only [lintegral_countable', poissonMeasure_singleton]
    refine Measurable.ennreal_tsum fun n => ?_
    refine ((hk n).meas u F hu h1 h2).mul ?_
    have := hf.comp hu
    fun_prop
  add x F G hF := by
    simp only [Prog.lexp_nat]
    rw [← lintegral_add_left (measurable_of_countable _)]
    refine lintegral_congr fun n => (hk n).add x F G hF
  sup x F hF hm := by
    simp only [Prog.lexp_nat]
    rw [← lintegral_iSup (fun n => measurable_of_countable _)]
    · exact lintegral_congr fun n => (hk n).sup x F hF hm
    · intro a b hab n
      exact Prog.lexp_mono _ fun r => hm hab r

end Ctb
