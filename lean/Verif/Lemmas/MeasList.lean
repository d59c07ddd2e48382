import Verif.Basic.Numpy
import Mathlib.MeasureTheory.MeasurableSpace.Constructions
import Mathlib.MeasureTheory.Constructions.BorelSpace.Real

/-!
# Lists and optional values as measurable spaces

A set of lists is measurable if its part of every length is; a set of optional values if its part of proper values is.
-/

set_option linter.unusedSectionVars false

namespace Ctb

open MeasureTheory Set

variable {X Y Z α β γ : Type} [MeasurableSpace X] [MeasurableSpace Y] [MeasurableSpace Z] [MeasurableSpace α] [MeasurableSpace β] [MeasurableSpace γ]

instance instMeasOption : MeasurableSpace (Option α) := MeasurableSpace.map some ‹_›

instance instMeasList : MeasurableSpace (List α) := ⨅ n : ℕ, MeasurableSpace.map (fun v : Fin n → α => List.ofFn v) inferInstance

/-! ## Optional values -/

theorem measurable_some : Measurable (some : α → Option α) := fun _ h => h

theorem measurableSet_option {S : Set (Option α)} : MeasurableSet S ↔ MeasurableSet (some ⁻¹' S) := Iff.rfl

theorem measurableSet_none : MeasurableSet ({none} : Set (Option α)) := by
  rw [measurableSet_option]
  have : (some ⁻¹' ({none} : Set (Option α)) : Set α) = ∅ := by ext; simp
  rw [this]; exact MeasurableSet.empty

theorem measurable_getD (d : α) : Measurable fun o : Option α => o.getD d := by
  intro S hS
  rw [measurableSet_option]
  exact hS

/-- A function on `X × Option α` is measurable if its two parts are. -/
theorem measurable_option_uncurry [Inhabited α] {f : X × Option α → Y} (h0 : Measurable fun x => f (x, none)) (h1 : Measurable fun p : X × α => f (p.1, some p.2)) :
    Measurable f := by
  have e : f = fun p => open Classical in if p.2 = none then f (p.1, none) else f (p.1, some (p.2.getD default)) := by
    funext ⟨x, o⟩
    cases o <;> simp
  rw [e]
  classical
  refine Measurable.ite (measurable_snd measurableSet_none) (h0.comp measurable_fst) ?_
  exact h1.comp (measurable_fst.prodMk ((measurable_getD default).comp measurable_snd))

theorem Measurable.optionCases [Inhabited α] {o : X → Option α} (ho : Measurable o) {f : X → Option α → Y} (h0 : Measurable fun x => f x none)
    (h1 : Measurable fun p : X × α => f p.1 (some p.2)) : Measurable fun x => f x (o x) := by
  have := measurable_option_uncurry (f := fun p : X × Option α => f p.1 p.2) h0 h1
  exact this.comp (measurable_id.prodMk ho)

theorem Measurable.optionMap [Inhabited α] {o : X → Option α} (ho : Measurable o) {f : X → α → β} (hf : Measurable fun p : X × α => f p.1 p.2) :
    Measurable fun x => (o x).map (f x) :=
  Measurable.optionCases ho (f := fun x o => o.map (f x)) measurable_const (measurable_some.comp hf)

/-! ## Lists -/

theorem measurableSet_list {S : Set (List α)} : MeasurableSet S ↔ ∀ n, MeasurableSet {v : Fin n → α | List.ofFn v ∈ S} := by
  rw [instMeasList, MeasurableSpace.measurableSet_iInf]
  rfl

theorem measurable_ofFn (n : ℕ) : Measurable fun v : Fin n → α => List.ofFn v := fun _ hS => measurableSet_list.1 hS n

theorem measurable_length : Measurable (List.length : List α → ℕ) := by
  intro S _
  rw [measurableSet_list]
  intro n
  have : {v : Fin n → α | List.ofFn v ∈ List.length ⁻¹' S} = {_v | n ∈ S} := by ext v; simp
  rw [this]
  exact MeasurableSet.const _

theorem measurable_getD_list (i : ℕ) (d : α) : Measurable fun l : List α => l.getD i d := by
  intro S hS
  rw [measurableSet_list]
  intro n
  by_cases h : i < n
  · have : {v : Fin n → α | List.ofFn v ∈ (fun l : List α => l.getD i d) ⁻¹' S} = (fun v : Fin n → α => v ⟨i, h⟩) ⁻¹' S := by
      ext v; simp [List.getD_eq_getElem?_getD, h]
    rw [this]
    exact measurable_pi_apply _ hS
  · have : {v : Fin n → α | List.ofFn v ∈ (fun l : List α => l.getD i d) ⁻¹' S} = {_v | d ∈ S} := by
      ext v; simp [List.getD_eq_getElem?_getD, h]
    rw [this]
    exact MeasurableSet.const _

/-- A function of a point and a list is measurable if it is for every length. -/
theorem measurable_list_uncurry [Inhabited α] {f : X × List α → Y} (h : ∀ n, Measurable fun p : X × (Fin n → α) => f (p.1, List.ofFn p.2)) : Measurable f := by
  intro S hS
  have e : f ⁻¹' S = ⋃ n : ℕ, ({p | p.2.length = n} ∩ (fun p : X × List α => (p.1, fun i : Fin n => p.2.getD i default)) ⁻¹' {p | f (p.1, List.ofFn p.2) ∈ S}) := by
    ext ⟨x, l⟩
    simp only [mem_preimage, mem_iUnion, mem_inter_iff, mem_setOf_eq]
    have hl : List.ofFn (fun i : Fin l.length => l.getD i default) = l := by
      apply List.ext_getElem (by simp)
      intro i h1 h2
      simp [List.getD_eq_getElem?_getD]
    constructor
    · intro hx
      exact ⟨_, rfl, by rw [hl]; exact hx⟩
    · rintro ⟨n, rfl, hx⟩
      rwa [hl] at hx
  rw [e]
  refine MeasurableSet.iUnion fun n => ((measurable_length.comp measurable_snd) (measurableSet_singleton n)).inter ?_
  refine Measurable.prodMk measurable_fst (measurable_pi_lambda _ fun i => (measurable_getD_list _ _).comp measurable_snd) ?_
  exact h n hS

theorem measurable_cons [Inhabited α] : Measurable fun p : α × List α => p.1 :: p.2 := by
  refine measurable_list_uncurry (f := fun p : α × List α => p.1 :: p.2) fun n => ?_
  have : (fun p : α × (Fin n → α) => p.1 :: List.ofFn p.2) = fun p => List.ofFn (Fin.cons p.1 p.2 : Fin (n + 1) → α) := by
    funext p
    rw [List.ofFn_succ]
    simp
  rw [this]
  refine (measurable_ofFn (n + 1)).comp (measurable_pi_lambda _ fun i => ?_)
  refine Fin.cases ?_ (fun i => ?_) i
  · simpa using measurable_fst
  · have : Measurable fun p : α × (Fin n → α) => p.2 i := (measurable_pi_apply i).comp measurable_snd
    simpa using this

theorem Measurable.cons [Inhabited α] {f : X → α} {l : X → List α} (hf : Measurable f) (hl : Measurable l) : Measurable fun x => f x :: l x :=
  measurable_cons.comp (hf.prodMk hl)

/-- Recursion over a list, with a parameter that changes on the way. -/
theorem measurable_listRec [Inhabited α] {f : X → List α → Y} {g : X × α × List α × Y → Y} {h : X × α × List α → X} (hg : Measurable g) (hh : Measurable h)
    (h0 : Measurable fun x => f x []) (h1 : ∀ x a l, f x (a :: l) = g (x, a, l, f (h (x, a, l)) l)) :
    Measurable fun p : X × List α => f p.1 p.2 := by
  refine measurable_list_uncurry (f := fun p : X × List α => f p.1 p.2) fun n => ?_
  induction n with
  | zero =>
    have : Measurable fun p : X × (Fin 0 → α) => f p.1 [] := h0.comp measurable_fst
    simpa using this
  | succ n ih =>
    have e : (fun p : X × (Fin (n + 1) → α) => f p.1 (List.ofFn p.2)) = fun p => g (p.1, p.2 0, List.ofFn (fun i : Fin n => p.2 i.succ),
        f (h (p.1, p.2 0, List.ofFn fun i : Fin n => p.2 i.succ)) (List.ofFn fun i : Fin n => p.2 i.succ)) := by
      funext p
      rw [List.ofFn_succ, h1]
    rw [e]
    have m0 : Measurable fun p : X × (Fin (n + 1) → α) => p.2 0 := (measurable_pi_apply _).comp measurable_snd
    have mv : Measurable fun p : X × (Fin (n + 1) → α) => fun i : Fin n => p.2 i.succ :=
      measurable_pi_lambda _ fun i => (measurable_pi_apply _).comp measurable_snd
    have mt : Measurable fun p : X × (Fin (n + 1) → α) => List.ofFn (fun i : Fin n => p.2 i.succ) := (measurable_ofFn n).comp mv
    refine hg.comp (measurable_fst.prodMk (m0.prodMk (mt.prodMk ?_)))
    exact ih.comp ((hh.comp (measurable_fst.prodMk (m0.prodMk mt))).prodMk mv)

/-- The same, applied to a list depending on the parameter. -/
theorem Measurable.listRec [Inhabited α] {f : X → List α → Y} {g : X × α × List α × Y → Y} {h : X × α × List α → X} {l : X → List α} (hl : Measurable l)
    (hg : Measurable g) (hh : Measurable h) (h0 : Measurable fun x => f x []) (h1 : ∀ x a l, f x (a :: l) = g (x, a, l, f (h (x, a, l)) l)) :
    Measurable fun x => f x (l x) :=
  (measurable_listRec hg hh h0 h1).comp (measurable_id.prodMk hl)

/-- Distinction of the empty list. -/
theorem Measurable.listCases [Inhabited α] {f : X → List α → Y} {l : X → List α} (hl : Measurable l) (h0 : Measurable fun x => f x [])
    (h1 : Measurable fun p : X × α × List α => f p.1 (p.2.1 :: p.2.2)) : Measurable fun x => f x (l x) :=
  Measurable.listRec hl (g := fun p => f p.1 (p.2.1 :: p.2.2.1)) (h := fun p => p.1)
    (h1.comp (measurable_fst.prodMk ((measurable_fst.comp measurable_snd).prodMk (measurable_fst.comp (measurable_snd.comp measurable_snd)))))
    measurable_fst h0 fun _ _ _ => rfl

end Ctb
