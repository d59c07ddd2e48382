import Verif.Lemmas.RegProg
import Verif.Model.Interp

/-!
# Measurability of the operations on lists
-/

set_option linter.unusedSectionVars false

namespace Ctb

open MeasureTheory Set

variable {X Y Z α β γ : Type} [MeasurableSpace X] [MeasurableSpace Y] [MeasurableSpace Z] [MeasurableSpace α] [MeasurableSpace β] [MeasurableSpace γ]

attribute [fun_prop] Measurable.cons

/-! ## Propositions -/

@[fun_prop] theorem Measurable.ltReal {f g : X → ℝ} (hf : Measurable f) (hg : Measurable g) : Measurable fun x => f x < g x :=
  measurableSet_setOfPred.1 (measurableSet_lt hf hg)

@[fun_prop] theorem Measurable.leReal {f g : X → ℝ} (hf : Measurable f) (hg : Measurable g) : Measurable fun x => f x ≤ g x :=
  measurableSet_setOfPred.1 (measurableSet_le hf hg)

@[fun_prop] theorem Measurable.eqReal {f g : X → ℝ} (hf : Measurable f) (hg : Measurable g) : Measurable fun x => f x = g x :=
  measurableSet_setOfPred.1 (measurableSet_eq_fun hf hg)

@[fun_prop] theorem Measurable.decide {P : X → Prop} [DecidablePred P] (hP : Measurable P) : Measurable fun x => decide (P x) := by
  have : (fun x => Decidable.decide (P x)) = fun x => if P x then true else false := by
    funext x; split_ifs with h <;> simp [h]
  rw [this]
  exact Measurable.ite (measurableSet_setOfPred.2 hP) measurable_const measurable_const

@[fun_prop] theorem Measurable.ite' {P : X → Prop} [DecidablePred P] (hP : Measurable P) {f g : X → Y} (hf : Measurable f) (hg : Measurable g) :
    Measurable fun x => if P x then f x else g x := Measurable.ite (measurableSet_setOfPred.2 hP) hf hg

/-- Every function of a discrete value. -/
theorem Measurable.discrete [DiscreteMeasurableSpace α] {f : X → α} (hf : Measurable f) (g : α → Y) : Measurable fun x => g (f x) :=
  (Measurable.of_discrete (f := g)).comp hf

@[fun_prop] theorem Measurable.bool {b : X → Bool} (hb : Measurable b) : Measurable fun x => b x = true := Measurable.discrete hb (· = true)

theorem measurable_nat_iff {c : X → ℕ} : Measurable c ↔ ∀ i, Measurable fun x => c x = i := by
  refine ⟨fun h i => Measurable.discrete h (· = i), fun h => measurable_to_countable' fun i => ?_⟩
  exact measurableSet_setOfPred.2 (h i)

/-- Countably many cases. -/
theorem Measurable.natCases {f : X → ℕ → Y} {c : X → ℕ} (hc : Measurable c) (hf : ∀ i, Measurable fun x => f x i) : Measurable fun x => f x (c x) := by
  have : Measurable fun q : X × ℕ => f q.1 q.2 := measurable_from_prod_countable_left hf
  exact this.comp (measurable_id.prodMk hc)

/-! ## Optional values -/

@[fun_prop] theorem Measurable.some {f : X → α} (hf : Measurable f) : Measurable fun x => Option.some (f x) := measurable_some.comp hf

@[fun_prop] theorem Measurable.isNone {o : X → Option α} (ho : Measurable o) : Measurable fun x => o x = none :=
  measurableSet_setOfPred.1 (ho measurableSet_none)

@[fun_prop] theorem Measurable.optGetD [Inhabited α] {o : X → Option α} {d : X → α} (ho : Measurable o) (hd : Measurable d) : Measurable fun x => (o x).getD (d x) :=
  Measurable.optionCases ho (f := fun x o => o.getD (d x)) hd measurable_snd

theorem Measurable.optionAll [Inhabited α] {o : X → Option α} (ho : Measurable o) {P : X → α → Prop} (hP : Measurable fun p : X × α => P p.1 p.2) :
    Measurable fun x => ∀ a, o x = Option.some a → P x a := by
  refine Measurable.optionCases ho (f := fun x o => ∀ a, o = Option.some a → P x a) ?_ ?_
  · simp
  · simpa using hP

theorem Measurable.optionEx [Inhabited α] {o : X → Option α} (ho : Measurable o) {P : X → α → Prop} (hP : Measurable fun p : X × α => P p.1 p.2) :
    Measurable fun x => ∃ a, o x = Option.some a ∧ P x a := by
  refine Measurable.optionCases ho (f := fun x o => ∃ a, o = Option.some a ∧ P x a) ?_ ?_
  · simp
  · simpa using hP

instance [Countable α] [DiscreteMeasurableSpace α] : DiscreteMeasurableSpace (Option α) :=
  ⟨fun _ => measurableSet_option.2 MeasurableSet.of_discrete⟩

@[fun_prop] theorem Measurable.optToList [Inhabited α] {o : X → Option α} (ho : Measurable o) : Measurable fun x => (o x).toList :=
  Measurable.optionCases ho (f := fun _ o => o.toList) measurable_const (by simp only [Option.toList]; fun_prop)

/-! ## Results -/

instance instMeasRes : MeasurableSpace (Res α) := MeasurableSpace.map Except.ok ‹_›

@[fun_prop] theorem Measurable.resOk {f : X → α} (hf : Measurable f) : Measurable fun x => (.ok (f x) : Res α) := fun _ h => hf h

/-- The value of a result. -/
def resGetD (d : α) : Res α → α
  | .ok a => a
  | .error _ => d

theorem measurable_resGetD (d : α) : Measurable (resGetD d) := fun _ h => h

theorem measurableSet_resError (e : PyErr) : MeasurableSet ({.error e} : Set (Res α)) := by
  show MeasurableSet (Except.ok ⁻¹' ({.error e} : Set (Res α)))
  have : (Except.ok ⁻¹' ({.error e} : Set (Res α)) : Set α) = ∅ := by ext; simp
  rw [this]; exact MeasurableSet.empty

/-- The exception of a result. -/
def resErr : Res α → Option PyErr
  | .ok _ => none
  | .error e => Option.some e

instance : Countable PyErr := by
  have : Function.Injective fun e : PyErr => match e with
      | .assertion => 0 | .value => 1 | .type => 2 | .index => 3 | .budget => 4 | .fuel => 5 | .nan => 6 | .exception => (7 : ℕ) := by
    intro a b h
    cases a <;> cases b <;> simp_all
  exact this.countable

theorem measurableSet_resErr (o : Option PyErr) : MeasurableSet {r : Res α | resErr r = o} := by
  cases o with
  | none =>
    show MeasurableSet (Except.ok ⁻¹' {r : Res α | resErr r = none})
    have : (Except.ok ⁻¹' {r : Res α | resErr r = none} : Set α) = univ := by ext; simp [resErr]
    rw [this]; exact MeasurableSet.univ
  | some e =>
    have : {r : Res α | resErr r = Option.some e} = {.error e} := by
      ext r
      cases r <;> simp [resErr]
    rw [this]; exact measurableSet_resError e

theorem Measurable.resCases [Inhabited α] {r : X → Res α} (hr : Measurable r) {f : X → Res α → Y} (h0 : ∀ e, Measurable fun x => f x (.error e))
    (h1 : Measurable fun p : X × α => f p.1 (.ok p.2)) : Measurable fun x => f x (r x) := by
  intro S hS
  have e : (fun x => f x (r x)) ⁻¹' S = ({x | resErr (r x) = none} ∩ (fun x => f x (.ok (resGetD default (r x)))) ⁻¹' S) ∪
      ⋃ e, ({x | resErr (r x) = Option.some e} ∩ (fun x => f x (.error e)) ⁻¹' S) := by
    ext x
    simp only [mem_preimage, mem_union, mem_inter_iff, mem_ofPred_eq, mem_iUnion]
    cases r x <;> simp [resErr, resGetD]
  rw [e]
  refine (hr (measurableSet_resErr none)).inter (?_) |>.union (MeasurableSet.iUnion fun e => (hr (measurableSet_resErr (Option.some e))).inter (h0 e hS))
  exact (h1.comp (measurable_id.prodMk ((measurable_resGetD default).comp hr))) hS

theorem Measurable.resBind [Inhabited α] {r : X → Res α} (hr : Measurable r) {f : X → α → Res β} (hf : Measurable fun p : X × α => f p.1 p.2) :
    Measurable fun x => (r x).bind (f x) :=
  Measurable.resCases hr (f := fun x r => r.bind (f x)) (fun _ => measurable_const) hf

/-- An optional value as a result. -/
def optRes (e : PyErr) : Option α → Res α
  | Option.some a => .ok a
  | none => .error e

@[fun_prop] theorem Measurable.optRes [Inhabited α] {o : X → Option α} (ho : Measurable o) (e : PyErr) : Measurable fun x => Ctb.optRes e (o x) :=
  Measurable.optionCases ho (f := fun _ o => Ctb.optRes e o) measurable_const (by simp only [Ctb.optRes]; fun_prop)

theorem Reg.resCases [Inhabited α] {r : X → Res α} (hr : Measurable r) {p : X → Res α → Prog β} (h0 : ∀ e, Reg fun x => p x (.error e))
    (h1 : Reg fun y : X × α => p y.1 (.ok y.2)) : Reg fun x => p x (r x) := by
  refine Reg.countable (fun (o : Option PyErr) x => match o with
    | none => p x (.ok (resGetD default (r x)))
    | Option.some e => p x (.error e)) (c := fun x => resErr (r x)) (fun o => hr (measurableSet_resErr o)) (fun o => ?_) fun x => ?_
  · cases o with
    | none => exact h1.comp (f := fun x => (x, resGetD default (r x))) (measurable_id.prodMk ((measurable_resGetD default).comp hr))
    | some e => exact h0 e
  · cases r x <;> rfl

theorem Reg.lift [Inhabited α] {r : X → Res α} (hr : Measurable r) : Reg fun x => Prog.lift (r x) :=
  Reg.resCases hr (p := fun _ r => Prog.lift r) (fun e => Reg.err e) (Reg.ret measurable_snd)

/-! ## Lists -/

instance [Countable α] [DiscreteMeasurableSpace α] : DiscreteMeasurableSpace (List α) :=
  ⟨fun _ => measurableSet_list.2 fun _ => MeasurableSet.of_discrete⟩

@[fun_prop] theorem Measurable.length {l : X → List α} (hl : Measurable l) : Measurable fun x => (l x).length := measurable_length.comp hl

@[fun_prop] theorem Measurable.isNil {l : X → List α} (hl : Measurable l) : Measurable fun x => l x = [] := by
  have : (fun x => l x = []) = fun x => (l x).length = 0 := by funext x; simp
  rw [this]
  exact Measurable.discrete (Measurable.length hl) (· = 0)

section

variable [Inhabited α] [Inhabited β]

@[fun_prop] theorem Measurable.append {l m : X → List α} (hl : Measurable l) (hm : Measurable m) : Measurable fun x => l x ++ m x := by
  have := measurable_listRec (X := List α) (f := fun m l => l ++ m) (g := fun p : List α × α × List α × List α => p.2.1 :: p.2.2.2) (h := fun p => p.1)
    (by fun_prop) (by fun_prop) measurable_id (fun _ _ _ => rfl)
  exact this.comp (hm.prodMk hl)

theorem Measurable.listMap {l : X → List α} {f : X → α → β} (hl : Measurable l) (hf : Measurable fun p : X × α => f p.1 p.2) :
    Measurable fun x => (l x).map (f x) := by
  have hf' : Measurable fun p : X × α × List α × List β => f p.1 p.2.1 := hf.comp (by fun_prop : Measurable fun p : X × α × List α × List β => (p.1, p.2.1))
  exact Measurable.listRec hl (f := fun x l => l.map (f x)) (g := fun p => f p.1 p.2.1 :: p.2.2.2) (h := fun p => p.1) (by fun_prop) (by fun_prop)
    measurable_const (fun _ _ _ => rfl)

@[fun_prop] theorem Measurable.reverse {l : X → List α} (hl : Measurable l) : Measurable fun x => (l x).reverse :=
  Measurable.listRec hl (f := fun _ l => l.reverse) (g := fun p => p.2.2.2 ++ [p.2.1]) (h := fun p => p.1) (by fun_prop) (by fun_prop)
    measurable_const (fun _ _ _ => by simp)

@[fun_prop] theorem Measurable.tail {l : X → List α} (hl : Measurable l) : Measurable fun x => (l x).tail :=
  Measurable.listCases hl (f := fun _ l => l.tail) measurable_const (by simp only [List.tail]; fun_prop)

@[fun_prop] theorem Measurable.dropLast {l : X → List α} (hl : Measurable l) : Measurable fun x => (l x).dropLast := by
  have : (fun x => (l x).dropLast) = fun x => (l x).reverse.tail.reverse := by funext x; simp
  rw [this]; fun_prop

@[fun_prop] theorem Measurable.head? {l : X → List α} (hl : Measurable l) : Measurable fun x => (l x).head? :=
  Measurable.listCases hl (f := fun _ l => l.head?) measurable_const (by simp only [List.head?]; fun_prop)

@[fun_prop] theorem Measurable.getLast? {l : X → List α} (hl : Measurable l) : Measurable fun x => (l x).getLast? := by
  have : (fun x => (l x).getLast?) = fun x => (l x).reverse.head? := by funext x; simp
  rw [this]; fun_prop

@[fun_prop] theorem Measurable.drop {l : X → List α} {k : X → ℕ} (hl : Measurable l) (hk : Measurable k) : Measurable fun x => (l x).drop (k x) := by
  refine Measurable.natCases (f := fun x k => (l x).drop k) hk fun i => ?_
  induction i with
  | zero => simpa using hl
  | succ i ih =>
    have : (fun x => (l x).drop (i + 1)) = fun x => ((l x).drop i).tail := by funext x; simp
    rw [this]; fun_prop

@[fun_prop] theorem Measurable.take {l : X → List α} {k : X → ℕ} (hl : Measurable l) (hk : Measurable k) : Measurable fun x => (l x).take (k x) := by
  have : (fun x => (l x).take (k x)) = fun x => ((l x).reverse.drop ((l x).length - k x)).reverse := by
    funext x
    rw [List.drop_reverse]
    by_cases h : k x ≤ (l x).length
    · rw [List.reverse_reverse]; congr 1; omega
    · rw [List.reverse_reverse, List.take_of_length_le (by omega), List.take_of_length_le (by omega)]
  rw [this]
  have : Measurable fun x => (l x).length - k x := by fun_prop
  fun_prop

@[fun_prop] theorem Measurable.getElem? {l : X → List α} {k : X → ℕ} (hl : Measurable l) (hk : Measurable k) : Measurable fun x => (l x)[k x]? := by
  have : (fun x => (l x)[k x]?) = fun x => ((l x).drop (k x)).head? := by funext x; simp
  rw [this]; fun_prop

@[fun_prop] theorem Measurable.listGetD {l : X → List α} {k : X → ℕ} {d : X → α} (hl : Measurable l) (hk : Measurable k) (hd : Measurable d) :
    Measurable fun x => (l x).getD (k x) (d x) := by
  simp only [List.getD_eq_getElem?_getD]; fun_prop

@[fun_prop] theorem Measurable.headD {l : X → List α} {d : X → α} (hl : Measurable l) (hd : Measurable d) : Measurable fun x => (l x).headD (d x) :=
  Measurable.listCases hl (f := fun x l => l.headD (d x)) hd (by simp only [List.headD]; fun_prop)

@[fun_prop] theorem Measurable.pyGet {l : X → List α} {k : X → ℤ} (hl : Measurable l) (hk : Measurable k) : Measurable fun x => Ctb.pyGet (l x) (k x) := by
  unfold Ctb.pyGet
  have h1 : Measurable fun x => 0 ≤ k x := Measurable.discrete hk (fun k => 0 ≤ k)
  have h2 : Measurable fun x => -((l x).length : ℤ) ≤ k x := Measurable.discrete ((Measurable.length hl).prodMk hk) (fun q => -(q.1 : ℤ) ≤ q.2)
  have h3 : Measurable fun x => (k x).toNat := Measurable.discrete hk _
  have h4 : Measurable fun x => (k x + (l x).length).toNat := Measurable.discrete ((Measurable.length hl).prodMk hk) (fun q => (q.2 + q.1).toNat)
  fun_prop

theorem Measurable.zipWith' {l : X → List α} {m : X → List β} {f : X → α → β → γ} [Inhabited γ] (hl : Measurable l) (hm : Measurable m)
    (hf : Measurable fun p : X × α × β => f p.1 p.2.1 p.2.2) : Measurable fun x => List.zipWith (f x) (l x) (m x) := by
  have h : Measurable fun p : (X × List β) × List α => List.zipWith (f p.1.1) p.2 p.1.2 := by
    refine measurable_listRec (f := fun (p : X × List β) l => List.zipWith (f p.1) l p.2) (h := fun p => (p.1.1, p.1.2.tail))
      (g := fun p : (X × List β) × α × List α × List γ => if p.1.2 = [] then [] else f p.1.1 p.2.1 (p.1.2.headD default) :: p.2.2.2) ?_ (by fun_prop)
      (by simp) ?_
    · have : Measurable fun p : (X × List β) × α × List α × List γ => f p.1.1 p.2.1 (p.1.2.headD default) :=
        hf.comp (by fun_prop : Measurable fun p : (X × List β) × α × List α × List γ => (p.1.1, p.2.1, p.1.2.headD default))
      refine Measurable.ite (measurableSet_setOfPred.2 ?_) measurable_const (by fun_prop)
      exact Measurable.isNil (by fun_prop)
    · rintro ⟨x, m⟩ a l
      cases m <;> simp
  exact h.comp ((measurable_id.prodMk hm).prodMk hl)

@[fun_prop] theorem Measurable.zip {l : X → List α} {m : X → List β} (hl : Measurable l) (hm : Measurable m) : Measurable fun x => (l x).zip (m x) :=
  Measurable.zipWith' (f := fun _ => Prod.mk) hl hm (by fun_prop)

theorem Measurable.filter {l : X → List α} {P : X → α → Bool} (hl : Measurable l) (hP : Measurable fun p : X × α => P p.1 p.2) :
    Measurable fun x => (l x).filter (P x) := by
  have hP' : Measurable fun p : X × α × List α × List α => P p.1 p.2.1 := hP.comp (by fun_prop : Measurable fun p : X × α × List α × List α => (p.1, p.2.1))
  exact Measurable.listRec hl (f := fun x l => l.filter (P x)) (g := fun p => if P p.1 p.2.1 then p.2.1 :: p.2.2.2 else p.2.2.2) (h := fun p => p.1)
    (by fun_prop) (by fun_prop) measurable_const (fun x a l => by simp [List.filter_cons])

theorem Measurable.takeWhile {l : X → List α} {P : X → α → Bool} (hl : Measurable l) (hP : Measurable fun p : X × α => P p.1 p.2) :
    Measurable fun x => (l x).takeWhile (P x) := by
  have hP' : Measurable fun p : X × α × List α × List α => P p.1 p.2.1 := hP.comp (by fun_prop : Measurable fun p : X × α × List α × List α => (p.1, p.2.1))
  exact Measurable.listRec hl (f := fun x l => l.takeWhile (P x)) (g := fun p => if P p.1 p.2.1 then p.2.1 :: p.2.2.2 else []) (h := fun p => p.1)
    (by fun_prop) (by fun_prop) measurable_const (fun x a l => by simp [List.takeWhile_cons])

@[fun_prop] theorem Measurable.flatten {l : X → List (List α)} (hl : Measurable l) : Measurable fun x => (l x).flatten :=
  Measurable.listRec hl (f := fun _ l => l.flatten) (g := fun p => p.2.1 ++ p.2.2.2) (h := fun p => p.1) (by fun_prop) (by fun_prop)
    measurable_const (fun _ _ _ => by simp)

theorem Measurable.flatMap {l : X → List α} {f : X → α → List β} (hl : Measurable l) (hf : Measurable fun p : X × α => f p.1 p.2) :
    Measurable fun x => (l x).flatMap (f x) := by
  simp only [List.flatMap]
  exact Measurable.flatten (Measurable.listMap hl hf)

theorem Measurable.memAll {l : X → List α} {P : X → α → Prop} (hl : Measurable l) (hP : Measurable fun p : X × α => P p.1 p.2) :
    Measurable fun x => ∀ a ∈ l x, P x a := by
  have hP' : Measurable fun p : X × α × List α × Prop => P p.1 p.2.1 := hP.comp (by fun_prop : Measurable fun p : X × α × List α × Prop => (p.1, p.2.1))
  exact Measurable.listRec hl (f := fun x l => ∀ a ∈ l, P x a) (g := fun p => P p.1 p.2.1 ∧ p.2.2.2) (h := fun p => p.1)
    (by fun_prop) (by fun_prop) (by simp) (fun x a l => by simp)

theorem Measurable.memEx {l : X → List α} {P : X → α → Prop} (hl : Measurable l) (hP : Measurable fun p : X × α => P p.1 p.2) :
    Measurable fun x => ∃ a ∈ l x, P x a := by
  have hP' : Measurable fun p : X × α × List α × Prop => P p.1 p.2.1 := hP.comp (by fun_prop : Measurable fun p : X × α × List α × Prop => (p.1, p.2.1))
  exact Measurable.listRec hl (f := fun x l => ∃ a ∈ l, P x a) (g := fun p => P p.1 p.2.1 ∨ p.2.2.2) (h := fun p => p.1)
    (by fun_prop) (by fun_prop) (by simp) (fun x a l => by simp)

end

theorem Measurable.anyBool {l : X → List Bool} (hl : Measurable l) : Measurable fun x => (l x).any id := Measurable.discrete hl (·.any id)

@[fun_prop] theorem Measurable.memReal {l : X → List ℝ} {f : X → ℝ} (hl : Measurable l) (hf : Measurable f) : Measurable fun x => f x ∈ l x := by
  have : (fun x => f x ∈ l x) = fun x => ∃ a ∈ l x, f x = a := by funext x; simp
  rw [this]
  exact Measurable.memEx hl (by fun_prop)

@[fun_prop] theorem Measurable.listSum {l : X → List ℝ} (hl : Measurable l) : Measurable fun x => (l x).sum :=
  Measurable.listRec hl (f := fun _ l => l.sum) (g := fun p => p.2.1 + p.2.2.2) (h := fun p => p.1) (by fun_prop) (by fun_prop)
    measurable_const (fun _ _ _ => by simp)

@[fun_prop] theorem Measurable.npDiff {l : X → List ℝ} (hl : Measurable l) : Measurable fun x => Ctb.npDiff (l x) := by
  refine Measurable.listRec hl (f := fun _ l => Ctb.npDiff l) (g := fun p => if p.2.2.1 = [] then [] else (p.2.2.1.headD 0 - p.2.1) :: p.2.2.2) (h := fun p => p.1) ?_
    (by fun_prop) measurable_const (fun x a l => ?_)
  · refine Measurable.ite' (Measurable.isNil (by fun_prop)) (by fun_prop) (by fun_prop)
  · cases l <;> simp [Ctb.npDiff]

@[fun_prop] theorem Measurable.npCumsum {l : X → List ℝ} (hl : Measurable l) : Measurable fun x => Ctb.npCumsum (l x) := by
  have : Measurable fun p : ℝ × List ℝ => cumsumFrom p.1 p.2 :=
    measurable_listRec (f := fun (a : ℝ) l => cumsumFrom a l) (h := fun p => p.1 + p.2.1) (g := fun p => (p.1 + p.2.1) :: p.2.2.2) (by fun_prop) (by fun_prop)
      measurable_const (fun _ _ _ => rfl)
  exact this.comp (measurable_const.prodMk hl)

@[fun_prop] theorem Measurable.searchLeft {l : X → List ℝ} {v : X → ℝ} (hl : Measurable l) (hv : Measurable v) {dec : ∀ a b : ℝ, Decidable (a < b)} :
    Measurable fun x => @Ctb.searchLeft ℝ _ dec (l x) (v x) := by
  unfold Ctb.searchLeft
  exact Measurable.length (Measurable.takeWhile (P := fun x a => @Decidable.decide (a < v x) (dec _ _)) hl (Measurable.decide (by fun_prop)))

theorem Measurable.select [Inhabited α] {l : X → List α} {m : X → List Bool} (hl : Measurable l) (hm : Measurable m) : Measurable fun x => Ctb.select (l x) (m x) := by
  have h : Measurable fun p : List Bool × List α => Ctb.select p.2 p.1 := by
    refine measurable_listRec (f := fun (m : List Bool) l => Ctb.select l m) (h := fun p => p.1.tail)
      (g := fun p : List Bool × α × List α × List α => if p.1.headD false then p.2.1 :: p.2.2.2 else if p.1 = [] then [] else p.2.2.2) ?_ (by fun_prop)
      ?_ ?_
    · refine Measurable.ite' (by fun_prop) (by fun_prop) (Measurable.ite' (Measurable.isNil (by fun_prop)) (by fun_prop) (by fun_prop))
    · simp [Ctb.select]
    · intro m a l
      rcases m with _ | ⟨_ | _, m⟩ <;> simp [Ctb.select]
  exact h.comp (hm.prodMk hl)

theorem Measurable.orderedInsert [Inhabited α] {r : α → α → Prop} [DecidableRel r] (hr : Measurable fun p : α × α => r p.1 p.2) :
    Measurable fun p : α × List α => p.2.orderedInsert r p.1 := by
  have hr' : Measurable fun p : α × α × List α × List α => r p.1 p.2.1 := hr.comp (by fun_prop : Measurable fun p : α × α × List α × List α => (p.1, p.2.1))
  refine measurable_listRec (f := fun a l => l.orderedInsert r a) (g := fun p : α × α × List α × List α => if r p.1 p.2.1 then p.1 :: p.2.1 :: p.2.2.1 else p.2.1 :: p.2.2.2)
    (h := fun p => p.1) (by fun_prop) (by fun_prop) (by simp only [List.orderedInsert]; fun_prop) (fun a b l => by simp [List.orderedInsert_cons])

theorem Measurable.insertionSort [Inhabited α] {r : α → α → Prop} [DecidableRel r] (hr : Measurable fun p : α × α => r p.1 p.2) {l : X → List α} (hl : Measurable l) :
    Measurable fun x => (l x).insertionSort r := by
  have h := Measurable.orderedInsert hr
  refine Measurable.listRec hl (f := fun _ l => l.insertionSort r) (g := fun p => p.2.2.2.orderedInsert r p.2.1) (h := fun p => p.1) ?_ (by fun_prop) measurable_const
    (fun _ _ _ => by simp [List.insertionSort])
  exact h.comp (by fun_prop : Measurable fun p : X × α × List α × List α => (p.2.1, p.2.2.2))

/-! ## Programs -/

theorem Reg.ite' {P : X → Prop} [DecidablePred P] (hP : Measurable P) {p q : X → Prog α} (hp : Reg p) (hq : Reg q) :
    Reg fun x => if P x then p x else q x := Reg.ite (measurableSet_setOfPred.2 hP) hp hq

theorem Reg.assert' {P : X → Prop} [DecidablePred P] (hP : Measurable P) : Reg fun x => Prog.assert (P x) := Reg.assert (measurableSet_setOfPred.2 hP)

theorem Reg.unif {f g : X → ℝ} (hf : Measurable f) (hg : Measurable g) : Reg fun x => Prog.draw (.uniform (f x) (g x)) := Reg.draw (DMeas.uniform hf hg)

theorem Reg.waldDraw {f g : X → ℝ} (hf : Measurable f) (hg : Measurable g) : Reg fun x => Prog.draw (.wald (f x) (g x)) :=
  Reg.draw (d := fun x => .wald (f x) (g x)) (DMeas.wald hf hg)

end Ctb
