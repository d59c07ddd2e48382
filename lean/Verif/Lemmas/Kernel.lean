import Verif.Spec.Kernel
import Verif.Lemmas.PathDensity
import Mathlib.MeasureTheory.Measure.Prod

/-! # Integrals over the values of a path -/

set_option linter.unusedSectionVars false

namespace Ctb

open MeasureTheory Set
open scoped ENNReal

section
variable {α β X Y : Type} [MeasureSpace α] [MeasureSpace β] [MeasurableSpace X] [MeasurableSpace Y]

/-- Joint measurability in a parameter and `n` values. -/
def MeasL (n : ℕ) (F : X → List α → ℝ≥0∞) : Prop := Measurable fun p : X × (Fin n → α) => F p.1 (List.ofFn p.2)

theorem measurable_finConsL (n : ℕ) : Measurable fun p : α × (Fin n → α) => (Fin.cons p.1 p.2 : Fin (n + 1) → α) := by
  rw [measurable_pi_iff]
  intro i
  refine Fin.cases ?_ (fun k => ?_) i
  · simpa using measurable_fst
  · have : (fun p : α × (Fin n → α) => (Fin.cons p.1 p.2 : Fin (n + 1) → α) k.succ) = fun p => p.2 k := by ext p; simp
    rw [this]
    exact (measurable_pi_apply k).comp measurable_snd

theorem MeasL.cons {n : ℕ} {F : X → List α → ℝ≥0∞} (h : MeasL (n + 1) F) : MeasL n fun (p : X × α) l => F p.1 (p.2 :: l) := by
  unfold MeasL at *
  have : (fun q : (X × α) × (Fin n → α) => F q.1.1 (q.1.2 :: List.ofFn q.2)) =
      (fun p : X × (Fin (n + 1) → α) => F p.1 (List.ofFn p.2)) ∘ fun q : (X × α) × (Fin n → α) => (q.1.1, (Fin.cons q.1.2 q.2 : Fin (n + 1) → α)) := by
    ext q
    simp [List.ofFn_succ]
  rw [this]
  refine h.comp ?_
  refine Measurable.prodMk (measurable_fst.comp measurable_fst) ?_
  exact (measurable_finConsL n).comp ((measurable_snd.comp measurable_fst).prodMk measurable_snd)

theorem MeasL.comp {n : ℕ} {F : X → List α → ℝ≥0∞} (h : MeasL n F) {φ : Y → X} (hφ : Measurable φ) : MeasL n fun y l => F (φ y) l :=
  Measurable.comp (g := fun p : X × (Fin n → α) => F p.1 (List.ofFn p.2)) h ((hφ.comp measurable_fst).prodMk measurable_snd)

theorem MeasL.const {n : ℕ} {F : X → List α → ℝ≥0∞} (h : MeasL n F) (x : X) : MeasL n fun (_ : Y) l => F x l :=
  h.comp measurable_const

theorem MeasL.zero_apply {F : X → List α → ℝ≥0∞} (h : MeasL 0 F) : Measurable fun p => F p [] := by
  have : (fun p => F p []) = (fun p : X × (Fin 0 → α) => F p.1 (List.ofFn p.2)) ∘ fun p => (p, Fin.elim0) := by
    ext p; simp
  rw [this]
  exact Measurable.comp h (measurable_id.prodMk measurable_const)

theorem MeasL.mul {n : ℕ} {F G : X → List α → ℝ≥0∞} (hF : MeasL n F) (hG : MeasL n G) : MeasL n fun x l => F x l * G x l :=
  Measurable.mul hF hG

theorem MeasL.add {n : ℕ} {F G : X → List α → ℝ≥0∞} (hF : MeasL n F) (hG : MeasL n G) : MeasL n fun x l => F x l + G x l :=
  Measurable.add hF hG

theorem MeasL.of_fst {n : ℕ} {f : X → ℝ≥0∞} (hf : Measurable f) : MeasL (α := α) n fun x _ => f x :=
  hf.comp measurable_fst

theorem MeasL.map {n : ℕ} {F : X → List β → ℝ≥0∞} (h : MeasL n F) {g : α → β} (hg : Measurable g) : MeasL n fun x (l : List α) => F x (l.map g) := by
  unfold MeasL at *
  have : (fun p : X × (Fin n → α) => F p.1 ((List.ofFn p.2).map g)) =
      (fun p : X × (Fin n → β) => F p.1 (List.ofFn p.2)) ∘ fun p : X × (Fin n → α) => (p.1, fun i => g (p.2 i)) := by
    ext p
    simp [List.map_ofFn, Function.comp_def]
  rw [this]
  refine h.comp (measurable_fst.prodMk ?_)
  exact measurable_pi_lambda _ fun i => hg.comp ((measurable_pi_apply i).comp measurable_snd)

theorem MeasL.lintegral {n : ℕ} {ν : Measure Y} [SFinite ν] {F : X × Y → List α → ℝ≥0∞} (h : MeasL n F) : MeasL n fun x l => ∫⁻ y, F (x, y) l ∂ν := by
  unfold MeasL at *
  have hm : Measurable fun q : (X × (Fin n → α)) × Y => F (q.1.1, q.2) (List.ofFn q.1.2) :=
    Measurable.comp (g := fun p : (X × Y) × (Fin n → α) => F p.1 (List.ofFn p.2)) h
      (((measurable_fst.comp measurable_fst).prodMk measurable_snd).prodMk (measurable_snd.comp measurable_fst))
  exact hm.lintegral_prod_right'

/-- A family of kernels that is measurable in the parameter and the two values. -/
def MeasK (k : X → ℝ → α → α → ℝ≥0∞) : Prop := ∀ v, Measurable fun p : X × α × α => k p.1 v p.2.1 p.2.2

theorem MeasK.comp {k : X → ℝ → α → α → ℝ≥0∞} (h : MeasK k) {φ : Y → X} (hφ : Measurable φ) : MeasK fun y => k (φ y) := fun v =>
  (h v).comp ((hφ.comp measurable_fst).prodMk measurable_snd)

theorem MeasK.apply {k : X → ℝ → α → α → ℝ≥0∞} (h : MeasK k) (v : ℝ) {p : Y → X} {x y : Y → α} (hp : Measurable p) (hx : Measurable x)
    (hy : Measurable y) : Measurable fun q => k (p q) v (x q) (y q) := (h v).comp (hp.prodMk (hx.prodMk hy))

variable [SigmaFinite (volume : Measure α)] [SigmaFinite (volume : Measure β)]

theorem kerInt_measurable_end : ∀ (vs : List ℝ) {X : Type} [MeasurableSpace X] {k : X → ℝ → α → α → ℝ≥0∞} {F : X → List α → ℝ≥0∞} {x x1 : X → α},
    MeasK k → MeasL (vs.length - 1) F → Measurable x → Measurable x1 → Measurable fun p => kerInt (k p) (x1 p) vs (x p) (F p)
  | [], _, _, k, F, x, x1, _, hF, _, _ => by simp [kerInt]
  | [v], _, _, k, F, x, x1, hk, hF, hx, hx1 => by
    simp only [kerInt]
    exact (hk.apply v measurable_id hx hx1).mul (MeasL.zero_apply hF)
  | v :: w :: vs, X, _, k, F, x, x1, hk, hF, hx, hx1 => by
    have ih := kerInt_measurable_end (w :: vs) (X := X × α) (k := fun p => k p.1) (F := fun p l => F p.1 (p.2 :: l)) (x := Prod.snd) (x1 := fun p => x1 p.1)
      (hk.comp measurable_fst) (MeasL.cons hF) measurable_snd (hx1.comp measurable_fst)
    have hm : Measurable fun p : X × α => k p.1 v (x p.1) p.2 * kerInt (k p.1) (x1 p.1) (w :: vs) p.2 fun l => F p.1 (p.2 :: l) :=
      (hk.apply v measurable_fst (hx.comp measurable_fst) measurable_snd).mul ih
    exact hm.lintegral_prod_right'

theorem kerInt_measurable (x1 : α) (vs : List ℝ) {X : Type} [MeasurableSpace X] {k : X → ℝ → α → α → ℝ≥0∞} {F : X → List α → ℝ≥0∞} {x : X → α}
    (hk : MeasK k) (hF : MeasL (vs.length - 1) F) (hx : Measurable x) : Measurable fun p => kerInt (k p) x1 vs (x p) (F p) :=
  kerInt_measurable_end vs hk hF hx measurable_const

/-- The version without parameter. -/
theorem kerInt_measurable' {k : ℝ → α → α → ℝ≥0∞} (x1 : α) (vs : List ℝ) {F : X → List α → ℝ≥0∞} {x : X → α}
    (hk : MeasK fun _ : Unit => k) (hF : MeasL (vs.length - 1) F) (hx : Measurable x) : Measurable fun p => kerInt k x1 vs (x p) (F p) :=
  kerInt_measurable x1 vs (k := fun _ : X => k) (hk.comp (φ := fun _ : X => ()) measurable_const) hF hx

theorem startInt_measurable_end (vs : List ℝ) {e : X → ℝ → α → ℝ≥0∞} {k : X → ℝ → α → α → ℝ≥0∞} {F : X → List α → ℝ≥0∞}
    {x1 : X → α} (he : ∀ v, Measurable fun p : X × α => e p.1 v p.2) (hk : MeasK k) (hF : MeasL (vs.length - 1) F) (hx1 : Measurable x1) :
    Measurable fun p => startInt (e p) (k p) (x1 p) vs (F p) := by
  match vs, hF with
  | [], _ => simp [startInt]
  | [v], hF =>
    simp only [startInt]
    exact ((he v).comp (measurable_id.prodMk hx1)).mul (MeasL.zero_apply hF)
  | v :: w :: vs, hF =>
    have ih := kerInt_measurable_end (w :: vs) (X := X × α) (k := fun p => k p.1) (F := fun p l => F p.1 (p.2 :: l)) (x := Prod.snd) (x1 := fun p => x1 p.1)
      (hk.comp measurable_fst) (MeasL.cons hF) measurable_snd (hx1.comp measurable_fst)
    exact ((he v).mul ih).lintegral_prod_right'

section
variable {k : ℝ → α → α → ℝ≥0∞}

theorem kerInt_congr (x1 : α) : ∀ (vs : List ℝ) (x : α) {F G : List α → ℝ≥0∞}, (∀ l, l.length = vs.length - 1 → F l = G l) →
    kerInt k x1 vs x F = kerInt k x1 vs x G
  | [], _, _, _, _ => rfl
  | [v], _, F, G, h => by simp only [kerInt]; rw [h [] rfl]
  | v :: w :: vs, x, F, G, h => by
    simp only [kerInt]
    refine lintegral_congr fun y => ?_
    congr 1
    exact kerInt_congr x1 (w :: vs) y fun l hl => h _ (by simpa using hl)

theorem kerInt_zero (x1 : α) : ∀ (vs : List ℝ) (x : α), kerInt k x1 vs x (fun _ => 0) = 0
  | [], _ => rfl
  | [v], _ => by simp [kerInt]
  | v :: w :: vs, x => by simp only [kerInt]; simp [kerInt_zero x1 (w :: vs)]

theorem kerInt_const_mul (hk : MeasK fun _ : Unit => k) (x1 : α) (c : ℝ≥0∞) : ∀ (vs : List ℝ) (x : α) {F : List α → ℝ≥0∞},
    MeasL (vs.length - 1) (fun _ : Unit => F) → kerInt k x1 vs x (fun l => c * F l) = c * kerInt k x1 vs x F
  | [], _, _, _ => by simp [kerInt]
  | [v], _, F, _ => by simp only [kerInt]; ring
  | v :: w :: vs, x, F, hF => by
    have hF' : MeasL ((w :: vs).length - 1) (fun (y : α) l => F (y :: l)) :=
      (MeasL.cons hF).comp (φ := fun y : α => ((), y)) (measurable_const.prodMk measurable_id)
    simp only [kerInt]
    rw [← lintegral_const_mul]
    · refine lintegral_congr fun y => ?_
      rw [kerInt_const_mul hk x1 c (w :: vs) y (F := fun l => F (y :: l)) (hF'.const y)]
      ring
    · exact (hk.apply v (Y := α) (p := fun _ => ()) measurable_const measurable_const measurable_id).mul
        (kerInt_measurable' x1 (w :: vs) hk hF' measurable_id)

theorem kerInt_add (hk : MeasK fun _ : Unit => k) (x1 : α) : ∀ (vs : List ℝ) (x : α) {F G : List α → ℝ≥0∞},
    MeasL (vs.length - 1) (fun _ : Unit => F) → kerInt k x1 vs x (fun l => F l + G l) = kerInt k x1 vs x F + kerInt k x1 vs x G
  | [], _, _, _, _ => by simp [kerInt]
  | [v], _, F, G, _ => by simp only [kerInt]; ring
  | v :: w :: vs, x, F, G, hF => by
    have hF' : MeasL ((w :: vs).length - 1) (fun (y : α) l => F (y :: l)) :=
      (MeasL.cons hF).comp (φ := fun y : α => ((), y)) (measurable_const.prodMk measurable_id)
    simp only [kerInt]
    rw [← lintegral_add_left]
    · refine lintegral_congr fun y => ?_
      rw [kerInt_add hk x1 (w :: vs) y (F := fun l => F (y :: l)) (hF'.const y)]
      ring
    · exact (hk.apply v (Y := α) (p := fun _ => ()) measurable_const measurable_const measurable_id).mul
        (kerInt_measurable' x1 (w :: vs) hk hF' measurable_id)

/-- An integral over a parameter may be taken inside. -/
theorem kerInt_lintegral (hk : MeasK fun _ : Unit => k) (x1 : α) {ν : Measure Y} [SFinite ν] : ∀ (vs : List ℝ) (x : α) {F : Y → List α → ℝ≥0∞},
    MeasL (vs.length - 1) F → ∫⁻ z, kerInt k x1 vs x (F z) ∂ν = kerInt k x1 vs x (fun l => ∫⁻ z, F z l ∂ν)
  | [], _, _, _ => by simp [kerInt]
  | [v], _, F, hF => by
    simp only [kerInt]
    rw [lintegral_const_mul _ hF.zero_apply]
  | v :: w :: vs, x, F, hF => by
    simp only [kerInt]
    have hm : Measurable fun p : Y × α => k v x p.2 * kerInt k x1 (w :: vs) p.2 fun l => F p.1 (p.2 :: l) :=
      (hk.apply v (Y := Y × α) (p := fun _ => ()) measurable_const measurable_const measurable_snd).mul
        (kerInt_measurable' x1 (w :: vs) hk hF.cons measurable_snd)
    rw [lintegral_lintegral_swap hm.aemeasurable]
    refine lintegral_congr fun y => ?_
    have hF' : MeasL ((w :: vs).length - 1) fun (z : Y) l => F z (y :: l) := hF.cons.comp (φ := fun z : Y => (z, y)) (measurable_id.prodMk measurable_const)
    rw [lintegral_const_mul _ (kerInt_measurable' x1 (w :: vs) hk hF' measurable_const), kerInt_lintegral hk x1 (w :: vs) y hF']

end

theorem ofFn_zip {n : ℕ} (f : Fin n → α) (g : Fin n → β) : (List.ofFn f).zip (List.ofFn g) = List.ofFn fun i => (f i, g i) := by
  apply List.ext_getElem
  · simp
  · intro i h1 h2
    simp

theorem MeasL.zip {n : ℕ} {F : X → List (α × β) → ℝ≥0∞} (h : MeasL n F) :
    MeasL n fun (p : X × (Fin n → α)) (l : List β) => F p.1 ((List.ofFn p.2).zip l) := by
  unfold MeasL at *
  have : (fun q : (X × (Fin n → α)) × (Fin n → β) => F q.1.1 ((List.ofFn q.1.2).zip (List.ofFn q.2))) =
      (fun p : X × (Fin n → α × β) => F p.1 (List.ofFn p.2)) ∘ fun q : (X × (Fin n → α)) × (Fin n → β) => (q.1.1, fun i => (q.1.2 i, q.2 i)) := by
    ext q
    simp only [Function.comp]
    rw [ofFn_zip]
  rw [this]
  refine h.comp ((measurable_fst.comp measurable_fst).prodMk ?_)
  exact measurable_pi_lambda _ fun i => ((measurable_pi_apply i).comp (measurable_snd.comp measurable_fst)).prodMk
    ((measurable_pi_apply i).comp measurable_snd)

/-- Two independent paths as one path in the product. -/
theorem kerInt_prod {k : ℝ → α → α → ℝ≥0∞} {k' : ℝ → β → β → ℝ≥0∞} (hk : MeasK fun _ : Unit => k) (hk' : MeasK fun _ : Unit => k') (x1 : α) (y1 : β) :
    ∀ (vs : List ℝ) (x : α) (y : β) {F : List (α × β) → ℝ≥0∞}, MeasL (vs.length - 1) (fun _ : Unit => F) →
    kerInt k x1 vs x (fun l => kerInt k' y1 vs y fun l' => F (l.zip l')) =
      kerInt (fun v p q => k v p.1 q.1 * k' v p.2 q.2) (x1, y1) vs (x, y) F
  | [], _, _, _, _ => rfl
  | [v], x, y, F, _ => by simp only [kerInt]; simp [mul_assoc]
  | v :: w :: vs, x, y, F, hF => by
    have hF' : MeasL ((w :: vs).length - 1) (fun (q : α × β) l => F (q :: l)) :=
      (MeasL.cons hF).comp (φ := fun q : α × β => ((), q)) (measurable_const.prodMk measurable_id)
    have hin : ∀ x' : α, MeasL ((w :: vs).length - 1) fun (y' : β) (l : List α) =>
        k' v y y' * kerInt k' y1 (w :: vs) y' fun l' => F ((x', y') :: l.zip l') := by
      intro x'
      have h1 : MeasL ((w :: vs).length - 1) fun (p : β × (Fin ((w :: vs).length - 1) → α)) (l : List β) => F ((x', p.1) :: (List.ofFn p.2).zip l) :=
        (hF'.comp (φ := fun y' : β => (x', y')) (measurable_const.prodMk measurable_id)).zip
      exact (hk'.apply v (Y := β × (Fin ((w :: vs).length - 1) → α)) (p := fun _ => ()) measurable_const measurable_const measurable_fst).mul
        (kerInt_measurable' y1 (w :: vs) hk' h1 measurable_fst)
    have hk2 : MeasK fun _ : Unit => fun v (p q : α × β) => k v p.1 q.1 * k' v p.2 q.2 := fun v =>
      (hk.apply v (Y := Unit × (α × β) × α × β) (p := fun _ => ()) measurable_const
        (measurable_fst.comp (measurable_fst.comp measurable_snd)) (measurable_fst.comp (measurable_snd.comp measurable_snd))).mul
      (hk'.apply v (Y := Unit × (α × β) × α × β) (p := fun _ => ()) measurable_const
        (measurable_snd.comp (measurable_fst.comp measurable_snd)) (measurable_snd.comp (measurable_snd.comp measurable_snd)))
    have hm : Measurable fun q : α × β => k v x q.1 * k' v y q.2 *
        kerInt (fun v (p q : α × β) => k v p.1 q.1 * k' v p.2 q.2) (x1, y1) (w :: vs) q fun l => F (q :: l) :=
      ((hk.apply v (Y := α × β) (p := fun _ => ()) measurable_const measurable_const measurable_fst).mul
        (hk'.apply v (Y := α × β) (p := fun _ => ()) measurable_const measurable_const measurable_snd)).mul
        (kerInt_measurable' (x1, y1) (w :: vs) hk2 hF' measurable_id)
    simp only [kerInt, List.zip_cons_cons]
    rw [show (volume : Measure (α × β)) = (volume : Measure α).prod (volume : Measure β) from rfl, lintegral_prod _ hm.aemeasurable]
    refine lintegral_congr fun x' => ?_
    rw [← kerInt_lintegral hk x1 (w :: vs) x' (hin x'), ← lintegral_const_mul]
    · refine lintegral_congr fun y' => ?_
      have h2 : MeasL ((w :: vs).length - 1) fun (_ : Unit) (l : List α) => kerInt k' y1 (w :: vs) y' fun l' => F ((x', y') :: l.zip l') := by
        have h3 : MeasL ((w :: vs).length - 1) fun (p : Unit × (Fin ((w :: vs).length - 1) → α)) (l : List β) => F ((x', y') :: (List.ofFn p.2).zip l) :=
          (hF'.comp (φ := fun _ : Unit => (x', y')) measurable_const).zip
        exact kerInt_measurable' y1 (w :: vs) hk' h3 measurable_const
      rw [kerInt_const_mul hk x1 _ (w :: vs) x' h2, kerInt_prod hk hk' x1 y1 (w :: vs) x' y' (hF'.const (x', y'))]
      ring
    · exact kerInt_measurable' x1 (w :: vs) hk (hin x') measurable_const

end

end Ctb
