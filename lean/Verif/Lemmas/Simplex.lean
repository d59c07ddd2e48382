import Verif.Lemmas.PoissonLaw
import Mathlib.MeasureTheory.Measure.Prod

/-!
# Order statistics of uniform draws

`simplexInt T n a F` integrates `F` over all increasing sequences of `n` times in `(a, T)`.  The expectation of a function of `n` sorted uniform draws
is `n! / T^n` times this integral.
-/

set_option linter.unusedSectionVars false

namespace Ctb

open Classical MeasureTheory ProbabilityTheory
open scoped ENNReal

/-- Integral over `a < t₁ < ⋯ < tₙ < T`. -/
noncomputable def simplexInt (T : ℝ) : ℕ → ℝ → (List ℝ → ℝ≥0∞) → ℝ≥0∞
  | 0, _, F => F []
  | n + 1, a, F => ∫⁻ t in Set.Ioo a T, simplexInt T n t fun l => F (t :: l)

/-- Joint measurability in a parameter and `n` times. -/
def MeasN (n : ℕ) {X : Type} [MeasurableSpace X] (F : X → List ℝ → ℝ≥0∞) : Prop :=
  Measurable fun p : X × (Fin n → ℝ) => F p.1 (List.ofFn p.2)

section
variable {X : Type} [MeasurableSpace X]

theorem measurable_finCons (n : ℕ) : Measurable fun p : ℝ × (Fin n → ℝ) => (Fin.cons p.1 p.2 : Fin (n + 1) → ℝ) := by
  rw [measurable_pi_iff]
  intro i
  refine Fin.cases ?_ (fun k => ?_) i
  · simpa using measurable_fst
  · have : (fun p : ℝ × (Fin n → ℝ) => (Fin.cons p.1 p.2 : Fin (n + 1) → ℝ) k.succ) = fun p => p.2 k := by ext p; simp
    rw [this]
    exact (measurable_pi_apply k).comp measurable_snd

theorem MeasN.cons {n : ℕ} {F : X → List ℝ → ℝ≥0∞} (h : MeasN (n + 1) F) : MeasN n fun (p : X × ℝ) l => F p.1 (p.2 :: l) := by
  unfold MeasN at *
  have : (fun q : (X × ℝ) × (Fin n → ℝ) => F q.1.1 (q.1.2 :: List.ofFn q.2)) =
      (fun p : X × (Fin (n + 1) → ℝ) => F p.1 (List.ofFn p.2)) ∘ fun q : (X × ℝ) × (Fin n → ℝ) => (q.1.1, (Fin.cons q.1.2 q.2 : Fin (n + 1) → ℝ)) := by
    ext q
    simp [List.ofFn_succ]
  rw [this]
  refine h.comp ?_
  refine Measurable.prodMk (measurable_fst.comp measurable_fst) ?_
  exact (measurable_finCons n).comp ((measurable_snd.comp measurable_fst).prodMk measurable_snd)

theorem MeasN.comp {n : ℕ} {Y : Type} [MeasurableSpace Y] {F : X → List ℝ → ℝ≥0∞} (h : MeasN n F) {φ : Y → X} (hφ : Measurable φ) :
    MeasN n fun y l => F (φ y) l :=
  Measurable.comp (g := fun p : X × (Fin n → ℝ) => F p.1 (List.ofFn p.2)) h ((hφ.comp measurable_fst).prodMk measurable_snd)

theorem MeasN.insert {n : ℕ} : ∀ {X : Type} [MeasurableSpace X] {F : X → List ℝ → ℝ≥0∞}, MeasN (n + 1) F →
    MeasN n fun (p : X × ℝ) l => F p.1 (l.orderedInsert (· ≤ ·) p.2) := by
  induction n with
  | zero =>
    intro X _ F h
    exact h.cons
  | succ n ih =>
    intro X _ F h
    have h1 : MeasN (n + 1) fun (p : X × ℝ) l => F p.1 (p.2 :: l) := MeasN.cons h
    have h2 := ih h1
    unfold MeasN at *
    have heq : (fun q : (X × ℝ) × (Fin (n + 1) → ℝ) => F q.1.1 ((List.ofFn q.2).orderedInsert (· ≤ ·) q.1.2)) =
        fun q => if q.1.2 ≤ q.2 0 then F q.1.1 (q.1.2 :: List.ofFn q.2)
          else F q.1.1 (q.2 0 :: (List.ofFn fun k : Fin n => q.2 k.succ).orderedInsert (· ≤ ·) q.1.2) := by
      ext q
      rw [List.ofFn_succ, List.orderedInsert_cons]
      split_ifs <;> rfl
    rw [heq]
    refine Measurable.ite (measurableSet_le (measurable_snd.comp measurable_fst) ((measurable_pi_apply 0).comp measurable_snd)) h1 ?_
    exact h2.comp ((((measurable_fst.comp measurable_fst).prodMk ((measurable_pi_apply 0).comp measurable_snd)).prodMk (measurable_snd.comp measurable_fst)).prodMk
      (measurable_pi_iff.2 fun k : Fin n => (measurable_pi_apply (Fin.succ k)).comp measurable_snd))

theorem lintegral_Ioo_ind {a b : ℝ} (f : ℝ → ℝ≥0∞) : ∫⁻ t in Set.Ioo a b, f t = ∫⁻ t, if a < t ∧ t < b then f t else 0 := by
  rw [← lintegral_indicator measurableSet_Ioo]
  refine lintegral_congr fun t => ?_
  by_cases h : a < t ∧ t < b
  · rw [Set.indicator_of_mem (show t ∈ Set.Ioo a b from h), if_pos h]
  · rw [Set.indicator_of_notMem (show t ∉ Set.Ioo a b from h), if_neg h]

theorem measurable_lintegral_Ioo {a b : X → ℝ} (ha : Measurable a) (hb : Measurable b) {f : X → ℝ → ℝ≥0∞} (hf : Measurable fun p : X × ℝ => f p.1 p.2) :
    Measurable fun p => ∫⁻ t in Set.Ioo (a p) (b p), f p t := by
  simp only [lintegral_Ioo_ind]
  have : Measurable fun p : X × ℝ => if a p.1 < p.2 ∧ p.2 < b p.1 then f p.1 p.2 else 0 := by
    refine Measurable.ite ?_ hf measurable_const
    exact (measurableSet_lt (ha.comp measurable_fst) measurable_snd).inter (measurableSet_lt measurable_snd (hb.comp measurable_fst))
  exact this.lintegral_prod_right' (ν := (volume : Measure ℝ))

theorem simplexInt_measurable (T : ℝ) (n : ℕ) : ∀ {X : Type} [MeasurableSpace X] {F : X → List ℝ → ℝ≥0∞} {a : X → ℝ}, MeasN n F → Measurable a →
    Measurable fun p => simplexInt T n (a p) (F p) := by
  induction n with
  | zero =>
    intro X _ F a hF _
    have : (fun p => simplexInt T 0 (a p) (F p)) = (fun p : X × (Fin 0 → ℝ) => F p.1 (List.ofFn p.2)) ∘ fun p => (p, Fin.elim0) := by
      ext p; simp [simplexInt]
    rw [this]
    exact Measurable.comp hF (measurable_id.prodMk measurable_const)
  | succ n ih =>
    intro X _ F a hF ha
    simp only [simplexInt]
    exact measurable_lintegral_Ioo ha measurable_const (ih hF.cons measurable_snd)

end

theorem simplexInt_const_mul (T : ℝ) {c : ℝ≥0∞} (hc : c ≠ ∞) (n : ℕ) : ∀ (a : ℝ) (F : List ℝ → ℝ≥0∞),
    simplexInt T n a (fun l => c * F l) = c * simplexInt T n a F := by
  induction n with
  | zero => intro a F; rfl
  | succ n ih =>
    intro a F
    simp only [simplexInt, ih]
    exact lintegral_const_mul' _ _ hc

theorem swap_simplex {a T : ℝ} {B : ℝ → ℝ → ℝ≥0∞} (hB : Measurable fun p : ℝ × ℝ => B p.1 p.2) :
    ∫⁻ u in Set.Ioo a T, ∫⁻ t in Set.Ioo a u, B u t = ∫⁻ t in Set.Ioo a T, ∫⁻ u in Set.Ioo t T, B u t := by
  have hind : Measurable fun p : ℝ × ℝ => if a < p.2 ∧ p.2 < p.1 ∧ p.1 < T then B p.1 p.2 else 0 := by
    refine Measurable.ite ?_ hB measurable_const
    exact (measurableSet_lt measurable_const measurable_snd).inter ((measurableSet_lt measurable_snd measurable_fst).inter (measurableSet_lt measurable_fst measurable_const))
  have e1 : ∫⁻ u in Set.Ioo a T, ∫⁻ t in Set.Ioo a u, B u t = ∫⁻ u : ℝ, ∫⁻ t : ℝ, if a < t ∧ t < u ∧ u < T then B u t else 0 := by
    rw [lintegral_Ioo_ind]
    refine lintegral_congr fun u => ?_
    by_cases hu : a < u ∧ u < T
    · rw [if_pos hu, lintegral_Ioo_ind]
      refine lintegral_congr fun t => ?_
      simp only [hu.2, and_true]
    · rw [if_neg hu]
      refine ((lintegral_congr fun t => if_neg ?_).trans lintegral_zero).symm
      exact fun h => hu ⟨h.1.trans h.2.1, h.2.2⟩
  have e2 : ∫⁻ t in Set.Ioo a T, ∫⁻ u in Set.Ioo t T, B u t = ∫⁻ t : ℝ, ∫⁻ u : ℝ, if a < t ∧ t < u ∧ u < T then B u t else 0 := by
    rw [lintegral_Ioo_ind]
    refine lintegral_congr fun t => ?_
    by_cases ht : a < t ∧ t < T
    · rw [if_pos ht, lintegral_Ioo_ind]
      refine lintegral_congr fun u => ?_
      simp only [ht.1, true_and]
    · rw [if_neg ht]
      refine ((lintegral_congr fun t => if_neg ?_).trans lintegral_zero).symm
      exact fun h => ht ⟨h.1, h.2.1.trans h.2.2⟩
  rw [e1, e2]
  exact lintegral_lintegral_swap hind.aemeasurable

/-- Inserting a further free time into an increasing sequence. -/
theorem simplexInt_insert (T : ℝ) (n : ℕ) : ∀ {X : Type} [MeasurableSpace X] {F : X → List ℝ → ℝ≥0∞} (p : X) (a : ℝ), MeasN (n + 1) F →
    ∫⁻ u in Set.Ioo a T, simplexInt T n a (fun l => F p (l.orderedInsert (· ≤ ·) u)) = (n + 1 : ℕ) * simplexInt T (n + 1) a (F p) := by
  induction n with
  | zero =>
    intro X _ F p a _
    simp [simplexInt]
  | succ n ih =>
    intro X _ F p a hF
    have hA : Measurable fun q : ℝ × ℝ => simplexInt T n q.2 fun l => F p (q.1 :: q.2 :: l) := by
      have h1 := hF.cons.cons
      have h2 : MeasN n fun (q : ℝ × ℝ) l => F p (q.1 :: q.2 :: l) :=
        h1.comp (φ := fun q : ℝ × ℝ => ((p, q.1), q.2)) ((measurable_const.prodMk measurable_fst).prodMk measurable_snd)
      exact simplexInt_measurable T n h2 measurable_snd
    have hB : Measurable fun q : ℝ × ℝ => simplexInt T n q.2 fun l => F p (q.2 :: l.orderedInsert (· ≤ ·) q.1) := by
      have h1 := hF.cons.insert
      have h2 : MeasN n fun (q : ℝ × ℝ) l => F p (q.2 :: l.orderedInsert (· ≤ ·) q.1) :=
        h1.comp (φ := fun q : ℝ × ℝ => ((p, q.2), q.1)) ((measurable_const.prodMk measurable_snd).prodMk measurable_fst)
      exact simplexInt_measurable T n h2 measurable_snd
    have hstep : ∀ u ∈ Set.Ioo a T, simplexInt T (n + 1) a (fun l => F p (l.orderedInsert (· ≤ ·) u)) =
        (∫⁻ t in Set.Ioo u T, simplexInt T n t fun l => F p (u :: t :: l)) +
        ∫⁻ t in Set.Ioo a u, simplexInt T n t fun l => F p (t :: l.orderedInsert (· ≤ ·) u) := by
      intro u hu
      have hset : Set.Ioo a T = Set.Ico u T ∪ Set.Ioo a u := by
        ext t
        simp only [Set.mem_Ioo, Set.mem_union, Set.mem_Ico]
        have h1 := hu.1
        have h2 := hu.2
        constructor
        · intro h; rcases le_or_gt u t with h' | h'
          · exact Or.inl ⟨h', h.2⟩
          · exact Or.inr ⟨h.1, h'⟩
        · rintro (h | h)
          · exact ⟨by linarith, h.2⟩
          · exact ⟨h.1, by linarith⟩
      have hdis : Disjoint (Set.Ico u T) (Set.Ioo a u) := by
        rw [Set.disjoint_left]; intro t h1 h2
        exact absurd h1.1 (not_le.2 h2.2)
      rw [simplexInt, hset, lintegral_union measurableSet_Ioo hdis]
      congr 1
      · rw [setLIntegral_congr Ioo_ae_eq_Ico]
        refine setLIntegral_congr_fun measurableSet_Ico fun t ht => ?_
        have : u ≤ t := ht.1
        simp only [List.orderedInsert_cons, this, if_true]
      · refine setLIntegral_congr_fun measurableSet_Ioo fun t ht => ?_
        have : ¬ u ≤ t := not_le.2 ht.2
        simp only [List.orderedInsert_cons, this, if_false]
    have hA' : Measurable fun u : ℝ => ∫⁻ t in Set.Ioo u T, simplexInt T n t fun l => F p (u :: t :: l) :=
      measurable_lintegral_Ioo (f := fun u t => simplexInt T n t fun l => F p (u :: t :: l)) measurable_id measurable_const hA
    rw [setLIntegral_congr_fun measurableSet_Ioo hstep, lintegral_add_left hA', swap_simplex hB]
    have hIH : ∀ t, ∫⁻ u in Set.Ioo t T, simplexInt T n t (fun l => F p (t :: l.orderedInsert (· ≤ ·) u)) =
        (n + 1 : ℕ) * simplexInt T (n + 1) t (fun l => F p (t :: l)) := fun t => ih (F := fun (q : X × ℝ) l => F q.1 (q.2 :: l)) (p, t) t hF.cons
    simp only [hIH]
    rw [lintegral_const_mul' _ _ (ENNReal.natCast_ne_top _)]
    have e1 : ∫⁻ u in Set.Ioo a T, ∫⁻ t in Set.Ioo u T, simplexInt T n t (fun l => F p (u :: t :: l)) = simplexInt T (n + 1 + 1) a (F p) := rfl
    have e2 : ∫⁻ t in Set.Ioo a T, simplexInt T (n + 1) t (fun l => F p (t :: l)) = simplexInt T (n + 1 + 1) a (F p) := rfl
    rw [e1, e2]
    push_cast
    ring

/-- Value at a list of draws. -/
noncomputable def atDraws (F : List ℝ → ℝ≥0∞) : Res (List ℝ) → ℝ≥0∞
  | .ok l => F l
  | .error _ => 0

/-- **Sorted uniform draws.** -/
theorem sorted_exp {T : ℝ} (hT : 0 < T) (n : ℕ) : ∀ {X : Type} [MeasurableSpace X] {F : X → List ℝ → ℝ≥0∞} (p : X), MeasN n F →
    (Prog.replicate n (.draw (.uniform 0 T))).lexp (atDraws fun us => F p (npSort us)) =
      ENNReal.ofReal (n.factorial / T ^ n) * simplexInt T n 0 (F p) := by
  induction n with
  | zero =>
    intro X _ F p _
    simp [Prog.replicate, atDraws, npSort, simplexInt]
  | succ n ih =>
    intro X _ F p hF
    have h1 : ∀ u, ((Prog.replicate n (.draw (.uniform 0 T))).bind fun us => Prog.ret (u :: us)).lexp (atDraws fun us => F p (npSort us)) =
        ENNReal.ofReal (n.factorial / T ^ n) * simplexInt T n 0 (fun l => F p (l.orderedInsert (· ≤ ·) u)) := by
      intro u
      rw [← ih (F := fun (q : X × ℝ) l => F q.1 (l.orderedInsert (· ≤ ·) q.2)) (p, u) hF.insert, Prog.lexp_bind]
      refine Prog.lexp_congr fun r _ => ?_
      rcases r with e | us
      · rfl
      · simp [atDraws, npSort]
    have h2 : (Prog.replicate (n + 1) (.draw (.uniform 0 T))).lexp (atDraws fun us => F p (npSort us)) =
        ∫⁻ u, ((Prog.replicate n (.draw (.uniform 0 T))).bind fun us => Prog.ret (u :: us)).lexp (atDraws fun us => F p (npSort us)) ∂(RDist.uniform 0 T).law := rfl
    rw [h2]
    simp only [h1]
    rw [lintegral_const_mul' _ _ ENNReal.ofReal_ne_top, law_uniform_zero hT, lintegral_smul_measure, setLIntegral_congr Ioo_ae_eq_Ico.symm,
      simplexInt_insert T n p 0 hF, smul_eq_mul, ← mul_assoc, ← mul_assoc]
    congr 1
    rw [← ENNReal.ofReal_natCast, ← ENNReal.ofReal_mul (by positivity), ← ENNReal.ofReal_mul (by positivity)]
    congr 1
    push_cast [Nat.factorial_succ]
    field_simp
    ring

end Ctb
