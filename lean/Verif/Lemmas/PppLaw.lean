import Verif.Lemmas.PoissonLaw
import Verif.Spec.Box
import Verif.Spec.Value
import Verif.Lemmas.MeasList

set_option linter.unusedSectionVars false

/-! # The Laplace functional of `sample_ppp` -/

namespace Ctb

open Classical MeasureTheory ProbabilityTheory
open scoped ENNReal NNReal

theorem boxInt_const_mul {c : ℝ≥0∞} (hc : c ≠ ∞) : ∀ (bs : List ℝ) (g : List ℝ → ℝ≥0∞), boxInt bs (fun r => c * g r) = c * boxInt bs g
  | [], _ => rfl
  | b :: bs, g => by
    simp only [boxInt]
    rw [← lintegral_const_mul' _ _ hc]
    exact lintegral_congr fun x => boxInt_const_mul hc bs _

theorem boxInt_mono : ∀ (bs : List ℝ) {g g' : List ℝ → ℝ≥0∞}, (∀ r, g r ≤ g' r) → boxInt bs g ≤ boxInt bs g'
  | [], _, _, h => h _
  | _ :: bs, _, _, h => lintegral_mono fun _ => boxInt_mono bs fun _ => h _

theorem boxInt_one : ∀ (bs : List ℝ), (∀ b ∈ bs, 0 < b) → boxInt bs (fun _ => 1) = ENNReal.ofReal bs.prod
  | [], _ => by simp [boxInt]
  | b :: bs, h => by
    simp only [boxInt]
    rw [boxInt_one bs fun x hx => h x (by simp [hx]), lintegral_const, Measure.restrict_apply MeasurableSet.univ, Set.univ_inter, Real.volume_Ico, sub_zero,
      ← ENNReal.ofReal_mul' (h b (by simp)).le, List.prod_cons, mul_comm]

/-- A row is uniform on the box. -/
theorem drawRow_box : ∀ (bs : List ℝ), (∀ b ∈ bs, 0 < b) → ∀ (f : Res (List ℝ) → ℝ≥0∞) (g : List ℝ → ℝ≥0∞), (∀ r, r.length = bs.length → f (.ok r) = g r) →
    (drawRow bs).lexp f = ENNReal.ofReal (1 / bs.prod) * boxInt bs g
  | [], _, f, g, hf => by simp [drawRow, Prog.mapM', boxInt, hf [] rfl]
  | b :: bs, h, f, g, hf => by
    have hb : 0 < b := h b (by simp)
    have hp : 0 < bs.prod := List.prod_pos fun x hx => h x (by simp [hx])
    have key : ∀ x : ℝ, ((drawRow bs).bind fun l => Prog.ret (x :: l)).lexp f = ENNReal.ofReal (1 / bs.prod) * boxInt bs fun r => g (x :: r) := by
      intro x
      rw [Prog.lexp_bind]
      refine drawRow_box bs (fun y hy => h y (by simp [hy])) _ _ fun r hr => ?_
      rw [Prog.cont_ok, Prog.lexp_ret, hf _ (by simp [hr])]
    have e : drawRow (b :: bs) = .real (.uniform 0 b) fun x => (drawRow bs).bind fun l => Prog.ret (x :: l) := by
      simp [drawRow, Prog.mapM', Prog.draw]
    rw [e, Prog.lexp_real]
    simp only [key]
    rw [law_uniform_zero hb, lintegral_smul_measure, lintegral_const_mul' _ _ ENNReal.ofReal_ne_top, smul_eq_mul, ← mul_assoc,
      ← ENNReal.ofReal_mul (by positivity), List.prod_cons, boxInt]
    congr 2
    field_simp

/-- Independent rows. -/
theorem rows_box {bs : List ℝ} (h : ∀ b ∈ bs, 0 < b) {g : List ℝ → ℝ≥0} (hI : boxInt bs (fun r => (g r : ℝ≥0∞)) ≠ ∞) (n : ℕ) (c : ℝ≥0∞) (hc : c ≠ ∞)
    (f : Res (List (List ℝ)) → ℝ≥0∞) (hf : ∀ rows : List (List ℝ), f (.ok rows) = c * (rows.map fun r => (g r : ℝ≥0∞)).prod) :
    (Prog.replicate n (drawRow bs)).lexp f = c * (ENNReal.ofReal (1 / bs.prod) * boxInt bs fun r => (g r : ℝ≥0∞)) ^ n := by
  induction n generalizing c f with
  | zero => simp [Prog.replicate, hf]
  | succ n ih =>
    rw [Prog.replicate, Prog.lexp_bind]
    set Q := ENNReal.ofReal (1 / bs.prod) * boxInt bs fun r => (g r : ℝ≥0∞) with hQ
    have hQ' : Q ≠ ∞ := ENNReal.mul_ne_top ENNReal.ofReal_ne_top hI
    rw [drawRow_box bs h _ (fun r => (c * Q ^ n) * g r)]
    · rw [boxInt_const_mul (ENNReal.mul_ne_top hc (ENNReal.pow_ne_top hQ')), ← mul_assoc, mul_comm (ENNReal.ofReal _), mul_assoc, ← hQ, pow_succ, mul_assoc]
    · intro r _
      rw [Prog.cont_ok, Prog.lexp_bind, ih (c * g r) (ENNReal.mul_ne_top hc ENNReal.coe_ne_top)]
      · ring
      · intro rows
        rw [Prog.cont_ok, Prog.lexp_ret, hf, List.map_cons, List.prod_cons, mul_assoc]

theorem ppp_functional {lam : ℝ} (hl : 0 < lam) {bs : List ℝ} (h0 : bs ≠ []) (h : ∀ b ∈ bs, 0 < b) {g : List ℝ → ℝ≥0}
    (hI : boxInt bs (fun r => (g r : ℝ≥0∞)) ≠ ∞) :
    (samplePpp lam bs).lexp (onOk fun rows => (rows.map fun r => (g r : ℝ≥0∞)).prod) =
      ENNReal.ofReal (Real.exp (lam * ((boxInt bs fun r => (g r : ℝ≥0∞)).toReal - bs.prod))) := by
  have hp : 0 < bs.prod := List.prod_pos h
  unfold samplePpp
  rw [Prog.assert, if_pos hl, Prog.ret_bind, if_neg h0, Prog.assert, if_pos h, Prog.ret_bind, Prog.lexp_nat]
  have key : ∀ n : ℕ, ((Prog.replicate n (drawRow bs)).bind fun rows => Prog.ret (rows.insertionSort fun a b => firstCoord a ≤ firstCoord b)).lexp
      (onOk fun rows => (rows.map fun r => (g r : ℝ≥0∞)).prod) = (ENNReal.ofReal (1 / bs.prod * (boxInt bs fun r => (g r : ℝ≥0∞)).toReal)) ^ n := by
    intro n
    rw [Prog.lexp_bind, rows_box h hI n 1 ENNReal.one_ne_top, one_mul, ENNReal.ofReal_mul (by positivity), ENNReal.ofReal_toReal hI]
    intro rows
    rw [Prog.cont_ok, Prog.lexp_ret, one_mul]
    exact ((sort_rows rows).1.map _).prod_eq
  simp only [key]
  rw [lintegral_poisson_pow (by positivity) (by positivity)]
  congr 2
  field_simp

/-! ## counts in disjoint sets -/

theorem measurable_boxInt : ∀ (bs : List ℝ) {X : Type} [MeasurableSpace X] {F : X × List ℝ → ℝ≥0∞}, Measurable F → Measurable fun x => boxInt bs fun r => F (x, r)
  | [], _, _, _, hF => hF.comp (measurable_id.prodMk measurable_const)
  | b :: bs, X, _, F, hF => by
    have : Measurable fun p : X × ℝ => boxInt bs fun r => F (p.1, p.2 :: r) :=
      measurable_boxInt bs (F := fun q : (X × ℝ) × List ℝ => F (q.1.1, q.1.2 :: q.2))
        (hF.comp ((measurable_fst.comp measurable_fst).prodMk (Measurable.cons (measurable_snd.comp measurable_fst) measurable_snd)))
    exact Measurable.lintegral_prod_right' this

theorem boxInt_add : ∀ (bs : List ℝ) {f g : List ℝ → ℝ≥0∞}, Measurable f → boxInt bs (fun r => f r + g r) = boxInt bs f + boxInt bs g
  | [], _, _, _ => rfl
  | b :: bs, f, g, hf => by
    have hc : ∀ x : ℝ, Measurable fun r => f (x :: r) := fun x => hf.comp (Measurable.cons measurable_const measurable_id)
    have hm : Measurable fun x : ℝ => boxInt bs fun r => f (x :: r) := measurable_boxInt bs (F := fun p : ℝ × List ℝ => f (p.1 :: p.2)) (hf.comp measurable_cons)
    simp only [boxInt]
    rw [← lintegral_add_left hm]
    exact lintegral_congr fun x => boxInt_add bs (hc x)

theorem boxInt_sum {ι : Type} (bs : List ℝ) (S : Finset ι) {f : ι → List ℝ → ℝ≥0∞} (hf : ∀ i ∈ S, Measurable (f i)) :
    boxInt bs (fun r => ∑ i ∈ S, f i r) = ∑ i ∈ S, boxInt bs (f i) := by
  induction S using Finset.induction_on with
  | empty =>
    simp only [Finset.sum_empty]
    have := boxInt_const_mul (c := 0) (by simp) bs fun _ => 0
    simpa using this
  | insert i S hi ih =>
    simp only [Finset.sum_insert hi]
    rw [boxInt_add bs (hf i (by simp)), ih fun j hj => hf j (by simp [hj])]

theorem boxVol_ne_top {bs : List ℝ} (h : ∀ b ∈ bs, 0 < b) (A : Set (List ℝ)) : boxVol bs A ≠ ∞ := by
  refine ne_top_of_le_ne_top ?_ (boxInt_mono bs (g' := fun _ => 1) fun r => by split_ifs <;> simp)
  rw [boxInt_one bs h]; exact ENNReal.ofReal_ne_top

/-- The function with value `s i` on `A i` and one elsewhere. -/
noncomputable def markFn {m : ℕ} (A : Fin m → Set (List ℝ)) (s : Fin m → ℝ≥0) (r : List ℝ) : ℝ≥0 := ∏ i, if r ∈ A i then s i else 1

theorem mark_eq {m : ℕ} {A : Fin m → Set (List ℝ)} (hA : Pairwise fun i j => Disjoint (A i) (A j)) (s : Fin m → ℝ≥0) (r : List ℝ) :
    (markFn A s r : ℝ≥0∞) + ∑ i, (if r ∈ A i then 1 else 0) = 1 + ∑ i, (s i : ℝ≥0∞) * if r ∈ A i then 1 else 0 := by
  by_cases h : ∃ i, r ∈ A i
  · obtain ⟨i, hi⟩ := h
    have hj : ∀ j, j ≠ i → r ∉ A j := fun j hj hr => Set.disjoint_left.1 (hA hj) hr hi
    rw [markFn, Finset.prod_eq_single i (fun j _ h => if_neg (hj j h)) (by simp), Finset.sum_eq_single i (fun j _ h => if_neg (hj j h)) (by simp),
      Finset.sum_eq_single i (fun j _ h => by rw [if_neg (hj j h), mul_zero]) (by simp), if_pos hi, if_pos hi, mul_one, add_comm]
  · have hn : ∀ i, r ∉ A i := fun i hi => h ⟨i, hi⟩
    simp [markFn, hn]

theorem box_mark {bs : List ℝ} (h : ∀ b ∈ bs, 0 < b) {m : ℕ} {A : Fin m → Set (List ℝ)} (hA : Pairwise fun i j => Disjoint (A i) (A j))
    (hm : ∀ i, MeasurableSet (A i)) (s : Fin m → ℝ≥0) :
    boxInt bs (fun r => (markFn A s r : ℝ≥0∞)) + ∑ i, boxVol bs (A i) = ENNReal.ofReal bs.prod + ∑ i, (s i : ℝ≥0∞) * boxVol bs (A i) := by
  have hi : ∀ i, Measurable fun r : List ℝ => if r ∈ A i then (1 : ℝ≥0∞) else 0 := fun i => Measurable.ite (hm i) measurable_const measurable_const
  have hmark : Measurable fun r => (markFn A s r : ℝ≥0∞) :=
    measurable_coe_nnreal_ennreal.comp (Finset.measurable_prod _ fun i _ => Measurable.ite (hm i) measurable_const measurable_const)
  have e1 := boxInt_add bs (g := fun r => ∑ i, if r ∈ A i then (1 : ℝ≥0∞) else 0) hmark
  have e2 := boxInt_add bs (f := fun _ => 1) (g := fun r => ∑ i, (s i : ℝ≥0∞) * if r ∈ A i then (1 : ℝ≥0∞) else 0) measurable_const
  rw [boxInt_sum bs _ fun i _ => hi i] at e1
  rw [boxInt_sum bs _ fun i _ => (hi i).const_mul _, boxInt_one bs h] at e2
  simp only [boxInt_const_mul ENNReal.coe_ne_top] at e2
  simp only [boxVol]
  rw [← e1, ← e2]
  congr 1
  funext r
  exact mark_eq hA s r

theorem prod_mark {m : ℕ} (A : Fin m → Set (List ℝ)) (s : Fin m → ℝ≥0) (rows : List (List ℝ)) :
    (rows.map fun r => (markFn A s r : ℝ≥0∞)).prod = ∏ i, (s i : ℝ≥0∞) ^ rows.countP fun r => decide (r ∈ A i) := by
  induction rows with
  | nil => simp
  | cons r rows ih =>
    rw [List.map_cons, List.prod_cons, ih, markFn, ENNReal.ofNNReal_finsetProd, ← Finset.prod_mul_distrib]
    refine Finset.prod_congr rfl fun i _ => ?_
    by_cases h : r ∈ A i
    · rw [if_pos h, List.countP_cons_of_pos (by simpa using h), pow_succ']
    · rw [if_neg h, List.countP_cons_of_neg (by simpa using h), ENNReal.coe_one, one_mul]

end Ctb
