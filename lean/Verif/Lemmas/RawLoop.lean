import Verif.Lemmas.RawMin

set_option linter.unusedSectionVars false

/-! # The loop that draws the edges of a layer -/

namespace Ctb

open Classical MeasureTheory Set Filter Topology
open scoped ENNReal

variable {T a b : ℝ} {k n : ℕ}

/-! ## Rounds -/

theorem rounds_solve {σ D W S τ : ℝ≥0∞} {M : ℕ → ℝ≥0∞} (h0 : σ ≠ 0) (ht : σ ≠ ∞) (hW : D + W = σ) (hM0 : M 0 = 0) (hM : ∀ n, σ * M (n + 1) = τ * (S + W * M n)) (n : ℕ) :
    D * M n = roundsOk n τ (D / σ) * S := by
  have hD : D ≠ ∞ := ne_top_of_le_ne_top ht (hW ▸ le_self_add)
  have e1 : D / σ * σ = D := ENNReal.div_mul_cancel h0 ht
  have e2 : (1 - D / σ) * σ = W := by
    rw [ENNReal.sub_mul fun _ _ => ht, one_mul, e1, ← hW, ENNReal.add_sub_cancel_left hD]
  set A := D / σ with hA
  have key : ∀ n, σ * M n = τ * S * ∑ i ∈ Finset.range n, (τ * (1 - A)) ^ i := by
    intro n
    induction n with
    | zero => simp [hM0]
    | succ n ih =>
      rw [hM, Finset.sum_range_succ', ← e2]
      calc τ * (S + (1 - A) * σ * M n) = τ * S + τ * (1 - A) * (σ * M n) := by ring
        _ = _ := by
          rw [ih, mul_add, pow_zero, mul_one, add_comm]
          congr 1
          rw [Finset.mul_sum, Finset.mul_sum, Finset.mul_sum]
          refine Finset.sum_congr rfl fun i _ => ?_
          ring
  calc D * M n = A * (σ * M n) := by rw [← e1]; ring
    _ = _ := by rw [key, roundsOk]; ring

theorem rounds_le {τ A : ℝ≥0∞} (hτ : τ ≤ 1) (hA : A ≤ 1) (n : ℕ) : roundsOk n τ A ≤ 1 := by
  have hB : A * τ ≤ 1 - τ * (1 - A) := by
    have h1 : τ * (1 - A) ≠ ∞ := (mul_le_one' hτ tsub_le_self |>.trans_lt ENNReal.one_lt_top).ne
    refine ENNReal.le_sub_of_add_le_right h1 ?_
    rw [mul_comm A, ← mul_add, add_tsub_cancel_of_le hA, mul_one]
    exact hτ
  have hx : τ * (1 - A) ≤ 1 := mul_le_one' hτ tsub_le_self
  unfold roundsOk
  refine (mul_le_mul' hB le_rfl).trans ?_
  generalize τ * (1 - A) = x at *
  have key : ∀ n, (1 - x) * ∑ i ∈ Finset.range n, x ^ i + x ^ n = 1 := by
    intro n
    induction n with
    | zero => simp
    | succ n ih =>
      rw [Finset.sum_range_succ, mul_add, add_assoc, pow_succ', ← add_mul, tsub_add_cancel_of_le hx, one_mul, ih]
  exact le_trans le_self_add (key n).le

/-! ## Mirror images -/

theorem strip_mirror (hT : 0 < T) {i j : ℕ} (hi : 1 ≤ i) (hj : 1 ≤ j) :
    stripDens (layerHigh T a b j) (layerLow T a b i) T a b = stripDens (layerHigh T a b i) (layerLow T a b j) T a b := by
  rw [← stripDens_reflect hT (layerLow_lt hT hi) (layerHigh_gt hT hj), stripDens_symm]
  have h1 := stripDens_shift (-layerLow T a b i) (-layerHigh T a b j) T (layerHigh T a b j - b) (layerHigh T a b j - a)
  have h2 := stripDens_shift (layerHigh T a b i) (layerLow T a b j) T (a - layerLow T a b j) (b - layerLow T a b j)
  rw [sub_add_cancel, sub_add_cancel] at h2
  rw [h2, show -b = layerHigh T a b j - b + -layerHigh T a b j by ring, show -a = layerHigh T a b j - a + -layerHigh T a b j by ring, h1]
  unfold layerHigh
  congr 1 <;> ring

theorem passEntr_add {U H m v y : ℝ} (hv : 0 < v) (h : H ≤ U) : passEntr U H m v y true + passEntr U H m v y false = stripEntr U m v y := by
  simp only [passEntr, if_true, Bool.false_eq_true, if_false]
  exact tsub_add_cancel_of_le (stripEntr_mono hv h)

theorem measurable_passEntr (U H : ℝ) (f : Bool) : Measurable fun p : ℝ × ℝ × ℝ => passEntr U H p.1 p.2.1 p.2.2 f := by
  unfold passEntr
  cases f
  · simpa using measurable_stripEntr H
  · simp only [if_true]
    exact (measurable_stripEntr U).sub (measurable_stripEntr H)

/-! ## One round -/

/-- Chance to keep the minimum. -/
noncomputable def flagWeight (f : Bool × Bool) : ℝ≥0∞ := if f.1 ∨ f.2 then 2⁻¹ else 1

theorem coin_lexp (A R : ℝ≥0∞) : ∫⁻ u, (if 1 / 2 < u then A else R) ∂(RDist.uniform 0 1).law = 2⁻¹ * A + (1 - 2⁻¹) * R := by
  rw [unif_decide (p := 1 / 2) (A := R) (B := A) (by norm_num) (by norm_num) (fun u _ _ h => if_neg (not_lt.2 h.le)) (fun u _ _ h => if_pos h), add_comm]
  have h : ENNReal.ofReal (1 / 2) = 2⁻¹ := by rw [one_div, ENNReal.ofReal_inv_of_pos two_pos]; simp
  rw [show (1 : ℝ) - 1 / 2 = 1 / 2 by norm_num, h, ENNReal.one_sub_inv_two]

/-- The decisions on both sides of a minimum. -/
theorem round_lexp (hT : 0 < T) (hk : 1 ≤ k) {s m : ℝ} (hs : 0 < s) (hsT : s < T) (hm : layerLow T a b (k + 1) ≤ m) (hm' : m < layerLow T a b k)
    {α : Type} (X : Bool → Bool → α) (rest : Prog α) (G : α → ℝ≥0∞) :
    stripEntr (layerHigh T a b (k + 1)) m s a * stripEntr (layerHigh T a b (k + 1)) m (T - s) b *
      ((besEsc s 0 (a - m) (layerHigh T a b k - m) (some (layerHigh T a b (k + 1) - m)) none).bind fun e1 =>
        (besEsc (T - s) 0 (b - m) (layerHigh T a b k - m) (some (layerHigh T a b (k + 1) - m)) none).bind fun e2 =>
        if ¬ e1 ∧ ¬ e2 then .ret (X e1 e2)
        else (Prog.draw (.uniform 0 1)).bind fun u => if 1 / 2 < u then .ret (X e1 e2) else rest).lexp (onOk G) =
      ∑ f : Bool × Bool, passEntr (layerHigh T a b (k + 1)) (layerHigh T a b k) m s a f.1 * passEntr (layerHigh T a b (k + 1)) (layerHigh T a b k) m (T - s) b f.2 *
        (flagWeight f * G (X f.1 f.2) + (1 - flagWeight f) * rest.lexp (onOk G)) := by
  have d1 := sector_decide (a := a) (b := b) hT hk hs hsT.le hm hm'
  have d2 := sector_decide (a := b) (b := a) (s := T - s) (m := m) hT hk (by linarith) (by linarith) (by rw [layerLow_symm]; exact hm) (by rw [layerLow_symm]; exact hm')
  simp only [layerHigh_symm T a b] at d2
  have step : ∀ e1 e2 : Bool, (if ¬ e1 ∧ ¬ e2 then Prog.ret (X e1 e2)
        else (Prog.draw (.uniform 0 1)).bind fun u => if 1 / 2 < u then .ret (X e1 e2) else rest).lexp (onOk G) =
      flagWeight (e1, e2) * G (X e1 e2) + (1 - flagWeight (e1, e2)) * rest.lexp (onOk G) := by
    intro e1 e2
    have c := coin_lexp (G (X e1 e2)) (rest.lexp (onOk G))
    have hd : ((Prog.draw (.uniform 0 1)).bind fun u => if 1 / 2 < u then Prog.ret (X e1 e2) else rest).lexp (onOk G) =
        2⁻¹ * G (X e1 e2) + (1 - 2⁻¹) * rest.lexp (onOk G) := by
      rw [← c]
      simp only [Prog.draw, Prog.real_bind, Prog.ret_bind, Prog.lexp_real]
      refine lintegral_congr fun u => ?_
      split_ifs <;> rfl
    by_cases h : ¬ (e1 : Prop) ∧ ¬ (e2 : Prop)
    · rw [if_pos h, flagWeight, if_neg (not_or.2 h)]
      simp [onOk]
    · rw [if_neg h, hd, flagWeight, if_pos (by tauto)]
  rw [Prog.lexp_bind, mul_right_comm, d1, Finset.sum_mul, Fintype.sum_prod_type]
  refine Finset.sum_congr rfl fun f1 _ => ?_
  rw [Prog.cont_ok, Prog.lexp_bind, mul_assoc, mul_comm _ (stripEntr _ _ _ _), d2, Finset.mul_sum]
  refine Finset.sum_congr rfl fun f2 _ => ?_
  rw [Prog.cont_ok, step, mul_assoc]

/-! ## The masses -/

section Mass

variable (hT : 0 < T)

/-- Mass of the minima of the sector that belong to paths that stay below the upper edge `j`. -/
noncomputable def sectorMass (T a b : ℝ) (k j : ℕ) : ℝ≥0∞ :=
  sectorInt T (layerLow T a b (k + 1)) (layerLow T a b k) fun s m => 2 * (stripEntr (layerHigh T a b j) m s a * stripEntr (layerHigh T a b j) m (T - s) b)

/-- Mass of the minima that are kept. -/
noncomputable def keptMass (T a b : ℝ) (k : ℕ) : ℝ≥0∞ :=
  sectorInt T (layerLow T a b (k + 1)) (layerLow T a b k) fun s m => ∑ f : Bool × Bool, 2 * flagWeight f *
    (passEntr (layerHigh T a b (k + 1)) (layerHigh T a b k) m s a f.1 * passEntr (layerHigh T a b (k + 1)) (layerHigh T a b k) m (T - s) b f.2)

theorem measurable_passPair (U H : ℝ) (f : Bool × Bool) : Measurable fun p : ℝ × ℝ => passEntr U H p.1 p.2 a f.1 * passEntr U H p.1 (T - p.2) b f.2 :=
  ((measurable_passEntr U H f.1).comp (by fun_prop : Measurable fun p : ℝ × ℝ => (p.1, p.2, a))).mul
    ((measurable_passEntr U H f.2).comp (by fun_prop : Measurable fun p : ℝ × ℝ => (p.1, T - p.2, b)))

theorem passPair_sum {U H m s : ℝ} (hs : 0 < s) (hsT : s < T) (h : H ≤ U) :
    ∑ f : Bool × Bool, passEntr U H m s a f.1 * passEntr U H m (T - s) b f.2 = stripEntr U m s a * stripEntr U m (T - s) b := by
  rw [← passEntr_add hs h, ← passEntr_add (sub_pos.2 hsT) h, Fintype.sum_prod_type]
  simp only [Fintype.sum_bool]
  ring

theorem keptMass_split (hT : 0 < T) : keptMass T a b k + sectorInt T (layerLow T a b (k + 1)) (layerLow T a b k) (fun s m => ∑ f : Bool × Bool, 2 * (1 - flagWeight f) *
    (passEntr (layerHigh T a b (k + 1)) (layerHigh T a b k) m s a f.1 * passEntr (layerHigh T a b (k + 1)) (layerHigh T a b k) m (T - s) b f.2)) = sectorMass T a b k (k + 1) := by
  unfold keptMass sectorMass
  rw [← sector_add (Finset.measurable_fun_sum _ fun f _ => (measurable_passPair _ _ f).const_mul _)]
  refine sector_cong fun m _ _ s hs hs' => ?_
  rw [← passPair_sum hs hs' (layerHigh_mono hT (Nat.lt_succ_self k)).le, ← Finset.sum_add_distrib, Finset.mul_sum]
  refine Finset.sum_congr rfl fun f _ => ?_
  rw [← add_mul, ← mul_add, add_tsub_cancel_of_le, mul_one]
  unfold flagWeight
  split_ifs
  · simp
  · exact le_rfl

theorem keptMass_eq (hT : 0 < T) : keptMass T a b k * 2 = sectorMass T a b k (k + 1) + sectorMass T a b k k := by
  unfold keptMass sectorMass
  rw [← sector_add (measurable_pair (measurable_stripEntr _) (measurable_stripEntr _) T a b), mul_comm, ← sector_mul _ (by simp)]
  refine sector_cong fun m _ _ s hs hs' => ?_
  rw [← passPair_sum hs hs' (layerHigh_mono hT (Nat.lt_succ_self k)).le]
  simp only [Fintype.sum_prod_type, Fintype.sum_bool, flagWeight, Bool.false_eq_true, or_self, or_true, true_or, if_true, if_false]
  have h2 : (2 : ℝ≥0∞) * 2⁻¹ = 1 := ENNReal.mul_inv_cancel (by simp) (by simp)
  rw [h2]
  have e : ∀ v y, passEntr (layerHigh T a b (k + 1)) (layerHigh T a b k) m v y false = stripEntr (layerHigh T a b k) m v y := fun v y => by simp [passEntr]
  simp only [e]
  ring

theorem sectorMass_strip (hT : 0 < T) {j : ℕ} (hj : 1 ≤ j) :
    sectorMass T a b k j + stripDens (layerHigh T a b j) (layerLow T a b k) T a b = stripDens (layerHigh T a b j) (layerLow T a b (k + 1)) T a b :=
  sector_strip hT (layerLow_anti hT (Nat.lt_succ_self k)) (layerLow_le hT k) (layerHigh_gt hT hj)

theorem sector_pos {l u : ℝ} {f : ℝ → ℝ → ℝ≥0∞} (hT : 0 < T) (hl : l < u) (hf : Measurable fun p : ℝ × ℝ => f p.2 p.1)
    (h : ∀ m, l < m → m < u → ∀ s, 0 < s → s < T → f s m ≠ 0) : sectorInt T l u f ≠ 0 := by
  refine ((setLIntegral_pos_iff hf.lintegral_prod_right').2 ?_).ne'
  refine lt_of_lt_of_le (by rw [Real.volume_Ioo]; exact ENNReal.ofReal_pos.2 (by linarith) : 0 < volume (Ioo l u)) (measure_mono fun m hm => ⟨?_, hm⟩)
  refine ((setLIntegral_pos_iff (hf.comp (measurable_const.prodMk measurable_id : Measurable fun s : ℝ => (m, s)))).2 ?_).ne'
  refine lt_of_lt_of_le (by rw [Real.volume_Ioo]; exact ENNReal.ofReal_pos.2 (by linarith) : 0 < volume (Ioo 0 T)) (measure_mono fun s hs => ⟨?_, hs⟩)
  exact h m hm.1 hm.2 s hs.1 hs.2

theorem sectorMass_pos (hT : 0 < T) {j : ℕ} (hj : 1 ≤ j) : sectorMass T a b k j ≠ 0 ∧ sectorMass T a b k j ≠ ∞ := by
  have hfin : sectorMass T a b k j ≠ ∞ := by
    refine ne_top_of_le_ne_top (stripDens_pos hT (layerLow_lt (a := a) (b := b) hT (by omega : 1 ≤ k + 1)) (layerHigh_gt hT hj)).2 ?_
    rw [← sectorMass_strip hT hj]
    exact le_self_add
  refine ⟨sector_pos hT (layerLow_anti hT (Nat.lt_succ_self k)) (measurable_pair (measurable_stripEntr _) (measurable_stripEntr _) T a b) ?_, hfin⟩
  intro m hm hm' s hs hs'
  obtain ⟨h1, h2⟩ := lt_min_iff.1 (hm'.trans_le (layerLow_le (a := a) (b := b) hT k))
  obtain ⟨h3, h4⟩ := max_lt_iff.1 (layerHigh_gt (a := a) (b := b) hT hj)
  exact mul_ne_zero two_ne_zero (mul_ne_zero (stripEntr_pos hs h1 h3).1 (stripEntr_pos (sub_pos.2 hs') h2 h4).1)

theorem keptMass_pos (hT : 0 < T) (hk : 1 ≤ k) : keptMass T a b k ≠ 0 ∧ keptMass T a b k ≠ ∞ := by
  have h := keptMass_eq (a := a) (b := b) (k := k) hT
  have h1 := sectorMass_pos (a := a) (b := b) (k := k) hT (by omega : 1 ≤ k + 1)
  refine ⟨fun h0 => ?_, ?_⟩
  · rw [h0, zero_mul] at h
    exact h1.1 (add_eq_zero.1 h.symm).1
  · refine ne_top_of_le_ne_top h1.2 ?_
    rw [← keptMass_split hT]
    exact le_self_add

/-- The kept mass is half the mass of the layer. -/
theorem keptMass_layer (hT : 0 < T) (hk : 1 ≤ k) : keptMass T a b k * 2 + stripDens (layerHigh T a b k) (layerLow T a b k) T a b =
    stripDens (layerHigh T a b (k + 1)) (layerLow T a b (k + 1)) T a b := by
  rw [keptMass_eq hT, add_assoc, sectorMass_strip hT hk, strip_mirror hT (by omega) hk, sectorMass_strip hT (by omega)]

end Mass

/-! ## The loop -/

/-- What `sample_edges` returns in layer `k + 1`. -/
noncomputable def edgesOut (T a b : ℝ) (k : ℕ) (flags : Option (List Bool)) (p : ℝ × ℝ) : ℝ × ℝ × ℝ × ℝ × Option (List Bool) :=
  (p.1, p.2, layerHigh T a b k, layerHigh T a b (k + 1), flags)

theorem edges_law {j : ℕ} (hT : 0 < T) (hk : 1 ≤ k) {G : ℝ × ℝ × ℝ × ℝ × Option (List Bool) → ℝ≥0∞} (hG : ∀ fl, Measurable fun p => G (edgesOut T a b k fl p)) :
    keptMass T a b k * (edgesLoop j T a b (layerLow T a b (k + 1), layerLow T a b k) (layerHigh T a b k, layerHigh T a b (k + 1)) n).lexp (onOk G) =
      roundsOk n (trials j (sectorRate T a b (layerLow T a b (k + 1)) (layerLow T a b k) (layerHigh T a b (k + 1)))) (keptMass T a b k / sectorMass T a b k (k + 1)) *
        sectorInt T (layerLow T a b (k + 1)) (layerLow T a b k) fun s m => ∑ f : Bool × Bool, 2 * flagWeight f *
          (passEntr (layerHigh T a b (k + 1)) (layerHigh T a b k) m s a f.1 * passEntr (layerHigh T a b (k + 1)) (layerHigh T a b k) m (T - s) b f.2) *
            G (edgesOut T a b k (some [f.1, f.2]) (s, m)) := by
  have hll := layerLow_anti (a := a) (b := b) hT (Nat.lt_succ_self k)
  have hlm := layerLow_lt (a := a) (b := b) hT hk
  have hhm := layerHigh_gt (a := a) (b := b) hT hk
  have hhh := layerHigh_gt (a := a) (b := b) hT (by omega : 1 ≤ k + 1)
  obtain ⟨h0, ht⟩ := sectorMass_pos (a := a) (b := b) (k := k) hT (by omega : 1 ≤ k + 1)
  refine rounds_solve (M := fun n => (edgesLoop j T a b (layerLow T a b (k + 1), layerLow T a b k) (layerHigh T a b k, layerHigh T a b (k + 1)) n).lexp (onOk G))
    h0 ht (keptMass_split hT) rfl (fun n => ?_) n
  simp only [edgesLoop]
  set rest := edgesLoop j T a b (layerLow T a b (k + 1), layerLow T a b k) (layerHigh T a b k, layerHigh T a b (k + 1)) n with hrest
  set R := rest.lexp (onOk G) with hR
  have hne : ¬ (min a b = layerLow T a b k ∨ min a b = layerHigh T a b k) := by
    rintro (h | h)
    · exact hlm.ne' h
    · exact (min_le_max.trans_lt hhm).ne h
  simp only [if_neg hne]
  set QQ : ℝ × ℝ → ℝ≥0∞ := fun q => ∑ f : Bool × Bool,
    passEntr (layerHigh T a b (k + 1)) (layerHigh T a b k) q.2 q.1 a f.1 * passEntr (layerHigh T a b (k + 1)) (layerHigh T a b k) q.2 (T - q.1) b f.2 *
        (flagWeight f * G (edgesOut T a b k (some [f.1, f.2]) q) + (1 - flagWeight f) * R) with hQ
  set SS : ℝ × ℝ → ℝ≥0∞ := fun q => stripEntr (layerHigh T a b (k + 1)) q.2 q.1 a * stripEntr (layerHigh T a b (k + 1)) q.2 (T - q.1) b with hSS
  have hpass : ∀ f : Bool × Bool, Measurable fun q : ℝ × ℝ =>
      passEntr (layerHigh T a b (k + 1)) (layerHigh T a b k) q.2 q.1 a f.1 * passEntr (layerHigh T a b (k + 1)) (layerHigh T a b k) q.2 (T - q.1) b f.2 :=
    fun f => (measurable_passPair (T := T) (a := a) (b := b) _ _ f).comp measurable_swap
  have hQm : Measurable QQ := Finset.measurable_fun_sum _ fun f _ => (hpass f).mul (((hG _).const_mul _).add_const _)
  have hSSm : Measurable SS :=
    ((measurable_stripEntr _).comp (by fun_prop : Measurable fun q : ℝ × ℝ => (q.2, q.1, a))).mul ((measurable_stripEntr _).comp (by fun_prop : Measurable fun q : ℝ × ℝ => (q.2, T - q.1, b)))
  have hpos : ∀ q : ℝ × ℝ, 0 < q.1 → q.1 < T → q.2 < a → q.2 < b → SS q ≠ 0 ∧ SS q ≠ ∞ := by
    intro q q1 q2 q3 q4
    obtain ⟨g1, g2⟩ := max_lt_iff.1 hhh
    have r1 := stripEntr_pos q1 q3 g1
    have r2 := stripEntr_pos (sub_pos.2 q2) q4 g2
    exact ⟨mul_ne_zero r1.1 r2.1, ENNReal.mul_ne_top r1.2 r2.2⟩
  rw [Prog.lexp_bind]
  have hcong : ∀ h : Res (ℝ × ℝ) → ℝ≥0∞, (∀ q : ℝ × ℝ, 0 < q.1 → q.1 < T → layerLow T a b (k + 1) ≤ q.2 → q.2 < layerLow T a b k → SS q * h (.ok q) = QQ q) →
      (∀ e, h (.error e) = 0) →
      (sampleLayerMin j T a b (some (layerHigh T a b (k + 1))) (some (layerLow T a b (k + 1))) (some (layerLow T a b k))).lexp h =
        (sampleLayerMin j T a b (some (layerHigh T a b (k + 1))) (some (layerLow T a b (k + 1))) (some (layerLow T a b k))).lexp (onOk fun q => QQ q / SS q) := by
    intro h h1 h2
    refine Prog.lexp_congr ?_
    rintro (e | ⟨s, m⟩) ho
    · exact h2 e
    obtain ⟨o1, o2, o3, o4, o5, o6, -⟩ := C40_layer_partial ho
    obtain ⟨p1, p2⟩ := hpos (s, m) o1 o2 o3 o4
    simp only [onOk]
    rw [← h1 (s, m) o1 o2 (o5 _ rfl) (o6 _ rfl), mul_comm, ENNReal.mul_div_cancel_right p1 p2]
  rw [hcong]
  · have hmin := min_sector (n := j) (F := fun q => QQ q / SS q) hT hll hlm.le hhh (hQm.div hSSm)
    unfold sectorMass
    rw [hmin]
    congr 1
    have e1 : sectorInt T (layerLow T a b (k + 1)) (layerLow T a b k) (fun s m => 2 * (stripEntr (layerHigh T a b (k + 1)) m s a * stripEntr (layerHigh T a b (k + 1)) m (T - s) b) * (QQ (s, m) / SS (s, m))) =
        sectorInt T (layerLow T a b (k + 1)) (layerLow T a b k) (fun s m => (∑ f : Bool × Bool, 2 * flagWeight f *
          (passEntr (layerHigh T a b (k + 1)) (layerHigh T a b k) m s a f.1 * passEntr (layerHigh T a b (k + 1)) (layerHigh T a b k) m (T - s) b f.2) *
            G (edgesOut T a b k (some [f.1, f.2]) (s, m))) + (∑ f : Bool × Bool, 2 * (1 - flagWeight f) *
    (passEntr (layerHigh T a b (k + 1)) (layerHigh T a b k) m s a f.1 * passEntr (layerHigh T a b (k + 1)) (layerHigh T a b k) m (T - s) b f.2)) * R) := by
      refine sector_cong fun m hm hm' s hs hs' => ?_
      obtain ⟨g1, g2⟩ := lt_min_iff.1 (hm'.trans hlm)
      obtain ⟨p1, p2⟩ := hpos (s, m) hs hs' g1 g2
      rw [mul_assoc, show stripEntr (layerHigh T a b (k + 1)) m s a * stripEntr (layerHigh T a b (k + 1)) m (T - s) b = SS (s, m) from rfl, ENNReal.mul_div_cancel p1 p2,
        Finset.sum_mul, ← Finset.sum_add_distrib, hQ, Finset.mul_sum]
      refine Finset.sum_congr rfl fun f _ => ?_
      ring
    rw [e1, sector_add (Finset.measurable_fun_sum _ fun f _ => ((measurable_passPair _ _ f).const_mul _).mul ((hG _).comp measurable_swap))]
    congr 1
    rw [sectorInt, sectorInt, ← lintegral_mul_const _ (Measurable.lintegral_prod_right' (f := fun p : ℝ × ℝ => ∑ f : Bool × Bool, 2 * (1 - flagWeight f) *
      (passEntr (layerHigh T a b (k + 1)) (layerHigh T a b k) p.1 p.2 a f.1 * passEntr (layerHigh T a b (k + 1)) (layerHigh T a b k) p.1 (T - p.2) b f.2))
      (Finset.measurable_fun_sum _ fun f _ => (measurable_passPair _ _ f).const_mul _))]
    refine lintegral_congr fun m => ?_
    exact lintegral_mul_const _ (Finset.measurable_fun_sum _ fun f _ => ((measurable_passPair (a := a) (b := b) (T := T) (layerHigh T a b (k + 1)) (layerHigh T a b k) f).comp
      (measurable_const.prodMk measurable_id : Measurable fun s : ℝ => (m, s))).const_mul _)
  · intro q q1 q2 q3 q4
    rw [Prog.cont_ok]
    exact round_lexp hT hk q1 q2 q3 q4 (fun e1 e2 => (q.1, q.2, layerHigh T a b k, layerHigh T a b (k + 1), some [e1, e2])) rest G
  · intro e
    rfl

/-- The first layer, without flags. -/
theorem edges_first {j : ℕ} (hT : 0 < T) {G : ℝ × ℝ × ℝ × ℝ × Option (List Bool) → ℝ≥0∞} (hG : ∀ fl, Measurable fun p => G (edgesOut T a b 0 fl p)) :
    sectorMass T a b 0 1 * (edgesLoop j T a b (layerLow T a b 1, layerLow T a b 0) (layerHigh T a b 0, layerHigh T a b 1) (n + 1)).lexp (onOk G) =
      trials j (sectorRate T a b (layerLow T a b 1) (layerLow T a b 0) (layerHigh T a b 1)) *
        sectorInt T (layerLow T a b 1) (layerLow T a b 0) fun s m => 2 * (stripEntr (layerHigh T a b 1) m s a * stripEntr (layerHigh T a b 1) m (T - s) b) *
            G (edgesOut T a b 0 none (s, m)) := by
  have hll := layerLow_anti (a := a) (b := b) hT (Nat.lt_succ_self 0)
  have hhh := layerHigh_gt (a := a) (b := b) hT le_rfl
  have hmin := min_sector (n := j) (F := fun q => G (edgesOut T a b 0 none q)) hT hll (layerLow_le hT 0) hhh (hG none)
  simp only [edgesLoop]
  rw [Prog.lexp_bind]
  unfold sectorMass
  refine Eq.trans ?_ hmin
  congr 1
  refine Prog.lexp_congr ?_
  rintro (e | ⟨s, m⟩) ho
  · rfl
  · rw [Prog.cont_ok, if_pos (Or.inl (layerLow_zero T a b).symm)]
    rfl

end Ctb
