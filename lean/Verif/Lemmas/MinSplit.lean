import Verif.Lemmas.Kernel

/-! # Splitting a path at its minimum -/

set_option linter.unusedSectionVars false

namespace Ctb

open MeasureTheory Set
open scoped ENNReal

/-- Kernels `K m v x y` of a path above `m`, and `E m v y` of a path that enters from `m`, linked by the decomposition at the minimum. -/
structure LayerKer (E : ℝ → ℝ → ℝ → ℝ≥0∞) (K : ℝ → ℝ → ℝ → ℝ → ℝ≥0∞) : Prop where
  measE : Measurable fun p : ℝ × ℝ × ℝ => E p.1 p.2.1 p.2.2
  measK : MeasK K
  symm : ∀ m v x y, K m v x y = K m v y x
  split : ∀ {v : ℝ}, 0 < v → ∀ m x y, ∫⁻ m' in Ioi m, ∫⁻ s in Ioo 0 v, 2 * (E m' s x * E m' (v - s) y) = K m v x y

variable {E : ℝ → ℝ → ℝ → ℝ≥0∞} {K : ℝ → ℝ → ℝ → ℝ → ℝ≥0∞}

/-- Two tails: the product of two tail integrals, split by which of the two variables is smaller. -/
theorem tail_product {f g : ℝ → ℝ≥0∞} (hf : Measurable f) (hg : Measurable g) (m : ℝ) :
    (∫⁻ u in Ioi m, f u) * (∫⁻ u in Ioi m, g u) = ∫⁻ u in Ioi m, (f u * (∫⁻ t in Ioi u, g t) + (∫⁻ t in Ioi u, f t) * g u) := by
  have hT : ∀ {h : ℝ → ℝ≥0∞}, Measurable h → Measurable fun u => ∫⁻ t in Ioi u, h t := by
    intro h hh
    have e : (fun u => ∫⁻ t in Ioi u, h t) = fun u => ∫⁻ t, {q : ℝ × ℝ | q.1 < q.2}.indicator (fun q => h q.2) (u, t) := by
      funext u
      rw [← lintegral_indicator measurableSet_Ioi]
      rfl
    rw [e]
    exact (Measurable.indicator (by fun_prop) (measurableSet_lt measurable_fst measurable_snd)).lintegral_prod_right'
  have hsplit : ∀ u ∈ Ioi m, ∫⁻ t in Ioi m, g t = (∫⁻ t in Ioi u, g t) + ∫⁻ t in Ioo m u, g t := by
    intro u hu
    have e : Ioi m = Ioi u ∪ Ioc m u := by rw [union_comm, Ioc_union_Ioi_eq_Ioi (le_of_lt hu)]
    have hd : Disjoint (Ioi u) (Ioc m u) := by
      rw [Set.disjoint_left]; intro t h1 h2; exact absurd h2.2 (not_le.2 h1)
    rw [e, lintegral_union measurableSet_Ioc hd, setLIntegral_congr (Ioo_ae_eq_Ioc (μ := volume)).symm]
  have hswap : ∫⁻ u in Ioi m, f u * ∫⁻ t in Ioo m u, g t = ∫⁻ t in Ioi m, (∫⁻ u in Ioi t, f u) * g t := by
    set S : Set (ℝ × ℝ) := {q | q.2 < q.1} with hS
    have hSm : MeasurableSet S := measurableSet_lt measurable_snd measurable_fst
    have e1 : ∫⁻ u in Ioi m, f u * ∫⁻ t in Ioo m u, g t = ∫⁻ u in Ioi m, ∫⁻ t in Ioi m, S.indicator (fun q => f q.1 * g q.2) (u, t) := by
      refine setLIntegral_congr_fun measurableSet_Ioi fun u hu => ?_
      rw [← lintegral_const_mul _ hg, ← lintegral_indicator measurableSet_Ioo, ← lintegral_indicator measurableSet_Ioi]
      refine lintegral_congr fun t => ?_
      by_cases h1 : m < t
      · rw [indicator_of_mem (s := Ioi m) (by exact h1)]
        by_cases h2 : t < u
        · rw [indicator_of_mem (by exact ⟨h1, h2⟩), indicator_of_mem (by exact h2)]
        · rw [indicator_of_notMem (by exact fun h => h2 h.2), indicator_of_notMem (by exact h2)]
      · rw [indicator_of_notMem (by exact fun h => h1 h.1), indicator_of_notMem (by exact h1)]
    have e2 : ∫⁻ t in Ioi m, (∫⁻ u in Ioi t, f u) * g t = ∫⁻ t in Ioi m, ∫⁻ u in Ioi m, S.indicator (fun q => f q.1 * g q.2) (u, t) := by
      refine setLIntegral_congr_fun measurableSet_Ioi fun t ht => ?_
      rw [← lintegral_mul_const _ hf, ← lintegral_indicator measurableSet_Ioi, ← lintegral_indicator measurableSet_Ioi]
      refine lintegral_congr fun u => ?_
      by_cases h1 : t < u
      · rw [indicator_of_mem (by exact h1), indicator_of_mem (by exact lt_trans ht h1), indicator_of_mem (by exact h1)]
      · rw [indicator_of_notMem (by exact h1)]
        by_cases h2 : m < u
        · rw [indicator_of_mem (by exact h2), indicator_of_notMem (by exact h1)]
        · rw [indicator_of_notMem (by exact h2)]
    rw [e1, e2]
    have hm : Measurable (S.indicator fun q => f q.1 * g q.2) := Measurable.indicator (by fun_prop) hSm
    exact lintegral_lintegral_swap (f := fun u t => S.indicator (fun q => f q.1 * g q.2) (u, t)) hm.aemeasurable
  have hfg : Measurable fun u => f u * ∫⁻ t in Ioi u, g t := hf.mul (hT hg)
  rw [lintegral_add_left hfg, ← hswap, ← lintegral_add_left hfg, ← lintegral_mul_const _ hf]
  refine setLIntegral_congr_fun measurableSet_Ioi fun u hu => ?_
  rw [hsplit u hu, mul_add]

/-- Density of the minimum of a segment. -/
noncomputable def gapDens (E : ℝ → ℝ → ℝ → ℝ≥0∞) (m v x y : ℝ) : ℝ≥0∞ := ∫⁻ s in Ioo 0 v, 2 * (E m s x * E m (v - s) y)

theorem LayerKer.measG (h : LayerKer E K) : MeasK (gapDens E) := fun v => by
  have hm : Measurable fun q : (ℝ × ℝ × ℝ) × ℝ => 2 * (E q.1.1 q.2 q.1.2.1 * E q.1.1 (v - q.2) q.1.2.2) := by
    refine measurable_const.mul (Measurable.mul ?_ ?_)
    · exact h.measE.comp (g := fun p : ℝ × ℝ × ℝ => E p.1 p.2.1 p.2.2) (f := fun q : (ℝ × ℝ × ℝ) × ℝ => (q.1.1, q.2, q.1.2.1)) (by fun_prop)
    · exact h.measE.comp (g := fun p : ℝ × ℝ × ℝ => E p.1 p.2.1 p.2.2) (f := fun q : (ℝ × ℝ × ℝ) × ℝ => (q.1.1, v - q.2, q.1.2.2)) (by fun_prop)
  exact hm.lintegral_prod_right'

/-- Integral over the values of a path whose minimum is `m`. -/
noncomputable def minInt (E : ℝ → ℝ → ℝ → ℝ≥0∞) (K : ℝ → ℝ → ℝ → ℝ → ℝ≥0∞) (m b : ℝ) : List ℝ → ℝ → (List ℝ → ℝ≥0∞) → ℝ≥0∞
  | [], _, _ => 0
  | [v], x, F => gapDens E m v x b * F []
  | v :: w :: vs, x, F => ∫⁻ y, (gapDens E m v x y * (kerInt (K m) b (w :: vs) y fun l => F (y :: l)) +
      K m v x y * minInt E K m b (w :: vs) y fun l => F (y :: l))

theorem minInt_measurable (h : LayerKer E K) (b : ℝ) : ∀ (vs : List ℝ) {X : Type} [MeasurableSpace X] {F : X → List ℝ → ℝ≥0∞} {x m : X → ℝ},
    MeasL (vs.length - 1) F → Measurable x → Measurable m → Measurable fun p => minInt E K (m p) b vs (x p) (F p)
  | [], _, _, F, x, m, hF, _, _ => by simp [minInt]
  | [v], _, _, F, x, m, hF, hx, hm => by
    simp only [minInt]
    exact (h.measG.apply v hm hx measurable_const).mul (MeasL.zero_apply hF)
  | v :: w :: vs, X, _, F, x, m, hF, hx, hm => by
    have ih := minInt_measurable h b (w :: vs) (X := X × ℝ) (F := fun p l => F p.1 (p.2 :: l)) (x := Prod.snd) (m := fun p => m p.1)
      (MeasL.cons hF) measurable_snd (hm.comp measurable_fst)
    have ih2 := kerInt_measurable b (w :: vs) (X := X × ℝ) (k := fun p => K (m p.1)) (F := fun p l => F p.1 (p.2 :: l)) (x := Prod.snd)
      (h.measK.comp (hm.comp measurable_fst)) (MeasL.cons hF) measurable_snd
    exact (((h.measG.apply v (hm.comp measurable_fst) (hx.comp measurable_fst) measurable_snd).mul ih2).add
      ((h.measK.apply v (hm.comp measurable_fst) (hx.comp measurable_fst) measurable_snd).mul ih)).lintegral_prod_right'

/-- Integrating out the minimum. -/
theorem minInt_tail (h : LayerKer E K) (b : ℝ) : ∀ (vs : List ℝ), (∀ v ∈ vs, 0 < v) → ∀ (x m : ℝ) {F : List ℝ → ℝ≥0∞}, MeasL (vs.length - 1) (fun _ : Unit => F) →
    ∫⁻ m' in Ioi m, minInt E K m' b vs x F = kerInt (K m) b vs x F
  | [], _, _, _, _, _ => by simp [minInt, kerInt]
  | [v], hp, x, m, F, hF => by
    simp only [minInt, kerInt]
    have hG : Measurable fun m => gapDens E m v x b := h.measG.apply v measurable_id measurable_const measurable_const
    rw [lintegral_mul_const _ hG]
    simp only [gapDens]
    rw [h.split (hp v (by simp))]
  | v :: w :: vs, hp, x, m, F, hF => by
    have hp' : ∀ u ∈ w :: vs, 0 < u := fun u hu => hp u (List.mem_cons_of_mem _ hu)
    have hF1 : MeasL ((w :: vs).length - 1) fun (r : ℝ) l => F (r :: l) :=
      (MeasL.cons hF).comp (φ := fun y : ℝ => ((), y)) (measurable_const.prodMk measurable_id)
    have hm2 : Measurable fun q : ℝ × ℝ => gapDens E q.1 v x q.2 * (kerInt (K q.1) b (w :: vs) q.2 fun l => F (q.2 :: l)) +
        K q.1 v x q.2 * minInt E K q.1 b (w :: vs) q.2 fun l => F (q.2 :: l) := by
      have hFq : MeasL ((w :: vs).length - 1) fun (q : ℝ × ℝ) l => F (q.2 :: l) := hF1.comp (φ := Prod.snd) measurable_snd
      refine (Measurable.mul ?_ ?_).add (Measurable.mul ?_ ?_)
      · exact h.measG.apply v measurable_fst measurable_const measurable_snd
      · exact kerInt_measurable b (w :: vs) (h.measK.comp measurable_fst) hFq measurable_snd
      · exact h.measK.apply v measurable_fst measurable_const measurable_snd
      · exact minInt_measurable h b (w :: vs) hFq measurable_snd measurable_fst
    simp only [minInt, kerInt]
    rw [lintegral_lintegral_swap (f := fun m y => gapDens E m v x y * (kerInt (K m) b (w :: vs) y fun l => F (y :: l)) +
        K m v x y * minInt E K m b (w :: vs) y fun l => F (y :: l)) hm2.aemeasurable]
    refine lintegral_congr fun y => ?_
    have hf : Measurable fun m => gapDens E m v x y := h.measG.apply v measurable_id measurable_const measurable_const
    have hg : Measurable fun m => minInt E K m b (w :: vs) y fun l => F (y :: l) :=
      minInt_measurable h b (w :: vs) (hF1.comp (φ := fun _ : ℝ => y) measurable_const) measurable_const measurable_id
    have ht := tail_product hf hg m
    have e1 : ∀ m, ∫⁻ u in Ioi m, gapDens E u v x y = K m v x y := fun m => h.split (hp v List.mem_cons_self) m x y
    have e2 : ∀ m, ∫⁻ u in Ioi m, (minInt E K u b (w :: vs) y fun l => F (y :: l)) = kerInt (K m) b (w :: vs) y fun l => F (y :: l) := fun m =>
      minInt_tail h b (w :: vs) hp' y m (F := fun l => F (y :: l)) (hF1.const y)
    simp only [e1, e2] at ht
    rw [ht]

/-! ## the time of the minimum -/

open Classical in
/-- Integral over the values of a path whose minimum is `m`, reached at time `s`. -/
noncomputable def splitInt (E : ℝ → ℝ → ℝ → ℝ≥0∞) (K : ℝ → ℝ → ℝ → ℝ → ℝ≥0∞) (m b : ℝ) : List ℝ → ℝ → ℝ → (List ℝ → ℝ≥0∞) → ℝ≥0∞
  | [], _, _, _ => 0
  | [v], x, s, F => E m s x * (E m (v - s) b * F [])
  | v :: w :: vs, x, s, F =>
    if s < v then E m s x * ∫⁻ y, E m (v - s) y * kerInt (K m) b (w :: vs) y fun l => F (y :: l)
    else ∫⁻ y, K m v x y * splitInt E K m b (w :: vs) y (s - v) fun l => F (y :: l)

theorem LayerKer.applyE (h : LayerKer E K) {X : Type} [MeasurableSpace X] {m s y : X → ℝ} (hm : Measurable m) (hs : Measurable s) (hy : Measurable y) :
    Measurable fun q => E (m q) (s q) (y q) :=
  h.measE.comp (g := fun p : ℝ × ℝ × ℝ => E p.1 p.2.1 p.2.2) (hm.prodMk (hs.prodMk hy))

theorem splitInt_measurable (h : LayerKer E K) (b : ℝ) : ∀ (vs : List ℝ) {X : Type} [MeasurableSpace X] {F : X → List ℝ → ℝ≥0∞} {x m s : X → ℝ},
    MeasL (vs.length - 1) F → Measurable x → Measurable m → Measurable s → Measurable fun p => splitInt E K (m p) b vs (x p) (s p) (F p)
  | [], _, _, F, x, m, s, hF, _, _, _ => by simp [splitInt]
  | [v], _, _, F, x, m, s, hF, hx, hm, hs => by
    simp only [splitInt]
    exact (h.applyE hm hs hx).mul ((h.applyE hm (measurable_const.sub hs) measurable_const).mul (MeasL.zero_apply hF))
  | v :: w :: vs, X, _, F, x, m, s, hF, hx, hm, hs => by
    have ih := splitInt_measurable h b (w :: vs) (X := X × ℝ) (F := fun p l => F p.1 (p.2 :: l)) (x := Prod.snd) (m := fun p => m p.1) (s := fun p => s p.1 - v)
      (MeasL.cons hF) measurable_snd (hm.comp measurable_fst) ((hs.comp measurable_fst).sub_const v)
    have ih2 := kerInt_measurable b (w :: vs) (X := X × ℝ) (k := fun p => K (m p.1)) (F := fun p l => F p.1 (p.2 :: l)) (x := Prod.snd)
      (h.measK.comp (hm.comp measurable_fst)) (MeasL.cons hF) measurable_snd
    simp only [splitInt]
    refine Measurable.ite (measurableSet_lt hs measurable_const) ((h.applyE hm hs hx).mul ?_) ?_
    · exact ((h.applyE (hm.comp measurable_fst) (measurable_const.sub (hs.comp measurable_fst)) measurable_snd).mul ih2).lintegral_prod_right'
    · exact ((h.measK.apply v (hm.comp measurable_fst) (hx.comp measurable_fst) measurable_snd).mul ih).lintegral_prod_right'

theorem lintegral_Ioo_back (f : ℝ → ℝ≥0∞) (v R : ℝ) : ∫⁻ s in Ioo v (v + R), f (s - v) = ∫⁻ s in Ioo 0 R, f s := by
  rw [← lintegral_indicator measurableSet_Ioo, ← lintegral_indicator measurableSet_Ioo,
    ← lintegral_sub_right_eq_self (μ := volume) (fun s => (Ioo 0 R).indicator f s) v]
  refine lintegral_congr fun s => ?_
  simp only [indicator, mem_Ioo]
  refine if_congr ?_ rfl rfl
  constructor <;> rintro ⟨h1, h2⟩ <;> constructor <;> linarith

/-- Integrating out the time of the minimum. -/
theorem splitInt_time (h : LayerKer E K) (m b : ℝ) : ∀ (vs : List ℝ), (∀ v ∈ vs, 0 < v) → ∀ (x : ℝ) {F : List ℝ → ℝ≥0∞}, MeasL (vs.length - 1) (fun _ : Unit => F) →
    ∫⁻ s in Ioo 0 vs.sum, 2 * splitInt E K m b vs x s F = minInt E K m b vs x F
  | [], _, _, _, _ => by simp [splitInt, minInt]
  | [v], hp, x, F, hF => by
    simp only [splitInt, minInt, gapDens, List.sum_cons, List.sum_nil, add_zero]
    have hEE : Measurable fun s => 2 * (E m s x * E m (v - s) b) :=
      measurable_const.mul ((h.applyE measurable_const measurable_id measurable_const).mul
        (h.applyE measurable_const (measurable_const.sub measurable_id) measurable_const))
    rw [← lintegral_mul_const _ hEE]
    refine lintegral_congr fun s => ?_
    ring
  | v :: w :: vs, hp, x, F, hF => by
    have hv : 0 < v := hp v List.mem_cons_self
    have hp' : ∀ u ∈ w :: vs, 0 < u := fun u hu => hp u (List.mem_cons_of_mem _ hu)
    have hs : 0 < (w :: vs).sum := List.sum_pos _ hp' (by simp)
    have hF1 : MeasL ((w :: vs).length - 1) fun (r : ℝ) l => F (r :: l) :=
      (MeasL.cons hF).comp (φ := fun y : ℝ => ((), y)) (measurable_const.prodMk measurable_id)
    have hker : Measurable fun y => kerInt (K m) b (w :: vs) y fun l => F (y :: l) :=
      kerInt_measurable b (w :: vs) (h.measK.comp measurable_const) hF1 measurable_id
    have hmin : Measurable fun y => minInt E K m b (w :: vs) y fun l => F (y :: l) :=
      minInt_measurable h b (w :: vs) hF1 measurable_id measurable_const
    have hK : Measurable fun y => K m v x y := h.measK.apply v (p := fun _ : ℝ => m) measurable_const measurable_const measurable_id
    have hG : Measurable fun y => gapDens E m v x y := h.measG.apply v (p := fun _ : ℝ => m) measurable_const measurable_const measurable_id
    have e : Ioo 0 (v :: w :: vs).sum = Ioo 0 v ∪ Ico v (v + (w :: vs).sum) := by
      rw [List.sum_cons, Ioo_union_Ico_eq_Ioo hv (by linarith)]
    have hd : Disjoint (Ioo 0 v) (Ico v (v + (w :: vs).sum)) := by
      rw [Set.disjoint_left]; intro t h1 h2; exact absurd h2.1 (not_le.2 h1.2)
    rw [e, lintegral_union measurableSet_Ico hd, minInt]
    have hGk : Measurable fun y => gapDens E m v x y * kerInt (K m) b (w :: vs) y fun l => F (y :: l) := hG.mul hker
    rw [lintegral_add_left hGk]
    congr 1
    · have hm : Measurable fun q : ℝ × ℝ => 2 * (E m q.1 x * (E m (v - q.1) q.2 * kerInt (K m) b (w :: vs) q.2 fun l => F (q.2 :: l))) := by
        refine measurable_const.mul ((h.applyE measurable_const measurable_fst measurable_const).mul
          ((h.applyE measurable_const (measurable_const.sub measurable_fst) measurable_snd).mul ?_))
        exact hker.comp measurable_snd
      have e1 : ∀ s ∈ Ioo 0 v, 2 * splitInt E K m b (v :: w :: vs) x s F =
          ∫⁻ y, 2 * (E m s x * (E m (v - s) y * kerInt (K m) b (w :: vs) y fun l => F (y :: l))) := by
        intro s hs'
        have hi : Measurable fun y => E m (v - s) y * kerInt (K m) b (w :: vs) y fun l => F (y :: l) :=
          (h.applyE measurable_const measurable_const measurable_id).mul hker
        simp only [splitInt]
        rw [if_pos hs'.2, lintegral_const_mul _ (hi.const_mul _), lintegral_const_mul _ hi]
      rw [setLIntegral_congr_fun measurableSet_Ioo e1,
        lintegral_lintegral_swap (f := fun s y => 2 * (E m s x * (E m (v - s) y * kerInt (K m) b (w :: vs) y fun l => F (y :: l)))) hm.aemeasurable]
      refine lintegral_congr fun y => ?_
      have hEE : Measurable fun s => 2 * (E m s x * E m (v - s) y) :=
        measurable_const.mul ((h.applyE measurable_const measurable_id measurable_const).mul
          (h.applyE measurable_const (measurable_const.sub measurable_id) measurable_const))
      rw [gapDens, ← lintegral_mul_const _ hEE]
      refine lintegral_congr fun s => ?_
      ring
    · rw [setLIntegral_congr (Ioo_ae_eq_Ico (μ := volume)).symm]
      have e1 : ∀ s ∈ Ioo v (v + (w :: vs).sum), 2 * splitInt E K m b (v :: w :: vs) x s F =
          (fun s => 2 * ∫⁻ y, K m v x y * splitInt E K m b (w :: vs) y s fun l => F (y :: l)) (s - v) := by
        intro s hs'
        simp only [splitInt]
        rw [if_neg (not_lt.2 hs'.1.le)]
      rw [setLIntegral_congr_fun measurableSet_Ioo e1,
        lintegral_Ioo_back (fun s => 2 * ∫⁻ y, K m v x y * splitInt E K m b (w :: vs) y s fun l => F (y :: l))]
      have hsm : Measurable fun q : ℝ × ℝ => splitInt E K m b (w :: vs) q.2 q.1 fun l => F (q.2 :: l) :=
        splitInt_measurable h b (w :: vs) (hF1.comp (φ := Prod.snd) measurable_snd) measurable_snd measurable_const measurable_fst
      have hm : Measurable fun q : ℝ × ℝ => K m v x q.2 * (2 * splitInt E K m b (w :: vs) q.2 q.1 fun l => F (q.2 :: l)) :=
        (hK.comp measurable_snd).mul (measurable_const.mul hsm)
      have e2 : ∀ s, 2 * (∫⁻ y, K m v x y * splitInt E K m b (w :: vs) y s fun l => F (y :: l)) =
          ∫⁻ y, K m v x y * (2 * splitInt E K m b (w :: vs) y s fun l => F (y :: l)) := by
        intro s
        have hs2 : Measurable fun y => splitInt E K m b (w :: vs) y s fun l => F (y :: l) :=
          splitInt_measurable h b (w :: vs) hF1 measurable_id measurable_const measurable_const
        have hs4 : Measurable fun y => K m v x y * splitInt E K m b (w :: vs) y s fun l => F (y :: l) := hK.mul hs2
        rw [← lintegral_const_mul _ hs4]
        refine lintegral_congr fun y => ?_
        ring
      rw [lintegral_congr e2, lintegral_lintegral_swap (f := fun s y => K m v x y * (2 * splitInt E K m b (w :: vs) y s fun l => F (y :: l))) hm.aemeasurable]
      refine lintegral_congr fun y => ?_
      have hs3 : Measurable fun s => splitInt E K m b (w :: vs) y s fun l => F (y :: l) :=
        splitInt_measurable h b (w :: vs) (hF1.comp (φ := fun _ : ℝ => y) measurable_const) measurable_const measurable_const measurable_id
      rw [lintegral_const_mul _ (hs3.const_mul 2), splitInt_time h m b (w :: vs) hp' y (F := fun l => F (y :: l)) (hF1.const y)]

/-! ## the two halves -/

section
variable {α X : Type} [MeasureSpace α] [MeasurableSpace X]

theorem MeasL.reverse {n : ℕ} {F : X → List α → ℝ≥0∞} (h : MeasL n F) : MeasL n fun x (l : List α) => F x l.reverse := by
  unfold MeasL at *
  have e : (fun p : X × (Fin n → α) => F p.1 (List.ofFn p.2).reverse) = (fun p : X × (Fin n → α) => F p.1 (List.ofFn p.2)) ∘ fun p => (p.1, fun i => p.2 i.rev) := by
    funext p
    simp only [Function.comp]
    congr 1
    apply List.ext_getElem
    · simp
    · intro i h1 h2
      simp only [List.length_ofFn] at h2
      simp only [List.getElem_reverse, List.getElem_ofFn]
      congr 1
      have : (⟨(List.ofFn p.2).length - 1 - i, by simp; omega⟩ : Fin n) = (⟨i, h2⟩ : Fin n).rev := by
        apply Fin.ext
        simp
        omega
      exact congrArg p.2 this
  rw [e]
  exact h.comp (measurable_fst.prodMk (measurable_pi_lambda _ fun i => (measurable_pi_apply _).comp measurable_snd))

theorem MeasL.append {n k : ℕ} {F : X → List α → ℝ≥0∞} (h : MeasL (n + k) F) :
    MeasL k fun (p : X × (Fin n → α)) (l : List α) => F p.1 (List.ofFn p.2 ++ l) := by
  unfold MeasL at *
  have e : (fun q : (X × (Fin n → α)) × (Fin k → α) => F q.1.1 (List.ofFn q.1.2 ++ List.ofFn q.2)) =
      (fun p : X × (Fin (n + k) → α) => F p.1 (List.ofFn p.2)) ∘ fun q : (X × (Fin n → α)) × (Fin k → α) => (q.1.1, Fin.append q.1.2 q.2) := by
    funext q
    simp only [Function.comp]
    rw [List.ofFn_fin_append]
  rw [e]
  refine h.comp ((measurable_fst.comp measurable_fst).prodMk (measurable_pi_lambda _ fun i => ?_))
  refine Fin.addCases (fun j => ?_) (fun j => ?_) i
  · simp only [Fin.append_left]
    exact (measurable_pi_apply j).comp (measurable_snd.comp measurable_fst)
  · simp only [Fin.append_right]
    exact (measurable_pi_apply j).comp measurable_snd

variable [SigmaFinite (volume : Measure α)] {k : ℝ → α → α → ℝ≥0∞} {e : ℝ → α → ℝ≥0∞}

theorem MeasL.snoc {n : ℕ} {F : List α → ℝ≥0∞} (h : MeasL (n + 1) fun _ : X => F) : MeasL n fun (q : X × α) (l : List α) => F (l ++ [q.2]) := by
  have h1 : MeasL (n + 1) fun (_ : X) (l : List α) => F l.reverse := h.reverse
  have h2 := h1.cons.reverse
  refine Eq.mp ?_ h2
  congr 1
  funext q l
  simp

/-- The last value first. -/
theorem kerInt_append (hk : MeasK fun _ : Unit => k) (v : ℝ) (a : α) : ∀ (ws : List ℝ), ws ≠ [] → ∀ (x : α) {G : List α → ℝ≥0∞}, MeasL ws.length (fun _ : Unit => G) →
    kerInt k a (ws ++ [v]) x G = ∫⁻ y, (kerInt k y ws x fun l => G (l ++ [y])) * k v y a
  | [], h, _, _, _ => absurd rfl h
  | [u], _, x, G, _ => by
    simp only [List.cons_append, List.nil_append, kerInt]
    refine lintegral_congr fun y => ?_
    ring
  | u :: w :: ws, _, x, G, hG => by
    have hG1 : MeasL (w :: ws).length fun (r : α) l => G (r :: l) :=
      (MeasL.cons hG).comp (φ := fun y : α => ((), y)) (measurable_const.prodMk measurable_id)
    have hG2 : MeasL ((w :: ws).length - 1) fun (q : α × α) l => G (q.1 :: (l ++ [q.2])) := by
      have h1 : MeasL (((w :: ws).length - 1) + 1) fun (q : α) (l : List α) => G (q :: l.reverse) := hG1.reverse
      have h2 := h1.cons.reverse
      refine Eq.mp ?_ h2
      congr 1
      funext q l
      simp
    have hm : Measurable fun q : α × α => k u x q.1 * ((kerInt k q.2 (w :: ws) q.1 fun l => G (q.1 :: (l ++ [q.2]))) * k v q.2 a) := by
      refine (hk.apply u (p := fun _ => ()) measurable_const measurable_const measurable_fst).mul (Measurable.mul ?_ ?_)
      · exact kerInt_measurable_end (w :: ws) (k := fun _ : α × α => k) (hk.comp (φ := fun _ : α × α => ()) measurable_const) hG2 measurable_fst measurable_snd
      · exact hk.apply v (p := fun _ => ()) measurable_const measurable_snd measurable_const
    have e1 : ∀ z, k u x z * (kerInt k a (w :: (ws ++ [v])) z fun l => G (z :: l)) =
        ∫⁻ y, k u x z * ((kerInt k y (w :: ws) z fun l => G (z :: (l ++ [y]))) * k v y a) := by
      intro z
      have h1 := kerInt_append hk v a (w :: ws) (by simp) z (G := fun l => G (z :: l)) (hG1.const z)
      rw [List.cons_append] at h1
      rw [h1, lintegral_const_mul]
      refine Measurable.mul ?_ ?_
      · exact kerInt_measurable_end (w :: ws) (k := fun _ : α => k) (hk.comp (φ := fun _ : α => ()) measurable_const)
          (hG2.comp (φ := fun y : α => (z, y)) (measurable_const.prodMk measurable_id)) measurable_const measurable_id
      · exact hk.apply v (p := fun _ => ()) measurable_const measurable_id measurable_const
    have hun : kerInt k a (u :: w :: ws ++ [v]) x G = ∫⁻ z, k u x z * kerInt k a (w :: (ws ++ [v])) z fun l => G (z :: l) := rfl
    rw [hun, lintegral_congr e1,
      lintegral_lintegral_swap (f := fun z y => k u x z * ((kerInt k y (w :: ws) z fun l => G (z :: (l ++ [y]))) * k v y a)) hm.aemeasurable]
    refine lintegral_congr fun y => ?_
    rw [lintegral_congr fun z => (mul_assoc (k u x z) _ _).symm, lintegral_mul_const]
    · rfl
    · refine (hk.apply u (p := fun _ => ()) measurable_const measurable_const measurable_id).mul ?_
      exact kerInt_measurable_end (w :: ws) (k := fun _ : α => k) (hk.comp (φ := fun _ : α => ()) measurable_const)
          (hG2.comp (φ := fun z : α => (z, y)) (measurable_id.prodMk measurable_const)) measurable_id measurable_const

theorem startInt_append (hk : MeasK fun _ : Unit => k) (he : ∀ v, Measurable (e v)) (v u : ℝ) (a : α) (ws : List ℝ) {G : List α → ℝ≥0∞}
    (hG : MeasL (ws.length + 1) (fun _ : Unit => G)) :
    startInt e k a (u :: ws ++ [v]) G = ∫⁻ y, (startInt e k y (u :: ws) fun l => G (l ++ [y])) * k v y a := by
  match ws, hG with
  | [], hG =>
    simp only [List.cons_append, List.nil_append, startInt, kerInt]
    refine lintegral_congr fun y => ?_
    ring
  | w :: ws, hG =>
    have hG1 : MeasL (w :: ws).length fun (r : α) l => G (r :: l) :=
      (MeasL.cons hG).comp (φ := fun y : α => ((), y)) (measurable_const.prodMk measurable_id)
    have hG2 : MeasL ((w :: ws).length - 1) fun (q : α × α) l => G (q.1 :: (l ++ [q.2])) := by
      have h1 : MeasL (((w :: ws).length - 1) + 1) fun (q : α) (l : List α) => G (q :: l.reverse) := hG1.reverse
      have h2 := h1.cons.reverse
      refine Eq.mp ?_ h2
      congr 1
      funext q l
      simp
    have hm : Measurable fun q : α × α => e u q.1 * ((kerInt k q.2 (w :: ws) q.1 fun l => G (q.1 :: (l ++ [q.2]))) * k v q.2 a) := by
      refine ((he u).comp measurable_fst).mul (Measurable.mul ?_ ?_)
      · exact kerInt_measurable_end (w :: ws) (k := fun _ : α × α => k) (hk.comp (φ := fun _ : α × α => ()) measurable_const) hG2 measurable_fst measurable_snd
      · exact hk.apply v (p := fun _ => ()) measurable_const measurable_snd measurable_const
    have e1 : ∀ z, e u z * (kerInt k a (w :: (ws ++ [v])) z fun l => G (z :: l)) =
        ∫⁻ y, e u z * ((kerInt k y (w :: ws) z fun l => G (z :: (l ++ [y]))) * k v y a) := by
      intro z
      have h1 := kerInt_append hk v a (w :: ws) (by simp) z (G := fun l => G (z :: l)) (hG1.const z)
      rw [List.cons_append] at h1
      rw [h1, lintegral_const_mul]
      refine Measurable.mul ?_ ?_
      · exact kerInt_measurable_end (w :: ws) (k := fun _ : α => k) (hk.comp (φ := fun _ : α => ()) measurable_const)
          (hG2.comp (φ := fun y : α => (z, y)) (measurable_const.prodMk measurable_id)) measurable_const measurable_id
      · exact hk.apply v (p := fun _ => ()) measurable_const measurable_id measurable_const
    have hun : startInt e k a (u :: w :: ws ++ [v]) G = ∫⁻ z, e u z * kerInt k a (w :: (ws ++ [v])) z fun l => G (z :: l) := rfl
    rw [hun, lintegral_congr e1,
      lintegral_lintegral_swap (f := fun z y => e u z * ((kerInt k y (w :: ws) z fun l => G (z :: (l ++ [y]))) * k v y a)) hm.aemeasurable]
    refine lintegral_congr fun y => ?_
    rw [lintegral_congr fun z => (mul_assoc (e u z) _ _).symm, lintegral_mul_const]
    · rfl
    · refine (he u).mul ?_
      exact kerInt_measurable_end (w :: ws) (k := fun _ : α => k) (hk.comp (φ := fun _ : α => ()) measurable_const)
          (hG2.comp (φ := fun z : α => (z, y)) (measurable_id.prodMk measurable_const)) measurable_id measurable_const

end

open Classical in
/-- Durations of the segments before the time `s`. -/
noncomputable def leftIncs : ℝ → List ℝ → List ℝ
  | _, [] => []
  | s, [_] => [s]
  | s, v :: w :: vs => if s < v then [s] else v :: leftIncs (s - v) (w :: vs)

open Classical in
/-- Durations of the segments after the time `s`. -/
noncomputable def rightIncs : ℝ → List ℝ → List ℝ
  | _, [] => []
  | s, [v] => [v - s]
  | s, v :: w :: vs => if s < v then (v - s) :: w :: vs else rightIncs (s - v) (w :: vs)

theorem leftIncs_ne : ∀ (vs : List ℝ) (s : ℝ), vs ≠ [] → leftIncs s vs ≠ []
  | [], _, h => absurd rfl h
  | [v], s, _ => by simp [leftIncs]
  | v :: w :: vs, s, _ => by simp only [leftIncs]; split_ifs <;> simp

theorem rightIncs_ne : ∀ (vs : List ℝ) (s : ℝ), vs ≠ [] → rightIncs s vs ≠ []
  | [], _, h => absurd rfl h
  | [v], s, _ => by simp [rightIncs]
  | v :: w :: vs, s, _ => by
    simp only [rightIncs]; split_ifs
    · simp
    · exact rightIncs_ne (w :: vs) _ (by simp)

theorem incs_length : ∀ (vs : List ℝ) (s : ℝ), vs ≠ [] → ((leftIncs s vs).length - 1) + ((rightIncs s vs).length - 1) = vs.length - 1
  | [], _, h => absurd rfl h
  | [v], s, _ => by simp [leftIncs, rightIncs]
  | v :: w :: vs, s, _ => by
    simp only [leftIncs, rightIncs]; split_ifs
    · simp
    · have h1 := incs_length (w :: vs) (s - v) (by simp)
      have h2 := List.length_pos_iff.2 (leftIncs_ne (w :: vs) (s - v) (by simp))
      simp only [List.length_cons] at h1 ⊢
      omega

/-- The two halves are independent given the minimum: the earlier one, reversed, and the later one. -/
theorem splitInt_halves (h : LayerKer E K) (m b : ℝ) : ∀ (vs : List ℝ), vs ≠ [] → ∀ (x s : ℝ) {F : List ℝ → ℝ≥0∞}, MeasL (vs.length - 1) (fun _ : Unit => F) →
    splitInt E K m b vs x s F = startInt (E m) (K m) x (leftIncs s vs).reverse fun l1 =>
      startInt (E m) (K m) b (rightIncs s vs) fun l2 => F (l1.reverse ++ l2)
  | [], h, _, _, _, _ => absurd rfl h
  | [v], _, x, s, F, _ => by simp [splitInt, leftIncs, rightIncs, startInt]
  | v :: w :: vs, _, x, s, F, hF => by
    have hF1 : MeasL ((w :: vs).length - 1) fun (r : ℝ) l => F (r :: l) :=
      (MeasL.cons hF).comp (φ := fun y : ℝ => ((), y)) (measurable_const.prodMk measurable_id)
    by_cases hs : s < v
    · simp only [splitInt, leftIncs, rightIncs, if_pos hs, List.reverse_singleton, startInt, List.reverse_nil, List.nil_append]
    · have hlen := incs_length (w :: vs) (s - v) (by simp)
      simp only [splitInt, leftIncs, rightIncs, if_neg hs, List.reverse_cons]
      obtain ⟨u, L, hL⟩ : ∃ u L, (leftIncs (s - v) (w :: vs)).reverse = u :: L := by
        cases e : (leftIncs (s - v) (w :: vs)).reverse with
        | nil => exact absurd (List.reverse_eq_nil_iff.1 e) (leftIncs_ne _ _ (by simp))
        | cons u L => exact ⟨u, L, rfl⟩
      have hLl : (leftIncs (s - v) (w :: vs)).length = L.length + 1 := by
        rw [← List.length_reverse, hL]; simp
      have hG : MeasL (L.length + 1) fun (_ : Unit) (l1 : List ℝ) => startInt (E m) (K m) b (rightIncs (s - v) (w :: vs)) fun l2 => F (l1.reverse ++ l2) := by
        have h0 : MeasL (L.length + 1 + ((rightIncs (s - v) (w :: vs)).length - 1)) fun _ : Unit => F := by
          have : L.length + 1 + ((rightIncs (s - v) (w :: vs)).length - 1) = (v :: w :: vs).length - 1 := by
            simp only [List.length_cons] at hlen ⊢
            omega
          rw [this]; exact hF
        have h1 := startInt_measurable_end (rightIncs (s - v) (w :: vs)) (X := Unit × (Fin (L.length + 1) → ℝ)) (e := fun _ => E m) (k := fun _ => K m) (x1 := fun _ => b)
          (fun v => h.applyE measurable_const measurable_const measurable_snd) (h.measK.comp measurable_const) h0.append measurable_const
        have h2 : MeasL (L.length + 1) fun (_ : Unit) (l1 : List ℝ) => startInt (E m) (K m) b (rightIncs (s - v) (w :: vs)) fun l2 => F (l1 ++ l2) := h1
        exact h2.reverse
      have hE : ∀ v, Measurable (E m v) := fun v => h.applyE measurable_const measurable_const measurable_id
      rw [hL, startInt_append (h.measK.comp (φ := fun _ : Unit => m) measurable_const) hE v u x L hG]
      refine lintegral_congr fun y => ?_
      rw [splitInt_halves h m b (w :: vs) (by simp) y (s - v) (F := fun l => F (y :: l)) (hF1.const y), hL, h.symm, mul_comm]
      simp

end Ctb
