import Verif.Spec.Retro
import Verif.Lemmas.PointFill
import Verif.Lemmas.KerFlip

set_option linter.unusedSectionVars false

/-! # Paths that touch their infimum at the ends of a gap -/

namespace Ctb

open Classical MeasureTheory Set
open scoped ENNReal

variable {U m : ℝ} {n k : ℕ}

theorem edgeKer_symm (U m v x y : ℝ) : edgeKer U m v x y = edgeKer U m v y x := by
  unfold edgeKer
  split_ifs with h1 h2 h2
  · rw [h1, h2]
  · rfl
  · rfl
  · exact stripDens_symm U m v x y

theorem edgeKer_mid {v x y : ℝ} (hx : x ≠ m) (hy : y ≠ m) : edgeKer U m v x y = stripDens U m v x y := by
  rw [edgeKer, if_neg hx, if_neg hy]

theorem edgeKer_left {v y : ℝ} : edgeKer U m v m y = stripEntr U m v y := if_pos rfl

theorem edgeKer_right {v x : ℝ} : edgeKer U m v x m = stripEntr U m v x := by rw [edgeKer_symm, edgeKer_left]

theorem edgeKer_out {v x y : ℝ} (hU : m < U) (hy : y < m ∨ U ≤ y) : edgeKer U m v x y = 0 := by
  have hym : y ≠ m := by rintro rfl; rcases hy with h | h <;> linarith
  unfold edgeKer
  rw [if_neg hym]
  split_ifs
  · rcases hy with h | h
    · exact stripEntr_low h.le
    · exact stripEntr_high h
  · exact if_neg fun h => by rcases hy with h' | h' <;> linarith [h.1, h.2.1, h.2.2.1, h.2.2.2]

/-- Values at the two ends of a gap: in the strip, and not both at its lower edge. -/
def Good (U m x y : ℝ) : Prop := (m ≤ x ∧ x < U) ∧ (m ≤ y ∧ y < U) ∧ (m < x ∨ m < y)

theorem edgeKer_pos {v x y : ℝ} (hv : 0 < v) (h : Good U m x y) : edgeKer U m v x y ≠ 0 ∧ edgeKer U m v x y ≠ ∞ := by
  obtain ⟨⟨h1, h2⟩, ⟨h3, h4⟩, h5⟩ := h
  rcases h1.eq_or_lt with rfl | h1
  · have h5 : m < y := by simpa using h5
    rw [edgeKer_left]
    exact stripEntr_pos hv h5 h4
  rcases h3.eq_or_lt with rfl | h3
  · rw [edgeKer_right]
    exact stripEntr_pos hv h1 h2
  rw [edgeKer_mid h1.ne' h3.ne']
  exact stripDens_pos hv (lt_min h1 h3) (max_lt h2 h4)

theorem measurableSet_Good (U m : ℝ) {X : Type} [MeasurableSpace X] {x y : X → ℝ} (hx : Measurable x) (hy : Measurable y) :
    MeasurableSet {p | Good U m (x p) (y p)} :=
  ((measurableSet_le measurable_const hx).inter (measurableSet_lt hx measurable_const)).inter
    (((measurableSet_le measurable_const hy).inter (measurableSet_lt hy measurable_const)).inter
      ((measurableSet_lt measurable_const hx).union (measurableSet_lt measurable_const hy)))

theorem measK_edge (U m : ℝ) : MeasK fun _ : Unit => edgeKer U m := by
  intro v
  unfold edgeKer
  refine Measurable.ite (measurableSet_eq_fun (by fun_prop) measurable_const) ?_ (Measurable.ite (measurableSet_eq_fun (by fun_prop) measurable_const) ?_ ?_)
  · exact (measurable_stripEntr U).comp (by fun_prop : Measurable fun p : Unit × ℝ × ℝ => (m, v, p.2.2))
  · exact (measurable_stripEntr U).comp (by fun_prop : Measurable fun p : Unit × ℝ × ℝ => (m, v, p.2.1))
  · exact (measK_strip U v).comp (by fun_prop : Measurable fun p : Unit × ℝ × ℝ => (m, p.2.1, p.2.2))

theorem kerInt_edge_mid {y : ℝ} (hy : y ≠ m) : ∀ (vs : List ℝ) {x : ℝ}, x ≠ m → ∀ F, kerInt (edgeKer U m) y vs x F = kerInt (stripDens U m) y vs x F
  | [], _, _, _ => rfl
  | [v], x, hx, F => by simp only [kerInt]; rw [edgeKer_mid hx hy]
  | v :: w :: vs, x, hx, F => by
    simp only [kerInt]
    refine lintegral_congr_ae ?_
    filter_upwards [measure_eq_zero_iff_ae_notMem.1 (measure_singleton m)] with z hz
    have hz : z ≠ m := by simpa using hz
    rw [edgeKer_mid hx hz, kerInt_edge_mid hy (w :: vs) hz]

theorem kerInt_edge_left {y : ℝ} (hy : y ≠ m) (vs : List ℝ) (F : List ℝ → ℝ≥0∞) : kerInt (edgeKer U m) y vs m F = startInt (stripEntr U m) (stripDens U m) y vs F := by
  match vs with
  | [] => rfl
  | [v] => simp only [kerInt, startInt]; rw [edgeKer_left]
  | v :: w :: vs =>
    simp only [kerInt, startInt]
    refine lintegral_congr_ae ?_
    filter_upwards [measure_eq_zero_iff_ae_notMem.1 (measure_singleton m)] with z hz
    have hz : z ≠ m := by simpa using hz
    rw [edgeKer_left, kerInt_edge_mid hy (w :: vs) hz]

theorem kerInt_edge_right {x : ℝ} (hx : x ≠ m) (vs : List ℝ) {F : List ℝ → ℝ≥0∞} (hF : MeasL (vs.length - 1) fun _ : Unit => F) :
    kerInt (edgeKer U m) m vs x F = startInt (stripEntr U m) (stripDens U m) x vs.reverse fun l => F l.reverse := by
  rw [kerInt_rev (measK_edge U m) (edgeKer_symm U m) vs x m hF, kerInt_edge_left hx]

theorem kerInt_end_zero {K : ℝ → ℝ → ℝ → ℝ≥0∞} {y : ℝ} (h : ∀ v x, K v x y = 0) : ∀ (vs : List ℝ) (x : ℝ) (F : List ℝ → ℝ≥0∞), kerInt K y vs x F = 0
  | [], _, _ => rfl
  | [v], x, F => by simp only [kerInt]; rw [h, zero_mul]
  | v :: w :: vs, x, F => by simp only [kerInt]; simp [kerInt_end_zero h (w :: vs)]

theorem edge_mass {x y : ℝ} {vs : List ℝ} (h : Good U m x y) (hne : vs ≠ []) (hp : ∀ v ∈ vs, 0 < v) : kerInt (edgeKer U m) y vs x (fun _ => 1) = edgeKer U m vs.sum x y := by
  obtain ⟨⟨h1, h2⟩, ⟨h3, h4⟩, h5⟩ := h
  rcases h1.eq_or_lt with rfl | h1
  · have h5 : m < y := by simpa using h5
    rw [edgeKer_left, kerInt_edge_left h5.ne', strip_mass h5 h4 hne hp]
  rcases h3.eq_or_lt with rfl | h3
  · rw [edgeKer_right, kerInt_edge_right h1.ne' vs (F := fun _ => 1) measurable_const, strip_mass h1 h2 (by simpa using hne) (by simpa using hp), List.sum_reverse]
  rw [edgeKer_mid h1.ne' h3.ne', kerInt_edge_mid h3.ne' vs h1.ne', chapman_strip (lt_min h1 h3) hne hp]

/-! ## the sampler -/

theorem splitInt_measurable_end {E : ℝ → ℝ → ℝ → ℝ≥0∞} {K : ℝ → ℝ → ℝ → ℝ → ℝ≥0∞} (h : LayerKer E K) : ∀ (vs : List ℝ) {X : Type} [MeasurableSpace X] {F : X → List ℝ → ℝ≥0∞}
    {x m s b : X → ℝ}, MeasL (vs.length - 1) F → Measurable x → Measurable m → Measurable s → Measurable b → Measurable fun p => splitInt E K (m p) (b p) vs (x p) (s p) (F p)
  | [], _, _, F, x, m, s, b, hF, _, _, _, _ => by simp [splitInt]
  | [v], _, _, F, x, m, s, b, hF, hx, hm, hs, hb => by
    simp only [splitInt]
    exact (h.applyE hm hs hx).mul ((h.applyE hm (measurable_const.sub hs) hb).mul (MeasL.zero_apply hF))
  | v :: w :: vs, X, _, F, x, m, s, b, hF, hx, hm, hs, hb => by
    have ih := splitInt_measurable_end h (w :: vs) (X := X × ℝ) (F := fun p l => F p.1 (p.2 :: l)) (x := Prod.snd) (m := fun p => m p.1) (s := fun p => s p.1 - v) (b := fun p => b p.1)
      (MeasL.cons hF) measurable_snd (hm.comp measurable_fst) ((hs.comp measurable_fst).sub_const v) (hb.comp measurable_fst)
    have ih2 := kerInt_measurable_end (w :: vs) (X := X × ℝ) (k := fun p => K (m p.1)) (F := fun p l => F p.1 (p.2 :: l)) (x := Prod.snd) (x1 := fun p => b p.1)
      (h.measK.comp (hm.comp measurable_fst)) (MeasL.cons hF) measurable_snd (hb.comp measurable_fst)
    simp only [splitInt]
    refine Measurable.ite (measurableSet_lt hs measurable_const) ((h.applyE hm hs hx).mul ?_) ?_
    · exact ((h.applyE (hm.comp measurable_fst) (measurable_const.sub (hs.comp measurable_fst)) measurable_snd).mul ih2).lintegral_prod_right'
    · exact ((h.measK.apply v (hm.comp measurable_fst) (hx.comp measurable_fst) measurable_snd).mul ih).lintegral_prod_right'

/-- The law of one sector of a skeleton at a finite budget. -/
noncomputable def secInt (U m : ℝ) (n : ℕ) (vs : List ℝ) (x y : ℝ) (F : List ℝ → ℝ≥0∞) : ℝ≥0∞ :=
  if vs.length = 1 then edgeKer U m vs.sum x y * F []
  else if x = m then trials n (edgeRate U m vs.sum y) * startInt (stripEntr U m) (stripDens U m) y vs F
  else if y = m then trials n (edgeRate U m vs.sum x) * startInt (stripEntr U m) (stripDens U m) x vs.reverse fun l => F l.reverse
  else trials n (layerRate U m vs.sum x y) * ∫⁻ m' in Ioi m, ∫⁻ s in Ioo 0 vs.sum,
    if m' < min x y then trials n (edgeRate U m' s x) * trials n (edgeRate U m' (vs.sum - s) y) * (2 * splitInt (stripEntr U) (stripDens U) m' y vs x s F) else 0

theorem secBr_law {vs : List ℝ} {x y : ℝ} {F : List ℝ → ℝ≥0∞} (hk : 0 < k) (h : Good U m x y) (hne : vs ≠ []) (hp : ∀ v ∈ vs, 0 < v) (hF : MeasAll F) :
    edgeKer U m vs.sum x y * (secBr n k (npCumsum vs).dropLast vs.sum x y m (some U)).lexp (onOk fun q => F q.1) = secInt U m n vs x y F := by
  unfold secInt
  split_ifs with h0 hx hy
  · obtain ⟨v, rfl⟩ := List.length_eq_one_iff.1 h0
    have : (npCumsum [v]).dropLast = [] := by rw [← List.length_eq_zero_iff, grid_length]; rfl
    rw [this, secBr, if_pos rfl, Prog.lexp_ret]
    rfl
  all_goals
    have h2 : 2 ≤ vs.length := by have := List.length_pos_iff.2 hne; omega
    have ht : (npCumsum vs).dropLast ≠ [] := by rw [← List.length_pos_iff, grid_length]; omega
    obtain ⟨⟨h1, h2'⟩, ⟨h3, h4⟩, h5⟩ := h
  · subst hx
    have h5 : x < y := by simpa using h5
    rw [edgeKer_left, sec_right (layerSpec_strip n U) hk h5 (by rintro _ ⟨⟩; exact h4) hne hp hF, fillOk, if_neg ht]
  · subst hy
    have h5 : y < x := by simpa using h5
    rw [edgeKer_right, sec_left (layerSpec_strip n U) hk h5 (by rintro _ ⟨⟩; exact h2') hne hp hF, fillOk, if_neg ht]
  · have hx' : m < x := lt_of_le_of_ne h1 (Ne.symm hx)
    have hy' : m < y := lt_of_le_of_ne h3 (Ne.symm hy)
    have hU : ∀ U', some U = some U' → max x y < U' := by rintro _ ⟨⟩; exact max_lt h2' h4
    rw [edgeKer_mid hx hy, secBr, if_neg ht, layerbr_first n k hk (some U) h2 hp (lt_min hx' hy').le hU, layer_law (layerSpec_strip n U) (lt_min hx' hy') hU hne hp hF]
    congr 1
    rw [← lintegral_indicator measurableSet_Ioo, ← lintegral_indicator measurableSet_Ioi]
    refine lintegral_congr fun m' => ?_
    simp only [indicator, mem_Ioo, mem_Ioi]
    by_cases hm : m < m'
    · by_cases hm2 : m' < min x y
      · rw [if_pos ⟨hm, hm2⟩, if_pos hm]
        simp only [if_pos hm2]
      · rw [if_neg fun h => hm2 h.2, if_pos hm]
        simp only [if_neg hm2, lintegral_zero]
    · rw [if_neg fun h => hm h.1, if_neg hm]

theorem secInt_measurable (n : ℕ) (vs : List ℝ) {X : Type} [MeasurableSpace X] {F : X → List ℝ → ℝ≥0∞} {x y : X → ℝ} (hF : MeasL (vs.length - 1) F) (hx : Measurable x) (hy : Measurable y) :
    Measurable fun p => secInt U m n vs (x p) (y p) (F p) := by
  unfold secInt
  by_cases h1 : vs.length = 1
  · simp only [if_pos h1]
    rw [h1] at hF
    exact ((measK_edge U m).apply _ (p := fun _ => ()) measurable_const hx hy).mul (MeasL.zero_apply hF)
  simp only [if_neg h1]
  have he : ∀ {Y : Type} [MeasurableSpace Y] {a b c : Y → ℝ}, Measurable a → Measurable b → Measurable c → Measurable fun p => trials n (edgeRate U (a p) (b p) (c p)) :=
    fun ha hb hc => (measurable_trials n).comp ((measurable_edgeRate U).comp (ha.prodMk (hb.prodMk hc)))
  have hs : ∀ {ws : List ℝ} {G : X → List ℝ → ℝ≥0∞} {z : X → ℝ}, MeasL (ws.length - 1) G → Measurable z → Measurable fun p => startInt (stripEntr U m) (stripDens U m) (z p) ws (G p) :=
    fun hG hz => startInt_measurable_end _ (e := fun _ => stripEntr U m) (k := fun _ => stripDens U m)
      (fun v => (measurable_stripEntr U).comp (by fun_prop : Measurable fun p : X × ℝ => (m, v, p.2))) ((measK_strip U).comp measurable_const) hG hz
  refine Measurable.ite (measurableSet_eq_fun hx measurable_const) ((he measurable_const measurable_const hy).mul (hs hF hy)) ?_
  refine Measurable.ite (measurableSet_eq_fun hy measurable_const) ((he measurable_const measurable_const hx).mul (hs (by rw [List.length_reverse]; exact hF.reverse) hx)) ?_
  have hl : Measurable fun p => layerRate U m vs.sum (x p) (y p) := by
    unfold layerRate
    refine Measurable.div ((measK_strip U).apply _ measurable_const hx hy) ?_
    exact layerKer_half.measK.apply _ measurable_const hx hy
  refine ((measurable_trials n).comp hl).mul ?_
  have hX : Measurable fun q : (X × ℝ) × ℝ => if q.1.2 < min (x q.1.1) (y q.1.1) then
      trials n (edgeRate U q.1.2 q.2 (x q.1.1)) * trials n (edgeRate U q.1.2 (vs.sum - q.2) (y q.1.1)) *
        (2 * splitInt (stripEntr U) (stripDens U) q.1.2 (y q.1.1) vs (x q.1.1) q.2 (F q.1.1)) else 0 := by
    have hx' : Measurable fun q : (X × ℝ) × ℝ => x q.1.1 := hx.comp (measurable_fst.comp measurable_fst)
    have hy' : Measurable fun q : (X × ℝ) × ℝ => y q.1.1 := hy.comp (measurable_fst.comp measurable_fst)
    have hm' : Measurable fun q : (X × ℝ) × ℝ => q.1.2 := measurable_snd.comp measurable_fst
    refine Measurable.ite (measurableSet_lt hm' (hx'.min hy')) ?_ measurable_const
    refine ((he hm' measurable_snd hx').mul (he hm' (measurable_const.sub measurable_snd) hy')).mul (Measurable.const_mul ?_ 2)
    exact splitInt_measurable_end (layerKer_strip U) vs (F := fun q : (X × ℝ) × ℝ => F q.1.1) (hF.comp (measurable_fst.comp measurable_fst)) hx' hm' measurable_snd hy'
  exact (hX.lintegral_prod_right' (ν := volume.restrict (Ioo 0 vs.sum))).lintegral_prod_right' (ν := volume.restrict (Ioi m))

theorem secInt_mono (vs : List ℝ) (x y : ℝ) (F : List ℝ → ℝ≥0∞) : Monotone fun n => secInt U m n vs x y F := by
  intro i j h
  have ht := fun a => trials_mono a h
  simp only at ht
  unfold secInt
  simp only
  split_ifs
  · exact le_rfl
  · exact mul_le_mul' (ht _) le_rfl
  · exact mul_le_mul' (ht _) le_rfl
  · refine mul_le_mul' (ht _) (lintegral_mono fun m' => lintegral_mono fun s => ?_)
    split_ifs
    · exact mul_le_mul' (mul_le_mul' (ht _) (ht _)) le_rfl
    · exact le_rfl

theorem secInt_sup {vs : List ℝ} {x y : ℝ} {F : List ℝ → ℝ≥0∞} (h : Good U m x y) (hne : vs ≠ []) (hp : ∀ v ∈ vs, 0 < v) (hF : MeasAll F) :
    ⨆ n, secInt U m n vs x y F = kerInt (edgeKer U m) y vs x F := by
  have hT : 0 < vs.sum := List.sum_pos _ hp hne
  by_cases h0 : vs.length = 1
  · obtain ⟨v, rfl⟩ := List.length_eq_one_iff.1 h0
    simp [secInt, kerInt]
  have h2 : 2 ≤ vs.length := by have := List.length_pos_iff.2 hne; omega
  have ht : (npCumsum vs).dropLast ≠ [] := by rw [← List.length_pos_iff, grid_length]; omega
  have h' := h
  obtain ⟨⟨h1, h2'⟩, ⟨h3, h4⟩, h5⟩ := h
  by_cases hx : x = m
  · subst hx
    have h5 : x < y := by simpa using h5
    simp only [secInt, if_neg h0, if_true]
    rw [← ENNReal.iSup_mul, trials_sup (edgeRate_le hT h5 h4).2, one_mul, kerInt_edge_left h5.ne']
  by_cases hy : y = m
  · subst hy
    have h5 : y < x := by simpa using h5
    simp only [secInt, if_neg h0, if_neg hx, if_true]
    rw [← ENNReal.iSup_mul, trials_sup (edgeRate_le hT h5 h2').2, one_mul, kerInt_edge_right h5.ne' vs (hF _)]
  have hx' : m < x := lt_of_le_of_ne h1 (Ne.symm hx)
  have hy' : m < y := lt_of_le_of_ne h3 (Ne.symm hy)
  rw [kerInt_edge_mid hy vs hx, ← layer_strip_sup (lt_min hx' hy') (max_lt h2' h4) hne hp hF]
  refine iSup_congr fun n => ?_
  rw [← secBr_law (k := 1) one_pos h' hne hp hF, edgeKer_mid hx hy, secBr, if_neg ht,
    layerbr_first n 1 one_pos (some U) h2 hp (lt_min hx' hy').le (by rintro _ ⟨⟩; exact max_lt h2' h4)]

end Ctb
