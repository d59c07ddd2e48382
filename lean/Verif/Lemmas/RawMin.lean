import Verif.Lemmas.RawEdges
import Verif.Props.LayerProb
import Verif.Props.MinLaw

set_option linter.unusedSectionVars false

/-! # The minimum of a bridge in a sector -/

namespace Ctb

open MeasureTheory Set Filter Topology
open scoped ENNReal

variable {T a b l u U : ℝ} {n : ℕ}

theorem sector_cong {f g : ℝ → ℝ → ℝ≥0∞} (h : ∀ m, l < m → m < u → ∀ s, 0 < s → s < T → f s m = g s m) : sectorInt T l u f = sectorInt T l u g := by
  refine setLIntegral_congr_fun measurableSet_Ioo fun m hm => setLIntegral_congr_fun measurableSet_Ioo fun s hs => ?_
  exact h m hm.1 hm.2 s hs.1 hs.2

theorem sector_mul (c : ℝ≥0∞) {f : ℝ → ℝ → ℝ≥0∞} (hc : c ≠ ∞) : sectorInt T l u (fun s m => c * f s m) = c * sectorInt T l u f := by
  unfold sectorInt
  rw [← lintegral_const_mul' _ _ hc]
  exact lintegral_congr fun m => lintegral_const_mul' _ _ hc

theorem sector_add {f g : ℝ → ℝ → ℝ≥0∞} (hf : Measurable fun p : ℝ × ℝ => f p.2 p.1) :
    sectorInt T l u (fun s m => f s m + g s m) = sectorInt T l u f + sectorInt T l u g :=
  dbl_add (f := fun m s => f s m) (g := fun m s => g s m) hf

theorem sector_norm (hT : 0 < T) (hu : u ≤ min a b) : ∀ m, l < m → m < u → ∀ s, 0 < s → s < T →
    2 * (entrDens m s a * entrDens m (T - s) b) = ENNReal.ofReal (normDensR T (b - a)) * ENNReal.ofReal (minDens T a b s m) := by
  intro m _ hm s _ _
  have ha := hm.trans_le (hu.trans (min_le_left a b))
  have hb := hm.trans_le (hu.trans (min_le_right a b))
  have hφ := normDensR_gt hT (b - a)
  rw [← ENNReal.ofReal_mul hφ.le, entrDens, entrDens, if_pos ha, if_pos hb, ← ENNReal.ofReal_mul (passDens_nonneg (by linarith)), minDens,
    show (2 : ℝ≥0∞) = ENNReal.ofReal 2 by simp, ← ENNReal.ofReal_mul (by norm_num)]
  congr 1
  field_simp

theorem sector_range : minRange (some l) ((some u : Option ℝ).getD (min a b)) = Ioo l u := by
  ext x; simp [minRange]

theorem sector_bounds (hl : l < u) (hu : u ≤ min a b) : MinBoundsOk a b (some l) ((some u : Option ℝ).getD (min a b)) := ⟨by simpa using hl, by simpa using hu⟩

theorem sector_mass (hT : 0 < T) (hl : l < u) (hu : u ≤ min a b) : sectorInt T l u (fun s m => 2 * (entrDens m s a * entrDens m (T - s) b)) ≠ 0 ∧
    sectorInt T l u (fun s m => 2 * (entrDens m s a * entrDens m (T - s) b)) ≠ ∞ := by
  rw [sector_cong (sector_norm hT hu), sector_mul _ ENNReal.ofReal_ne_top]
  obtain ⟨h1, h2⟩ := C91_mass (lb := some l) (ub := some u) hT (sector_bounds hl hu)
  rw [sector_range] at h1
  unfold sectorInt
  rw [h1]
  obtain ⟨n0, n1⟩ := norm_fin (a := a) (b := b) hT
  exact ⟨mul_ne_zero n0 (ENNReal.ofReal_pos.2 h2).ne', ENNReal.mul_ne_top n1 ENNReal.ofReal_ne_top⟩

theorem bridgeMin_sector (hT : 0 < T) (hl : l < u) (hu : u ≤ min a b) {F : ℝ × ℝ → ℝ≥0∞} (hF : Measurable F) :
    sectorInt T l u (fun s m => 2 * (entrDens m s a * entrDens m (T - s) b)) * (sampleBridgeMin T a b (some l) (some u)).lexp (onOk F) =
      sectorInt T l u fun s m => 2 * (entrDens m s a * entrDens m (T - s) b) * F (s, m) := by
  have h := C91_law (lb := some l) (ub := some u) hT (sector_bounds hl hu) hF
  rw [sector_range] at h
  rw [sector_cong (sector_norm hT hu), sector_mul _ ENNReal.ofReal_ne_top, mul_assoc]
  unfold sectorInt at *
  rw [h, ← lintegral_const_mul' _ _ ENNReal.ofReal_ne_top]
  refine setLIntegral_congr_fun measurableSet_Ioo fun m hm => ?_
  rw [← lintegral_const_mul' _ _ ENNReal.ofReal_ne_top]
  refine setLIntegral_congr_fun measurableSet_Ioo fun s hs => ?_
  simp only
  rw [sector_norm hT hu m hm.1 hm.2 s hs.1 hs.2, mul_assoc]

/-- Probability that a bridge with its minimum in the sector stays below `U`. -/
noncomputable def sectorRate (T a b l u U : ℝ) : ℝ≥0∞ :=
  sectorInt T l u (fun s m => 2 * (stripEntr U m s a * stripEntr U m (T - s) b)) / sectorInt T l u fun s m => 2 * (entrDens m s a * entrDens m (T - s) b)

theorem min_sector {F : ℝ × ℝ → ℝ≥0∞} (hT : 0 < T) (hl : l < u) (hu : u ≤ min a b) (hU : max a b < U) (hF : Measurable F) :
    sectorInt T l u (fun s m => 2 * (stripEntr U m s a * stripEntr U m (T - s) b)) * (sampleLayerMin n T a b (some U) (some l) (some u)).lexp (onOk F) =
      trials n (sectorRate T a b l u U) * sectorInt T l u fun s m => 2 * (stripEntr U m s a * stripEntr U m (T - s) b) * F (s, m) := by
  classical
  obtain ⟨haU, hbU⟩ := max_lt_iff.1 hU
  have hua := hu.trans (min_le_left a b)
  have hub := hu.trans (min_le_right a b)
  rw [sampleLayerMin, Prog.assert, if_pos hT, Prog.ret_bind, Prog.assert, if_pos (by rintro U' ⟨⟩; exact hU.le), Prog.ret_bind]
  set α : ℝ × ℝ → ℝ≥0∞ := fun q => edgeRate U q.2 q.1 a * edgeRate U q.2 (T - q.1) b with hα
  have hαm : Measurable α :=
    ((measurable_edgeRate U).comp (by fun_prop : Measurable fun q : ℝ × ℝ => (q.2, q.1, a))).mul ((measurable_edgeRate U).comp (by fun_prop : Measurable fun q : ℝ × ℝ => (q.2, T - q.1, b)))
  have hα1 : ∀ m' ∈ Ioo l u, ∀ s ∈ Ioo 0 T, α (s, m') ≤ 1 := fun m' hm' s hs =>
    mul_le_one' (edgeRate_le hs.1 (hm'.2.trans_le hua) haU).1 (edgeRate_le (sub_pos.2 hs.2) (hm'.2.trans_le hub) hbU).1
  have hEE : ∀ m' s, 2 * (entrDens m' s a * entrDens m' (T - s) b) * α (s, m') = 2 * (stripEntr U m' s a * stripEntr U m' (T - s) b) := by
    intro m' s
    rw [hα, ← edgeRate_mul U m' s a, ← edgeRate_mul U m' (T - s) b]
    ring
  have hmE := measurable_pair layerKer_half.measE layerKer_half.measE T a b
  have hmW : Measurable fun p : ℝ × ℝ => 2 * (entrDens p.1 p.2 a * entrDens p.1 (T - p.2) b) * (1 - α (p.2, p.1)) :=
    hmE.mul ((measurable_const.sub hαm).comp measurable_swap)
  set W := sectorInt T l u fun s m => 2 * (entrDens m s a * entrDens m (T - s) b) * (1 - α (s, m)) with hW
  obtain ⟨k0, k1⟩ := sector_mass hT hl hu
  refine loop_solve (M := fun n => (layerMinLoop T a b U (some l) (some u) n).lexp (onOk F)) (W := W) k0 k1 ?_ rfl (fun n => ?_) n
  · rw [hW, ← sector_add (measurable_pair (measurable_stripEntr U) (measurable_stripEntr U) T a b)]
    refine sector_cong fun m hm hm' s hs hs' => ?_
    rw [← hEE, ← mul_add, add_tsub_cancel_of_le (hα1 m ⟨hm, hm'⟩ s ⟨hs, hs'⟩), mul_one]
  · set R := (layerMinLoop T a b U (some l) (some u) n).lexp (onOk F) with hR
    have hex1 : ∀ q : ℝ × ℝ, ∃ p, 0 < q.1 → q.2 < a → Tendsto (besSeries q.1 0 (a - q.2) (U - q.2)) atTop (𝓝 p) := by
      intro q
      by_cases h : 0 < q.1 ∧ q.2 < a
      · obtain ⟨p, -, -, hp⟩ := C43_series h.1 le_rfl (sub_pos.2 h.2) (by linarith [h.2] : (0 : ℝ) < U - q.2) (by linarith [h.2] : a - q.2 < U - q.2)
        exact ⟨p, fun _ _ => hp⟩
      · exact ⟨0, fun h1 h2 => absurd ⟨h1, h2⟩ h⟩
    have hex2 : ∀ q : ℝ × ℝ, ∃ p, q.1 < T → q.2 < b → Tendsto (besSeries (T - q.1) 0 (b - q.2) (U - q.2)) atTop (𝓝 p) := by
      intro q
      by_cases h : q.1 < T ∧ q.2 < b
      · obtain ⟨p, -, -, hp⟩ := C43_series (sub_pos.2 h.1) le_rfl (sub_pos.2 h.2) (by linarith [h.2] : (0 : ℝ) < U - q.2) (by linarith [h.2] : b - q.2 < U - q.2)
        exact ⟨p, fun _ _ => hp⟩
      · exact ⟨0, fun h1 h2 => absurd ⟨h1, h2⟩ h⟩
    choose P1 hP1 using hex1
    choose P2 hP2 using hex2
    rw [C40_layer_law hU P1 P2 (fun t m => hP1 (t, m)) (fun t m => hP2 (t, m)) (onOk F), ← hR]
    have hmF : Measurable fun q => α q * F q + R * (1 - α q) := (hαm.mul hF).add ((measurable_const.sub hαm).const_mul R)
    have hcong : (sampleBridgeMin T a b (some l) (some u)).lexp (keepOr (fun q => (1 - P1 q) * (1 - P2 q)) (onOk F) R) =
        (sampleBridgeMin T a b (some l) (some u)).lexp (onOk fun q => α q * F q + R * (1 - α q)) := by
      refine Prog.lexp_congr ?_
      rintro (e | ⟨t, m'⟩) h
      · rfl
      obtain ⟨ht, htT, hma, hmb, -, -⟩ := C40_bridge_partial h
      have q1 := hP1 (t, m') ht hma
      have q2 := hP2 (t, m') htT hmb
      obtain ⟨p1, a0, a1, hp1⟩ := C43_series ht le_rfl (sub_pos.2 hma) (by linarith : (0 : ℝ) < U - m') (by linarith : a - m' < U - m')
      obtain ⟨p2, b0, b1, hp2⟩ := C43_series (sub_pos.2 htT) le_rfl (sub_pos.2 hmb) (by linarith : (0 : ℝ) < U - m') (by linarith : b - m' < U - m')
      obtain rfl := tendsto_nhds_unique q1 hp1
      obtain rfl := tendsto_nhds_unique q2 hp2
      have e1 : α (t, m') = ENNReal.ofReal ((1 - P1 (t, m')) * (1 - P2 (t, m'))) := by
        rw [hα, ENNReal.ofReal_mul (by linarith)]
        simp only
        rw [edgeRate_esc ht hma haU q1, edgeRate_esc (sub_pos.2 htT) hmb hbU q2]
      simp only [keepOr, onOk]
      have hnn : 0 ≤ (1 - P1 (t, m')) * (1 - P2 (t, m')) := mul_nonneg (by linarith) (by linarith)
      rw [e1, ENNReal.ofReal_sub _ hnn, ENNReal.ofReal_one, mul_comm R]
    rw [hcong, bridgeMin_sector hT hl hu hmF]
    have hmS : Measurable fun p : ℝ × ℝ => 2 * (stripEntr U p.1 p.2 a * stripEntr U p.1 (T - p.2) b) * F (p.2, p.1) :=
      (measurable_pair (measurable_stripEntr U) (measurable_stripEntr U) T a b).mul (hF.comp measurable_swap)
    have hWc : W * R = sectorInt T l u fun s m => 2 * (entrDens m s a * entrDens m (T - s) b) * (1 - α (s, m)) * R := by
      rw [hW, sectorInt, ← lintegral_mul_const _ hmW.lintegral_prod_right']
      refine lintegral_congr fun m' => ?_
      have hs1 : Measurable fun s : ℝ => 2 * (entrDens m' s a * entrDens m' (T - s) b) * (1 - α (s, m')) :=
        hmW.comp (measurable_const.prodMk measurable_id : Measurable fun s : ℝ => (m', s))
      exact (lintegral_mul_const _ hs1).symm
    rw [hWc, ← sector_add hmS]
    refine sector_cong fun m' _ _ s _ _ => ?_
    rw [mul_add, ← mul_assoc, hEE]
    ring

/-- The mass of the sector. -/
theorem sector_strip (hT : 0 < T) (hl : l < u) (hu : u ≤ min a b) (hU : max a b < U) :
    sectorInt T l u (fun s m => 2 * (stripEntr U m s a * stripEntr U m (T - s) b)) + stripDens U u T a b = stripDens U l T a b := by
  rw [← C95_split hT (hl.trans_le hu) hU]
  rcases hu.eq_or_lt with rfl | hu
  · rw [stripDens, if_neg, add_zero]
    · rfl
    · rintro ⟨h1, -, h2, -⟩
      exact lt_irrefl _ (lt_min h1 h2)
  · rw [← C95_split hT hu hU, ← Ioc_union_Ioo_eq_Ioo hl.le hu, lintegral_union measurableSet_Ioo]
    · rw [sectorInt, setLIntegral_congr Ioo_ae_eq_Ioc]
    · rw [Set.disjoint_left]
      intro x hx hx2
      exact absurd hx2.1 (not_lt.2 hx.2)

end Ctb
