import Verif.Lemmas.RawFill
import Verif.Lemmas.KerFlip

set_option linter.unusedSectionVars false

/-! # Filled raw skeletons with large budgets -/

namespace Ctb

open MeasureTheory Set Classical Filter Topology
open scoped ENNReal

variable {T a b : ℝ} {n k j F : ℕ} {vs : List ℝ}

theorem fillOk_mono (t : List ℝ) {c : ℕ → ℝ≥0∞} (hc : Monotone c) : Monotone fun n => fillOk t (c n) := by
  intro i j h
  simp only [fillOk]
  split_ifs
  · exact le_rfl
  · exact hc h

theorem fillOk_sup (t : List ℝ) {c : ℕ → ℝ≥0∞} (hc : ⨆ n, c n = 1) : ⨆ n, fillOk t (c n) = 1 := by
  by_cases h : t = []
  · simp [fillOk, h]
  · simp [fillOk, h, hc]

theorem fillRate_mono (V T a b : ℝ) (t : List ℝ) (s m : ℝ) : Monotone fun n => fillRate n V T a b t s m := fun _ _ h =>
  mul_le_mul' (fillOk_mono _ (trials_mono _) h) (fillOk_mono _ (trials_mono _) h)

theorem fillRate_sup {V s m : ℝ} (t : List ℝ) (h0 : 0 < s) (h1 : s < T) (ha : m < a) (hb : m < b) (hVa : a < V) (hVb : b < V) :
    ⨆ n, fillRate n V T a b t s m = 1 := by
  unfold fillRate
  rw [iSup_mul_mono (fillOk_mono _ (trials_mono _)) (fillOk_mono _ (trials_mono _)), fillOk_sup _ (trials_sup (edgeRate_le h0 ha hVa).2),
    fillOk_sup _ (trials_sup (edgeRate_le (sub_pos.2 h1) hb hVb).2), one_mul]

/-- Both split integrals without the losses. -/
noncomputable def fullSplit (a b : ℝ) (k : ℕ) (vs : List ℝ) (f : Bool → List ℝ → ℝ≥0∞) (s m : ℝ) : ℝ≥0∞ :=
  splitInt (stripEntr (unsetV vs.sum a b k)) (stripDens (unsetV vs.sum a b k)) m b vs a s (f true) +
    splitInt (stripEntr (unsetV vs.sum a b k)) (stripDens (unsetV vs.sum a b k)) m b vs.reverse a s fun l => f false (flipList (a + b) l)

theorem measurable_split (V : ℝ) (vs : List ℝ) {f : List ℝ → ℝ≥0∞} (hf : MeasAll f) :
    Measurable fun p : ℝ × ℝ => splitInt (stripEntr V) (stripDens V) p.1 b vs a p.2 f :=
  splitInt_measurable (layerKer_strip V) b vs (F := fun _ => f) ((hf _).comp (φ := fun _ : ℝ × ℝ => ()) measurable_const) measurable_const measurable_fst measurable_snd

theorem measurable_both (hp : ∀ v ∈ vs, 0 < v) {f : Bool → List ℝ → ℝ≥0∞} (hf : MeasAll (f true)) (hf' : MeasAll fun l => f false (flipList (a + b) l)) :
    Measurable fun p : ℝ × ℝ => bothSplit n a b k vs f p.2 p.1 := by
  unfold bothSplit
  refine Measurable.add (Measurable.mul ?_ (measurable_split _ vs hf)) (Measurable.mul ?_ (measurable_split _ vs.reverse hf'))
  · exact (measurable_fillRate _ (grid_inc hp)).comp measurable_swap
  · exact (measurable_fillRate _ (grid_inc fun v hv => hp v (List.mem_reverse.1 hv))).comp measurable_swap

theorem both_tendsto (hT : 0 < vs.sum) (hp : ∀ v ∈ vs, 0 < v) {f : Bool → List ℝ → ℝ≥0∞} (hf : MeasAll (f true)) (hf' : MeasAll fun l => f false (flipList (a + b) l)) (c : ℝ≥0∞) :
    Tendsto (fun n => sectorInt vs.sum (layerLow vs.sum a b (k + 1)) (layerLow vs.sum a b k) fun s m => c * bothSplit n a b k vs f s m) atTop
      (𝓝 (sectorInt vs.sum (layerLow vs.sum a b (k + 1)) (layerLow vs.sum a b k) fun s m => c * fullSplit a b k vs f s m)) := by
  have hmono : ∀ s m, Monotone fun n => bothSplit n a b k vs f s m := fun s m i j h =>
    add_le_add (mul_le_mul' (fillRate_mono _ _ _ _ _ _ _ h) le_rfl) (mul_le_mul' (fillRate_mono _ _ _ _ _ _ _ h) le_rfl)
  have hm2 : ∀ m s, Monotone fun n => c * bothSplit n a b k vs f s m := fun m s i j h => mul_le_mul' le_rfl (hmono s m h)
  have e : sectorInt vs.sum (layerLow vs.sum a b (k + 1)) (layerLow vs.sum a b k) (fun s m => c * fullSplit a b k vs f s m) =
      ⨆ n, sectorInt vs.sum (layerLow vs.sum a b (k + 1)) (layerLow vs.sum a b k) fun s m => c * bothSplit n a b k vs f s m := by
    have h := dbl_iSup (g := fun n m s => c * bothSplit n a b k vs f s m) (fun n => measurable_const.mul (measurable_both hp hf hf')) hm2
      (Ioo (layerLow vs.sum a b (k + 1)) (layerLow vs.sum a b k)) (Ioo 0 vs.sum)
    unfold sectorInt
    rw [h]
    refine sector_cong fun m h1 h2 s h3 h4 => ?_
    obtain ⟨l1, l2⟩ := lt_min_iff.1 (h2.trans_le (layerLow_le (a := a) (b := b) hT k))
    obtain ⟨v1, v2⟩ := max_lt_iff.1 (unsetV_gt (a := a) (b := b) hT k)
    rw [← ENNReal.mul_iSup]
    congr 1
    unfold bothSplit fullSplit
    rw [← ENNReal.iSup_add_iSup_of_monotone (f := fun i => fillRate i (unsetV vs.sum a b k) vs.sum a b (npCumsum vs).dropLast s m * _)
      (g := fun i => fillRate i (unsetV vs.sum a b k) vs.sum a b (npCumsum vs.reverse).dropLast s m * _) (fun i j h => mul_le_mul' (fillRate_mono _ _ _ _ _ _ _ h) le_rfl) (fun i j h => mul_le_mul' (fillRate_mono _ _ _ _ _ _ _ h) le_rfl),
      ← ENNReal.iSup_mul, ← ENNReal.iSup_mul, fillRate_sup _ h3 h4 l1 l2 v1 v2, fillRate_sup _ h3 h4 l1 l2 v1 v2, one_mul, one_mul]
  rw [e]
  exact tendsto_atTop_iSup fun i j h => lintegral_mono fun m => lintegral_mono fun s => hm2 m s h

/-- The paths with a minimum in a sector are those above its lower end that are not above its upper end. -/
theorem sector_total {V l u : ℝ} (hp : ∀ v ∈ vs, 0 < v) (hl : l < u) (hu : u < min a b) {f : List ℝ → ℝ≥0∞} (hf : MeasAll f) :
    sectorInt vs.sum l u (fun s m => 2 * splitInt (stripEntr V) (stripDens V) m b vs a s f) + kerInt (stripDens V u) b vs a f = kerInt (stripDens V l) b vs a f := by
  rw [← split_total (layerKer_strip V) (fun _ _ _ hx => stripEntr_low hx) hp hu (hf _), ← split_total (layerKer_strip V) (fun _ _ _ hx => stripEntr_low hx) hp (hl.trans hu) (hf _)]
  unfold sectorInt
  rw [← Ioc_union_Ioo_eq_Ioo hl.le hu, lintegral_union measurableSet_Ioo (by
    rw [Set.disjoint_left]; intro x hx hx2; exact absurd hx.2 (not_le.2 hx2.1)), setLIntegral_congr Ioo_ae_eq_Ioc]

theorem measAll_flip (c : ℝ) {f : List ℝ → ℝ≥0∞} (hf : MeasAll f) : MeasAll fun l => f (flipList c l) := by
  intro n
  unfold flipList
  exact MeasL.reverse (F := fun (_ : Unit) (l : List ℝ) => f (l.map (c - ·))) (MeasL.map (hf n) (g := (c - ·)) (by fun_prop))

theorem full_zero (hT : 0 < vs.sum) (hp : ∀ v ∈ vs, 0 < v) {f : Bool → List ℝ → ℝ≥0∞} (hf : ∀ c, MeasAll (f c)) :
    2 * sectorInt vs.sum (layerLow vs.sum a b 1) (layerLow vs.sum a b 0) (fun s m => fullSplit a b 0 vs f s m) =
      kerInt (stripDens (layerHigh vs.sum a b 1) (layerLow vs.sum a b 1)) b vs a (f true) + kerInt (stripDens (layerHigh vs.sum a b 1) (layerLow vs.sum a b 1)) b vs a (f false) := by
  have hp' : ∀ v ∈ vs.reverse, 0 < v := fun v hv => hp v (List.mem_reverse.1 hv)
  have hV : unsetV vs.sum a b 0 = layerHigh vs.sum a b 1 := rfl
  have hl := layerLow_lt (a := a) (b := b) hT le_rfl
  have h1 := split_total (layerKer_strip (layerHigh vs.sum a b 1)) (fun _ _ _ hx => stripEntr_low hx) hp hl (hf true _)
  have h2 := split_total (layerKer_strip (layerHigh vs.sum a b 1)) (fun _ _ _ hx => stripEntr_low hx) hp' hl (measAll_flip (a + b) (hf false) _)
  rw [kerInt_mirror _ _ _ _ hp (hf false _), List.sum_reverse] at h2
  have e1 : a + b - layerHigh vs.sum a b 1 = layerLow vs.sum a b 1 := by unfold layerHigh; ring
  rw [e1] at h2
  rw [show a + b - layerLow vs.sum a b 1 = layerHigh vs.sum a b 1 from rfl] at h2
  rw [← h1, ← h2, layerLow_zero, ← sector_mul _ (by simp)]
  unfold fullSplit
  simp only [mul_add, hV]
  exact sector_add ((measurable_split _ vs (hf true)).const_mul 2)

theorem full_succ (hT : 0 < vs.sum) (hp : ∀ v ∈ vs, 0 < v) (hk : 1 ≤ k) {f : Bool → List ℝ → ℝ≥0∞} (hf : ∀ c, MeasAll (f c)) :
    sectorInt vs.sum (layerLow vs.sum a b (k + 1)) (layerLow vs.sum a b k) (fun s m => 2 * fullSplit a b k vs f s m) +
        (kerInt (stripDens (layerHigh vs.sum a b k) (layerLow vs.sum a b k)) b vs a (f true) + kerInt (stripDens (layerHigh vs.sum a b k) (layerLow vs.sum a b k)) b vs a (f false)) =
      kerInt (stripDens (layerHigh vs.sum a b k) (layerLow vs.sum a b (k + 1))) b vs a (f true) +
        kerInt (stripDens (layerHigh vs.sum a b (k + 1)) (layerLow vs.sum a b k)) b vs a (f false) := by
  have hp' : ∀ v ∈ vs.reverse, 0 < v := fun v hv => hp v (List.mem_reverse.1 hv)
  have hV : unsetV vs.sum a b k = layerHigh vs.sum a b k := by unfold unsetV; rw [max_eq_left hk]
  have hl := layerLow_lt (a := a) (b := b) hT hk
  have hll := layerLow_anti (a := a) (b := b) hT (Nat.lt_succ_self k)
  have h1 := sector_total (V := layerHigh vs.sum a b k) hp hll hl (hf true)
  have h2 := sector_total (V := layerHigh vs.sum a b k) hp' (by exact hll) (by exact hl) (measAll_flip (a + b) (hf false))
  rw [kerInt_mirror _ _ _ _ hp (hf false _), kerInt_mirror _ _ _ _ hp (hf false _), List.sum_reverse] at h2
  have e1 : a + b - layerHigh vs.sum a b k = layerLow vs.sum a b k := by unfold layerHigh; ring
  rw [e1, show a + b - layerLow vs.sum a b k = layerHigh vs.sum a b k from rfl, show a + b - layerLow vs.sum a b (k + 1) = layerHigh vs.sum a b (k + 1) from rfl] at h2
  rw [← h1, ← h2]
  unfold fullSplit
  simp only [mul_add, hV]
  rw [sector_add ((measurable_split _ vs (hf true)).const_mul 2)]
  ring

end Ctb
