import Verif.Lemmas.StripPairs

/-! # The kernel of the strip, split at the minimum of the path -/

set_option linter.unusedSectionVars false

namespace Ctb

open MeasureTheory Set Filter Topology
open scoped ENNReal

variable {U m v x y L : ℝ}

theorem dbl_add {A B : Set ℝ} {f g : ℝ → ℝ → ℝ≥0∞} (hf : Measurable fun p : ℝ × ℝ => f p.1 p.2) :
    ∫⁻ u in A, ∫⁻ s in B, (f u s + g u s) = (∫⁻ u in A, ∫⁻ s in B, f u s) + ∫⁻ u in A, ∫⁻ s in B, g u s := by
  have e : ∀ u, ∫⁻ s in B, (f u s + g u s) = (∫⁻ s in B, f u s) + ∫⁻ s in B, g u s := fun u =>
    lintegral_add_left (hf.comp (measurable_const.prodMk measurable_id)) _
  rw [lintegral_congr e, lintegral_add_left hf.lintegral_prod_right']

theorem measurable_pair {E E' : ℝ → ℝ → ℝ → ℝ≥0∞} (h : Measurable fun p : ℝ × ℝ × ℝ => E p.1 p.2.1 p.2.2) (h' : Measurable fun p : ℝ × ℝ × ℝ => E' p.1 p.2.1 p.2.2) (v x y : ℝ) :
    Measurable fun p : ℝ × ℝ => 2 * (E p.1 p.2 x * E' p.1 (v - p.2) y) := by
  have g1 : Measurable fun p : ℝ × ℝ => (p.1, p.2, x) := by fun_prop
  have g2 : Measurable fun p : ℝ × ℝ => (p.1, v - p.2, y) := by fun_prop
  exact ((h.comp g1).mul (h'.comp g2)).const_mul 2

theorem normImg_split' (L v d : ℝ) :
    normImg L v d = ENNReal.ofReal (normDensR v d) + (∑' n : ℕ, ENNReal.ofReal (normDensR v (d + 2 * (n + 1) * L))) + ∑' n : ℕ, ENNReal.ofReal (normDensR v (2 * (n + 1) * L - d)) := by
  rw [normImg_split, tsum_eq_zero_add' ENNReal.summable]
  simp

theorem normImg_split'' (L v d : ℝ) :
    normImg L v d = (∑' n : ℕ, ENNReal.ofReal (normDensR v (d + 2 * n * L))) + (ENNReal.ofReal (normDensR v (2 * L - d)) + ∑' n : ℕ, ENNReal.ofReal (normDensR v (2 * (n + 2) * L - d))) := by
  rw [normImg_split, tsum_eq_zero_add' (f := fun n : ℕ => ENNReal.ofReal (normDensR v (2 * (n + 1) * L - d))) ENNReal.summable]
  congr 2
  · simp
  · refine tsum_congr fun n => ?_
    push_cast
    ring_nf

theorem strip_split (hv : 0 < v) (hx : m < x) (hxU : x < U) (hy : m < y) (hyU : y < U) :
    ∫⁻ u in Ioo m (min x y), ∫⁻ s in Ioo 0 v, 2 * (stripEntr U u s x * stripEntr U u (v - s) y) = stripDens U m v x y := by
  set μ := min x y with hμ
  have hmμ : m < μ := lt_min hx hy
  have hμx : μ ≤ x := min_le_left x y
  have hμy : μ ≤ y := min_le_right x y
  have hμU : μ < U := hμx.trans_lt hxU
  have hP := measurable_entrPos U
  have hN := measurable_entrNeg U
  have hQ := measurable_stripEntr U
  set I : (ℝ → ℝ → ℝ → ℝ≥0∞) → (ℝ → ℝ → ℝ → ℝ≥0∞) → ℝ≥0∞ := fun E E' => ∫⁻ u in Ioo m μ, ∫⁻ s in Ioo 0 v, 2 * (E u s x * E' u (v - s) y) with hI
  change I (stripEntr U) (stripEntr U) = _
  have hbal : I (stripEntr U) (stripEntr U) + (I (entrPos U) (entrNeg U) + I (entrNeg U) (entrPos U)) = I (entrPos U) (entrPos U) + I (entrNeg U) (entrNeg U) := by
    rw [hI]
    simp only
    rw [← dbl_add (measurable_pair hP hN v x y), ← dbl_add (measurable_pair hQ hQ v x y), ← dbl_add (measurable_pair hP hP v x y)]
    refine setLIntegral_congr_fun measurableSet_Ioo fun u hu => setLIntegral_congr_fun measurableSet_Ioo fun s hs => ?_
    have h1 := stripEntr_pair hs.1 (hu.2.trans_le hμx) hxU
    have h2 := stripEntr_pair (sub_pos.2 hs.2) (hu.2.trans_le hμy) hyU
    rw [← h1, ← h2]
    ring
  have hlin : ∀ (n : ℕ), 0 ≤ (n : ℝ) * (U - μ) := fun n => mul_nonneg (Nat.cast_nonneg n) (by linarith)
  have hlin' : ∀ (n : ℕ) (u : ℝ), u ∈ Ioo m μ → 0 ≤ (n : ℝ) * (U - u) := fun n u hu => mul_nonneg (Nat.cast_nonneg n) (by linarith [hu.2])
  have hPP := pair_series (v := v) hv hmμ.le (A := fun u j => x - u + 2 * j * (U - u)) (B := fun u k => y - u + 2 * k * (U - u)) (α := fun n => x + y + 2 * n * U)
    (fun u hu j => by linarith [hlin' j u hu, hu.2]) (fun u hu j => by linarith [hlin' j u hu, hu.2]) (fun u j k => by push_cast; ring) (fun n => by linarith [hlin n])
  have hNN := pair_series (v := v) hv hmμ.le (A := fun u j => 2 * (j + 1) * (U - u) - (x - u)) (B := fun u k => 2 * (k + 1) * (U - u) - (y - u)) (α := fun n => 2 * (n + 2) * U - x - y)
    (fun u hu j => by linarith [hlin' j u hu, hu.2]) (fun u hu j => by linarith [hlin' j u hu, hu.2]) (fun u j k => by push_cast; ring) (fun n => by linarith [hlin n])
  have hPN := pair_series (v := v) hv hmμ.le (A := fun u j => x - u + 2 * j * (U - u)) (B := fun u k => 2 * (k + 1) * (U - u) - (y - u)) (α := fun n => x - y + 2 * (n + 1) * U)
    (fun u hu j => by linarith [hlin' j u hu, hu.2]) (fun u hu j => by linarith [hlin' j u hu, hu.2]) (fun u j k => by push_cast; ring) (fun n => by linarith [hlin n])
  have hNP := pair_series (v := v) hv hmμ.le (A := fun u j => 2 * (j + 1) * (U - u) - (x - u)) (B := fun u k => y - u + 2 * k * (U - u)) (α := fun n => y - x + 2 * (n + 1) * U)
    (fun u hu j => by linarith [hlin' j u hu, hu.2]) (fun u hu j => by linarith [hlin' j u hu, hu.2]) (fun u j k => by push_cast; ring) (fun n => by linarith [hlin n])
  have rPP : ∀ u : ℝ, ∑' n : ℕ, ENNReal.ofReal (normDensR v (x + y + 2 * n * U - 2 * (n + 1) * u)) = ∑' n : ℕ, ENNReal.ofReal (normDensR v (x + y - 2 * u + 2 * n * (U - u))) :=
    fun u => tsum_congr fun n => by ring_nf
  have rNN : ∀ u : ℝ, ∑' n : ℕ, ENNReal.ofReal (normDensR v (2 * (n + 2) * U - x - y - 2 * (n + 1) * u)) = ∑' n : ℕ, ENNReal.ofReal (normDensR v (2 * (n + 2) * (U - u) - (x + y - 2 * u))) :=
    fun u => tsum_congr fun n => by ring_nf
  have rPN : ∀ u : ℝ, ∑' n : ℕ, ENNReal.ofReal (normDensR v (x - y + 2 * (n + 1) * U - 2 * (n + 1) * u)) = ∑' n : ℕ, ENNReal.ofReal (normDensR v (2 * (n + 1) * (U - u) - (y - x))) :=
    fun u => tsum_congr fun n => by ring_nf
  have rNP : ∀ u : ℝ, ∑' n : ℕ, ENNReal.ofReal (normDensR v (y - x + 2 * (n + 1) * U - 2 * (n + 1) * u)) = ∑' n : ℕ, ENNReal.ofReal (normDensR v (y - x + 2 * (n + 1) * (U - u))) :=
    fun u => tsum_congr fun n => by ring_nf
  rw [rPP m, rPP μ] at hPP
  rw [rNN m, rNN μ] at hNN
  rw [rPN m, rPN μ] at hPN
  rw [rNP m, rNP μ] at hNP
  have hminus : I (entrPos U) (entrPos U) + I (entrNeg U) (entrNeg U) + normImg (U - m) v (x + y - 2 * m) = normImg (U - μ) v (x + y - 2 * μ) := by
    rw [normImg_split'' (U - m), normImg_split'' (U - μ), ← hPP, ← hNN]
    have e : ∀ u, 2 * (U - u) - (x + y - 2 * u) = 2 * U - x - y := fun u => by ring
    rw [e, e, hI]
    simp only [entrPos, entrNeg]
    ring
  have hplus : I (entrPos U) (entrNeg U) + I (entrNeg U) (entrPos U) + normImg (U - m) v (y - x) = normImg (U - μ) v (y - x) := by
    rw [normImg_split' (U - m), normImg_split' (U - μ), ← hPN, ← hNP, hI]
    simp only [entrPos, entrNeg]
    ring
  have hmeet : normImg (U - μ) v (x + y - 2 * μ) = normImg (U - μ) v (y - x) := by
    rcases le_total x y with h | h
    · rw [hμ, min_eq_left h]; congr 1; ring
    · rw [hμ, min_eq_right h, ← normImg_neg]; congr 1; ring
  have hpair := stripDens_pair hv hx hxU hy hyU
  have f1 := normImg_ne_top hv (sub_pos.2 hμU) (y - x)
  have f2 := normImg_ne_top hv (by linarith : 0 < U - m) (x + y - 2 * m)
  have hfin : (I (stripEntr U) (stripEntr U) + normImg (U - m) v (x + y - 2 * m)) + normImg (U - μ) v (y - x) = normImg (U - m) v (y - x) + normImg (U - μ) v (y - x) := by
    calc _ = (I (stripEntr U) (stripEntr U) + (I (entrPos U) (entrNeg U) + I (entrNeg U) (entrPos U))) + normImg (U - m) v (x + y - 2 * m) + normImg (U - m) v (y - x) := by
          rw [← hplus]; ring
      _ = (I (entrPos U) (entrPos U) + I (entrNeg U) (entrNeg U) + normImg (U - m) v (x + y - 2 * m)) + normImg (U - m) v (y - x) := by rw [hbal]
      _ = _ := by rw [hminus, hmeet, add_comm]
  have h1 := (ENNReal.add_left_inj f1).1 hfin
  rw [← hpair] at h1
  exact (ENNReal.add_left_inj f2).1 h1

theorem stripEntr_low (h : x ≤ m) : stripEntr U m v x = 0 := if_neg fun h' => absurd h'.1 (not_lt.2 h)

theorem stripEntr_high (h : U ≤ x) : stripEntr U m v x = 0 := if_neg fun h' => absurd h'.2 (not_lt.2 h)

theorem layerKer_strip (U : ℝ) : LayerKer (stripEntr U) (stripDens U) where
  measE := measurable_stripEntr U
  measK := measK_strip U
  symm := stripDens_symm U
  split {v} hv m x y := by
    have hz : ∀ m', (x ≤ m' ∨ U ≤ x ∨ y ≤ m' ∨ U ≤ y) → ∫⁻ s in Ioo 0 v, 2 * (stripEntr U m' s x * stripEntr U m' (v - s) y) = 0 := by
      intro m' h
      rw [lintegral_congr (g := fun _ => 0), lintegral_zero]
      intro s
      rcases h with h | h | h | h
      · rw [stripEntr_low h]; simp
      · rw [stripEntr_high h]; simp
      · rw [stripEntr_low h]; simp
      · rw [stripEntr_high h]; simp
    by_cases h : m < x ∧ x < U ∧ m < y ∧ y < U
    · rw [← strip_split hv h.1 h.2.1 h.2.2.1 h.2.2.2, ← Ioo_union_Ici_eq_Ioi (lt_min h.1 h.2.2.1), lintegral_union measurableSet_Ici (by
        rw [Set.disjoint_left]; intro u hu hu2; exact absurd hu.2 (not_lt.2 hu2)),
        setLIntegral_congr_fun (s := Ici (min x y)) measurableSet_Ici (g := fun _ => 0) (fun m' hm' => hz m' ?_), lintegral_zero, add_zero]
      rcases min_le_iff.1 (mem_Ici.1 hm') with h' | h'
      · exact Or.inl h'
      · exact Or.inr (Or.inr (Or.inl h'))
    · rw [stripDens, if_neg h, setLIntegral_congr_fun measurableSet_Ioi (g := fun _ => 0) (fun m' hm' => hz m' ?_), lintegral_zero]
      have hm'' := mem_Ioi.1 hm'
      by_contra hc
      push Not at hc
      exact h ⟨hm''.trans hc.1, hc.2.1, hm''.trans hc.2.2.1, hc.2.2.2⟩

end Ctb
