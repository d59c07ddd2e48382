import Verif.Lemmas.RawLoop
import Verif.Props.AnchorSide
import Verif.Model.RawSkel

set_option linter.unusedSectionVars false

/-! # The layer and the raw skeleton -/

namespace Ctb

open Classical MeasureTheory Set Filter Topology
open scoped ENNReal

variable {T a b : ℝ} {k n F : ℕ}

theorem free_bounds (a b : ℝ) : BoundsAround a b none none := ⟨by simp, by simp⟩

/-! ## The layer -/

theorem unif_between {p q : ℝ} (hp : 0 ≤ p) (hq : q ≤ 1) (A : ℝ≥0∞) :
    ∫⁻ u, (if p < u ∧ u < q then A else 0) ∂(RDist.uniform 0 1).law = ENNReal.ofReal (q - p) * A := by
  rw [RDist.law_uniform01]
  have e : (fun u : ℝ => if p < u ∧ u < q then A else 0) = (Ioo p q).indicator fun _ => A := by
    funext u
    by_cases h : p < u ∧ u < q
    · rw [if_pos h, indicator_of_mem (mem_Ioo.2 h)]
    · rw [if_neg h, indicator_of_notMem (fun h' => h (mem_Ioo.1 h'))]
  have hi : Ioo p q ∩ Ico (0 : ℝ) 1 = Ioo p q := inter_eq_left.2 fun u hu => ⟨hp.trans hu.1.le, hu.2.trans_le hq⟩
  rw [e, lintegral_indicator measurableSet_Ioo, lintegral_const, Measure.restrict_apply_univ, Measure.restrict_apply measurableSet_Ioo,
    hi, Real.volume_Ioo, mul_comm]

theorem search_sum {P : ℕ → ℝ} (hT : 0 < T) (hP : ∀ l, 1 ≤ l → LayerEsc T a b none none l (P l)) (hanti : Antitone P) {u : ℝ} (h0 : 0 ≤ u) (h1 : u ≤ 1)
    (hne : ∀ j, u ≠ P j) (g : ℕ → ℝ≥0∞) : ∀ F l, u < P l →
      (layerSearch T a b none none u F (l + 1)).lexp (onOk g) = ∑ j ∈ Finset.range F, if P (l + j + 1) < u ∧ u < P (l + j) then g (l + j + 1) else 0 := by
  intro F
  induction F with
  | zero => intro l _; simp [layerSearch, onOk]
  | succ F ih =>
    intro l hl
    obtain ⟨s1, s2, -⟩ := search_step (F := F) hT (free_bounds a b) (by omega : 1 ≤ l + 1) (hP (l + 1) (by omega)) h0 h1
    rw [Finset.sum_range_succ']
    rcases lt_or_gt_of_ne (hne (l + 1)) with h | h
    · rw [s1 h, ih (l + 1) h, if_neg (by rintro ⟨h', -⟩; simp only [add_zero] at h'; linarith), add_zero]
      refine Finset.sum_congr rfl fun j _ => ?_
      rw [show l + 1 + j = l + (j + 1) by omega]
    · rw [s2 h, Prog.lexp_ret, Finset.sum_eq_zero, zero_add, if_pos ⟨h, hl⟩]
      · rfl
      · intro j _
        rw [if_neg]
        rintro ⟨-, h'⟩
        have := hanti (show l + 1 ≤ l + (j + 1) by omega)
        linarith

/-- Mass of the paths that stay in layer `k + 1` and leave layer `k`. -/
noncomputable def layerMass (T a b : ℝ) (k : ℕ) : ℝ≥0∞ := if k = 0 then sectorMass T a b 0 1 else keptMass T a b k * 2

theorem strip_zero : stripDens (layerHigh T a b 0) (layerLow T a b 0) T a b = 0 := by
  rw [stripDens, if_neg]
  rintro ⟨h1, -, h2, -⟩
  rw [layerLow_zero] at h1 h2
  exact lt_irrefl _ (lt_min h1 h2)

theorem layerMass_strip (hT : 0 < T) (k : ℕ) : layerMass T a b k + stripDens (layerHigh T a b k) (layerLow T a b k) T a b =
    stripDens (layerHigh T a b (k + 1)) (layerLow T a b (k + 1)) T a b := by
  unfold layerMass
  split_ifs with h
  · subst h
    have := sectorMass_strip (a := a) (b := b) (k := 0) hT le_rfl
    have hz : stripDens (layerHigh T a b (0 + 1)) (layerLow T a b 0) T a b = 0 := by
      rw [stripDens, if_neg]
      rintro ⟨h1, -, h2, -⟩
      rw [layerLow_zero] at h1 h2
      exact lt_irrefl _ (lt_min h1 h2)
    rw [strip_zero, add_zero, ← this, hz, add_zero]
  · exact keptMass_layer hT (by omega)

/-- The law of the layer. -/
theorem layer_lexp (hT : 0 < T) (g : ℕ → ℝ≥0∞) :
    ENNReal.ofReal (normDensR T (b - a)) * (sampleLayer n F T a b none none).lexp (onOk g) = ∑ k ∈ Finset.range F, layerMass T a b k * g (k + 1) := by
  have hex : ∀ l : ℕ, ∃ p, (l = 0 → p = 1) ∧ (1 ≤ l → 0 < p ∧ p < 1 ∧ LayerEsc T a b none none l p) := by
    intro l
    by_cases hl : 1 ≤ l
    · obtain ⟨p, p0, p1, h⟩ := C79_probability hT (free_bounds a b) hl
      exact ⟨p, fun h => absurd h (by omega), fun _ => ⟨p0, p1, h⟩⟩
    · exact ⟨1, fun _ => rfl, fun h => absurd h hl⟩
  choose P hP0 hP using hex
  have hle : ∀ l, 0 ≤ P l ∧ P l ≤ 1 := by
    intro l
    rcases Nat.eq_zero_or_pos l with h | h
    · rw [hP0 l h]; norm_num
    · exact ⟨(hP l h).1.le, (hP l h).2.1.le⟩
  have hanti : Antitone P := by
    refine antitone_nat_of_succ_le fun l => ?_
    rcases Nat.eq_zero_or_pos l with h | h
    · rw [hP0 l h]
      exact (hle _).2
    · exact C79_antitone hT (free_bounds a b) h (by omega) (hP l h).2.2 (hP (l + 1) (by omega)).2.2
  have hstrip : ∀ l, stripDens (layerHigh T a b l) (layerLow T a b l) T a b = ENNReal.ofReal (normDensR T (b - a)) * ENNReal.ofReal (1 - P l) := by
    intro l
    rcases Nat.eq_zero_or_pos l with h | h
    · rw [hP0 l h, h, strip_zero]
      simp
    · obtain ⟨e, he, hl⟩ := (hP l h).2.2
      rw [computeEdges_free hT] at he
      cases he
      exact stripDens_stay hT (layerLow_lt hT h) (layerHigh_gt hT h) hl
  have hmass : ∀ l, ENNReal.ofReal (normDensR T (b - a)) * ENNReal.ofReal (P l - P (l + 1)) = layerMass T a b l := by
    intro l
    have h := layerMass_strip (a := a) (b := b) hT l
    rw [hstrip, hstrip, show 1 - P (l + 1) = (P l - P (l + 1)) + (1 - P l) by ring,
      ENNReal.ofReal_add (sub_nonneg.2 (hanti (Nat.le_succ l))) (by linarith [(hle l).2]), mul_add] at h
    exact ((ENNReal.add_left_inj (ENNReal.mul_ne_top ENNReal.ofReal_ne_top ENNReal.ofReal_ne_top)).1 h).symm
  have hint : (sampleLayer n F T a b none none).lexp (onOk g) = ∑ k ∈ Finset.range F, ENNReal.ofReal (P k - P (k + 1)) * g (k + 1) := by
    simp only [sampleLayer, Prog.assert, if_pos hT, Prog.ret_bind, layerSeed, Prog.draw, Prog.real_bind, Prog.lexp_real]
    have e : ∫⁻ u, (layerSearch T a b none none u F 1).lexp (onOk g) ∂(RDist.uniform 0 1).law =
        ∫⁻ u, ∑ j ∈ Finset.range F, (if P (j + 1) < u ∧ u < P j then g (j + 1) else 0) ∂(RDist.uniform 0 1).law := by
      refine lintegral_congr_ae ?_
      rw [RDist.law_uniform01, Filter.EventuallyEq, ae_restrict_iff' measurableSet_Ico]
      have : ∀ᵐ u : ℝ, u ∉ range P := by
        rw [ae_iff]
        simp only [not_not]
        exact (countable_range P).measure_zero volume
      filter_upwards [this] with u hu hI
      have := search_sum (g := g) hT (fun l hl => (hP l hl).2.2) hanti hI.1 hI.2.le (fun j hj => hu ⟨j, hj.symm⟩) F 0 (by rw [hP0 0 rfl]; exact hI.2)
      simpa only [zero_add] using this
    rw [e, lintegral_finsetSum]
    · exact Finset.sum_congr rfl fun k _ => unif_between (hle _).1 (hle _).2 _
    · intro k _
      exact Measurable.ite (measurableSet_Ioo : MeasurableSet (Ioo (P (k + 1)) (P k))) measurable_const measurable_const
  rw [hint, Finset.mul_sum]
  exact Finset.sum_congr rfl fun k _ => by rw [← mul_assoc, hmass]

/-! ## The skeleton -/

theorem flip_minSkel (fl : Option (List Bool)) {s m : ℝ} (hs : 0 < s) (hsT : s < T) : flipSkel (minSkel T a b k fl s m) = .ok (maxSkel T a b k fl s m) := by
  have h1 : ∀ x ∈ [0, s, T], 0 ≤ x ∧ x ≤ T := by
    intro x hx
    simp only [List.mem_cons, List.not_mem_nil, or_false] at hx
    rcases hx with rfl | rfl | rfl <;> constructor <;> linarith
  have h2 : ∀ x ∈ [T - T, T - s, T - 0], 0 ≤ x := by
    intro x hx
    simp only [List.mem_cons, List.not_mem_nil, or_false] at hx
    rcases hx with rfl | rfl | rfl <;> linarith
  unfold minSkel
  simp only [flipSkel, List.head?_cons, List.getLast?_cons_cons, List.getLast?_singleton, reversePath]
  rw [if_neg (not_not.2 h1), if_neg (by rw [not_not]; linarith)]
  simp only [List.reverse_cons, List.reverse_nil, List.nil_append, List.cons_append, List.map_cons, List.map_nil, reflectPath]
  rw [if_neg (by simp), if_neg (not_not.2 h2)]
  simp only [maxSkel, layerHigh, Except.ok.injEq, EaSkel.mk.injEq, List.cons.injEq, and_true, true_and]
  refine ⟨⟨?_, ?_⟩, ⟨?_, ?_, ?_⟩, ?_, ?_, ?_⟩ <;> ring

theorem SkelMeas.min {G : EaSkel → ℝ≥0∞} (h : SkelMeas T a b G) (k : ℕ) (fl : Option (List Bool)) : Measurable fun p : ℝ × ℝ => G (minSkel T a b k fl p.1 p.2) := h _ _ fl

theorem SkelMeas.max {G : EaSkel → ℝ≥0∞} (h : SkelMeas T a b G) (k : ℕ) (fl : Option (List Bool)) : Measurable fun p : ℝ × ℝ => G (maxSkel T a b k fl p.1 p.2) :=
  (h _ _ _).comp (by fun_prop : Measurable fun p : ℝ × ℝ => (T - p.1, a + b - p.2))

/-- Both orientations with the same chance. -/
noncomputable def bothSides (G : EaSkel → ℝ≥0∞) (T a b : ℝ) (k : ℕ) (e : ℝ × ℝ × ℝ × ℝ × Option (List Bool)) : ℝ≥0∞ :=
  2⁻¹ * (G (minSkel T a b k e.2.2.2.2 e.1 e.2.1) + G (maxSkel T a b k e.2.2.2.2 e.1 e.2.1))

theorem raw_lexp (hT : 0 < T) (hn : 0 < n) (G : EaSkel → ℝ≥0∞) :
    (sampleRawSkel n F T a b none none).lexp (onOk G) = (sampleLayer n F T a b none none).lexp (onOk fun l =>
      (edgesLoop n T a b (layerLow T a b l, layerLow T a b (l - 1)) (layerHigh T a b (l - 1), layerHigh T a b l) n).lexp (onOk (bothSides G T a b (l - 1)))) := by
  unfold sampleRawSkel sampleAnchor
  simp only [Prog.assert, if_pos hT, Prog.ret_bind]
  rw [Prog.lexp_bind, Prog.lexp_bind]
  refine Prog.lexp_congr ?_
  rintro (e | l) hl
  · rfl
  obtain ⟨-, h1, -⟩ := sampleLayer_out hl
  obtain ⟨k, rfl⟩ : ∃ k, l = k + 1 := ⟨l - 1, by omega⟩
  obtain ⟨p, p0, hp⟩ := sector_level hT (free_bounds a b) h1 (computeEdges_free hT (k + 1)) (computeEdges_free hT (k + 1 - 1))
  rw [Prog.cont_ok]
  simp only [Nat.add_sub_cancel] at hp ⊢
  simp only [computeEdges_free hT, Prog.lift, Prog.ret_bind, hp, Prog.draw, Prog.real_bind, Prog.lexp_real, Prog.lexp_ret, Prog.cont_ok]
  have hedge : ((sampleEdges n n T a b (layerLow T a b (k + 1), layerLow T a b k) (layerHigh T a b k, layerHigh T a b (k + 1))).bind fun e =>
      (Prog.real (.uniform 0 1) fun u => if u < 1 / 2 then Prog.ret (⟨[0, e.1, T], [a, e.2.1, b], e.2.1, e.2.2.2.1, e.2.2.1, e.2.2.2.2⟩ : EaSkel) else
        Prog.lift (flipSkel ⟨[0, e.1, T], [a, e.2.1, b], e.2.1, e.2.2.2.1, e.2.2.1, e.2.2.2.2⟩))).lexp (onOk G) =
      (edgesLoop n T a b (layerLow T a b (k + 1), layerLow T a b k) (layerHigh T a b k, layerHigh T a b (k + 1)) n).lexp (onOk (bothSides G T a b k)) := by
    unfold sampleEdges
    simp only [Prog.assert, if_pos hT, if_pos hn, Prog.ret_bind]
    rw [Prog.lexp_bind]
    refine Prog.lexp_congr ?_
    rintro (e | ⟨s, m, H, U, fl⟩) ho
    · rfl
    obtain ⟨o1, o2, -, -, -, -, -, rfl, rfl, -⟩ := edgesLoop_out ho
    rw [Prog.cont_ok, Prog.lexp_real]
    have hf := flip_minSkel (k := k) (a := a) (b := b) fl (m := m) o1 o2
    unfold minSkel at hf
    rw [unif_decide (p := 1 / 2) (A := G (minSkel T a b k fl s m)) (B := G (maxSkel T a b k fl s m)) (by norm_num) (by norm_num)]
    · have h : ENNReal.ofReal (1 / 2) = 2⁻¹ := by rw [one_div, ENNReal.ofReal_inv_of_pos two_pos]; simp
      rw [show (1 : ℝ) - 1 / 2 = 1 / 2 by norm_num, h, ← mul_add]
      rfl
    · intro u _ _ hu
      simp only [if_pos hu]
      rfl
    · intro u _ _ hu
      simp only [if_neg (not_lt.2 hu.le), hf]
      rfl
  refine (lintegral_congr fun _ => hedge).trans ?_
  rw [lintegral_const, RDist.law_uniform01, Measure.restrict_apply_univ, Real.volume_Ico]
  simp [onOk]

/-- Probability that layer `k + 1`, once drawn, leads to a skeleton. -/
noncomputable def rawOk (T a b : ℝ) (n k : ℕ) : ℝ≥0∞ :=
  if k = 0 then trials n (sectorRate T a b (layerLow T a b 1) (layerLow T a b 0) (layerHigh T a b 1)) else
    roundsOk n (trials n (sectorRate T a b (layerLow T a b (k + 1)) (layerLow T a b k) (layerHigh T a b (k + 1)))) (keptMass T a b k / sectorMass T a b k (k + 1))

theorem both_meas {G : EaSkel → ℝ≥0∞} (hG : SkelMeas T a b G) (k : ℕ) (fl : Option (List Bool)) : Measurable fun p => bothSides G T a b k (edgesOut T a b k fl p) :=
  ((hG.min k fl).add (hG.max k fl)).const_mul _

theorem raw_sum (hT : 0 < T) (hn : 0 < n) {G : EaSkel → ℝ≥0∞} (hG : SkelMeas T a b G) :
    ENNReal.ofReal (normDensR T (b - a)) * (sampleRawSkel n F T a b none none).lexp (onOk G) = ∑ k ∈ Finset.range F, rawOk T a b n k * layerInt T a b k G := by
  have h2 : (2 : ℝ≥0∞) * 2⁻¹ = 1 := ENNReal.mul_inv_cancel (by simp) (by simp)
  rw [raw_lexp hT hn, layer_lexp hT]
  refine Finset.sum_congr rfl fun k _ => ?_
  simp only [Nat.add_sub_cancel]
  rcases k with - | k
  · obtain ⟨n, rfl⟩ : ∃ j, n = j + 1 := ⟨n - 1, by omega⟩
    simp only [layerMass, rawOk, if_true, zero_add]
    rw [edges_first hT (both_meas hG 0)]
    simp only [layerInt]
    congr 1
    refine sector_cong fun m _ _ s _ _ => ?_
    simp only [bothSides, edgesOut]
    rw [show ∀ x y : ℝ≥0∞, 2 * x * (2⁻¹ * y) = 2 * 2⁻¹ * (x * y) from fun x y => by ring, h2, one_mul]
  · simp only [layerMass, rawOk, if_neg (Nat.succ_ne_zero k)]
    rw [mul_assoc, mul_left_comm, edges_law hT (by omega) (both_meas hG _), mul_left_comm]
    congr 1
    rw [← sector_mul _ (by simp)]
    simp only [layerInt]
    refine sector_cong fun m _ _ s _ _ => ?_
    rw [Finset.mul_sum]
    refine Finset.sum_congr rfl fun f _ => ?_
    simp only [bothSides, edgesOut]
    rw [show ∀ w x y : ℝ≥0∞, 2 * (2 * w * x * (2⁻¹ * y)) = 2 * 2⁻¹ * (2 * w * x * y) from fun w x y => by ring, h2, one_mul]
    congr 2
    unfold flagWeight
    split_ifs
    · exact h2
    · exact mul_one _

theorem layerInt_mass (k : ℕ) : layerInt T a b k (fun _ => 1) = layerMass T a b k := by
  have h2 : (2 : ℝ≥0∞) * 2⁻¹ = 1 := ENNReal.mul_inv_cancel (by simp) (by simp)
  rcases k with - | k
  · simp only [layerInt, layerMass, if_true, sectorMass]
    refine sector_cong fun m _ _ s _ _ => ?_
    ring
  · simp only [layerInt, layerMass, if_neg (Nat.succ_ne_zero k), keptMass]
    rw [mul_comm, ← sector_mul _ (by simp)]
    refine sector_cong fun m _ _ s _ _ => ?_
    rw [Finset.mul_sum]
    refine Finset.sum_congr rfl fun f _ => ?_
    rw [mul_comm _ (1 + 1 : ℝ≥0∞), one_add_one_eq_two]
    congr 2
    unfold flagWeight
    split_ifs
    · exact h2.symm
    · exact (mul_one _).symm

/-! ## The budget -/

theorem sectorRate_pos (hT : 0 < T) {j : ℕ} (hj : 1 ≤ j) : sectorRate T a b (layerLow T a b (k + 1)) (layerLow T a b k) (layerHigh T a b j) ≠ 0 := by
  refine ENNReal.div_ne_zero.2 ⟨(sectorMass_pos hT hj).1, ?_⟩
  exact (sector_mass hT (layerLow_anti hT (Nat.lt_succ_self k)) (layerLow_le hT k)).2

theorem rounds_mono {τ τ' A : ℝ≥0∞} {n m : ℕ} (h : τ ≤ τ') (hnm : n ≤ m) : roundsOk n τ A ≤ roundsOk m τ' A := by
  unfold roundsOk
  refine mul_le_mul' (mul_le_mul' le_rfl h) ((Finset.sum_le_sum fun i _ => pow_le_pow_left' (mul_le_mul' h le_rfl) i).trans ?_)
  exact Finset.sum_le_sum_of_subset (Finset.range_mono hnm)

theorem keptRate (hT : 0 < T) (hk : 1 ≤ k) : keptMass T a b k / sectorMass T a b k (k + 1) ≠ 0 ∧ keptMass T a b k / sectorMass T a b k (k + 1) ≤ 1 := by
  refine ⟨ENNReal.div_ne_zero.2 ⟨(keptMass_pos hT hk).1, (sectorMass_pos hT (by omega)).2⟩, ENNReal.div_le_of_le_mul ?_⟩
  rw [one_mul, ← keptMass_split hT]
  exact le_self_add

theorem rawOk_mono (k : ℕ) : Monotone fun n => rawOk T a b n k := by
  intro n m h
  simp only [rawOk]
  split_ifs
  · exact trials_mono _ h
  · exact rounds_mono (trials_mono _ h) h

theorem rawOk_le (hT : 0 < T) (n k : ℕ) : rawOk T a b n k ≤ 1 := by
  unfold rawOk
  split_ifs
  · exact trials_le _ _
  · exact rounds_le (trials_le _ _) (keptRate hT (by omega)).2 n

theorem trials_tendsto {α : ℝ≥0∞} (h0 : α ≠ 0) : Tendsto (fun n => trials n α) atTop (𝓝 1) := by
  rw [← trials_sup h0]
  exact tendsto_atTop_iSup (trials_mono α)

theorem rounds_one {A : ℝ≥0∞} (h0 : A ≠ 0) (h1 : A ≤ 1) : Tendsto (fun m => roundsOk m 1 A) atTop (𝓝 1) := by
  have hf : A ≠ ∞ := (h1.trans_lt ENNReal.one_lt_top).ne
  have h := (ENNReal.Tendsto.const_mul (a := A) (ENNReal.tendsto_nat_tsum fun i => (1 - A) ^ i) (Or.inr hf))
  rw [ENNReal.tsum_geometric, ENNReal.sub_sub_cancel ENNReal.one_ne_top h1, ENNReal.mul_inv_cancel h0 hf] at h
  simpa only [roundsOk, one_mul, mul_one] using h

theorem rounds_tendsto {A : ℝ≥0∞} {τ : ℕ → ℝ≥0∞} (h0 : A ≠ 0) (h1 : A ≤ 1) (hτ1 : ∀ n, τ n ≤ 1) (hm : Monotone τ) (hτ : Tendsto τ atTop (𝓝 1)) :
    Tendsto (fun n => roundsOk n (τ n) A) atTop (𝓝 1) := by
  have hf : A ≠ ∞ := (h1.trans_lt ENNReal.one_lt_top).ne
  have hg : 1 - A ≠ ∞ := (tsub_le_self.trans_lt ENNReal.one_lt_top).ne
  have hmono : Monotone fun n => roundsOk n (τ n) A := fun n m h => rounds_mono (hm h) h
  have hS : ⨆ n, roundsOk n (τ n) A = 1 := by
    refine le_antisymm (iSup_le fun n => rounds_le (hτ1 n) h1 n) (le_of_tendsto' (rounds_one h0 h1) fun m => ?_)
    have ht : Tendsto (fun n => roundsOk m (τ n) A) atTop (𝓝 (roundsOk m 1 A)) := by
      unfold roundsOk
      refine ENNReal.Tendsto.mul (ENNReal.Tendsto.const_mul hτ (Or.inr hf)) (Or.inr ?_) (tendsto_finsetSum _ fun i _ => ?_) (Or.inr ?_)
      · exact (ENNReal.sum_lt_top.2 fun i _ => ENNReal.pow_lt_top (ENNReal.mul_lt_top ENNReal.one_lt_top hg.lt_top)).ne
      · exact ENNReal.Tendsto.pow (ENNReal.Tendsto.mul_const hτ (Or.inr hg))
      · exact ENNReal.mul_ne_top hf ENNReal.one_ne_top
    refine le_of_tendsto ht ?_
    filter_upwards [eventually_ge_atTop m] with n hn
    exact (rounds_mono le_rfl hn).trans (le_iSup (fun n => roundsOk n (τ n) A) n)
  rw [← hS]
  exact tendsto_atTop_iSup hmono

theorem rawOk_tendsto (hT : 0 < T) (k : ℕ) : Tendsto (fun n => rawOk T a b n k) atTop (𝓝 1) := by
  rcases Nat.eq_zero_or_pos k with rfl | hk
  · simp only [rawOk, if_true]
    exact trials_tendsto (sectorRate_pos hT le_rfl)
  · simp only [rawOk, if_neg hk.ne']
    obtain ⟨a0, a1⟩ := keptRate (a := a) (b := b) hT hk
    have hτ := trials_tendsto (sectorRate_pos (a := a) (b := b) (k := k) hT (by omega : 1 ≤ k + 1))
    exact rounds_tendsto a0 a1 (fun n => trials_le _ _) (trials_mono _) hτ

/-- The limit of a monotone budget. -/
theorem budget_limit {c : ℕ → ℕ → ℝ≥0∞} {L : ℕ → ℝ≥0∞} (hm : ∀ k, Monotone fun n => c n k) (h1 : ∀ n k, c n k ≤ 1) (hc : ∀ k, Tendsto (fun n => c n k) atTop (𝓝 1)) :
    Tendsto (fun n => ∑ k ∈ Finset.range n, c n k * L k) atTop (𝓝 (∑' k, L k)) := by
  have hmono : Monotone fun n => ∑ k ∈ Finset.range n, c n k * L k := fun n m h =>
    (Finset.sum_le_sum fun k _ => mul_le_mul' (hm k h) le_rfl).trans (Finset.sum_le_sum_of_subset (Finset.range_mono h))
  have hS : ⨆ n, ∑ k ∈ Finset.range n, c n k * L k = ∑' k, L k := by
    refine le_antisymm (iSup_le fun n => (Finset.sum_le_sum fun k _ => mul_le_of_le_one_left' (h1 n k)).trans (ENNReal.sum_le_tsum _)) ?_
    rw [ENNReal.tsum_eq_iSup_nat]
    refine iSup_le fun N => ?_
    have hN : Tendsto (fun n => ∑ k ∈ Finset.range N, c n k * L k) atTop (𝓝 (∑ k ∈ Finset.range N, L k)) := by
      refine tendsto_finsetSum _ fun k _ => ?_
      have := ENNReal.Tendsto.mul_const (b := L k) (hc k) (Or.inl one_ne_zero)
      rwa [one_mul] at this
    refine le_of_tendsto hN ?_
    filter_upwards [eventually_ge_atTop N] with n hn
    exact (Finset.sum_le_sum_of_subset (Finset.range_mono hn)).trans (le_iSup (fun n => ∑ k ∈ Finset.range n, c n k * L k) n)
  rw [← hS]
  exact tendsto_atTop_iSup hmono

/-! ## Sides -/

theorem minSkel_flags (fl : Option (List Bool)) (s m : ℝ) : (minSkel T a b k fl s m).hitI = fl := rfl

theorem min_side (hT : 0 < T) {fl : Option (List Bool)} {s m : ℝ} (hm : m < layerLow T a b k) : onMinSide (minSkel T a b k fl s m) := by
  have h1 := layerHigh_gt (a := a) (b := b) hT (by omega : 1 ≤ k + 1)
  have h2 := layerLow_le (a := a) (b := b) hT k
  have : min a b ≤ max a b := min_le_max
  show m < layerHigh T a b (k + 1)
  linarith

theorem max_side (hT : 0 < T) {fl : Option (List Bool)} {s m : ℝ} (hm : m < layerLow T a b k) : ¬ onMinSide (maxSkel T a b k fl s m) := by
  have h1 := layerLow_lt (a := a) (b := b) hT (by omega : 1 ≤ k + 1)
  have h2 := layerHigh_ge (a := a) (b := b) hT k
  have : min a b ≤ max a b := min_le_max
  show ¬ a + b - m < layerLow T a b (k + 1)
  unfold layerHigh at h2
  linarith

end Ctb
