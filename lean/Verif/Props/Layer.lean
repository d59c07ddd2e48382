import Verif.Lemmas.RawSkel
import Mathlib.Order.Interval.Finset.Nat

set_option linter.unusedSectionVars false

/-! # C79: the layer of a bridge -/

namespace Ctb

open Classical Filter Topology MeasureTheory Set
open scoped ENNReal

variable {T a b : ℝ} {lb ub : Option ℝ} {n F k l : ℕ} {P : ℕ → ℝ} {u : ℝ}

/-- `p` is the probability (the limit of the escape series) that the bridge leaves layer `l`. -/
def LayerEsc (T a b : ℝ) (lb ub : Option ℝ) (l : ℕ) (p : ℝ) : Prop :=
  ∃ e, computeEdges l T a b lb ub 2 = .ok e ∧
    Tendsto (brownSeries T (a - (e.1 + e.2) / 2) (b - (e.1 + e.2) / 2) ((e.2 - e.1) / 2)) atTop (𝓝 p)

theorem layer_inside (hT : 0 < T) (hb : BoundsAround a b lb ub) (hl : 1 ≤ l) : ∃ e, computeEdges l T a b lb ub 2 = .ok e ∧
    |a - (e.1 + e.2) / 2| < (e.2 - e.1) / 2 ∧ |b - (e.1 + e.2) / 2| < (e.2 - e.1) / 2 := by
  obtain ⟨e, h1, -, -, -, -, -, -, h8⟩ := C39_brackets (i := l) (pow := 2) hT hb.1 hb.2
  obtain ⟨h9, h10⟩ := h8 (by omega)
  rw [lt_min_iff] at h9
  rw [max_lt_iff] at h10
  exact ⟨e, h1, by rw [abs_lt]; constructor <;> linarith, by rw [abs_lt]; constructor <;> linarith⟩

/-- Every layer has such a probability, strictly between 0 and 1. -/
theorem C79_probability (hT : 0 < T) (hb : BoundsAround a b lb ub) (hl : 1 ≤ l) : ∃ p, 0 < p ∧ p < 1 ∧ LayerEsc T a b lb ub l p := by
  obtain ⟨e, h1, h2, h3⟩ := layer_inside hT hb hl
  obtain ⟨p, p0, p1, hp, -⟩ := C41_series hT h2 h3
  exact ⟨p, p0, p1, e, h1, hp⟩

theorem layerEsc_decide (hT : 0 < T) (hb : BoundsAround a b lb ub) (hl : 1 ≤ l) {p : ℝ} (hp : LayerEsc T a b lb ub l p) (h0 : 0 ≤ u) (h1 : u ≤ 1) :
    ∃ e, computeEdges l T a b lb ub 2 = .ok e ∧
      (u < p → brownEsc T (a - (e.1 + e.2) / 2) (b - (e.1 + e.2) / 2) ((e.2 - e.1) / 2) none (some u) = .ret true) ∧
      (p < u → brownEsc T (a - (e.1 + e.2) / 2) (b - (e.1 + e.2) / 2) ((e.2 - e.1) / 2) none (some u) = .ret false) ∧
      (u = p → brownEsc T (a - (e.1 + e.2) / 2) (b - (e.1 + e.2) / 2) ((e.2 - e.1) / 2) none (some u) = .err .fuel) := by
  obtain ⟨e, e1, hp⟩ := hp
  obtain ⟨e', e2, i1, i2⟩ := layer_inside hT hb hl
  rw [e1] at e2
  cases e2
  obtain ⟨p', hp'⟩ := brownSeries_alt hT i1 i2
  obtain rfl := tendsto_nhds_unique hp hp'.1
  have hA := hp'.mono (Nat.zero_le 1)
  refine ⟨e, e1, ?_⟩
  simp only [brownEsc]
  rw [brownEscSeeded_eq hT i1 i2 (by simp) h0 h1, brownEscSeries]
  refine ⟨fun h => ?_, fun h => ?_, fun h => ?_⟩
  · rw [escSearch_true hA h]; rfl
  · rw [escSearch_false hA h]; rfl
  · rw [h, escSearch_none hA]; rfl

theorem search_step (hT : 0 < T) (hb : BoundsAround a b lb ub) (hl : 1 ≤ l) {p : ℝ} (hp : LayerEsc T a b lb ub l p) (h0 : 0 ≤ u) (h1 : u ≤ 1) :
    (u < p → layerSearch T a b lb ub u (F + 1) l = layerSearch T a b lb ub u F (l + 1)) ∧
      (p < u → layerSearch T a b lb ub u (F + 1) l = .ret l) ∧ (u = p → layerSearch T a b lb ub u (F + 1) l = .err .fuel) := by
  obtain ⟨e, he, h2, h3, h4⟩ := layerEsc_decide hT hb hl hp h0 h1
  simp only [layerSearch, he, Prog.lift, Prog.ret_bind]
  refine ⟨fun h => ?_, fun h => ?_, fun h => ?_⟩
  · rw [h2 h]; rfl
  · rw [h3 h]; rfl
  · rw [h4 h]; rfl

/-- With seed `u` the loop over the layers returns the first layer whose escape probability is below `u`; a seed equal to one of the
probabilities met before searches forever. -/
theorem C79_first (hT : 0 < T) (hb : BoundsAround a b lb ub) (hP : ∀ l, 1 ≤ l → LayerEsc T a b lb ub l (P l)) (h0 : 0 ≤ u) (h1 : u ≤ 1) :
    (layerSearch T a b lb ub u F 1).Out (.ok l) ↔ 1 ≤ l ∧ l ≤ F ∧ P l < u ∧ ∀ j, 1 ≤ j → j < l → u < P j := by
  have key : ∀ F m, 1 ≤ m → ((layerSearch T a b lb ub u F m).Out (.ok l) ↔ m ≤ l ∧ l < m + F ∧ P l < u ∧ ∀ j, m ≤ j → j < l → u < P j) := by
    intro F
    induction F with
    | zero => intro m _; simp only [layerSearch]; constructor
              · intro h; cases h
              · rintro ⟨h1, h2, -⟩; omega
    | succ F ih =>
      intro m hm
      obtain ⟨s1, s2, s3⟩ := search_step (F := F) hT hb hm (hP m hm) h0 h1
      rcases lt_trichotomy u (P m) with h | h | h
      · rw [s1 h, ih (m + 1) (by omega)]
        constructor
        · rintro ⟨k1, k2, k3, k4⟩
          refine ⟨by omega, by omega, k3, fun j hj hj' => ?_⟩
          rcases hj.eq_or_lt with rfl | hj
          · exact h
          · exact k4 j hj hj'
        · rintro ⟨k1, k2, k3, k4⟩
          rcases k1.eq_or_lt with rfl | k1
          · exact absurd k3 (not_lt.2 h.le)
          · exact ⟨k1, by omega, k3, fun j hj hj' => k4 j (by omega) hj'⟩
      · rw [s3 h]
        constructor
        · intro h; cases h
        · rintro ⟨k1, k2, k3, k4⟩
          rcases k1.eq_or_lt with rfl | k1
          · linarith
          · linarith [k4 m le_rfl k1]
      · rw [s2 h, Prog.out_ret]
        constructor
        · intro e
          cases e
          exact ⟨le_rfl, by omega, h, fun j h1 h2 => absurd h2 (by omega)⟩
        · rintro ⟨k1, k2, k3, k4⟩
          rcases k1.eq_or_lt with rfl | k1
          · rfl
          · linarith [k4 m le_rfl k1]
  rw [key F 1 le_rfl]
  constructor
  · rintro ⟨k1, k2, k3⟩; exact ⟨k1, by omega, k3⟩
  · rintro ⟨k1, k2, k3⟩; exact ⟨k1, by omega, k3⟩

theorem search_lexp (hT : 0 < T) (hb : BoundsAround a b lb ub) (hP : ∀ l, 1 ≤ l → LayerEsc T a b lb ub l (P l)) (h0 : 0 ≤ u) (h1 : u ≤ 1)
    (hne : ∀ j, u ≠ P j) (g : Res ℕ → ℝ≥0∞) (hg : ∀ r, g r = if ∃ l, l ≤ k ∧ r = .ok l then 1 else 0) :
    ∀ F m, 1 ≤ m → k < m + F → (layerSearch T a b lb ub u F m).lexp g = if ∃ j, m ≤ j ∧ j ≤ k ∧ P j < u then 1 else 0 := by
  intro F
  induction F with
  | zero =>
    intro m hm hk
    simp only [layerSearch, Prog.lexp_err, hg]
    rw [if_neg (by simp), if_neg]
    rintro ⟨j, h1, h2, -⟩
    omega
  | succ F ih =>
    intro m hm hk
    obtain ⟨s1, s2, -⟩ := search_step (F := F) hT hb hm (hP m hm) h0 h1
    rcases lt_or_gt_of_ne (hne m) with h | h
    · rw [s1 h, ih (m + 1) (by omega) (by omega)]
      congr 1
      apply propext
      constructor
      · rintro ⟨j, h1, h2⟩; exact ⟨j, by omega, h2⟩
      · rintro ⟨j, h1, h2, h3⟩
        rcases h1.eq_or_lt with rfl | h1
        · linarith
        · exact ⟨j, h1, h2, h3⟩
    · rw [s2 h, Prog.lexp_ret, hg]
      congr 1
      apply propext
      constructor
      · rintro ⟨l, h1, h2⟩
        cases h2
        exact ⟨m, le_rfl, h1, h⟩
      · rintro ⟨j, h1, h2, -⟩
        exact ⟨m, by omega, rfl⟩

theorem unif_ae {c : ℝ} (hc0 : 0 ≤ c) (hc1 : c ≤ 1) (S : Set ℝ) (hS : S.Countable) (G : ℝ → ℝ≥0∞) (A B : ℝ≥0∞)
    (h : ∀ u, 0 ≤ u → u < 1 → u ∉ S → G u = if u < c then A else B) :
    ∫⁻ u, G u ∂(RDist.uniform 0 1).law = ENNReal.ofReal c * A + ENNReal.ofReal (1 - c) * B := by
  rw [← lintegral_uniform_lt hc0 hc1]
  apply lintegral_congr_ae
  rw [RDist.law_uniform01, Filter.EventuallyEq, ae_restrict_iff' measurableSet_Ico]
  have : ∀ᵐ u : ℝ, u ∉ S := by
    rw [ae_iff]
    simp only [not_not]
    exact hS.measure_zero volume
  filter_upwards [this] with u hu hI
  exact h u hI.1 hI.2 hu

/-- Without bounds: the layer is at most `k` with probability one minus the smallest of the escape probabilities up to `k`. -/
theorem C79_law (hT : 0 < T) (hP : ∀ l, 1 ≤ l → LayerEsc T a b none none l (P l)) (hk : 1 ≤ k) (hF : k ≤ F) :
    (sampleLayer n F T a b none none).prob (fun r => ∃ l, l ≤ k ∧ r = .ok l) =
      ENNReal.ofReal (1 - (Finset.Icc 1 k).inf' (Finset.nonempty_Icc.2 hk) P) := by
  have hb : BoundsAround a b none none := ⟨by simp, by simp⟩
  have hP01 : ∀ l, 1 ≤ l → 0 < P l ∧ P l < 1 := by
    intro l hl
    obtain ⟨p, p0, p1, e, he, hp⟩ := C79_probability hT hb hl
    obtain ⟨e', he', hp'⟩ := hP l hl
    rw [he] at he'
    cases he'
    rw [← tendsto_nhds_unique hp hp']
    exact ⟨p0, p1⟩
  unfold Prog.prob
  simp only [sampleLayer, Prog.assert, if_pos hT, Prog.ret_bind, layerSeed, Prog.draw, Prog.real_bind, Prog.lexp_real]
  set M := (Finset.Icc 1 k).inf' (Finset.nonempty_Icc.2 hk) P with hM
  have hM0 : 0 ≤ M := by
    rw [hM, Finset.le_inf'_iff]
    intro j hj
    exact (hP01 j (Finset.mem_Icc.1 hj).1).1.le
  have hM1 : M ≤ 1 := (Finset.inf'_le P (by simp [hk] : 1 ∈ Finset.Icc 1 k)).trans (hP01 1 le_rfl).2.le
  rw [unif_ae (c := M) hM0 hM1 (Set.range P) (Set.countable_range P) _ 0 1]
  · simp
  · intro u h0 h1 hS
    refine (search_lexp (k := k) hT hb hP h0 h1.le (fun j hj => hS ⟨j, hj.symm⟩) _ (fun r => by congr) F 1 le_rfl (by omega)).trans ?_
    by_cases h : u < M
    · rw [if_pos h, if_neg]
      rintro ⟨j, j1, j2, j3⟩
      have : M ≤ P j := Finset.inf'_le P (Finset.mem_Icc.2 ⟨j1, j2⟩)
      linarith
    · rw [if_neg h, if_pos]
      obtain ⟨j, hj, e⟩ := Finset.exists_mem_eq_inf' (Finset.nonempty_Icc.2 hk) P
      refine ⟨j, (Finset.mem_Icc.1 hj).1, (Finset.mem_Icc.1 hj).2, ?_⟩
      have : M ≤ u := not_lt.1 h
      rw [hM, e] at this
      exact lt_of_le_of_ne this (fun h => hS ⟨j, h⟩)

/-- Without bounds the escape probabilities are small, so the loop ends soon. -/
theorem C79_tail (hT : 0 < T) (hl : 1 ≤ l) {p : ℝ} (hp : LayerEsc T a b none none l p) : p < 2 / ((l : ℝ) ^ 2 + 1) := by
  have hb : BoundsAround a b none none := ⟨by simp, by simp⟩
  obtain ⟨e, he, hp⟩ := hp
  obtain ⟨e', he', i1, i2⟩ := layer_inside hT hb hl
  rw [he] at he'
  cases he'
  obtain ⟨p', -, -, hp', alt⟩ := C41_series hT i1 i2
  obtain rfl := tendsto_nhds_unique hp hp'
  have h1 := (alt 0).2
  obtain ⟨m, m', c1, c2, c3, c4, -, c6, -⟩ := computeEdges_spec (pow := 2) hT hb.1 hb.2 (show 0 < l by omega)
  rw [he] at c1
  cases c1
  have p0 : (0 : ℝ) < 1 / ((l : ℝ) ^ 2 + 1) := by positivity
  have p1 : 1 / ((l : ℝ) ^ 2 + 1) ≤ 1 := (div_le_one (by positivity)).2 (by nlinarith [sq_nonneg (l : ℝ)])
  obtain ⟨x, d1, d2, -, -, -, d6⟩ := ppfBridgeMin_spec (a := a) (b := b) (lb := none) (ub := none) p0.le p1 hT ⟨by simp, by simp⟩
    (fun h => absurd h p0.ne')
  rw [c2] at d1
  cases d1
  obtain ⟨x, d1', d2', -, -, -, d6'⟩ := ppfBridgeMin_spec (a := (a + b) / 2 - a) (b := (a + b) / 2 - b) (lb := none) (ub := none) p0.le p1 hT
    ⟨by simp, by simp⟩ (fun h => absurd h p0.ne')
  simp only [mirrorBound, Option.map_none] at c3
  rw [c3] at d1'
  cases d1'
  rw [Option.getD_none] at d2 d2'
  rw [Option.getD_none, cdfMinBase_top, cdfMinBase_eq d2] at d6
  rw [Option.getD_none, cdfMinBase_top, cdfMinBase_eq d2'] at d6'
  simp only [cdfMinBase, sub_zero, mul_one, add_zero] at d6 d6'
  refine h1.trans_le (le_of_eq ?_)
  have e2 : (2 : ℝ) / ((l : ℝ) ^ 2 + 1) = 1 / ((l : ℝ) ^ 2 + 1) + 1 / ((l : ℝ) ^ 2 + 1) := by ring
  rw [e2]
  nth_rewrite 1 [← d6']
  rw [← d6]
  simp only [brownSeries, partialSum, brownTerm, escUp]
  norm_num
  congr 2 <;> ring

/-- The layer of an unbounded bridge from 0 to 1 over time 2 is at most 3 with probability more than 4/5. -/
example : ENNReal.ofReal (4 / 5) < (sampleLayer 1 3 2 0 1 none none).prob (fun r => ∃ l, l ≤ 3 ∧ r = .ok l) := by
  have hb : BoundsAround 0 1 none none := ⟨by simp, by simp⟩
  have hex : ∀ l : ℕ, ∃ p, 1 ≤ l → LayerEsc 2 0 1 none none l p := by
    intro l
    by_cases hl : 1 ≤ l
    · obtain ⟨p, -, -, h⟩ := C79_probability (T := 2) (by norm_num) hb hl
      exact ⟨p, fun _ => h⟩
    · exact ⟨0, fun h => absurd h hl⟩
  choose P hP using hex
  rw [C79_law (P := P) (by norm_num) hP (by norm_num) le_rfl]
  have h3 := C79_tail (by norm_num) (by norm_num) (hP 3 (by norm_num))
  have : (Finset.Icc 1 3).inf' (Finset.nonempty_Icc.2 (by norm_num)) P ≤ P 3 := Finset.inf'_le P (by simp)
  rw [ENNReal.ofReal_lt_ofReal_iff_of_nonneg (by norm_num)]
  norm_num at h3
  linarith

end Ctb
