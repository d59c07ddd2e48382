import Verif.Props.Escape
import Verif.Lemmas.BridgeMin
import Verif.Lemmas.Bfactories

set_option linter.unusedSectionVars false

/-! # C40: sampled minimum of a bridge -/

namespace Ctb

open Classical Filter Topology MeasureTheory ENNReal

variable {T a b K p u : ℝ} {lb ub : Option ℝ} {t m : ℝ}

theorem minTime_range (hT : 0 < T) (h : (sampleMinTime T a b m).Out (.ok t)) : 0 < t ∧ t < T := by
  simp only [sampleMinTime, Prog.out_bind_ok, Prog.out_draw] at h
  obtain ⟨v, -, h⟩ := h
  split_ifs at h
  · rw [Prog.out_bind_ok] at h
    obtain ⟨w, ⟨w', hw, e⟩, h⟩ := h
    cases e
    cases h
    have hw : 0 < w := hw
    exact ⟨by positivity, by rw [div_lt_iff₀ (by positivity)]; nlinarith⟩
  · rw [Prog.out_bind_ok] at h
    obtain ⟨w, ⟨w', hw, e⟩, h⟩ := h
    cases e
    cases h
    have hw : 0 < w := hw
    have : 0 < 1 / w := by positivity
    exact ⟨by positivity, by rw [div_lt_iff₀ (by positivity)]; nlinarith⟩

/-- Whatever `sample_brownbr_min` returns: a time strictly inside, a level between the bounds and strictly below both end points.  Missing: with
no lower bound the draw 0 returns no number (`C40_violated`). -/
theorem C40_bridge_partial (h : (sampleBridgeMin T a b lb ub).Out (.ok (t, m))) :
    0 < t ∧ t < T ∧ m < a ∧ m < b ∧ (∀ l, lb = some l → l ≤ m) ∧ (∀ l, ub = some l → m < l) := by
  simp only [sampleBridgeMin, Prog.out_bind_ok, Prog.out_assert_ok, Prog.out_draw] at h
  obtain ⟨-, hT, -, hb, u, ⟨u', hu, e⟩, mo, hm, h⟩ := h
  cases e
  obtain ⟨h0, h1⟩ := mem_uniform01.1 hu
  rw [Prog.out_lift] at hm
  rcases mo with _ | m'
  · simp at h
  · rw [Prog.out_bind_ok] at h
    obtain ⟨t', ht, h⟩ := h
    simp only [Prog.out_ret, Except.ok.injEq, Prod.mk.injEq] at h
    obtain ⟨rfl, rfl⟩ := h
    obtain ⟨ht0, ht1⟩ := minTime_range hT ht
    obtain ⟨m2, e1, e2, e3, e4, e5, -⟩ := ppfBridgeMin_spec (a := a) (b := b) h0 h1.le hT hb (fun hz hn => by
      subst hz hn
      rw [ppfBridgeMin_eq ⟨h0, h1.le⟩ hT hb] at hm
      simp [cdfMinBase, ppfMinBase] at hm)
    rw [e1] at hm
    cases hm
    have := e4 h1
    have h2 := lt_min_iff.1 (this.trans_le hb.2)
    exact ⟨ht0, ht1, h2.1, h2.2, e3, fun l hl => by subst hl; exact this⟩

/-- Errors: the assertions, or the draw 0 without lower bound. -/
theorem C40_bridge_errors {e : PyErr} (h : (sampleBridgeMin T a b lb ub).Out (.error e)) :
    (e = .assertion ∧ ¬ (0 < T ∧ (∀ l, lb = some l → l < ub.getD (min a b)) ∧ ub.getD (min a b) ≤ min a b)) ∨ (e = .nan ∧ lb = none) := by
  simp only [sampleBridgeMin] at h
  rw [Prog.out_bind_error, Prog.out_assert_error] at h
  rcases h with ⟨h, rfl⟩ | ⟨_, hT, h⟩
  · exact Or.inl ⟨rfl, fun h' => h h'.1⟩
  rw [Prog.out_assert_ok] at hT
  rw [Prog.out_bind_error, Prog.out_assert_error] at h
  rcases h with ⟨h, rfl⟩ | ⟨_, hb, h⟩
  · exact Or.inl ⟨rfl, fun h' => h h'.2⟩
  rw [Prog.out_assert_ok] at hb
  rw [Prog.out_bind_error] at h
  rcases h with ⟨x, -, h⟩ | ⟨u, ⟨u', hu, e⟩, h⟩
  · cases h
  cases e
  obtain ⟨h0, h1⟩ := mem_uniform01.1 hu
  by_cases hz : u = 0 ∧ lb = none
  · obtain ⟨rfl, rfl⟩ := hz
    rw [ppfBridgeMin_eq ⟨h0, h1.le⟩ hT hb] at h
    simp [cdfMinBase, ppfMinBase, Prog.lift] at h
    exact Or.inr ⟨h, rfl⟩
  · obtain ⟨m2, e1, -⟩ := ppfBridgeMin_spec (a := a) (b := b) h0 h1.le hT hb (fun h1 h2 => hz ⟨h1, h2⟩)
    rw [e1] at h
    simp only [Prog.lift, Prog.ret_bind, Prog.out_bind_error, sampleMinTime] at h
    exfalso
    rcases h with (⟨x, -, h⟩ | ⟨v, -, h⟩) | ⟨x, -, h⟩
    · cases h
    · split_ifs at h
      · rw [Prog.out_bind_error] at h
        rcases h with ⟨x, -, h⟩ | ⟨x, -, h⟩ <;> cases h
      · rw [Prog.out_bind_error] at h
        rcases h with ⟨x, -, h⟩ | ⟨x, -, h⟩ <;> cases h
    · cases h

/-- Without lower bound the uniform draw 0 makes the minimum `-inf` and its time NaN. -/
theorem C40_violated (hT : 0 < T) : (sampleBridgeMin T a b none none).Out (.error .nan) := by
  have hb : MinBoundsOk a b none ((none : Option ℝ).getD (min a b)) := ⟨by simp, le_rfl⟩
  simp only [sampleBridgeMin]
  rw [Prog.out_bind_error]
  refine Or.inr ⟨(), Prog.out_assert_ok.2 hT, ?_⟩
  rw [Prog.out_bind_error]
  refine Or.inr ⟨(), Prog.out_assert_ok.2 hb, ?_⟩
  rw [Prog.out_bind_error]
  refine Or.inr ⟨0, ⟨0, mem_uniform01.2 ⟨le_rfl, one_pos⟩, rfl⟩, ?_⟩
  rw [ppfBridgeMin_eq ⟨le_rfl, zero_le_one⟩ hT hb]
  simp [cdfMinBase, ppfMinBase, Prog.lift]

theorem besEsc_false (h : (besEsc T 0 b K none none).Out (.ok false)) : 0 < T ∧ 0 < b ∧ b < K := by
  simp only [besEsc, Prog.out_bind_ok] at h
  obtain ⟨u, -, h⟩ := h
  simp only [besEscSeeded, Prog.out_bind_ok, Prog.out_assert_ok] at h
  obtain ⟨-, hT, -, -, -, hb, -, -, h⟩ := h
  refine ⟨hT, hb, ?_⟩
  by_contra hc
  rw [if_pos ((not_lt.1 hc).trans (le_max_right _ _))] at h
  cases h

theorem layerMinLoop_ok {U : ℝ} {n : ℕ} (h : (layerMinLoop T a b U lb ub n).Out (.ok (t, m))) :
    (sampleBridgeMin T a b lb ub).Out (.ok (t, m)) ∧ (besEsc t 0 (a - m) (U - m) none none).Out (.ok false) ∧
      (besEsc (T - t) 0 (b - m) (U - m) none none).Out (.ok false) := by
  induction n with
  | zero => cases h
  | succ n ih =>
    simp only [layerMinLoop, Prog.out_bind_ok] at h
    obtain ⟨q, h1, e1, h2, e2, h3, h4⟩ := h
    split_ifs at h4 with hc
    · cases h4
      simp only [Bool.not_eq_true] at hc
      rw [hc.1] at h2
      rw [hc.2] at h3
      exact ⟨h1, h2, h3⟩
    · exact ih h4

/-- What `sample_layerbr_min` returns is admissible for the bridge; with an upper bound both end points lie strictly below it, and the two
pieces on either side of the minimum have not been found to escape above it. -/
theorem C40_layer_partial {n : ℕ} {U : Option ℝ} (h : (sampleLayerMin n T a b U lb ub).Out (.ok (t, m))) :
    0 < t ∧ t < T ∧ m < a ∧ m < b ∧ (∀ l, lb = some l → l ≤ m) ∧ (∀ l, ub = some l → m < l) ∧
      ∀ U', U = some U' → max a b < U' ∧ (besEsc t 0 (a - m) (U' - m) none none).Out (.ok false) ∧
        (besEsc (T - t) 0 (b - m) (U' - m) none none).Out (.ok false) := by
  simp only [sampleLayerMin, Prog.out_bind_ok, Prog.out_assert_ok] at h
  obtain ⟨-, hT, -, hU, h⟩ := h
  rcases U with _ | U
  · simp only at h
    split_ifs at h
    · cases h
    · obtain ⟨h1, h2, h3, h4, h5, h6⟩ := C40_bridge_partial h
      exact ⟨h1, h2, h3, h4, h5, h6, by simp⟩
  · simp only at h
    obtain ⟨h7, h8, h9⟩ := layerMinLoop_ok h
    obtain ⟨h1, h2, h3, h4, h5, h6⟩ := C40_bridge_partial h7
    refine ⟨h1, h2, h3, h4, h5, h6, ?_⟩
    rintro U' ⟨⟩
    exact ⟨max_lt (by linarith [(besEsc_false h8).2.2]) (by linarith [(besEsc_false h9).2.2]), h8, h9⟩

/-- An upper bound equal to the larger end point is accepted by the assertion, but no minimum is ever returned. -/
theorem C40_touching {n : ℕ} {q : ℝ × ℝ} : ¬ (sampleLayerMin n T a b (some (max a b)) lb ub).Out (.ok q) := by
  intro h
  obtain ⟨t, m⟩ := q
  have := (C40_layer_partial h).2.2.2.2.2.2 _ rfl
  exact lt_irrefl _ this.1

theorem besEsc_lexp (hT : 0 < T) (hb : 0 < b) (hbK : b < K) (hp : Tendsto (besSeries T 0 b K) atTop (𝓝 p)) (g : Res Bool → ℝ≥0∞) :
    (besEsc T 0 b K none none).lexp g = ENNReal.ofReal p * g (.ok true) + ENNReal.ofReal (1 - p) * g (.ok false) := by
  obtain ⟨p', hp1, hp', hp0, i0, hA, hs⟩ := bes_search hT le_rfl hb (hb.trans hbK) hbK
  obtain rfl := tendsto_nhds_unique hp hp'
  simp only [besEsc, Prog.draw, Prog.real_bind, Prog.ret_bind, Prog.lexp_real]
  refine unif_decide hp0 hp1.le (fun u h0 h1 h => ?_) (fun u h0 h1 h => ?_)
  · rw [hs u h0 h1.le, escSearch_true hA h]; simp [searchResult]
  · rw [hs u h0 h1.le, escSearch_false hA h]; simp [searchResult]

/-- Keep a proposal with weight `w`, else go on with `rest`. -/
noncomputable def keepOr (w : ℝ × ℝ → ℝ) (g : Res (ℝ × ℝ) → ℝ≥0∞) (rest : ℝ≥0∞) : Res (ℝ × ℝ) → ℝ≥0∞
  | .ok q => ENNReal.ofReal (w q) * g (.ok q) + ENNReal.ofReal (1 - w q) * rest
  | .error e => g (.error e)

/-- A proposed minimum `(t, m)` of the layered bridge is kept with probability `(1 - p1) (1 - p2)`, where `p1`, `p2` are the escape
probabilities of the two Bessel bridges on either side; else the next proposal is made. -/
theorem C40_layer_law {n : ℕ} {U : ℝ} (hU : max a b < U) (P1 P2 : ℝ × ℝ → ℝ)
    (h1 : ∀ t m, 0 < t → m < a → Tendsto (besSeries t 0 (a - m) (U - m)) atTop (𝓝 (P1 (t, m))))
    (h2 : ∀ t m, t < T → m < b → Tendsto (besSeries (T - t) 0 (b - m) (U - m)) atTop (𝓝 (P2 (t, m)))) (g : Res (ℝ × ℝ) → ℝ≥0∞) :
    (layerMinLoop T a b U lb ub (n + 1)).lexp g =
      (sampleBridgeMin T a b lb ub).lexp
        (keepOr (fun q => (1 - P1 q) * (1 - P2 q)) g ((layerMinLoop T a b U lb ub n).lexp g)) := by
  simp only [layerMinLoop]
  rw [Prog.lexp_bind]
  refine Prog.lexp_congr ?_
  rintro (e | ⟨t, m⟩) h
  · rfl
  obtain ⟨ht, htT, hma, hmb, -, -⟩ := C40_bridge_partial h
  have hUa := (le_max_left a b).trans_lt hU
  have hUb := (le_max_right a b).trans_lt hU
  have q1 := h1 t m ht hma
  have q2 := h2 t m htT hmb
  have r1 : 0 ≤ P1 (t, m) ∧ P1 (t, m) ≤ 1 := by
    obtain ⟨p', hp1, hp', hp0, -⟩ := bes_search ht le_rfl (sub_pos.2 hma) (by linarith : (0 : ℝ) < U - m) (by linarith : a - m < U - m)
    obtain rfl := tendsto_nhds_unique q1 hp'
    exact ⟨hp0, hp1.le⟩
  have r2 : 0 ≤ P2 (t, m) ∧ P2 (t, m) ≤ 1 := by
    obtain ⟨p', hp1, hp', hp0, -⟩ := bes_search (sub_pos.2 htT) le_rfl (sub_pos.2 hmb) (by linarith : (0 : ℝ) < U - m)
      (by linarith : b - m < U - m)
    obtain rfl := tendsto_nhds_unique q2 hp'
    exact ⟨hp0, hp1.le⟩
  rw [Prog.cont_ok, Prog.lexp_bind, besEsc_lexp ht (sub_pos.2 hma) (by linarith) q1]
  simp only [Prog.cont_ok, Prog.lexp_bind]
  rw [besEsc_lexp (sub_pos.2 htT) (sub_pos.2 hmb) (by linarith) q2, besEsc_lexp (sub_pos.2 htT) (sub_pos.2 hmb) (by linarith) q2]
  simp only [Prog.cont_ok, keepOr]
  simp only [Bool.false_eq_true, not_false_eq_true, not_true_eq_false, and_self, and_true, and_false, if_true, if_false, Prog.lexp_ret]
  generalize P1 (t, m) = x at *
  generalize P2 (t, m) = y at *
  generalize (layerMinLoop T a b U lb ub n).lexp g = R
  have e1 : (1 : ℝ) - (1 - x) * (1 - y) = x * y + x * (1 - y) + (1 - x) * y := by ring
  have k1 : 0 ≤ 1 - x := by linarith
  have k2 : 0 ≤ 1 - y := by linarith
  have hx := r1.1
  have hy := r2.1
  rw [e1, ENNReal.ofReal_add (by positivity) (by positivity), ENNReal.ofReal_add (by positivity) (by positivity),
    ENNReal.ofReal_mul k1, ENNReal.ofReal_mul hx, ENNReal.ofReal_mul hx, ENNReal.ofReal_mul k1]
  ring

/-- The budget of proposals is a budget, nothing else: with none left the loop raises. -/
theorem C40_layer_budget {U : ℝ} (g : Res (ℝ × ℝ) → ℝ≥0∞) : (layerMinLoop T a b U lb ub 0).lexp g = g (.error .budget) := rfl

example : ∃ q, (sampleBridgeMin 1 0 1 (some (-1)) none).Out (.ok q) := by
  have hb : MinBoundsOk 0 1 (some (-1)) ((none : Option ℝ).getD (min 0 1)) := ⟨by simp, le_rfl⟩
  have h0 : (0 : ℝ) ≤ 1 / 2 := by norm_num
  have h1 : (1 / 2 : ℝ) < 1 := by norm_num
  obtain ⟨m, e1, -⟩ := ppfBridgeMin_spec (a := 0) (b := 1) h0 h1.le (one_pos : (0 : ℝ) < 1) hb (by simp)
  have ht : ∃ t, (sampleMinTime 1 0 1 m).Out (.ok t) := by
    obtain ⟨t, ht⟩ : ∃ t : ℝ, t = if (1 / 2 : ℝ) < 1 / (1 + √((1 - m) ^ 2 / (2 * 1) / ((m - 0) ^ 2 / (2 * 1)))) then 1 / (1 + 1)
      else 1 / (1 + 1 / 1) := ⟨_, rfl⟩
    refine ⟨t, ?_⟩
    simp only [sampleMinTime]
    rw [Prog.out_bind_ok]
    refine ⟨1 / 2, ⟨1 / 2, mem_uniform01.2 ⟨h0, h1⟩, rfl⟩, ?_⟩
    split_ifs at ht ⊢ <;> rw [Prog.out_bind_ok, ht] <;> exact ⟨1, ⟨1, (one_pos : (0 : ℝ) < 1), rfl⟩, rfl⟩
  obtain ⟨t, ht⟩ := ht
  refine ⟨(t, m), ?_⟩
  simp only [sampleBridgeMin, Prog.out_bind_ok, Prog.out_assert_ok, Prog.out_draw]
  refine ⟨(), one_pos, (), hb, 1 / 2, ⟨1 / 2, mem_uniform01.2 ⟨h0, h1⟩, rfl⟩, some m, ?_, ?_⟩
  · rw [e1]; exact Prog.out_ret.2 rfl
  · simp only [Prog.out_bind_ok]
    exact ⟨t, ht, rfl⟩

example (n : ℕ) : ∃ P1 P2 : ℝ × ℝ → ℝ, ∀ g, (layerMinLoop 1 0 1 2 (some (-1)) none (n + 1)).lexp g =
      (sampleBridgeMin 1 0 1 (some (-1)) none).lexp
        (keepOr (fun q => (1 - P1 q) * (1 - P2 q)) g ((layerMinLoop 1 0 1 2 (some (-1)) none n).lexp g)) := by
  have h1 : ∀ q : ℝ × ℝ, ∃ p, 0 < q.1 → q.2 < 0 → Tendsto (besSeries q.1 0 (0 - q.2) (2 - q.2)) atTop (𝓝 p) := by
    intro q
    by_cases h : 0 < q.1 ∧ q.2 < 0
    · obtain ⟨p, -, hp, -⟩ := bes_search h.1 le_rfl (by linarith [h.2] : 0 < 0 - q.2) (by linarith [h.2] : 0 < 2 - q.2) (by linarith)
      exact ⟨p, fun _ _ => hp⟩
    · exact ⟨0, fun h1 h2 => absurd ⟨h1, h2⟩ h⟩
  have h2 : ∀ q : ℝ × ℝ, ∃ p, q.1 < 1 → q.2 < 1 → Tendsto (besSeries (1 - q.1) 0 (1 - q.2) (2 - q.2)) atTop (𝓝 p) := by
    intro q
    by_cases h : q.1 < 1 ∧ q.2 < 1
    · obtain ⟨p, -, hp, -⟩ := bes_search (sub_pos.2 h.1) le_rfl (sub_pos.2 h.2) (by linarith [h.2] : 0 < 2 - q.2) (by linarith)
      exact ⟨p, fun _ _ => hp⟩
    · exact ⟨0, fun h1 h2 => absurd ⟨h1, h2⟩ h⟩
  choose P1 hP1 using h1
  choose P2 hP2 using h2
  exact ⟨P1, P2, fun g => C40_layer_law (by norm_num) P1 P2 (fun t m => hP1 (t, m)) (fun t m => hP2 (t, m)) g⟩

end Ctb
