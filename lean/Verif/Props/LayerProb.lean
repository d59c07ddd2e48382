import Verif.Lemmas.LayerProb

/-!
# C79: law of the layer inside a bounded state space

The probabilities are those of a Brownian bridge from `a` to `b` of duration `T`: `stripDens` and `spaceDens` are densities of paths that stay
between two levels and between the bounds of the state space.
-/

set_option linter.unusedSectionVars false

namespace Ctb

open Classical MeasureTheory Set Filter Topology
open scoped ENNReal

variable {T a b : ℝ} {lb ub : Option ℝ} {n F k l : ℕ}

/-- Probability that one of the `n` proposals for the seed is accepted; only with two bounds there is something to reject. -/
noncomputable def seedAccept (T a b : ℝ) (n : ℕ) : Option ℝ → Option ℝ → ℝ≥0∞
  | some l, some u => 1 - (1 - stripDens u l T a b / ENNReal.ofReal (normDensR T (b - a))) ^ n
  | _, _ => 1

theorem space_level (hT : 0 < T) (hb : BoundsAround a b lb ub) : ∃ q, 0 ≤ q ∧ q < 1 ∧ spaceDens T a b lb ub = ENNReal.ofReal (normDensR T (b - a)) * ENNReal.ofReal (1 - q) ∧
    (match lb, ub with
      | none, none => q = 0
      | some l, none => q = cdfMinBase T a b (some l)
      | none, some u => q = cdfMinBase T (-b) (-a) (some (-u))
      | some l, some u => Tendsto (stripSeries u l T a b) atTop (𝓝 q)) := by
  rcases lb with _ | l <;> rcases ub with _ | u
  · exact ⟨0, le_rfl, one_pos, by simp [spaceDens], rfl⟩
  · have h := hb.2 u rfl
    have h' : -u < min (-b) (-a) := by rw [min_neg_max, max_comm]; linarith
    refine ⟨_, (cdfMinBase_pos (-u)).le, ?_, ?_, rfl⟩
    · rw [← cdfMinBase_top (T := T) (a := -b) (b := -a)]
      exact cdfMinBase_lt hT h' le_rfl
    · rw [spaceDens, killDens_eq hT (by rw [min_comm]; exact h'), cdfMinBase_eq h'.le, show -b - -a = -(b - a) by ring, normDensR_even]
      ring_nf
  · have h := hb.1 l rfl
    refine ⟨_, (cdfMinBase_pos l).le, ?_, ?_, rfl⟩
    · rw [← cdfMinBase_top (T := T) (a := a) (b := b)]
      exact cdfMinBase_lt hT h le_rfl
    · rw [spaceDens, killDens_eq hT h, cdfMinBase_eq h.le]
  · obtain ⟨p, p0, p1, hp, -⟩ := stripSeries_limit hT (hb.1 l rfl) (hb.2 u rfl)
    exact ⟨p, p0.le, p1, stripDens_stay hT (hb.1 l rfl) (hb.2 u rfl) hp, hp⟩

theorem norm_fin (hT : 0 < T) : ENNReal.ofReal (normDensR T (b - a)) ≠ 0 ∧ ENNReal.ofReal (normDensR T (b - a)) ≠ ∞ :=
  ⟨(ENNReal.ofReal_pos.2 (normDensR_gt hT _)).ne', ENNReal.ofReal_ne_top⟩

/-- A uniform draw on `[q, 1)` compared with a level above `q`. -/
theorem unif_level {q c : ℝ} (hq : 0 ≤ q) (hq1 : q < 1) (hc : q ≤ c) (hc1 : c ≤ 1) (S : Set ℝ) (hS : S.Countable) (G : ℝ → ℝ≥0∞)
    (h : ∀ u, 0 ≤ u → u ≤ 1 → u ∉ S → G u = if u < c then 0 else 1) :
    ENNReal.ofReal (1 - q) * ∫⁻ u, G u ∂(RDist.uniform q 1).law = ENNReal.ofReal (1 - c) := by
  have h1 : (0 : ℝ) < 1 - q := by linarith
  have hemb : MeasurableEmbedding fun u : ℝ => q + (1 - q) * u :=
    ((Homeomorph.mulLeft₀ (1 - q) h1.ne').trans (Homeomorph.addLeft q)).measurableEmbedding
  have e : ∫⁻ u, G u ∂(RDist.uniform q 1).law = ∫⁻ u, G (q + (1 - q) * u) ∂(RDist.uniform 0 1).law := by
    rw [RDist.law_uniform01, RDist.law]
    exact hemb.lintegral_map _
  rw [e, unif_ae (c := (c - q) / (1 - q)) (div_nonneg (by linarith) h1.le) ((div_le_one h1).2 (by linarith))
    ((fun u : ℝ => q + (1 - q) * u) ⁻¹' S) (hS.preimage hemb.injective) _ 0 1]
  · rw [mul_zero, zero_add, mul_one, ← ENNReal.ofReal_mul h1.le]
    congr 1
    field_simp
    ring
  · intro u h0 hu1 hS
    rw [h _ (by nlinarith) (by nlinarith) hS]
    congr 1
    rw [lt_div_iff₀ h1]
    exact propext ⟨fun h => by linarith, fun h => by linarith⟩

/-- The loop over proposals for the seed. -/
theorem seedLoop_level {q c l u : ℝ} (hT : 0 < T) (hl : l < min a b) (hu : max a b < u) (hp : Tendsto (stripSeries u l T a b) atTop (𝓝 q))
    (hq : 0 ≤ q) (hc : q ≤ c) (hc1 : c ≤ 1) (S : Set ℝ) (hS : S.Countable) (G : Res ℝ → ℝ≥0∞) (he : ∀ e, G (.error e) = 0)
    (h : ∀ u, 0 ≤ u → u ≤ 1 → u ∉ S → G (.ok u) = if u < c then 0 else 1) :
    ∀ n, ENNReal.ofReal (1 - q) * (layerSeedLoop T a b l u n).lexp G = ENNReal.ofReal ((1 - q ^ n) * (1 - c))
  | 0 => by simp [layerSeedLoop, he]
  | n + 1 => by
    have ih := seedLoop_level hT hl hu hp hq hc hc1 S hS G he h n
    obtain ⟨i1, i2⟩ := strip_inside hl hu
    have key : (layerSeedLoop T a b l u (n + 1)).lexp G =
        ENNReal.ofReal q * (layerSeedLoop T a b l u n).lexp G + ENNReal.ofReal (1 - c) := by
      have e1 := lintegral_uniform_lt hq (hc.trans hc1) ((layerSeedLoop T a b l u n).lexp G) 0
      have e2 := lintegral_uniform_lt (hq.trans hc) hc1 0 1
      rw [mul_zero, add_zero] at e1
      rw [mul_zero, zero_add, mul_one] at e2
      rw [← e1, ← e2, ← lintegral_add_left (Measurable.ite measurableSet_Iio measurable_const measurable_const)]
      simp only [layerSeedLoop, Prog.draw, Prog.real_bind, Prog.ret_bind, Prog.lexp_real]
      apply lintegral_congr_ae
      rw [RDist.law_uniform01, Filter.EventuallyEq, ae_restrict_iff' measurableSet_Ico]
      have h1 : ∀ᵐ v : ℝ, v ∉ insert q S := by
        rw [ae_iff]
        simp only [not_not]
        exact (hS.insert q).measure_zero volume
      filter_upwards [h1] with v hv hI
      rw [mem_insert_iff, not_or] at hv
      rcases lt_or_gt_of_ne hv.1 with hvq | hvq
      · have hd := fun r => (C41_decision (T := T) (u := v) hT i1 i2 hp hI.1 hI.2.le r).1 hvq
        have : brownEsc T (a - (l + u) / 2) (b - (l + u) / 2) ((u - l) / 2) none (some v) = .ret true := by
          have hA := (brownSeries_alt hT i1 i2).choose_spec
          obtain heq := tendsto_nhds_unique hp hA.1
          simp only [brownEsc]
          rw [brownEscSeeded_eq hT i1 i2 (by simp) hI.1 hI.2.le, brownEscSeries, escSearch_true (hA.mono (Nat.zero_le 1)) (by rw [← heq]; exact hvq)]
          rfl
        rw [this]
        simp only [Prog.ret_bind]
        rw [if_neg (by simp), if_pos hvq, if_pos (hvq.trans_le hc), add_zero]
      · have : brownEsc T (a - (l + u) / 2) (b - (l + u) / 2) ((u - l) / 2) none (some v) = .ret false := by
          have hA := (brownSeries_alt hT i1 i2).choose_spec
          obtain heq := tendsto_nhds_unique hp hA.1
          simp only [brownEsc]
          rw [brownEscSeeded_eq hT i1 i2 (by simp) hI.1 hI.2.le, brownEscSeries, escSearch_false (hA.mono (Nat.zero_le 1)) (by rw [← heq]; exact hvq)]
          rfl
        rw [this]
        simp only [Prog.ret_bind]
        rw [if_pos (by simp), if_neg (not_lt.2 hvq.le), zero_add, Prog.lexp_ret, h v hI.1 hI.2.le hv.2]
    have hq1 : q ≤ 1 := hc.trans hc1
    have hn : 0 ≤ (1 - q ^ n) * (1 - c) := mul_nonneg (by linarith [pow_le_one₀ (n := n) hq hq1]) (by linarith)
    rw [key, mul_add, mul_left_comm, ih, ← ENNReal.ofReal_mul hq, ← ENNReal.ofReal_mul (by linarith), ← ENNReal.ofReal_add (mul_nonneg hq hn) (mul_nonneg (by linarith) (by linarith))]
    congr 1
    ring

/-- The seed compared with a level. -/
theorem seed_level {c : ℝ} (hT : 0 < T) (hb : BoundsAround a b lb ub) (hc : ENNReal.ofReal (normDensR T (b - a)) * ENNReal.ofReal (1 - c) ≤ spaceDens T a b lb ub)
    (hc0 : 0 ≤ c) (hc1 : c ≤ 1) (S : Set ℝ) (hS : S.Countable) (G : Res ℝ → ℝ≥0∞) (he : ∀ e, G (.error e) = 0)
    (h : ∀ u, 0 ≤ u → u ≤ 1 → u ∉ S → G (.ok u) = if u < c then 0 else 1) :
    spaceDens T a b lb ub * (layerSeed n T a b lb ub).lexp G =
      seedAccept T a b n lb ub * (ENNReal.ofReal (normDensR T (b - a)) * ENNReal.ofReal (1 - c)) := by
  obtain ⟨q, q0, q1, hd, hq⟩ := space_level hT hb
  obtain ⟨n0, n1⟩ := norm_fin (a := a) (b := b) hT
  have hqc : q ≤ c := by
    rw [hd, ENNReal.mul_le_mul_iff_right n0 n1, ENNReal.ofReal_le_ofReal_iff (by linarith)] at hc
    linarith
  rw [hd, mul_assoc]
  rcases lb with _ | l <;> rcases ub with _ | u
  · obtain rfl : q = 0 := hq
    rw [layerSeed, Prog.draw, Prog.lexp_real, show seedAccept T a b n none none = 1 from rfl, one_mul]
    congr 1
    exact unif_level le_rfl one_pos hc0 hc1 S hS (fun u => G (.ok u)) h
  · have hq : q = cdfMinBase T (-b) (-a) (some (-u)) := hq
    have h' : -u < min (-b) (-a) := by rw [min_neg_max, max_comm]; linarith [hb.2 u rfl]
    have hcdf : cdfBridgeMin (some (-u)) T (-b) (-a) none none = .ok q := by
      rw [cdfBridgeMin_eq hT ⟨by simp, by simp⟩, hq, Option.getD_none, cdfMinBase_top]
      simp [cdfMinBase]
    rw [layerSeed, hcdf, Prog.lift, Prog.ret_bind, Prog.draw, Prog.lexp_real, show seedAccept T a b n none (some u) = 1 from rfl, one_mul]
    congr 1
    exact unif_level q0 q1 hqc hc1 S hS (fun u => G (.ok u)) h
  · have hq : q = cdfMinBase T a b (some l) := hq
    have hcdf : cdfBridgeMin (some l) T a b none none = .ok q := by
      rw [cdfBridgeMin_eq hT ⟨by simp, by simp⟩, hq, Option.getD_none, cdfMinBase_top]
      simp [cdfMinBase]
    rw [layerSeed, hcdf, Prog.lift, Prog.ret_bind, Prog.draw, Prog.lexp_real, show seedAccept T a b n (some l) none = 1 from rfl, one_mul]
    congr 1
    exact unif_level q0 q1 hqc hc1 S hS (fun u => G (.ok u)) h
  · have hq : Tendsto (stripSeries u l T a b) atTop (𝓝 q) := hq
    have hd' : stripDens u l T a b / ENNReal.ofReal (normDensR T (b - a)) = ENNReal.ofReal (1 - q) := by
      have : stripDens u l T a b = ENNReal.ofReal (normDensR T (b - a)) * ENNReal.ofReal (1 - q) := hd
      rw [this, mul_comm, ENNReal.mul_div_cancel_right n0 n1]
    have hacc : seedAccept T a b n (some l) (some u) = ENNReal.ofReal (1 - q ^ n) := by
      rw [seedAccept, hd', ← ENNReal.ofReal_one, ← ENNReal.ofReal_sub _ (by linarith), sub_sub_cancel, ← ENNReal.ofReal_pow q0,
        ← ENNReal.ofReal_sub _ (pow_nonneg q0 n)]
    rw [layerSeed, seedLoop_level hT (hb.1 l rfl) (hb.2 u rfl) hq q0 hqc hc1 S hS G he h n, hacc,
      ENNReal.ofReal_mul (by linarith [pow_le_one₀ (n := n) q0 q1.le])]
    ring

theorem strip_le_space {m U : ℝ} (hT : 0 < T) (hm : m < min a b) (hU : max a b < U) (hl : ∀ l, lb = some l → l ≤ m) (hu : ∀ u, ub = some u → U ≤ u) :
    stripDens U m T a b ≤ spaceDens T a b lb ub := by
  have kill : ∀ {a b m U : ℝ}, m < min a b → max a b < U → stripDens U m T a b ≤ killDens m T a b := by
    intro a b m U hm hU
    obtain ⟨h1, h2⟩ := lt_min_iff.1 hm
    obtain ⟨h3, h4⟩ := max_lt_iff.1 hU
    obtain ⟨p, p0, p1, hp⟩ := C43_series (T := T) (a := a - m) (b := b - m) (K := U - m) hT (by linarith) (by linarith) (by linarith) (by linarith)
    rw [stripDens_esc hT h1 h3 h2 h4 hp]
    exact mul_le_of_le_one_right zero_le (ENNReal.ofReal_le_one.2 (by linarith))
  obtain ⟨p, p0, p1, hp, -⟩ := stripSeries_limit hT hm hU
  rcases lb with _ | l <;> rcases ub with _ | u
  · rw [stripDens_stay hT hm hU hp, spaceDens]
    exact mul_le_of_le_one_right zero_le (ENNReal.ofReal_le_one.2 (by linarith))
  · refine (stripDens_mono hT hm hU le_rfl (hu u rfl)).trans ?_
    rw [← stripDens_reflect hT hm (hU.trans_le (hu u rfl))]
    exact kill (by rw [min_neg_max]; linarith [hu u rfl]) (by rw [max_neg_min]; linarith)
  · exact (stripDens_mono hT hm hU (hl l rfl) le_rfl).trans (kill ((hl l rfl).trans_lt hm) hU)
  · exact stripDens_mono hT hm hU (hl l rfl) (hu u rfl)

/-- **C79.** Layers grow, so the probability to leave them falls. -/
theorem C79_antitone {p p' : ℝ} {j : ℕ} (hT : 0 < T) (hb : BoundsAround a b lb ub) (hl : 1 ≤ l) (hj : l ≤ j) (hp : LayerEsc T a b lb ub l p)
    (hp' : LayerEsc T a b lb ub j p') : p' ≤ p := by
  rcases hj.eq_or_lt with rfl | hj
  · obtain ⟨e, he, h⟩ := hp
    obtain ⟨e', he', h'⟩ := hp'
    rw [he] at he'
    cases he'
    rw [tendsto_nhds_unique h h']
  obtain ⟨e, e', he, he', h1, h2⟩ := C39_nested (pow := 2) (by norm_num) hT hb.1 hb.2 hj
  obtain ⟨f, hf, h⟩ := hp
  obtain ⟨f', hf', h'⟩ := hp'
  rw [he] at hf
  rw [he'] at hf'
  cases hf
  cases hf'
  obtain ⟨f, hf, -, -, -, -, -, -, h8⟩ := C39_brackets (i := l) (pow := 2) hT hb.1 hb.2
  rw [he] at hf
  cases hf
  obtain ⟨h9, h10⟩ := h8 (by omega)
  have hmono := stripDens_mono hT h9 h10 h1.le h2.le
  obtain ⟨n0, n1⟩ := norm_fin (a := a) (b := b) hT
  obtain ⟨q, q0, q1, hq, -⟩ := stripSeries_limit hT h9 h10
  obtain ⟨q', q0', q1', hq', -⟩ := stripSeries_limit hT (h1.trans h9) (h10.trans h2)
  obtain rfl := tendsto_nhds_unique hq h
  obtain rfl := tendsto_nhds_unique hq' h'
  rw [stripDens_stay hT h9 h10 hq, stripDens_stay hT (h1.trans h9) (h10.trans h2) hq', ENNReal.mul_le_mul_iff_right n0 n1,
    ENNReal.ofReal_le_ofReal_iff (by linarith)] at hmono
  linarith

/-- **C79.** With any bounds of the state space: the layer is at most `k` with the probability that a Brownian bridge stays in layer `k` given
that it stays within the bounds, times the probability that one of the `n` proposals for the seed is accepted. -/
theorem C79_law_bounded (hT : 0 < T) (hb : BoundsAround a b lb ub) (hk : 1 ≤ k) (hF : k ≤ F) {e : ℝ × ℝ} (he : computeEdges k T a b lb ub 2 = .ok e) :
    spaceDens T a b lb ub * (sampleLayer n F T a b lb ub).prob (fun r => ∃ l, l ≤ k ∧ r = .ok l) =
      seedAccept T a b n lb ub * stripDens e.2 e.1 T a b := by
  obtain ⟨f, hf, -, -, -, -, b1, b2, h8⟩ := C39_brackets (i := k) (pow := 2) hT hb.1 hb.2
  rw [he] at hf
  cases hf
  obtain ⟨h9, h10⟩ := h8 (by omega)
  have hex : ∀ l : ℕ, ∃ p, 1 ≤ l → 0 < p ∧ p < 1 ∧ LayerEsc T a b lb ub l p := by
    intro l
    by_cases hl : 1 ≤ l
    · obtain ⟨p, p0, p1, h⟩ := C79_probability hT hb hl
      exact ⟨p, fun _ => ⟨p0, p1, h⟩⟩
    · exact ⟨0, fun h => absurd h hl⟩
  choose P hP using hex
  have hPk : stripDens e.2 e.1 T a b = ENNReal.ofReal (normDensR T (b - a)) * ENNReal.ofReal (1 - P k) := by
    obtain ⟨f, hf, h⟩ := (hP k hk).2.2
    rw [he] at hf
    cases hf
    exact stripDens_stay hT h9 h10 h
  have hle := strip_le_space (lb := lb) (ub := ub) hT h9 h10 (fun l h => (b1 l h).le) (fun u h => (b2 u h).le)
  unfold Prog.prob
  simp only [sampleLayer, Prog.assert, if_pos hT, Prog.ret_bind]
  rw [hPk] at hle ⊢
  rw [Prog.lexp_bind]
  refine seed_level hT hb hle (hP k hk).1.le (hP k hk).2.1.le (range P) (countable_range P) _ (fun e => ?_) fun u h0 h1 hS => ?_
  · rw [Prog.cont_error, if_neg]
    rintro ⟨l, -, h⟩
    cases h
  · rw [Prog.cont_ok]
    refine (search_lexp (k := k) (P := P) hT hb (fun l hl => (hP l hl).2.2) h0 h1 (fun j hj => hS ⟨j, hj.symm⟩) _ (fun r => by congr) F 1 le_rfl
      (by omega)).trans ?_
    by_cases h : u < P k
    · rw [if_pos h, if_neg]
      rintro ⟨j, j1, j2, j3⟩
      have := C79_antitone hT hb j1 j2 (hP j j1).2.2 (hP k hk).2.2
      linarith
    · rw [if_neg h, if_pos]
      exact ⟨k, hk, le_rfl, lt_of_le_of_ne (not_lt.1 h) fun h => hS ⟨k, h⟩⟩

theorem edge_level (hT : 0 < T) (hb : BoundsAround a b lb ub) (hk : 1 ≤ k) {e : ℝ × ℝ} (he : computeEdges k T a b lb ub 2 = .ok e) :
    cdfMinBase T a b (some e.1) = 1 / ((k : ℝ) ^ 2 + 1) * (1 - cdfMinBase T a b lb) + cdfMinBase T a b lb ∧
      cdfMinBase T (-a) (-b) (some (-e.2)) = 1 / ((k : ℝ) ^ 2 + 1) * (1 - cdfMinBase T (-a) (-b) (ub.map Neg.neg)) + cdfMinBase T (-a) (-b) (ub.map Neg.neg) := by
  have p0 : (0 : ℝ) < 1 / ((k : ℝ) ^ 2 + 1) := by positivity
  have p1 : 1 / ((k : ℝ) ^ 2 + 1) ≤ 1 := (div_le_one (by positivity)).2 (by nlinarith [sq_nonneg (k : ℝ)])
  have low : ∀ {ub : Option ℝ} {e : ℝ × ℝ}, BoundsAround a b lb ub → computeEdges k T a b lb ub 2 = .ok e →
      cdfMinBase T a b (some e.1) = 1 / ((k : ℝ) ^ 2 + 1) * (1 - cdfMinBase T a b lb) + cdfMinBase T a b lb := by
    intro ub e hb he
    obtain ⟨m, m', c1, c2, -⟩ := computeEdges_spec (pow := 2) hT hb.1 hb.2 (show 0 < k by omega)
    rw [he] at c1
    cases c1
    obtain ⟨x, d1, -, -, -, -, d6⟩ := ppfBridgeMin_spec (a := a) (b := b) (lb := lb) (ub := none) p0.le p1 hT ⟨by simpa using hb.1, by simp⟩
      (fun h => absurd h p0.ne')
    rw [c2] at d1
    cases d1
    rwa [Option.getD_none, cdfMinBase_top] at d6
  refine ⟨low hb he, ?_⟩
  obtain ⟨m, m', c1, -, c3, c4, c5, c6, c7⟩ := computeEdges_spec (pow := 2) hT hb.1 hb.2 (show 0 < k by omega)
  rw [he] at c1
  cases c1
  have hmin : min ((a + b) / 2 - a) ((a + b) / 2 - b) = (a + b) / 2 - max a b := by
    rcases le_total a b with h | h
    · rw [max_eq_right h, min_eq_right (by linarith)]
    · rw [max_eq_left h, min_eq_left (by linarith)]
  obtain ⟨x, d1, -, -, -, -, d6⟩ := ppfBridgeMin_spec (a := (a + b) / 2 - a) (b := (a + b) / 2 - b) (lb := mirrorBound ((a + b) / 2) ub) (ub := none) p0.le p1 hT
    ⟨by
      intro l hl
      rcases ub with _ | u
      · cases hl
      · simp only [mirrorBound, Option.map_some, Option.some.injEq] at hl
        rw [Option.getD_none, hmin, ← hl]
        linarith [hb.2 u rfl], by simp⟩ (fun h => absurd h p0.ne')
  rw [c3] at d1
  cases d1
  rw [Option.getD_none, cdfMinBase_top] at d6
  have sh : ∀ o : Option ℝ, cdfMinBase T ((a + b) / 2 - a) ((a + b) / 2 - b) (o.map ((a + b) / 2 - ·)) = cdfMinBase T (-a) (-b) (o.map Neg.neg) := by
    intro o
    rcases o with _ | o
    · rfl
    · simp only [Option.map_some, cdfMinBase]
      rw [hmin, min_neg_max]
      have : ((a + b) / 2 - o < (a + b) / 2 - max a b) = (-o < -max a b) := by
        rw [sub_lt_sub_iff_left, neg_lt_neg_iff]
      simp only [this]
      ring_nf
  have h1 := sh ub
  have h2 := sh (some ((a + b) / 2 - m'))
  simp only [Option.map_some, sub_sub_cancel] at h2
  unfold mirrorBound at d6
  rw [h1] at d6
  rw [← h2]
  exact d6

theorem cdf_tendsto {f : ℕ → ℝ} {l : ℝ} (hT : 0 < T) (hl : l < min a b) (hf : ∀ k, l < f k) (hf1 : ∀ k, f k < min a b)
    (h : Tendsto (fun k => cdfMinBase T a b (some (f k))) atTop (𝓝 (cdfMinBase T a b (some l)))) : Tendsto f atTop (𝓝 l) := by
  rw [tendsto_order]
  refine ⟨fun x hx => Eventually.of_forall fun k => hx.trans (hf k), fun x hx => ?_⟩
  have hx' : l < min x (min a b) := lt_min hx hl
  filter_upwards [h.eventually (gt_mem_nhds (cdfMinBase_lt hT hx' (min_le_right _ _)))] with k hk
  exact ((cdfMinBase_lt_iff hT (hf1 k).le (min_le_right _ _)).1 hk).trans_le (min_le_left _ _)

/-- The layers exhaust the state space. -/
theorem strip_sup_space (hT : 0 < T) (hb : BoundsAround a b lb ub) (e : ℕ → ℝ × ℝ) (he : ∀ k, computeEdges (k + 1) T a b lb ub 2 = .ok (e k)) :
    ⨆ k, stripDens (e k).2 (e k).1 T a b = spaceDens T a b lb ub := by
  have hin : ∀ k, (e k).1 < min a b ∧ max a b < (e k).2 ∧ (∀ l, lb = some l → l < (e k).1) ∧ ∀ u, ub = some u → (e k).2 < u := by
    intro k
    obtain ⟨f, hf, -, -, -, -, b1, b2, h8⟩ := C39_brackets (i := k + 1) (pow := 2) hT hb.1 hb.2
    rw [he k] at hf
    cases hf
    exact ⟨(h8 (by omega)).1, (h8 (by omega)).2, b1, b2⟩
  have hanti : ∀ i j, i < j → (e j).1 < (e i).1 ∧ (e i).2 < (e j).2 := by
    intro i j hij
    obtain ⟨f, f', hf, hf', h1, h2⟩ := C39_nested (pow := 2) (by norm_num) hT hb.1 hb.2 (show i + 1 < j + 1 by omega)
    rw [he i] at hf
    rw [he j] at hf'
    cases hf
    cases hf'
    exact ⟨h1, h2⟩
  have hz : Tendsto (fun k : ℕ => 1 / (((k + 1 : ℕ) : ℝ) ^ 2 + 1)) atTop (𝓝 0) := by
    refine squeeze_zero (fun k => by positivity) (fun k => ?_) tendsto_one_div_add_atTop_nhds_zero_nat
    refine one_div_le_one_div_of_le (by positivity) ?_
    push_cast
    nlinarith [sq_nonneg ((k : ℝ) + 1), Nat.cast_nonneg (α := ℝ) k]
  have lev : ∀ c : ℝ, Tendsto (fun k : ℕ => 1 / (((k + 1 : ℕ) : ℝ) ^ 2 + 1) * (1 - c) + c) atTop (𝓝 c) := by
    intro c
    have := (hz.mul_const (1 - c)).add_const c
    rwa [zero_mul, zero_add] at this
  have t1 : Tendsto (fun k => cdfMinBase T a b (some (e k).1)) atTop (𝓝 (cdfMinBase T a b lb)) :=
    (lev _).congr fun k => ((edge_level hT hb (by omega) (he k)).1).symm
  have t2 : Tendsto (fun k => cdfMinBase T (-a) (-b) (some (-(e k).2))) atTop (𝓝 (cdfMinBase T (-a) (-b) (ub.map Neg.neg))) :=
    (lev _).congr fun k => ((edge_level hT hb (by omega) (he k)).2).symm
  by_cases hboth : ∃ l u, lb = some l ∧ ub = some u
  · obtain ⟨l, u, rfl, rfl⟩ := hboth
    refine stripDens_sup hT (hb.1 l rfl) (hb.2 u rfl) (fun i j hij => ?_) (fun k => (hin k).2.2.1 l rfl) ?_ (fun k => (hin k).1) (fun i j hij => ?_)
      (fun k => (hin k).2.2.2 u rfl) ?_ (fun k => (hin k).2.1)
    · rcases hij.eq_or_lt with rfl | hij
      · exact le_rfl
      · exact (hanti i j hij).1.le
    · exact cdf_tendsto hT (hb.1 l rfl) (fun k => (hin k).2.2.1 l rfl) (fun k => (hin k).1) t1
    · rcases hij.eq_or_lt with rfl | hij
      · exact le_rfl
      · exact (hanti i j hij).2.le
    · have := cdf_tendsto (f := fun k => -(e k).2) (l := -u) hT (by rw [min_neg_max]; linarith [hb.2 u rfl]) (fun k => neg_lt_neg ((hin k).2.2.2 u rfl))
        (fun k => by rw [min_neg_max]; linarith [(hin k).2.1]) t2
      simpa using this.neg
  · refine le_antisymm (iSup_le fun k => strip_le_space hT (hin k).1 (hin k).2.1 (fun l h => ((hin k).2.2.1 l h).le) fun u h => ((hin k).2.2.2 u h).le) ?_
    obtain ⟨q, q0, q1, hd, hq⟩ := space_level hT hb
    have hsum : cdfMinBase T a b lb + cdfMinBase T (-a) (-b) (ub.map Neg.neg) = q := by
      rcases lb with _ | l <;> rcases ub with _ | u
      · rw [show q = 0 from hq]; simp [cdfMinBase]
      · have h' : -u < min (-b) (-a) := by rw [min_neg_max, max_comm]; linarith [hb.2 u rfl]
        rw [show q = _ from hq, Option.map_some, cdfMinBase_eq h'.le, cdfMinBase_eq (by rw [min_comm]; exact h'.le)]
        simp only [cdfMinBase]
        ring_nf
      · rw [show q = _ from hq]; simp [cdfMinBase]
      · exact absurd ⟨l, u, rfl, rfl⟩ hboth
    have hle : ∀ k, ENNReal.ofReal (normDensR T (b - a)) *
        ENNReal.ofReal (1 - (cdfMinBase T a b (some (e k).1) + cdfMinBase T (-a) (-b) (some (-(e k).2)))) ≤ stripDens (e k).2 (e k).1 T a b := by
      intro k
      obtain ⟨p, p0, p1, hp, hb'⟩ := stripSeries_limit hT (hin k).1 (hin k).2.1
      rw [stripDens_stay hT (hin k).1 (hin k).2.1 hp]
      gcongr
      rw [cdfMinBase_eq (hin k).1.le, cdfMinBase_eq (by rw [min_neg_max]; linarith [(hin k).2.1])]
      rw [show -2 * (-a - -(e k).2) * (-b - -(e k).2) / T = -2 * ((e k).2 - a) * ((e k).2 - b) / T by ring]
      exact hb'.le
    have t3 : Tendsto (fun k => ENNReal.ofReal (normDensR T (b - a)) *
        ENNReal.ofReal (1 - (cdfMinBase T a b (some (e k).1) + cdfMinBase T (-a) (-b) (some (-(e k).2))))) atTop (𝓝 (spaceDens T a b lb ub)) := by
      rw [hd, ← hsum]
      exact ENNReal.Tendsto.const_mul (ENNReal.tendsto_ofReal ((t1.add t2).const_sub 1)) (Or.inr ENNReal.ofReal_ne_top)
    exact le_of_tendsto' t3 fun k => (hle k).trans (le_iSup (fun k => stripDens (e k).2 (e k).1 T a b) k)

theorem spaceDens_fin (hT : 0 < T) (hb : BoundsAround a b lb ub) : spaceDens T a b lb ub ≠ 0 ∧ spaceDens T a b lb ub ≠ ∞ := by
  obtain ⟨q, q0, q1, hd, -⟩ := space_level hT hb
  obtain ⟨n0, n1⟩ := norm_fin (a := a) (b := b) hT
  rw [hd]
  exact ⟨mul_ne_zero n0 (ENNReal.ofReal_pos.2 (by linarith)).ne', ENNReal.mul_ne_top n1 ENNReal.ofReal_ne_top⟩

theorem layerSearch_le {u : ℝ} (h : (layerSearch T a b lb ub u F k).Out (.ok l)) : l < k + F := by
  induction F generalizing k with
  | zero => simp only [layerSearch] at h; cases h
  | succ F ih =>
    simp only [layerSearch, Prog.out_bind_ok] at h
    obtain ⟨e, -, esc, -, h⟩ := h
    split_ifs at h
    · have := ih h; omega
    · cases h; omega

/-- **C79.** The search for the layer ends: with enough layers allowed, a layer is returned whenever a seed is accepted, and a seed is accepted with a
probability that tends to one. -/
theorem C79_ends (hT : 0 < T) (hb : BoundsAround a b lb ub) : ⨆ F, (sampleLayer n F T a b lb ub).prob (fun r => ∃ l, r = .ok l) = seedAccept T a b n lb ub := by
  obtain ⟨s0, s1⟩ := spaceDens_fin hT hb
  have hex : ∀ k, ∃ e, computeEdges (k + 1) T a b lb ub 2 = .ok e := fun k => by
    obtain ⟨f, hf, -⟩ := C39_brackets (i := k + 1) (pow := 2) hT hb.1 hb.2
    exact ⟨f, hf⟩
  choose e he using hex
  have hF : ∀ F, spaceDens T a b lb ub * (sampleLayer n (F + 1) T a b lb ub).prob (fun r => ∃ l, r = .ok l) =
      seedAccept T a b n lb ub * stripDens (e F).2 (e F).1 T a b := by
    intro F
    rw [← C79_law_bounded (n := n) (F := F + 1) hT hb (by omega) le_rfl (he F)]
    congr 1
    unfold Prog.prob
    refine Prog.lexp_congr fun r hr => ?_
    congr 1
    apply propext
    constructor
    · rintro ⟨l, rfl⟩
      refine ⟨l, ?_, rfl⟩
      simp only [sampleLayer, Prog.out_bind_ok] at hr
      obtain ⟨_, -, u, -, hr⟩ := hr
      have := layerSearch_le hr
      omega
    · rintro ⟨l, -, h⟩
      exact ⟨l, h⟩
  have h0 : (sampleLayer n 0 T a b lb ub).prob (fun r => ∃ l, r = .ok l) = 0 := by
    unfold Prog.prob
    refine (Prog.lexp_congr (h := fun _ => 0) fun r hr => ?_).trans (by simp)
    rw [if_neg]
    rintro ⟨l, rfl⟩
    simp only [sampleLayer, Prog.out_bind_ok] at hr
    obtain ⟨_, -, u, -, hr⟩ := hr
    simp only [layerSearch] at hr
    cases hr
  have : ⨆ F, (sampleLayer n F T a b lb ub).prob (fun r => ∃ l, r = .ok l) = ⨆ F, (sampleLayer n (F + 1) T a b lb ub).prob (fun r => ∃ l, r = .ok l) := by
    refine le_antisymm (iSup_le fun F => ?_) (iSup_le fun F => le_iSup (fun F => (sampleLayer n F T a b lb ub).prob (fun r => ∃ l, r = .ok l)) (F + 1))
    rcases F with _ | F
    · rw [h0]; exact zero_le
    · exact le_iSup (fun F => (sampleLayer n (F + 1) T a b lb ub).prob (fun r => ∃ l, r = .ok l)) F
  rw [this, ← ENNReal.mul_right_inj s0 s1, ENNReal.mul_iSup]
  simp only [hF]
  rw [← ENNReal.mul_iSup, strip_sup_space hT hb e he, mul_comm]

theorem C79_seed (hT : 0 < T) (hb : BoundsAround a b lb ub) : Tendsto (fun n => seedAccept T a b n lb ub) atTop (𝓝 1) := by
  obtain ⟨n0, n1⟩ := norm_fin (a := a) (b := b) hT
  obtain ⟨q, q0, q1, hd, hq⟩ := space_level hT hb
  rcases lb with _ | l <;> rcases ub with _ | u
  · exact tendsto_const_nhds
  · exact tendsto_const_nhds
  · exact tendsto_const_nhds
  · have hd' : stripDens u l T a b / ENNReal.ofReal (normDensR T (b - a)) = ENNReal.ofReal (1 - q) := by
      have : stripDens u l T a b = ENNReal.ofReal (normDensR T (b - a)) * ENNReal.ofReal (1 - q) := hd
      rw [this, mul_comm, ENNReal.mul_div_cancel_right n0 n1]
    have hacc : ∀ n, seedAccept T a b n (some l) (some u) = ENNReal.ofReal (1 - q ^ n) := by
      intro n
      rw [seedAccept, hd', ← ENNReal.ofReal_one, ← ENNReal.ofReal_sub _ (by linarith), sub_sub_cancel, ← ENNReal.ofReal_pow q0,
        ← ENNReal.ofReal_sub _ (pow_nonneg q0 n)]
    simp only [hacc]
    have := ENNReal.tendsto_ofReal ((tendsto_pow_atTop_nhds_zero_of_lt_one q0 q1).const_sub 1)
    simpa using this

/-- A bridge from 0 to 1 in the half-line above -1 and in the box from -1 to 3. -/
example : ⨆ F, (sampleLayer 7 F 2 0 1 (some (-1)) none).prob (fun r => ∃ l, r = .ok l) = 1 :=
  C79_ends (by norm_num) ⟨by norm_num, by simp⟩

example : ∃ e, computeEdges 2 2 0 1 (some (-1)) (some 3) 2 = .ok e ∧
    stripDens 3 (-1) 2 0 1 * (sampleLayer 7 5 2 0 1 (some (-1)) (some 3)).prob (fun r => ∃ l, l ≤ 2 ∧ r = .ok l) =
      seedAccept 2 0 1 7 (some (-1)) (some 3) * stripDens e.2 e.1 2 0 1 := by
  have hb : BoundsAround 0 1 (some (-1)) (some 3) := ⟨by norm_num, by norm_num⟩
  obtain ⟨e, he, -⟩ := C39_brackets (i := 2) (pow := 2) (T := 2) (by norm_num) hb.1 hb.2
  exact ⟨e, he, C79_law_bounded (by norm_num) hb (by norm_num) (by norm_num) he⟩

end Ctb
