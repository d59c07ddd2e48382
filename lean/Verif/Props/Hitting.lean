import Verif.Lemmas.BridgeMin
import Verif.Model.Layers
import Mathlib.Analysis.Complex.ExponentialBounds

set_option linter.unusedSectionVars false

/-! # C38-C40: minimum of a bridge, layer edges -/

namespace Ctb

open Classical

variable {T a b : ℝ} {lb ub : Option ℝ}

/-! ## C38 -/

/-- The quantile of a positive probability is a level between the bounds, and its distribution function is the probability. -/
theorem C38_cdf_ppf {p : ℝ} (h0 : 0 < p) (h1 : p ≤ 1) (hT : 0 < T) (hl : ∀ l, lb = some l → l < ub.getD (min a b))
    (hu : ub.getD (min a b) ≤ min a b) :
    ∃ m, ppfBridgeMin p T a b lb ub = .ok (some m) ∧ (∀ l, lb = some l → l < m) ∧ m ≤ ub.getD (min a b) ∧
      cdfBridgeMin (some m) T a b lb ub = .ok p := by
  obtain ⟨m, e1, e2, e3, e4, e5, e6⟩ := ppfBridgeMin_spec (a := a) (b := b) h0.le h1 hT ⟨hl, hu⟩ (fun h => absurd h h0.ne')
  refine ⟨m, e1, e5 h0, e2, ?_⟩
  rw [cdfBridgeMin_eq hT ⟨hl, hu⟩, e6]
  have d := cdfMinBase_lb_lt (a := a) (b := b) hT hl hu
  congr 1
  rw [add_sub_cancel_right, mul_div_assoc, div_self (sub_pos.2 d).ne', mul_one]

/-- Probability 0: the lower bound. -/
theorem C38_ppf_zero (hT : 0 < T) (hl : ∀ l, lb = some l → l < ub.getD (min a b)) (hu : ub.getD (min a b) ≤ min a b) :
    ppfBridgeMin 0 T a b lb ub = .ok lb := by
  rcases lb with _ | l
  · rw [ppfBridgeMin_eq ⟨le_rfl, zero_le_one⟩ hT ⟨hl, hu⟩]
    simp [cdfMinBase, ppfMinBase]
  · obtain ⟨m, e1, e2, e3, -, -, e6⟩ := ppfBridgeMin_spec (a := a) (b := b) le_rfl zero_le_one hT ⟨hl, hu⟩ (fun _ => by simp)
    rw [e1, zero_mul, zero_add] at *
    rw [cdfMinBase_inj hT (e2.trans hu) ((hl l rfl).le.trans hu) e6]

/-- A level between the bounds has a probability, and the quantile of that is the level. -/
theorem C38_ppf_cdf {m : ℝ} (hT : 0 < T) (hl : ∀ l, lb = some l → l < ub.getD (min a b)) (hu : ub.getD (min a b) ≤ min a b)
    (m0 : ∀ l, lb = some l → l ≤ m) (m1 : m ≤ ub.getD (min a b)) :
    ∃ p, cdfBridgeMin (some m) T a b lb ub = .ok p ∧ 0 ≤ p ∧ p ≤ 1 ∧ ppfBridgeMin p T a b lb ub = .ok (some m) := by
  rw [cdfBridgeMin_eq hT ⟨hl, hu⟩]
  have d := cdfMinBase_lb_lt (a := a) (b := b) hT hl hu
  have g0 := cdfMinBase_lb_le (a := a) (b := b) hT m0 (m1.trans hu)
  have g1 : cdfMinBase T a b (some m) ≤ cdfMinBase T a b (some (ub.getD (min a b))) := by
    rcases m1.eq_or_lt with e | e
    · rw [e]
    · exact (cdfMinBase_lt hT e hu).le
  refine ⟨_, rfl, div_nonneg (by linarith) (by linarith), (div_le_one (by linarith)).2 (by linarith), ?_⟩
  set p := (cdfMinBase T a b (some m) - cdfMinBase T a b lb) / (cdfMinBase T a b (some (ub.getD (min a b))) - cdfMinBase T a b lb) with hp
  have p0 : 0 ≤ p := div_nonneg (by linarith) (by linarith)
  have p1 : p ≤ 1 := (div_le_one (by linarith)).2 (by linarith)
  have e : p * (cdfMinBase T a b (some (ub.getD (min a b))) - cdfMinBase T a b lb) + cdfMinBase T a b lb = cdfMinBase T a b (some m) := by
    rw [hp, div_mul_cancel₀ _ (sub_pos.2 d).ne', sub_add_cancel]
  have hz : p = 0 → lb ≠ none := by
    rintro h rfl
    rw [h, zero_mul, zero_add] at e
    have := cdfMinBase_pos (T := T) (a := a) (b := b) m
    rw [← e] at this
    simp [cdfMinBase] at this
  obtain ⟨m', e1, e2, -, -, -, e6⟩ := ppfBridgeMin_spec (a := a) (b := b) p0 p1 hT ⟨hl, hu⟩ hz
  rw [e] at e6
  rw [e1, cdfMinBase_inj hT (e2.trans hu) (m1.trans hu) e6]

/-- The distribution function is strictly increasing between the bounds. -/
theorem C38_cdf_mono {m m' : ℝ} (hT : 0 < T) (hl : ∀ l, lb = some l → l < ub.getD (min a b)) (hu : ub.getD (min a b) ≤ min a b)
    (h : m < m') (h1 : m' ≤ ub.getD (min a b)) :
    ∃ p p', cdfBridgeMin (some m) T a b lb ub = .ok p ∧ cdfBridgeMin (some m') T a b lb ub = .ok p' ∧ p < p' := by
  refine ⟨_, _, cdfBridgeMin_eq hT ⟨hl, hu⟩, cdfBridgeMin_eq hT ⟨hl, hu⟩, ?_⟩
  have d := cdfMinBase_lb_lt (a := a) (b := b) hT hl hu
  rw [div_lt_div_iff_of_pos_right (sub_pos.2 d)]
  linarith [cdfMinBase_lt hT h (h1.trans hu)]

/-- The quantile function is strictly increasing on `(0, 1]`. -/
theorem C38_ppf_mono {p p' : ℝ} (hT : 0 < T) (hl : ∀ l, lb = some l → l < ub.getD (min a b)) (hu : ub.getD (min a b) ≤ min a b)
    (h0 : 0 < p) (h : p < p') (h1 : p' ≤ 1) :
    ∃ m m', ppfBridgeMin p T a b lb ub = .ok (some m) ∧ ppfBridgeMin p' T a b lb ub = .ok (some m') ∧ m < m' := by
  obtain ⟨m, e1, e2, -, -, -, e6⟩ := ppfBridgeMin_spec (a := a) (b := b) h0.le (h.le.trans h1) hT ⟨hl, hu⟩ (fun h => absurd h h0.ne')
  obtain ⟨m', f1, f2, -, -, -, f6⟩ := ppfBridgeMin_spec (a := a) (b := b) (h0.trans h).le h1 hT ⟨hl, hu⟩
    (fun h' => absurd h' (h0.trans h).ne')
  refine ⟨m, m', e1, f1, ?_⟩
  rw [← cdfMinBase_lt_iff hT (e2.trans hu) (f2.trans hu), e6, f6]
  have d := cdfMinBase_lb_lt (a := a) (b := b) hT hl hu
  nlinarith [mul_lt_mul_of_pos_right h (sub_pos.2 d)]

/-- 0 at the lower bound (`-inf` included), 1 at the upper bound. -/
theorem C38_ends (hT : 0 < T) (hl : ∀ l, lb = some l → l < ub.getD (min a b)) (hu : ub.getD (min a b) ≤ min a b) :
    cdfBridgeMin lb T a b lb ub = .ok 0 ∧ cdfBridgeMin (some (ub.getD (min a b))) T a b lb ub = .ok 1 := by
  rw [cdfBridgeMin_eq hT ⟨hl, hu⟩, cdfBridgeMin_eq hT ⟨hl, hu⟩]
  have d := cdfMinBase_lb_lt (a := a) (b := b) hT hl hu
  rw [sub_self, zero_div, div_self (sub_pos.2 d).ne']
  exact ⟨rfl, rfl⟩

/-- Everything else is an AssertionError. -/
theorem C38_error {m : Option ℝ} {p : ℝ}
    (h : ¬ (0 < T ∧ (∀ l, lb = some l → l < ub.getD (min a b)) ∧ ub.getD (min a b) ≤ min a b)) :
    cdfBridgeMin m T a b lb ub = .error .assertion ∧ ppfBridgeMin p T a b lb ub = .error .assertion := by
  unfold cdfBridgeMin ppfBridgeMin
  by_cases hT : 0 < T
  · have hb : ¬ MinBoundsOk a b lb (ub.getD (min a b)) := fun hb => h ⟨hT, hb⟩
    rw [if_neg (not_not.2 hT), if_pos hb, if_neg (not_not.2 hT), if_pos hb]
    exact ⟨rfl, by split_ifs <;> rfl⟩
  · rw [if_pos hT, if_pos hT]
    exact ⟨rfl, by split_ifs <;> rfl⟩

/-- Bridge from 0 to 1 over time 2, minimum between -1 and -1/2: the quantile of 1/2 exists. -/
example : ∃ m, ppfBridgeMin (1 / 2) 2 0 1 (some (-1)) (some (-1 / 2)) = .ok (some m) ∧ -1 < m ∧ m ≤ -1 / 2 ∧
    cdfBridgeMin (some m) 2 0 1 (some (-1)) (some (-1 / 2)) = .ok (1 / 2) := by
  obtain ⟨m, h1, h2, h3, h4⟩ := C38_cdf_ppf (T := 2) (a := 0) (b := 1) (lb := some (-1)) (ub := some (-1 / 2)) (p := 1 / 2)
    (by norm_num) (by norm_num) (by norm_num) (by simp; norm_num) (by simp; norm_num)
  exact ⟨m, h1, h2 _ rfl, h3, h4⟩

/-! ## C39 -/

theorem computeEdges_spec {i pow : ℕ} (hT : 0 < T) (hl : ∀ l, lb = some l → l < min a b) (hu : ∀ u, ub = some u → max a b < u)
    (hi : 0 < i) :
    ∃ m m', computeEdges i T a b lb ub pow = .ok (m, (a + b) / 2 - m') ∧
      ppfBridgeMin (1 / ((i : ℝ) ^ pow + 1)) T a b lb none = .ok (some m) ∧
      ppfBridgeMin (1 / ((i : ℝ) ^ pow + 1)) T ((a + b) / 2 - a) ((a + b) / 2 - b) (mirrorBound ((a + b) / 2) ub) none = .ok (some m') ∧
      m < min a b ∧ (∀ l, lb = some l → l < m) ∧ max a b < (a + b) / 2 - m' ∧ (∀ u, ub = some u → (a + b) / 2 - m' < u) := by
  have p0 : (0 : ℝ) < 1 / ((i : ℝ) ^ pow + 1) := by positivity
  have hip : (0 : ℝ) < (i : ℝ) ^ pow := by positivity
  have p1 : 1 / ((i : ℝ) ^ pow + 1) < 1 := (div_lt_one (by positivity)).2 (by linarith)
  obtain ⟨m, e1, -, -, e4, e5, -⟩ := ppfBridgeMin_spec (a := a) (b := b) (lb := lb) (ub := none) p0.le p1.le hT
    ⟨by simpa using hl, by simp⟩ (fun h => absurd h p0.ne')
  have hmin : min ((a + b) / 2 - a) ((a + b) / 2 - b) = (a + b) / 2 - max a b := by
    rcases le_total a b with h | h
    · rw [max_eq_right h, min_eq_right (by linarith)]
    · rw [max_eq_left h, min_eq_left (by linarith)]
  obtain ⟨m', f1, -, -, f4, f5, -⟩ := ppfBridgeMin_spec (a := (a + b) / 2 - a) (b := (a + b) / 2 - b)
    (lb := mirrorBound ((a + b) / 2) ub) (ub := none) p0.le p1.le hT
    ⟨by
      intro l h
      simp only [mirrorBound, Option.map_eq_some_iff] at h
      obtain ⟨u, h1, rfl⟩ := h
      simp only [Option.getD_none, hmin]
      linarith [hu u h1], by simp⟩ (fun h => absurd h p0.ne')
  refine ⟨m, m', ?_, e1, f1, by simpa using e4 p1, e5 p0, ?_, ?_⟩
  · unfold computeEdges
    rw [if_neg (not_not.2 hT), if_neg (not_not.2 hl), if_neg (not_not.2 hu), if_neg hi.ne']
    simp only [e1, f1]
  · have := f4 p1
    simp only [Option.getD_none, hmin] at this
    linarith
  · intro u h
    have := f5 p0 ((a + b) / 2 - u) (by simp [mirrorBound, h])
    linarith

/-- The first layer is the range of the end points. -/
theorem C39_zero {pow : ℕ} (hT : 0 < T) (hl : ∀ l, lb = some l → l < min a b) (hu : ∀ u, ub = some u → max a b < u) :
    computeEdges 0 T a b lb ub pow = .ok (min a b, max a b) := by
  unfold computeEdges
  rw [if_neg (not_not.2 hT), if_neg (not_not.2 hl), if_neg (not_not.2 hu), if_pos rfl]

/-- Every layer brackets both end points and is inside the bounds. -/
theorem C39_brackets {i pow : ℕ} (hT : 0 < T) (hl : ∀ l, lb = some l → l < min a b) (hu : ∀ u, ub = some u → max a b < u) :
    ∃ e, computeEdges i T a b lb ub pow = .ok e ∧ e.1 ≤ a ∧ e.1 ≤ b ∧ a ≤ e.2 ∧ b ≤ e.2 ∧ (∀ l, lb = some l → l < e.1) ∧
      (∀ u, ub = some u → e.2 < u) ∧ (0 < i → e.1 < min a b ∧ max a b < e.2) := by
  rcases Nat.eq_zero_or_pos i with rfl | hi
  · exact ⟨_, C39_zero hT hl hu, min_le_left _ _, min_le_right _ _, le_max_left _ _, le_max_right _ _, hl, hu, fun h => absurd h (lt_irrefl 0)⟩
  · obtain ⟨m, m', h1, -, -, h2, h3, h4, h5⟩ := computeEdges_spec (pow := pow) hT hl hu hi
    exact ⟨_, h1, (h2.trans_le (min_le_left _ _)).le, (h2.trans_le (min_le_right _ _)).le, ((le_max_left _ _).trans_lt h4).le,
      ((le_max_right _ _).trans_lt h4).le, h3, h5, fun _ => ⟨h2, h4⟩⟩

/-- Layers are strictly nested (any positive power; the code uses 2). -/
theorem C39_nested {i j pow : ℕ} (hpow : 0 < pow) (hT : 0 < T) (hl : ∀ l, lb = some l → l < min a b)
    (hu : ∀ u, ub = some u → max a b < u) (hij : i < j) :
    ∃ e e', computeEdges i T a b lb ub pow = .ok e ∧ computeEdges j T a b lb ub pow = .ok e' ∧ e'.1 < e.1 ∧ e.2 < e'.2 := by
  obtain ⟨m, m', h1, g1, g2, h2, h3, h4, h5⟩ := computeEdges_spec (pow := pow) hT hl hu (by omega : 0 < j)
  rcases Nat.eq_zero_or_pos i with rfl | hi
  · exact ⟨_, _, C39_zero hT hl hu, h1, h2, h4⟩
  · obtain ⟨n, n', k1, l1, l2, k2, k3, k4, k5⟩ := computeEdges_spec (pow := pow) hT hl hu hi
    refine ⟨_, _, k1, h1, ?_, ?_⟩
    all_goals
      have p0 : (0 : ℝ) < 1 / ((j : ℝ) ^ pow + 1) := by positivity
      have hp : (i : ℝ) ^ pow < (j : ℝ) ^ pow := pow_lt_pow_left₀ (by exact_mod_cast hij) (by positivity) hpow.ne'
      have hi0 : (0 : ℝ) ≤ (i : ℝ) ^ pow := by positivity
      have p1 : 1 / ((j : ℝ) ^ pow + 1) < 1 / ((i : ℝ) ^ pow + 1) := one_div_lt_one_div_of_lt (by positivity) (by linarith)
      have p2 : 1 / ((i : ℝ) ^ pow + 1) ≤ 1 := (div_le_one (by positivity)).2 (by linarith)
    · obtain ⟨q, q', r1, r2, r3⟩ := C38_ppf_mono (a := a) (b := b) (lb := lb) (ub := none) hT (by simpa using hl) (by simp) p0 p1 p2
      rw [g1] at r1; rw [l1] at r2
      simp only [Except.ok.injEq, Option.some.injEq] at r1 r2
      subst r1 r2
      exact r3
    · have hmin : min ((a + b) / 2 - a) ((a + b) / 2 - b) = (a + b) / 2 - max a b := by
        rcases le_total a b with h | h
        · rw [max_eq_right h, min_eq_right (by linarith)]
        · rw [max_eq_left h, min_eq_left (by linarith)]
      obtain ⟨q, q', r1, r2, r3⟩ := C38_ppf_mono (a := (a + b) / 2 - a) (b := (a + b) / 2 - b)
        (lb := mirrorBound ((a + b) / 2) ub) (ub := none) hT
        (by
          intro l h
          simp only [mirrorBound, Option.map_eq_some_iff] at h
          obtain ⟨u, h1, rfl⟩ := h
          simp only [Option.getD_none, hmin]
          linarith [hu u h1]) (by simp) p0 p1 p2
      rw [g2] at r1; rw [l2] at r2
      simp only [Except.ok.injEq, Option.some.injEq] at r1 r2
      subst r1 r2
      simp only
      linarith

/-- Reflecting the bridge (and exchanging its ends, as `flip` does) reflects the edges. -/
theorem C39_mirror {i pow : ℕ} (hT : 0 < T) (hl : ∀ l, lb = some l → l < min a b) (hu : ∀ u, ub = some u → max a b < u) :
    ∃ e, computeEdges i T a b lb ub pow = .ok e ∧
      computeEdges i T (-b) (-a) (ub.map Neg.neg) (lb.map Neg.neg) pow = .ok (-e.2, -e.1) := by
  have hmin : min (-b) (-a) = -max a b := by
    rcases le_total a b with h | h
    · rw [max_eq_right h, min_eq_left (by linarith)]
    · rw [max_eq_left h, min_eq_right (by linarith)]
  have hmax : max (-b) (-a) = -min a b := by
    rcases le_total a b with h | h
    · rw [min_eq_left h, max_eq_right (by linarith)]
    · rw [min_eq_right h, max_eq_left (by linarith)]
  have hl' : ∀ l, ub.map Neg.neg = some l → l < min (-b) (-a) := by
    intro l h
    simp only [Option.map_eq_some_iff] at h
    obtain ⟨u, h1, rfl⟩ := h
    rw [hmin]; linarith [hu u h1]
  have hu' : ∀ u, lb.map Neg.neg = some u → max (-b) (-a) < u := by
    intro u h
    simp only [Option.map_eq_some_iff] at h
    obtain ⟨l, h1, rfl⟩ := h
    rw [hmax]; linarith [hl l h1]
  rcases Nat.eq_zero_or_pos i with rfl | hi
  · refine ⟨_, C39_zero hT hl hu, ?_⟩
    rw [C39_zero hT hl' hu', hmin, hmax]
  · obtain ⟨m, m', h1, g1, g2, -⟩ := computeEdges_spec (pow := pow) hT hl hu hi
    obtain ⟨n, n', k1, l1, l2, -⟩ := computeEdges_spec (pow := pow) hT hl' hu' hi
    refine ⟨_, h1, ?_⟩
    rw [k1]
    have s1 := ppfBridgeMin_shift (T := T) (a := -b) (b := -a) ((a + b) / 2) (1 / ((i : ℝ) ^ pow + 1)) (ub.map Neg.neg)
    rw [l1, show -a + (a + b) / 2 = (a + b) / 2 - a by ring, show -b + (a + b) / 2 = (a + b) / 2 - b by ring,
      show (ub.map Neg.neg).map (· + (a + b) / 2) = mirrorBound ((a + b) / 2) ub by
        rw [mirrorBound, Option.map_map]; congr 1; funext x; simp only [Function.comp]; ring, g2] at s1
    have s2 := ppfBridgeMin_shift (T := T) (a := a) (b := b) ((-b + -a) / 2) (1 / ((i : ℝ) ^ pow + 1)) lb
    rw [g1, show b + (-b + -a) / 2 = (-b + -a) / 2 - -b by ring, show a + (-b + -a) / 2 = (-b + -a) / 2 - -a by ring,
      show lb.map (· + (-b + -a) / 2) = mirrorBound ((-b + -a) / 2) (lb.map Neg.neg) by
        rw [mirrorBound, Option.map_map]; congr 1; funext x; simp only [Function.comp]; ring, l2] at s2
    simp only [Except.map, Option.map_some, Except.ok.injEq, Option.some.injEq] at s1 s2
    subst s1 s2
    simp only [Except.ok.injEq, Prod.mk.injEq]
    constructor <;> ring

/-- Bridge from 0 to 1 above -3. -/
example : ∃ e e', computeEdges 1 2 0 1 (some (-3)) none 2 = .ok e ∧ computeEdges 2 2 0 1 (some (-3)) none 2 = .ok e' ∧ e'.1 < e.1 ∧ e.2 < e'.2 :=
  C39_nested (by norm_num) (by norm_num) (by simp) (by simp) (by norm_num)

end Ctb
