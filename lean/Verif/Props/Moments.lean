import Verif.Lemmas.Moments
import Verif.Lemmas.BridgeMin

set_option linter.unusedSectionVars false

/-!
# C50, C51, C52, C80: moments of the samplers, the seeded minimum and the pivot of a bridge
-/

namespace Ctb

open scoped ENNReal

variable {t s : List ℝ} {x mu T x0 x1 : ℝ}

/-- Value of `exp (c · path)`; errors count as 0. -/
noncomputable def expOf (c : List ℝ) : Res (List ℝ) → ℝ≥0∞
  | .ok xs => ENNReal.ofReal (Real.exp (dot c xs))
  | .error _ => 0

/-- The program draws `n` independent standard normals and returns an affine image of them with offset `m` and Gram matrix `S`. -/
def AffineNormal (p : Prog (List ℝ)) (n : ℕ) (m : List ℝ) (S : List (List ℝ)) : Prop :=
  ∃ L : List (List ℝ), L.length = m.length ∧ (∀ r ∈ L, r.length = n) ∧ gram L = S ∧
    p = (Prog.replicate n (Prog.draw (.normal 0 1))).bind fun zs => Prog.ret (vadd m (matVec L zs))

/-- Such a program has the moment generating function of the normal distribution with mean `m` and covariance `S`. -/
theorem AffineNormal.mgf {p : Prog (List ℝ)} {n : ℕ} {m : List ℝ} {S : List (List ℝ)} (h : AffineNormal p n m S) (c : List ℝ) :
    p.lexp (expOf c) = ENNReal.ofReal (Real.exp (dot c m + quad S c / 2)) := by
  obtain ⟨L, h1, h2, rfl, rfl⟩ := h
  exact affine_law n m L c h1.symm h2 _ fun xs => rfl

/-- `sample_wiener` is affine in its draws, with the mean and covariance of `moments_wiener`. -/
theorem C50_wiener (hne : t ≠ []) (hpos : ∀ a ∈ t, 0 < a) (h : t.Pairwise (· ≤ ·)) :
    ∃ m S, momentsWiener t x mu = .ok (m, S) ∧ AffineNormal (sampleWiener t x mu) t.length m S := by
  refine ⟨t.map fun a => x + mu * a, t.map fun a => t.map fun b => min a b, ?_, wRows 0 t, by simp [wRows_length], wRows_row 0 t, ?_,
    sampleWiener_affine hne hpos h⟩
  · rw [momentsWiener, if_neg hne, if_neg (not_not.2 hpos)]
  · rw [wRows_gram h fun a ha => (hpos a ha).le]
    simp

/-- `sample_brownbr` is affine in its draws, with the mean and covariance of `moments_brownbr`. -/
theorem C50_brownbr (hne : t ≠ []) (hp : ∀ a ∈ t, 0 < a ∧ a < T) (h : t.Pairwise (· ≤ ·)) :
    ∃ m S, momentsBrownbr t T x0 x1 = .ok (m, S) ∧ AffineNormal (sampleBrownbr t T x0 x1) t.length m S := by
  obtain ⟨h1, h2, h3, h4⟩ := sampleBrownbr_affine (x0 := x0) (x1 := x1) hne hp h
  refine ⟨t.map fun a => x0 + (x1 - x0) * a / T, _, ?_, bRows T t, by simp [h1], h2, h3, h4⟩
  rw [momentsBrownbr, if_neg hne, if_neg (not_not.2 hp)]

/-- Hence the joint law of the Wiener values is normal with these moments. -/
theorem C50_wiener_law (hne : t ≠ []) (hpos : ∀ a ∈ t, 0 < a) (h : t.Pairwise (· ≤ ·)) (c : List ℝ) :
    (sampleWiener t x mu).lexp (expOf c) = ENNReal.ofReal (Real.exp (dot c (t.map fun a => x + mu * a) +
      quad (t.map fun a => t.map fun b => min a b) c / 2)) := by
  obtain ⟨m, S, hm, hA⟩ := C50_wiener (x := x) (mu := mu) hne hpos h
  rw [momentsWiener, if_neg hne, if_neg (not_not.2 hpos)] at hm
  cases hm
  exact hA.mgf c

/-- Hence the joint law of the bridge values is normal with these moments. -/
theorem C50_brownbr_law (hne : t ≠ []) (hp : ∀ a ∈ t, 0 < a ∧ a < T) (h : t.Pairwise (· ≤ ·)) (c : List ℝ) :
    (sampleBrownbr t T x0 x1).lexp (expOf c) = ENNReal.ofReal (Real.exp (dot c (t.map fun a => x0 + (x1 - x0) * a / T) +
      quad (t.map fun a => t.map fun b => (T - max a b) * min a b / T) c / 2)) := by
  obtain ⟨m, S, hm, hA⟩ := C50_brownbr (x0 := x0) (x1 := x1) hne hp h
  rw [momentsBrownbr, if_neg hne, if_neg (not_not.2 hp)] at hm
  cases hm
  exact hA.mgf c

/-- A grid that is empty or leaves the open interval is rejected by sampler and moments alike. -/
theorem C50_errors : (t = [] → momentsBrownbr t T x0 x1 = .error .value ∧ sampleBrownbr t T x0 x1 = .err .value) ∧
    (t ≠ [] → (¬ ∀ a ∈ t, 0 < a ∧ a < T) → momentsBrownbr t T x0 x1 = .error .assertion ∧ sampleBrownbr t T x0 x1 = .err .assertion) := by
  refine ⟨fun h => ?_, fun h h' => ?_⟩
  · rw [momentsBrownbr, sampleBrownbr, if_pos h, if_pos h]
    exact ⟨rfl, rfl⟩
  · rw [momentsBrownbr, sampleBrownbr, if_neg h, if_neg h, if_pos h', Prog.assert, if_neg h']
    exact ⟨rfl, rfl⟩

example : (sampleBrownbr [1, 2] 4 0 8).lexp (expOf [1, -1]) = ENNReal.ofReal (Real.exp (-2 + 3 / 8)) := by
  rw [C50_brownbr_law (by simp) (by simp; norm_num) (by simp)]
  norm_num [dot, quad, matVec]

/-- Conditioning the Wiener moments on the final value gives the bridge moments, whatever the drift. -/
theorem C51_bridge (hne : t ≠ []) (hp : ∀ a ∈ t, 0 < a ∧ a < T) :
    ∃ m S, momentsWiener (t ++ [T]) x0 mu = .ok (m, S) ∧ momentsGaussianBridge x1 m S = momentsBrownbr t T x0 x1 := by
  obtain ⟨t0, ht0⟩ := List.exists_mem_of_ne_nil t hne
  have hT : 0 < T := (hp t0 ht0).1.trans (hp t0 ht0).2
  refine ⟨(t ++ [T]).map fun a => x0 + mu * a, (t ++ [T]).map fun a => (t ++ [T]).map fun b => min a b, ?_, ?_⟩
  · rw [momentsWiener, if_neg (by simp), if_neg]
    rw [not_not]
    intro a ha
    rcases List.mem_append.1 ha with ha | ha
    · exact (hp a ha).1
    · rw [List.mem_singleton.1 ha]; exact hT
  · have hmin : ∀ a ∈ t, min a T = a ∧ min T a = a := fun a ha => ⟨min_eq_left (hp a ha).2.le, min_eq_right (hp a ha).2.le⟩
    have e1 : ((t ++ [T]).map fun a => x0 + mu * a) = (t.map fun a => x0 + mu * a) ++ [x0 + mu * T] := by simp
    have e2 : ((t ++ [T]).map fun a => (t ++ [T]).map fun b => min a b) = (t.map fun a => (t.map fun b => min a b) ++ [a]) ++ [t ++ [T]] := by
      rw [List.map_append]
      congr 1
      · refine List.map_congr_left fun a ha => ?_
        simp [(hmin a ha).1]
      · simp only [List.map_cons, List.map_nil, List.map_append, min_self]
        congr 2
        exact (List.map_congr_left fun a ha => (hmin a ha).2).trans (List.map_id' t)
    rw [e1, e2, momentsBrownbr, if_neg hne, if_neg (not_not.2 hp), momentsGaussianBridge]
    simp only [List.getLast?_append, List.getLast?_singleton, Option.some_or, List.dropLast_concat, if_neg hT.ne']
    congr 2
    · rw [List.zipWith_map_left, List.zipWith_self]
      refine List.map_congr_left fun a _ => ?_
      field_simp
      ring
    · rw [List.map_map, List.zipWith_map_left, List.zipWith_self]
      refine List.map_congr_left fun a ha => ?_
      simp only [Function.comp, List.dropLast_concat]
      rw [List.zipWith_map_left, List.zipWith_self]
      refine List.map_congr_left fun b hb => ?_
      rcases le_total a b with h | h
      · rw [min_eq_left h, max_eq_right h]
        field_simp
      · rw [min_eq_right h, max_eq_left h]
        field_simp

example : ∃ m S, momentsWiener [3, 1, 4] 2 7 = .ok (m, S) ∧ momentsGaussianBridge 5 m S = momentsBrownbr [3, 1] 4 2 5 :=
  C51_bridge (t := [3, 1]) (by simp) (by simp; norm_num)

/-- Roots of the equation `lam (x - mu)² / (mu² x) = r2` in `x > 0`. -/
def WaldRoot (r2 mu lam x : ℝ) : Prop := 0 < x ∧ lam * (x - mu) ^ 2 / (mu ^ 2 * x) = r2

variable {r2 lam u0 u1 u2 : ℝ}

theorem waldCand_quad (hl : 0 < lam) (hm : 0 < mu) (hr : 0 < r2) :
    lam * (waldCand r2 mu lam - mu) ^ 2 = mu ^ 2 * waldCand r2 mu lam * r2 ∧ 0 < waldCand r2 mu lam ∧ waldCand r2 mu lam < mu := by
  set S := Real.sqrt (4 * mu * lam * r2 + mu ^ 2 * r2 ^ 2) with hS
  have hp : 0 < 4 * mu * lam * r2 := by positivity
  have hsq : S ^ 2 = 4 * mu * lam * r2 + mu ^ 2 * r2 ^ 2 := Real.sq_sqrt (by positivity)
  have hS0 : 0 ≤ S := Real.sqrt_nonneg _
  have hlt : mu * r2 < S := by
    rw [hS]
    apply Real.lt_sqrt_of_sq_lt
    nlinarith
  have hup : S < mu * r2 + 2 * lam := by
    rw [hS, Real.sqrt_lt' (by positivity)]
    nlinarith [mul_pos hl hl]
  have hc : waldCand r2 mu lam = mu * (1 + (mu * r2 - S) / (2 * lam)) := by
    rw [waldCand, ← hS]
    field_simp
  have hc2 : 2 * lam * waldCand r2 mu lam = mu * (2 * lam + mu * r2 - S) := by
    rw [hc]
    field_simp
    ring
  refine ⟨?_, ?_, ?_⟩
  · have e : 2 * lam * (waldCand r2 mu lam - mu) = mu * (mu * r2 - S) := by linear_combination hc2
    have : 4 * lam * (lam * (waldCand r2 mu lam - mu) ^ 2) = 4 * lam * (mu ^ 2 * waldCand r2 mu lam * r2) := by
      have e2 : 4 * lam * (lam * (waldCand r2 mu lam - mu) ^ 2) = (2 * lam * (waldCand r2 mu lam - mu)) ^ 2 := by ring
      rw [e2, e]
      have e3 : 4 * lam * (mu ^ 2 * waldCand r2 mu lam * r2) = 2 * mu ^ 2 * r2 * (2 * lam * waldCand r2 mu lam) := by ring
      rw [e3, hc2]
      linear_combination mu ^ 2 * hsq
    exact mul_left_cancel₀ (by positivity) this
  · have : 0 < mu * (2 * lam + mu * r2 - S) := mul_pos hm (by linarith)
    rw [← hc2] at this
    exact pos_of_mul_pos_right this (by positivity)
  · have : 2 * lam * waldCand r2 mu lam < 2 * lam * mu := by
      rw [hc2]
      nlinarith
    exact lt_of_mul_lt_mul_left this (by positivity)

/-- The candidate is the smaller positive root; the other root is `mu² / cand`. -/
theorem C52_root (hl : 0 < lam) (hm : 0 < mu) (hr : 0 < r2) :
    WaldRoot r2 mu lam (waldCand r2 mu lam) ∧ WaldRoot r2 mu lam (mu ^ 2 / waldCand r2 mu lam) ∧
      waldCand r2 mu lam < mu ∧ mu < mu ^ 2 / waldCand r2 mu lam ∧
      ∀ y, WaldRoot r2 mu lam y → y = waldCand r2 mu lam ∨ y = mu ^ 2 / waldCand r2 mu lam := by
  obtain ⟨h1, h2, h3⟩ := waldCand_quad hl hm hr
  set c := waldCand r2 mu lam
  refine ⟨⟨h2, ?_⟩, ⟨by positivity, ?_⟩, h3, ?_, ?_⟩
  · rw [h1]; field_simp
  · rw [div_eq_iff (by positivity)]
    have : lam * (mu ^ 2 / c - mu) ^ 2 = (mu / c) ^ 2 * (lam * (c - mu) ^ 2) := by field_simp; ring
    rw [this, h1]
    field_simp
  · rw [lt_div_iff₀ h2]
    nlinarith
  · rintro y ⟨hy, e⟩
    rw [div_eq_iff (by positivity)] at e
    have : (y - c) * (y * c - mu ^ 2) = 0 := by
      have e1 : lam * ((y - c) * (y * c - mu ^ 2)) = 0 := by
        have : c * (lam * (y - mu) ^ 2) - y * (lam * (c - mu) ^ 2) = 0 := by rw [e, h1]; ring
        linear_combination this
      exact (mul_eq_zero.1 e1).resolve_left hl.ne'
    rcases mul_eq_zero.1 this with h | h
    · left; linarith
    · right; rw [eq_div_iff h2.ne']; linarith

theorem seededWald_pos (hl : 0 < lam) (hm : 0 < mu) (hr : 0 < r2) : 0 < seededWald u1 r2 mu lam := by
  obtain ⟨-, h2, -⟩ := waldCand_quad hl hm hr
  rw [seededWald]
  split_ifs
  · exact h2
  · positivity

/-- The seeded minimum is attained strictly inside the interval and lies strictly below both ends; it is the `u[0]`-quantile. -/
theorem C52_min (h0 : 0 < u0 ∧ u0 < 1) (h1 : 0 < u1 ∧ u1 < 1) (h2 : 0 < u2 ∧ u2 < 1) (hr : 0 < r2) (hT : 0 < T) :
    ∃ mt mx, seededBridgeMin u0 u1 u2 r2 T x0 x1 = .ok (mt, mx) ∧ 0 < mt ∧ mt < T ∧ mx < x0 ∧ mx < x1 ∧
      Real.exp (-2 * (x0 - mx) * (x1 - mx) / T) = u0 := by
  obtain ⟨m, e, -, -, hlt, -, hc⟩ := ppfBridgeMin_spec (T := T) (a := x0) (b := x1) (lb := none) (ub := none) h0.1.le h0.2.le hT
    ⟨by simp, by simp⟩ (fun h => absurd h h0.1.ne')
  rw [Option.getD_none] at hlt hc
  have hm := hlt h0.2
  rw [cdfMinBase_top, cdfMinBase_eq hm.le] at hc
  simp only [cdfMinBase, sub_zero, mul_one, add_zero] at hc
  rw [lt_min_iff] at hm
  have q1 : 0 < (x1 - m) ^ 2 / (2 * T) := div_pos (by nlinarith [hm.2]) (by positivity)
  have q2 : 0 < (m - x0) ^ 2 / (2 * T) := div_pos (by nlinarith [hm.1]) (by positivity)
  have q3 : 0 < Real.sqrt ((x1 - m) ^ 2 / (2 * T) / ((m - x0) ^ 2 / (2 * T))) := Real.sqrt_pos.2 (div_pos q1 q2)
  have frac : ∀ w : ℝ, 0 < w → 0 < T / (1 + w) ∧ T / (1 + w) < T := fun w hw =>
    ⟨by positivity, by rw [div_lt_iff₀ (by positivity)]; nlinarith⟩
  have hu : ∀ u ∈ [u0, u1, u2], 0 < u ∧ u < 1 := by
    intro u hu
    simp only [List.mem_cons, List.not_mem_nil, or_false] at hu
    rcases hu with rfl | rfl | rfl
    · exact h0
    · exact h1
    · exact h2
  rw [seededBridgeMin, if_neg (not_not.2 hu), if_neg (not_not.2 hr), if_neg (not_not.2 hT), e]
  simp only [if_neg q2.ne']
  split_ifs
  · exact ⟨_, _, rfl, (frac _ (seededWald_pos (by positivity) q3 hr)).1, (frac _ (seededWald_pos (by positivity) q3 hr)).2, hm.1, hm.2, hc⟩
  · have w := seededWald_pos (u1 := u1) (show 0 < 2 * ((m - x0) ^ 2 / (2 * T)) by positivity) (one_div_pos.2 q3) hr
    exact ⟨_, _, rfl, (frac _ (one_div_pos.2 w)).1, (frac _ (one_div_pos.2 w)).2, hm.1, hm.2, hc⟩

/-- Seeds or durations outside their ranges are rejected. -/
theorem C52_errors (h : ¬ ((0 < u0 ∧ u0 < 1) ∧ (0 < u1 ∧ u1 < 1) ∧ (0 < u2 ∧ u2 < 1) ∧ 0 < r2 ∧ 0 < T)) :
    seededBridgeMin u0 u1 u2 r2 T x0 x1 = .error .assertion := by
  rw [seededBridgeMin]
  split_ifs with h1 h2 h3
  rotate_left 1
  · rfl
  · rfl
  · rfl
  · simp only [List.mem_cons, List.not_mem_nil, or_false, forall_eq_or_imp, forall_eq] at h1
    exact absurd ⟨h1.1, h1.2.1, h1.2.2, h2, h3⟩ h

example : ∃ mt mx, seededBridgeMin (1 / 2) (1 / 3) (1 / 4) 5 2 0 (-1) = .ok (mt, mx) ∧ 0 < mt ∧ mt < 2 ∧ mx < 0 ∧ mx < -1 ∧
    Real.exp (-2 * (0 - mx) * (-1 - mx) / 2) = 1 / 2 :=
  C52_min (by norm_num) (by norm_num) (by norm_num) (by norm_num) (by norm_num)

/-- Stretching a standard bridge with `pivot_brownbr` is the same program as sampling the bridge on the stretched grid. -/
theorem C80_pivot (hne : s ≠ []) (hp : ∀ a ∈ s, 0 < a ∧ a < 1) (h : s.Pairwise (· ≤ ·)) (hT : 0 < T) :
    ((sampleBrownbr s 1 0 0).bind fun z => Prog.lift (pivotBrownbr s z T x0 x1)) =
      (sampleBrownbr (s.map (· * T)) T x0 x1).bind fun y => .ret (s.map (· * T), y) := by
  have hp' : ∀ a ∈ s.map (· * T), 0 < a ∧ a < T := by
    intro a ha
    obtain ⟨b, hb, rfl⟩ := List.mem_map.1 ha
    exact ⟨mul_pos (hp b hb).1 hT, by nlinarith [hp b hb]⟩
  obtain ⟨-, -, -, h4⟩ := sampleBrownbr_affine (x0 := 0) (x1 := 0) hne hp h
  obtain ⟨-, -, -, h4'⟩ := sampleBrownbr_affine (t := s.map (· * T)) (x0 := x0) (x1 := x1) (by simpa using hne) hp'
    (by rw [List.pairwise_map]; exact h.imp fun hab => mul_le_mul_of_nonneg_right hab hT.le)
  rw [h4, h4', Prog.bind_assoc, Prog.bind_assoc, List.length_map]
  congr 1
  funext zs
  rw [Prog.ret_bind, Prog.ret_bind, pivotBrownbr, if_neg hne, if_neg (not_not.2 fun a ha => ⟨(hp a ha).1.le, (hp a ha).2.le⟩),
    if_neg (not_not.2 hT)]
  simp only [Prog.lift]
  congr 2
  have hφ : (s.map (· * T)).map (fun a => a / T / (1 - a / T)) = s.map fun a => a / 1 / (1 - a / 1) := by
    rw [List.map_map]
    refine List.map_congr_left fun a _ => ?_
    simp [mul_div_assoc, div_self hT.ne']
  rw [bRows, bRows, scale_matVec, scale_matVec, hφ]
  refine List.ext_getElem (by simp [vadd, matVec, wRows_length]) fun i h1 h2 => ?_
  simp only [vadd, List.getElem_zipWith, List.getElem_map, Real.sqrt_one]
  generalize (matVec _ zs)[i]'_ = w
  have hi : i < s.length := by
    simp [vadd, matVec, wRows_length] at h1
    exact h1
  generalize s[i]'hi = a
  field_simp
  ring

/-- Hence it has the joint law of the bridge. -/
theorem C80_law (hne : s ≠ []) (hp : ∀ a ∈ s, 0 < a ∧ a < 1) (h : s.Pairwise (· ≤ ·)) (hT : 0 < T) (g : Res (List ℝ × List ℝ) → ℝ≥0∞) :
    ((sampleBrownbr s 1 0 0).bind fun z => Prog.lift (pivotBrownbr s z T x0 x1)).lexp g =
      ((sampleBrownbr (s.map (· * T)) T x0 x1).bind fun y => .ret (s.map (· * T), y)).lexp g := by
  rw [C80_pivot hne hp h hT]

example : ((sampleBrownbr [1 / 4, 1 / 2] 1 0 0).bind fun z => Prog.lift (pivotBrownbr [1 / 4, 1 / 2] z 8 1 3)) =
    (sampleBrownbr ([1 / 4, 1 / 2].map (· * 8)) 8 1 3).bind fun y => .ret ([1 / 4, 1 / 2].map (· * 8), y) :=
  C80_pivot (by simp) (by simp; norm_num) (by simp; norm_num) (by norm_num)

end Ctb
