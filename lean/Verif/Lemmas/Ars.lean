import Verif.Spec.Ars
import Verif.Lemmas.SwitchParams
import Mathlib.Analysis.SpecialFunctions.ImproperIntegrals

set_option linter.unusedSectionVars false

namespace Ctb

/-! ## searchsorted -/

theorem searchLeft_spec {K : Type} [LinearOrder K] [DecidableLT K] {l : List K} (hs : l.Pairwise (· ≤ ·)) (v : K) :
    searchLeft l v ≤ l.length ∧ (∀ (k : ℕ) (hk : k < l.length), k < searchLeft l v → l[k] < v) ∧
      ∀ (k : ℕ) (hk : k < l.length), searchLeft l v ≤ k → v ≤ l[k] := by
  induction l with
  | nil => simp [searchLeft]
  | cons a l ih =>
    rw [List.pairwise_cons] at hs
    obtain ⟨h1, h2, h3⟩ := ih hs.2
    by_cases ha : a < v
    · have e : searchLeft (a :: l) v = searchLeft l v + 1 := by simp [searchLeft, ha]
      refine ⟨by rw [e]; simpa using h1, ?_, ?_⟩
      · intro k hk hlt
        rcases k with _ | k
        · simpa using ha
        · simp only [List.getElem_cons_succ]; exact h2 k (by simpa using hk) (by omega)
      · intro k hk hle
        rcases k with _ | k
        · omega
        · simp only [List.getElem_cons_succ]; exact h3 k (by simpa using hk) (by omega)
    · have e : searchLeft (a :: l) v = 0 := by simp [searchLeft, ha]
      refine ⟨by rw [e]; simp, ?_, ?_⟩
      · intro k hk hlt; omega
      · intro k hk _
        rcases k with _ | k
        · simpa using not_lt.1 ha
        · simp only [List.getElem_cons_succ]
          exact (not_lt.1 ha).trans (hs.1 _ (List.getElem_mem _))

theorem pyGet_nat {α : Type} {l : List α} {k : ℕ} (hk : k < l.length) : pyGet l (k : ℤ) = some l[k] := by
  simp [pyGet, hk]

/-! ## Tangents -/

section
variable {f df : ℝ → ℝ} {S : Set ℝ}

theorem le_tangent (hf : ConcaveDiff f df S) {a t : ℝ} (ha : a ∈ S) (ht : t ∈ S) : f t ≤ tangent f df a t := by
  unfold tangent
  rcases lt_trichotomy a t with h | rfl | h
  · have := hf.conc.slope_le_of_hasDerivAt ha ht h (hf.der a ha)
    rw [slope_def_field, div_le_iff₀ (by linarith)] at this
    linarith
  · simp
  · have := hf.conc.le_slope_of_hasDerivAt ht ha h (hf.der a ha)
    rw [slope_def_field, le_div_iff₀ (by linarith)] at this
    nlinarith

theorem df_anti (hf : ConcaveDiff f df S) {a b : ℝ} (ha : a ∈ S) (hb : b ∈ S) (hab : a < b) : df b ≤ df a :=
  (hf.conc.le_slope_of_hasDerivAt ha hb hab (hf.der b hb)).trans (hf.conc.slope_le_of_hasDerivAt ha hb hab (hf.der a ha))

theorem df_strict (hf : StrictConcaveOn ℝ S f) (hd : ∀ a ∈ S, HasDerivAt f (df a) a) {a b : ℝ} (ha : a ∈ S) (hb : b ∈ S)
    (hab : a < b) : df b < df a := by
  have := hf.strictAntiOn_deriv (fun x hx => (hd x hx).differentiableAt) ha hb hab
  rwa [(hd a ha).deriv, (hd b hb).deriv] at this

/-- Where the tangents at `a` and `b` meet. -/
noncomputable def crossPt (f df : ℝ → ℝ) (a b : ℝ) : ℝ := (f b - b * df b - (f a - a * df a)) / (df a - df b)

theorem tangent_sub {a b : ℝ} (h : df a ≠ df b) (t : ℝ) :
    tangent f df a t - tangent f df b t = (df a - df b) * (t - crossPt f df a b) := by
  unfold tangent crossPt
  have : df a - df b ≠ 0 := sub_ne_zero.2 h
  field_simp
  ring

theorem cross_mem (hf : ConcaveDiff f df S) {a b : ℝ} (ha : a ∈ S) (hb : b ∈ S) (hab : a < b) (h : df a ≠ df b) :
    a ≤ crossPt f df a b ∧ crossPt f df a b ≤ b := by
  have hlt : 0 < df a - df b := by
    have := lt_of_le_of_ne (df_anti hf ha hb hab) h.symm; linarith
  have h1 := tangent_sub (f := f) h a
  have h2 := tangent_sub (f := f) h b
  have e1 : tangent f df a a = f a := by simp [tangent]
  have e2 : tangent f df b b = f b := by simp [tangent]
  have g1 := le_tangent hf hb ha
  have g2 := le_tangent hf ha hb
  constructor
  · by_contra hc
    rw [not_le] at hc
    have := mul_pos hlt (sub_pos.2 hc); linarith
  · by_contra hc
    rw [not_le] at hc
    have := mul_neg_of_pos_of_neg hlt (sub_neg.2 hc); linarith

/-! ## Hull breakpoints -/

variable {H : Hull} {lb ub : EReal}

theorem genUpper_ok (hH : H.Ok f df S) {c : List ℝ} (h : genUpper H.x H.fx H.dfx = .ok c) :
    c.length + 1 = H.x.length ∧ ∀ (k : ℕ) (hk : k < c.length) (h1 : k + 1 < H.x.length),
      df H.x[k] ≠ df H.x[k + 1] ∧ c[k] = crossPt f df H.x[k] H.x[k + 1] := by
  unfold genUpper at h
  simp only at h
  split_ifs at h with h0
  simp only [Except.ok.injEq] at h
  have hn : 0 < H.x.length := List.length_pos_iff.2 hH.ne
  have hl : c.length + 1 = H.x.length := by
    rw [← h]; simp [hH.fx, hH.dfx, npDiff_len]; omega
  refine ⟨hl, fun k hk h1 => ?_⟩
  constructor
  · intro he
    apply h0
    rw [List.mem_iff_getElem]
    refine ⟨k, by simp [hH.dfx]; omega, ?_⟩
    simp [hH.dfx, he]
  · have : ∀ (l : List ℝ) (hk : k < l.length), l = c → c[k]'(by omega) = l[k] := by rintro l hk rfl; rfl
    rw [this _ (by rw [h]; exact hk) h]
    simp only [List.getElem_zipWith, npDiff_getElem, hH.fx, hH.dfx, List.getElem_map, List.getElem_dropLast, List.getElem_tail,
      crossPt]

theorem genUpper_total (hH : H.Ok f df S) (hd : ∀ a ∈ S, ∀ b ∈ S, a < b → df b < df a) :
    ∃ c, genUpper H.x H.fx H.dfx = .ok c := by
  unfold genUpper
  simp only
  rw [if_neg]
  · exact ⟨_, rfl⟩
  · rw [List.mem_iff_getElem]
    rintro ⟨k, hk, he⟩
    simp only [List.length_zipWith, List.length_dropLast, List.length_tail, hH.dfx, List.length_map] at hk
    simp only [List.getElem_zipWith, List.getElem_dropLast, List.getElem_tail, hH.dfx, List.getElem_map] at he
    have h1 : k + 1 < H.x.length := by omega
    have := hd H.x[k] (hH.mem _ (List.getElem_mem _)) H.x[k + 1] (hH.mem _ (List.getElem_mem _))
      (List.pairwise_iff_getElem.1 hH.inc k (k + 1) (by omega) h1 (by omega))
    linarith

/-- Facts about the breakpoint array. -/
structure BreaksOk (H : Hull) (f df : ℝ → ℝ) (lb ub : EReal) (y : List EReal) : Prop where
  len : y.length = H.x.length + 1
  first : ∀ h : 0 < y.length, y[0] = lb
  last : ∀ h : H.x.length < y.length, y[H.x.length] = ub
  inner : ∀ (k : ℕ) (h : k + 1 < H.x.length) (h' : k + 1 < y.length), df H.x[k] ≠ df H.x[k + 1] ∧
    y[k + 1] = ((crossPt f df H.x[k] H.x[k + 1] : ℝ) : EReal)

theorem hullBreaks_ok (hH : H.Ok f df S) {y : List EReal} (h : hullBreaks lb ub H.x H.fx H.dfx = .ok y) :
    BreaksOk H f df lb ub y := by
  unfold hullBreaks at h
  rcases hg : genUpper H.x H.fx H.dfx with e | c
  · rw [hg] at h; simp [Except.bind] at h
  rw [hg] at h
  simp only [Except.bind, Except.ok.injEq] at h
  subst h
  obtain ⟨h1, h2⟩ := genUpper_ok hH hg
  have hn : 0 < H.x.length := List.length_pos_iff.2 hH.ne
  refine ⟨by simp; omega, by simp, ?_, ?_⟩
  · intro h
    rw [List.getElem_append_right (by simp; omega)]
    simp
  · intro k hk hk'
    have := h2 k (by omega) hk
    refine ⟨this.1, ?_⟩
    rw [List.getElem_append_left (by simp; omega)]
    simp [this.2]

theorem BreaksOk.lower (hf : ConcaveDiff f df (supp lb ub)) (hH : H.Ok f df (supp lb ub)) {y : List EReal} (hy : BreaksOk H f df lb ub y)
    {k : ℕ} (hk : k < H.x.length) (hk' : k < y.length) : y[k] ≤ (H.x[k] : EReal) := by
  rcases k with _ | k
  · rw [hy.first]; exact (hH.mem _ (List.getElem_mem hk)).1.le
  · obtain ⟨h1, h2⟩ := hy.inner k hk hk'
    rw [h2, EReal.coe_le_coe_iff]
    exact (cross_mem hf (hH.mem _ (List.getElem_mem _)) (hH.mem _ (List.getElem_mem _))
      (List.pairwise_iff_getElem.1 hH.inc k (k + 1) (by omega) hk (by omega)) h1).2

theorem BreaksOk.upper (hf : ConcaveDiff f df (supp lb ub)) (hH : H.Ok f df (supp lb ub)) {y : List EReal} (hy : BreaksOk H f df lb ub y)
    {k : ℕ} (hk : k < H.x.length) (hk' : k + 1 < y.length) : (H.x[k] : EReal) ≤ y[k + 1] := by
  by_cases h : k + 1 < H.x.length
  · obtain ⟨h1, h2⟩ := hy.inner k h hk'
    rw [h2, EReal.coe_le_coe_iff]
    exact (cross_mem hf (hH.mem _ (List.getElem_mem _)) (hH.mem _ (List.getElem_mem _))
      (List.pairwise_iff_getElem.1 hH.inc k (k + 1) (by omega) h (by omega)) h1).1
  · have e : k + 1 = H.x.length := by omega
    have : y[k + 1] = ub := by
      have := hy.last (by omega)
      simpa only [e] using this
    rw [this]
    exact (hH.mem _ (List.getElem_mem _)).2.le

theorem BreaksOk.sorted (hf : ConcaveDiff f df (supp lb ub)) (hH : H.Ok f df (supp lb ub)) {y : List EReal} (hy : BreaksOk H f df lb ub y) :
    y.Pairwise (· ≤ ·) := by
  have hlen := hy.len
  rw [List.pairwise_iff_getElem]
  have step : ∀ (k : ℕ) (h : k + 1 < y.length), y[k] ≤ y[k + 1] := fun k h =>
    (hy.lower hf hH (by omega) (by omega)).trans (hy.upper hf hH (by omega) h)
  intro i j hi hj hij
  induction j with
  | zero => omega
  | succ j ih =>
    rcases Nat.lt_succ_iff_lt_or_eq.1 hij with h | rfl
    · exact (ih (by omega) h).trans (step j hj)
    · exact step i hj

/-- Between its breakpoints a tangent is the lowest. -/
theorem tangent_least (hf : ConcaveDiff f df (supp lb ub)) (hH : H.Ok f df (supp lb ub)) {y : List EReal} (hy : BreaksOk H f df lb ub y)
    {i : ℕ} (hi : i < H.x.length) (hi' : i + 1 < y.length) {t : ℝ} (h1 : y[i] ≤ (t : EReal)) (h2 : (t : EReal) ≤ y[i + 1]) :
    IsUpperHull f df H.x t (tangent f df H.x[i] t) := by
  have hlen := hy.len
  have hso := List.pairwise_iff_getElem.1 (hy.sorted hf hH)
  have hs : ∀ (k : ℕ) (h : k + 1 < H.x.length), df H.x[k + 1] < df H.x[k] := fun k h =>
    lt_of_le_of_ne (df_anti hf (hH.mem _ (List.getElem_mem _)) (hH.mem _ (List.getElem_mem _))
      (List.pairwise_iff_getElem.1 hH.inc k (k + 1) (by omega) h (by omega))) (hy.inner k h (by omega)).1.symm
  refine ⟨⟨_, List.getElem_mem hi, rfl⟩, ?_⟩
  rintro w ⟨a, ha, rfl⟩
  obtain ⟨j, hj, rfl⟩ := List.mem_iff_getElem.1 ha
  -- to the right
  have right : ∀ (j : ℕ) (hj : j < H.x.length), i ≤ j → tangent f df H.x[i] t ≤ tangent f df H.x[j] t := by
    intro j hj hij
    induction j with
    | zero =>
      have : i = 0 := by omega
      subst this; rfl
    | succ j ih =>
      rcases Nat.lt_or_eq_of_le hij with h | rfl
      · have hij' : i ≤ j := by omega
        refine (ih (by omega) hij').trans ?_
        have hle : (t : EReal) ≤ y[j + 1] := by
          rcases Nat.lt_or_eq_of_le hij' with h' | rfl
          · exact h2.trans (hso (i + 1) (j + 1) (by omega) (by omega) (by omega))
          · exact h2
        obtain ⟨g1, g2⟩ := hy.inner j hj (by omega)
        rw [g2, EReal.coe_le_coe_iff] at hle
        have := tangent_sub (f := f) g1 t
        nlinarith [hs j hj]
      · rfl
  have left : ∀ (d j : ℕ) (hj : j < H.x.length), j + d = i → tangent f df H.x[i] t ≤ tangent f df H.x[j] t := by
    intro d
    induction d with
    | zero => intro j hj h; have : j = i := by omega
              subst this; rfl
    | succ d ih =>
      intro j hj h
      refine (ih (j + 1) (by omega) (by omega)).trans ?_
      have hle : y[j + 1] ≤ (t : EReal) := by
        by_cases h' : j + 1 = i
        · simpa only [h'] using h1
        · exact (hso (j + 1) i (by omega) (by omega) (by omega)).trans h1
      obtain ⟨g1, g2⟩ := hy.inner j (by omega) (by omega)
      rw [g2, EReal.coe_le_coe_iff] at hle
      have := tangent_sub (f := f) g1 t
      nlinarith [hs j (by omega)]
  rcases le_total i j with h | h
  · exact right j hj h
  · exact left (i - j) j hj (by omega)

/-! ## Evaluating the hulls -/

theorem evalUpper_spec (hf : ConcaveDiff f df (supp lb ub)) (hH : H.Ok f df (supp lb ub)) {y : List EReal} (hy : BreaksOk H f df lb ub y)
    {v : ℝ} (hv : v ∈ suppC lb ub) : ∃ u, evalUpper H.x H.fx H.dfx y v = .ok u ∧ IsUpperHull f df H.x v u := by
  classical
  have hlen := hy.len
  have hn : 0 < H.x.length := List.length_pos_iff.2 hH.ne
  unfold evalUpper
  obtain ⟨s1, s2, s3⟩ := searchLeft_spec (hy.sorted hf hH) (v : EReal)
  simp only
  set k := searchLeft y (v : EReal) with hk
  have k1 : 1 ≤ k := by
    by_contra h
    have := s3 0 (by omega) (by omega)
    rw [hy.first] at this
    exact absurd hv.1 (not_lt.2 this)
  have k2 : k ≤ H.x.length := by
    by_contra h
    have := s2 H.x.length (by omega) (by omega)
    rw [hy.last] at this
    exact absurd hv.2 (not_le.2 this)
  obtain ⟨i, hi⟩ : ∃ i, k = i + 1 := ⟨k - 1, by omega⟩
  have e : (k : ℤ) - 1 = (i : ℤ) := by rw [hi]; push_cast; ring
  simp only [e]
  rw [pyGet_nat (by rw [hH.fx, List.length_map]; omega), pyGet_nat (by omega), pyGet_nat (by rw [hH.dfx, List.length_map]; omega)]
  simp only [hH.fx, hH.dfx, List.getElem_map]
  exact ⟨_, rfl, tangent_least hf hH hy (by omega) (by omega) (s2 i (by omega) (by omega)).le (s3 (i + 1) (by omega) (by omega))⟩

theorem evalLower_spec {S : Set ℝ} (hf : ConcaveOn ℝ S f) (hH : H.Ok f df S) (v : ℝ) :
    ∃ lo, evalLower H.x H.fx v = .ok lo ∧
      (lo = none ↔ (∀ a ∈ H.x, v ≤ a) ∨ ∀ a ∈ H.x, a < v) ∧
      ∀ l, lo = some l → l ≤ f v ∧ ∃ (i : ℕ) (h : i + 1 < H.x.length), H.x[i] < v ∧ v ≤ H.x[i + 1] ∧
        l = ((H.x[i + 1] - v) * f H.x[i] + (v - H.x[i]) * f H.x[i + 1]) / (H.x[i + 1] - H.x[i]) := by
  classical
  have hn : 0 < H.x.length := List.length_pos_iff.2 hH.ne
  unfold evalLower
  obtain ⟨s1, s2, s3⟩ := searchLeft_spec (hH.inc.imp le_of_lt) v
  simp only
  set k := searchLeft H.x v with hk
  rcases Nat.eq_zero_or_pos k with h0 | h0
  · rw [h0, if_pos (by left; simp)]
    refine ⟨none, rfl, ?_, by simp⟩
    simp only [true_iff]
    left
    intro a ha
    obtain ⟨j, hj, rfl⟩ := List.mem_iff_getElem.1 ha
    exact s3 j hj (by omega)
  · obtain ⟨i, hi⟩ : ∃ i, k = i + 1 := ⟨k - 1, by omega⟩
    rw [hi]
    have e : ((i + 1 : ℕ) : ℤ) - 1 = (i : ℤ) := by push_cast; ring
    rw [e]
    by_cases hl : i + 1 = H.x.length
    · rw [if_pos (by right; omega)]
      refine ⟨none, rfl, ?_, by simp⟩
      simp only [true_iff]
      right
      intro a ha
      obtain ⟨j, hj, rfl⟩ := List.mem_iff_getElem.1 ha
      exact s2 j hj (by omega)
    · have hlt : i + 1 < H.x.length := by omega
      rw [if_neg (by omega)]
      have e2 : (i : ℤ) + 1 = ((i + 1 : ℕ) : ℤ) := by push_cast; rfl
      rw [e2, pyGet_nat (by omega), pyGet_nat hlt, pyGet_nat (by rw [hH.fx, List.length_map]; omega),
        pyGet_nat (by rw [hH.fx, List.length_map]; omega)]
      have g1 : H.x[i] < v := s2 i (by omega) (by omega)
      have g2 : v ≤ H.x[i + 1] := s3 (i + 1) hlt (by omega)
      refine ⟨_, rfl, ?_, ?_⟩
      · simp only [reduceCtorEq, false_iff, not_or, not_forall, not_le, not_lt]
        exact ⟨⟨_, List.getElem_mem (by omega), g1⟩, ⟨_, List.getElem_mem hlt, g2⟩⟩
      · rintro l hl'
        simp only [Option.some.injEq] at hl'
        subst hl'
        simp only [hH.fx, List.getElem_map]
        refine ⟨?_, i, hlt, g1, g2, rfl⟩
        have hab : 0 < H.x[i + 1] - H.x[i] := by linarith
        have w1 : 0 ≤ (H.x[i + 1] - v) / (H.x[i + 1] - H.x[i]) := div_nonneg (by linarith) hab.le
        have w2 : 0 ≤ (v - H.x[i]) / (H.x[i + 1] - H.x[i]) := div_nonneg (by linarith) hab.le
        have := hf.2 (hH.mem _ (List.getElem_mem (by omega : i < H.x.length))) (hH.mem _ (List.getElem_mem hlt)) w1 w2
          (by rw [← add_div, div_eq_one_iff_eq hab.ne']; ring)
        have ev : ((H.x[i + 1] - v) / (H.x[i + 1] - H.x[i])) • H.x[i] + ((v - H.x[i]) / (H.x[i + 1] - H.x[i])) • H.x[i + 1] = v := by
          simp only [smul_eq_mul]
          field_simp
          ring
        rw [ev] at this
        refine le_trans (le_of_eq ?_) this
        simp only [smul_eq_mul]
        ring

end

end Ctb
