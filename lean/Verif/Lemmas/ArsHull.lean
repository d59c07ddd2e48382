import Verif.Lemmas.ArsDraw
import Verif.Lemmas.Bfactories
import Mathlib.Data.List.InsertIdx

set_option linter.unusedSectionVars false

/-! # Hulls of adaptive rejection sampling along a run -/

namespace Ctb

open Set MeasureTheory

/-! ## Insertion -/

theorem searchLeft_cons {K : Type} [LinearOrder K] [DecidableLT K] (a : K) (l : List K) (v : K) :
    searchLeft (a :: l) v = if a < v then searchLeft l v + 1 else 0 := by
  unfold searchLeft
  by_cases h : a < v <;> simp [h]

theorem insert_pairwise {K : Type} [LinearOrder K] [DecidableLT K] {R : K → K → Prop} (hR : ∀ a b c, R a b → R b c → R a c)
    {l : List K} (hl : l.Pairwise R) {v : K} (h1 : ∀ a ∈ l, a < v → R a v) (h2 : ∀ a ∈ l, ¬ a < v → R v a) :
    (l.insertIdx (searchLeft l v) v).Pairwise R := by
  induction l with
  | nil => simp [searchLeft]
  | cons a l ih =>
    rw [searchLeft_cons]
    rw [List.pairwise_cons] at hl
    split_ifs with h
    · rw [List.insertIdx_succ_cons, List.pairwise_cons]
      refine ⟨?_, ih hl.2 (fun b hb => h1 b (by simp [hb])) (fun b hb => h2 b (by simp [hb]))⟩
      intro b hb
      rcases List.eq_or_mem_of_mem_insertIdx hb with rfl | hb
      · exact h1 a (by simp) h
      · exact hl.1 b hb
    · rw [List.insertIdx_zero, List.pairwise_cons, List.pairwise_cons]
      refine ⟨?_, hl⟩
      intro b hb
      rcases List.mem_cons.1 hb with rfl | hb
      · exact h2 b (by simp) h
      · exact hR _ _ _ (h2 a (by simp) h) (hl.1 b hb)

theorem insert_length {K : Type} [LinearOrder K] [DecidableLT K] (l : List K) (v : K) :
    searchLeft l v ≤ l.length := by
  unfold searchLeft; exact List.Sublist.length_le (List.takeWhile_sublist _)

theorem mem_insert {K : Type} [LinearOrder K] [DecidableLT K] {l : List K} {v a : K} :
    a ∈ l.insertIdx (searchLeft l v) v ↔ a = v ∨ a ∈ l := by
  rw [List.mem_insertIdx (insert_length l v)]

/-! ## Hulls on which the sampler works -/

variable {f df : ℝ → ℝ} {H : Hull} {lb ub : EReal}

theorem StrictDiff.concave {S : Set ℝ} (h : StrictDiff f df S) : ConcaveDiff f df S := ⟨h.conc.concaveOn, h.der⟩

theorem Hull.Good.breaks (hf : StrictDiff f df (supp lb ub)) (hH : H.Good f df lb ub) :
    ∃ y, hullBreaks lb ub H.x H.fx H.dfx = .ok y := by
  obtain ⟨c, hc⟩ := genUpper_total hH.ok fun a ha b hb hab => df_strict hf.conc hf.der ha hb hab
  exact ⟨_, by simp only [hullBreaks, hc, Except.bind]; rfl⟩

theorem Hull.Good.total (hf : StrictDiff f df (supp lb ub)) (hH : H.Good f df lb ub) {y : List EReal}
    (hy : hullBreaks lb ub H.x H.fx H.dfx = .ok y) :
    ∃ off hi lo, envOffset (hullRows H.x H.fx H.dfx) y = .ok off ∧
      listOk (((hullRows H.x H.fx H.dfx).zip y.tail).map fun q => envVol off q.1.1 q.1.2.1 q.1.2.2 q.2) = .ok hi ∧
      listOk (((hullRows H.x H.fx H.dfx).zip y.dropLast).map fun q => envVol off q.1.1 q.1.2.1 q.1.2.2 q.2) = .ok lo := by
  have hi := List.pairwise_iff_getElem.1 hH.ok.inc
  refine envelope_total hH.ok (hullBreaks_ok hH.ok hy) hH.slope ?_ ?_ hH.two
  · intro h
    obtain ⟨a, ha, hp⟩ := hH.left h
    obtain ⟨k, hk, rfl⟩ := List.getElem_of_mem ha
    rw [List.head_eq_getElem]
    rcases Nat.eq_zero_or_pos k with rfl | h0
    · exact hp
    · exact hp.trans (df_strict hf.conc hf.der (hH.ok.mem _ (List.getElem_mem _)) (hH.ok.mem _ (List.getElem_mem _))
        (hi 0 k (by omega) hk h0))
  · intro h
    obtain ⟨a, ha, hp⟩ := hH.right h
    obtain ⟨k, hk, rfl⟩ := List.getElem_of_mem ha
    rw [List.getLast_eq_getElem]
    by_cases h0 : k = H.x.length - 1
    · simp only [← h0]; exact hp
    · exact (df_strict hf.conc hf.der (hH.ok.mem _ (List.getElem_mem _)) (hH.ok.mem _ (List.getElem_mem _))
        (hi k (H.x.length - 1) hk (by omega) (by omega))).trans hp

theorem Hull.insert_ok {S : Set ℝ} (hH : H.Ok f df S) {v : ℝ} (hv : v ∈ S) (hn : v ∉ H.x) : (H.insert v (f v) (df v)).Ok f df S := by
  classical
  have hlen : searchLeft H.x v ≤ H.x.length := insert_length _ _
  refine ⟨?_, ?_, ?_, ?_, ?_⟩
  · exact List.ne_nil_of_mem (mem_insert.2 (.inl rfl))
  · refine insert_pairwise (R := (· < ·)) (fun a b c => lt_trans) hH.inc (fun a _ h => h) fun a ha h => ?_
    exact lt_of_le_of_ne (not_lt.1 h) fun e => hn (e ▸ ha)
  · intro a ha
    rcases mem_insert.1 ha with rfl | ha
    · exact hv
    · exact hH.mem a ha
  · simp only [Hull.insert, hH.fx, List.map_insertIdx]
  · simp only [Hull.insert, hH.dfx, List.map_insertIdx]

theorem Hull.mem_insert_x {v fv dv a : ℝ} : a ∈ (H.insert v fv dv).x ↔ a = v ∨ a ∈ H.x := by
  classical
  unfold Hull.insert; exact mem_insert

theorem Hull.insert_len {v fv dv : ℝ} : (H.insert v fv dv).x.length = H.x.length + 1 := by
  classical
  unfold Hull.insert; simp only [List.length_insertIdx]; rw [if_pos (insert_length _ _)]

theorem Hull.insert_good (hH : H.Good f df lb ub) {v : ℝ} (hv : v ∈ supp lb ub) (hn : v ∉ H.x) (hd : df v ≠ 0) :
    (H.insert v (f v) (df v)).Good f df lb ub := by
  refine ⟨Hull.insert_ok hH.ok hv hn, ?_, ?_, ?_, ?_⟩
  · intro a ha
    rcases Hull.mem_insert_x.1 ha with rfl | ha
    · exact hd
    · exact hH.slope a ha
  · intro h; obtain ⟨a, ha, hp⟩ := hH.left h; exact ⟨a, Hull.mem_insert_x.2 (.inr ha), hp⟩
  · intro h; obtain ⟨a, ha, hp⟩ := hH.right h; exact ⟨a, Hull.mem_insert_x.2 (.inr ha), hp⟩
  · rw [Hull.insert_len]
    rcases hH.two with h | h
    · left; omega
    · exact .inr h

/-! ## The upper hull as a function -/

/-- The upper hull. -/
noncomputable def hullFn (f df : ℝ → ℝ) (x : List ℝ) (hx : x ≠ []) (t : ℝ) : ℝ :=
  x.toFinset.inf' (by rwa [List.toFinset_nonempty_iff]) fun a => tangent f df a t

theorem hullFn_spec (x : List ℝ) (hx : x ≠ []) (t : ℝ) : IsUpperHull f df x t (hullFn f df x hx t) := by
  have hne : x.toFinset.Nonempty := by rwa [List.toFinset_nonempty_iff]
  constructor
  · obtain ⟨a, ha, he⟩ := Finset.exists_mem_eq_inf' hne fun a => tangent f df a t
    exact ⟨a, List.mem_toFinset.1 ha, he⟩
  · rintro w ⟨a, ha, rfl⟩
    exact Finset.inf'_le _ (List.mem_toFinset.2 ha)

theorem hullFn_continuous (x : List ℝ) (hx : x ≠ []) : Continuous (hullFn f df x hx) := by
  unfold hullFn
  refine Continuous.finset_inf'_apply _ fun a _ => ?_
  unfold tangent
  fun_prop

theorem hull_le {S : Set ℝ} (hf : ConcaveDiff f df S) {x : List ℝ} (hx : ∀ a ∈ x, a ∈ S) {t u : ℝ} (ht : t ∈ S)
    (hu : IsUpperHull f df x t u) : f t ≤ u := by
  obtain ⟨⟨a, ha, rfl⟩, -⟩ := hu
  exact le_tangent hf (hx a ha) ht

/-! ## One draw -/

theorem decide_exact (maxPts : ℕ) {S : Set ℝ} (hf : ConcaveOn ℝ S f) (hH : H.Ok f df S) {v : ℝ} (hv : v ∈ S) {lo : Option ℝ}
    (hlo : evalLower H.x H.fx v = .ok lo) (up : ℝ) {u : ℝ} :
    arsDecide f df maxPts H v lo up u = arsDecide f df maxPts H v none up u := by
  classical
  obtain ⟨lo', h1, -, h2⟩ := evalLower_spec hf hH v
  rw [hlo] at h1
  simp only [Except.ok.injEq] at h1
  subst h1
  unfold arsDecide
  by_cases h : ∃ l, lo = some l ∧ npLogLt u (l - up)
  · rw [if_pos h]
    obtain ⟨l, hl, hu'⟩ := h
    have : npLogLt u (f v - up) := by
      rcases hu' with h | h
      · exact .inl h
      · exact .inr (h.trans_le (by linarith [(h2 l hl).1]))
    simp [this]
  · rw [if_neg h]; simp

end Ctb
