import Verif.Lemmas.InterpGaps

set_option linter.unusedSectionVars false

/-! # Filling a skeleton with new times, and flipping it -/

namespace Ctb

open Classical

variable {t x newT t' x' vals : List ℝ} {idx : List ℕ} {minX : ℝ} {U H : ℝ} {hitI hit' : Option (List Bool)} {n k : ℕ}

theorem map_filter_range (l : List ℝ) (p : ℝ → Bool) :
    ((List.range l.length).filter fun i => p (l.getD i 0)).map (fun i => l.getD i 0) = l.filter p := by
  induction l using List.reverseRecOn with
  | nil => rfl
  | append_singleton l a ih =>
    rw [List.length_append, List.length_singleton, List.range_succ, List.filter_append, List.map_append, List.filter_append]
    congr 1
    · rw [← ih]
      have : ∀ i ∈ List.range l.length, (l ++ [a]).getD i 0 = l.getD i 0 := by
        intro i hi
        rw [List.mem_range] at hi
        simp [List.getD_eq_getElem?_getD, List.getElem?_append_left hi]
      rw [List.filter_congr (fun i hi => by rw [this i hi])]
      apply List.map_congr_left
      intro i hi
      exact this i (List.mem_of_mem_filter hi)
    · have : (l ++ [a]).getD l.length 0 = a := by simp [List.getD_eq_getElem?_getD]
      rw [List.filter_singleton, List.filter_singleton, this]
      cases p a <;> simp [this]

theorem sorted_ext {l l' : List ℝ} (h : l.Pairwise (· < ·)) (h' : l'.Pairwise (· < ·)) (hm : ∀ r, r ∈ l ↔ r ∈ l') : l = l' := by
  refine List.Perm.eq_of_pairwise (le := (· ≤ ·)) (fun a b _ _ h1 h2 => le_antisymm h1 h2) (h.imp le_of_lt) (h'.imp le_of_lt) ?_
  exact (List.perm_ext_iff_of_nodup (h.imp fun h => h.ne) (h'.imp fun h => h.ne)).2 hm

theorem whereIn_map (hs : t'.Pairwise (· < ·)) (hN : newT.Pairwise (· < ·)) (hm : ∀ r ∈ newT, r ∈ t') :
    (whereIn t' newT).map (fun i => t'.getD i 0) = newT := by
  unfold whereIn
  rw [map_filter_range t' fun r => decide (r ∈ newT)]
  refine sorted_ext (hs.filter _) hN fun r => ?_
  simp only [List.mem_filter, decide_eq_true_eq, and_iff_right_iff_imp]
  exact hm r

theorem whereIn_pairs (hs : t'.Pairwise (· < ·)) (hN : newT.Pairwise (· < ·)) (hm : ∀ r ∈ newT, r ∈ t') (hl : x'.length = t'.length) :
    List.Forall₂ (fun r v => (r, v) ∈ t'.zip x') newT ((whereIn t' newT).map fun i => x'.getD i 0) := by
  conv => rw [← whereIn_map hs hN hm]
  rw [List.forall₂_map_left_iff, List.forall₂_map_right_iff, whereIn_map hs hN hm, List.forall₂_same]
  intro i hi
  simp only [whereIn, List.mem_filter, List.mem_range] at hi
  rw [List.mem_iff_getElem]
  refine ⟨i, by simp [hl, hi.1], ?_⟩
  simp [List.getD_eq_getElem?_getD, hi.1, hl]

/-- What `fill_wiener_outer` returns. -/
theorem fillOuter_out (ht : t.Pairwise (· < ·)) (hx : x.length = t.length) (hN : newT.Pairwise (· < ·))
    (hh : ∀ hs, hitI = some hs → hs.length = t.length - 1)
    (h : (fillOuter n k t x newT minX (some U) (some H) hitI).Out (.ok (t', x', idx, hit'))) :
    idx = whereIn t' newT ∧ t ≠ [] ∧ newT ≠ [] ∧ (∀ s ∈ t, 0 ≤ s) ∧ minX < H ∧ H < U ∧ (∀ v ∈ x, minX ≤ v ∧ v < U) ∧
      (((∀ r ∈ newT, r ∈ t) ∧ t' = t ∧ x' = x ∧ hit' = none) ∨
        ((∃ r ∈ newT, r ∉ t) ∧ (∃ R, GapFill n k t x (newT.filter fun r => decide (r ∉ t)) minX (some U) (some H) hitI t' x' hit' R) ∧
          ∀ r ∈ newT, r ∉ t → ∃ j < t.length - 1, t.getD j 0 < r ∧ r < t.getD (j + 1) 0)) := by
  simp only [fillOuter] at h
  by_cases h0 : t = [] ∨ newT = []
  · rw [if_pos h0] at h; cases h
  rw [if_neg h0, Prog.out_bind_ok] at h
  obtain ⟨_, hA, h⟩ := h
  rw [Prog.out_assert_ok] at hA
  split_ifs at h with hx0
  · cases h
  simp only [Prog.out_bind_ok, Prog.out_assert_ok] at h
  obtain ⟨-, hlow, -, hup, -, hH, ⟨r1, r2, r3, r4⟩, hr, h⟩ := h
  simp only [Prog.out_ret, Except.ok.injEq, Prod.mk.injEq] at h
  obtain ⟨rfl, rfl, rfl, rfl⟩ := h
  rw [not_or] at h0
  refine ⟨rfl, h0.1, h0.2, hA.1, (hH U H rfl rfl).1, (hH U H rfl rfl).2, fun v hv => ⟨hlow v hv, hup U rfl v hv⟩, ?_⟩
  by_cases hp : ∀ r ∈ newT, r ∈ t
  · left
    have : (newT.filter fun r => decide (r ∉ t)) = [] := by
      rw [List.filter_eq_nil_iff]
      intro r hr
      simpa using hp r hr
    rw [this] at hr
    simp only [fillInner, if_pos, Prog.out_ret, Except.ok.injEq, Prod.mk.injEq] at hr
    exact ⟨hp, hr.1, hr.2.1, hr.2.2.2⟩
  · right
    push Not at hp
    obtain ⟨r, hr0, hrt⟩ := hp
    obtain ⟨h1, h2⟩ := fillInner_gaps ht hx (hN.filter _) (fun r hr => by simpa using (List.mem_filter.1 hr).2)
      (List.ne_nil_of_mem (List.mem_filter.2 ⟨hr0, by simpa using hrt⟩)) hh hr
    refine ⟨⟨r, hr0, hrt⟩, h1, ?_⟩
    intro r hr hrt
    exact h2 r (List.mem_filter.2 ⟨hr, by simpa using hrt⟩)

/-- The refinement seen from outside. -/
theorem fillOuter_refines (ht : t.Pairwise (· < ·)) (hx : x.length = t.length) (hN : newT.Pairwise (· < ·))
    (hh : ∀ hs, hitI = some hs → hs.length = t.length - 1)
    (h : (fillOuter n k t x newT minX (some U) (some H) hitI).Out (.ok (t', x', idx, hit'))) :
    Refines t x newT t' x' (idx.map fun i => x'.getD i 0) ∧ ∀ v ∈ x', minX ≤ v ∧ v < U := by
  obtain ⟨rfl, ht0, hN0, -, -, hHU, hb, hc⟩ := fillOuter_out ht hx hN hh h
  rcases hc with ⟨hp, rfl, rfl, rfl⟩ | ⟨hr, ⟨R, hG⟩, hin⟩
  · exact ⟨⟨ht, fun r => ⟨Or.inl, fun h => h.elim id (hp r)⟩, hx, fun p hp => hp, whereIn_pairs ht hN hp hx⟩, hb⟩
  · have hs := hG.times_sorted ht (hN.filter _)
    have hl := hG.same_len ht0
    have hm : ∀ r, r ∈ t' ↔ r ∈ t ∨ r ∈ newT := by
      intro r
      rw [hG.times_mem ht0 (fun r hr => hin r (List.mem_filter.1 hr).1 (by simpa using (List.mem_filter.1 hr).2))]
      simp only [List.mem_filter, decide_eq_true_eq]
      tauto
    refine ⟨⟨hs, hm, hl, fun p hp => hG.old_pairs ht0 hx hp, whereIn_pairs hs hN (fun r hr => (hm r).2 (Or.inr hr)) hl⟩, ?_⟩
    intro v hv
    exact ⟨hG.low hx (fun v hv => (hb v hv).1) ht0 v hv, hG.up hx rfl rfl hHU (fun v hv => (hb v hv).2) ht0 v hv⟩

end Ctb
