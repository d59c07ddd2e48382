import Verif.Lemmas.Interp

set_option linter.unusedSectionVars false

/-! # What the gap-by-gap form of a filled skeleton says -/

namespace Ctb

open Classical

section Chain

variable {α β : Type}

/-- First node, then for every gap its inner points and its right node. -/
def chainOf (τ : ℕ → α) (N : ℕ → List α) (G : ℕ) : List α := τ 0 :: (List.range G).flatMap fun j : ℕ => N j ++ [τ (j + 1)]

theorem chainOf_succ (τ : ℕ → α) (N : ℕ → List α) (G : ℕ) : chainOf τ N (G + 1) = chainOf τ N G ++ (N G ++ [τ (G + 1)]) := by
  simp [chainOf, List.range_succ]

theorem chainOf_last (τ : ℕ → α) (N : ℕ → List α) (G : ℕ) : ∃ l, chainOf τ N G = l ++ [τ G] := by
  cases G with
  | zero => exact ⟨[], rfl⟩
  | succ G => exact ⟨chainOf τ N G ++ N G, by rw [chainOf_succ, List.append_assoc]⟩

theorem mem_chainOf {τ : ℕ → α} {N : ℕ → List α} {G : ℕ} {a : α} :
    a ∈ chainOf τ N G ↔ (∃ j ≤ G, a = τ j) ∨ ∃ j < G, a ∈ N j := by
  induction G with
  | zero => simp [chainOf]
  | succ G ih =>
    rw [chainOf_succ, List.mem_append, ih, List.mem_append, List.mem_singleton]
    constructor
    · rintro ((⟨j, hj, rfl⟩ | ⟨j, hj, h⟩) | h | rfl)
      · exact Or.inl ⟨j, by omega, rfl⟩
      · exact Or.inr ⟨j, by omega, h⟩
      · exact Or.inr ⟨G, by omega, h⟩
      · exact Or.inl ⟨G + 1, le_rfl, rfl⟩
    · rintro (⟨j, hj, rfl⟩ | ⟨j, hj, h⟩)
      · rcases Nat.lt_or_ge G j with hl | hl
        · obtain rfl : j = G + 1 := by omega
          exact Or.inr (Or.inr rfl)
        · exact Or.inl (Or.inl ⟨j, hl, rfl⟩)
      · rcases Nat.lt_or_ge j G with hl | hl
        · exact Or.inl (Or.inr ⟨j, hl, h⟩)
        · obtain rfl : j = G := by omega
          exact Or.inr (Or.inl h)

theorem pairsOf_chainOf_succ (τ : ℕ → α) (N : ℕ → List α) (G : ℕ) :
    pairsOf (chainOf τ N (G + 1)) = pairsOf (chainOf τ N G) ++ pairsOf (τ G :: N G ++ [τ (G + 1)]) := by
  obtain ⟨l, hl⟩ := chainOf_last τ N G
  rw [chainOf_succ, hl]
  obtain ⟨w, y, hy⟩ : ∃ w y, N G ++ [τ (G + 1)] = w :: y := by
    cases hN : N G with
    | nil => exact ⟨_, _, rfl⟩
    | cons c x1 => exact ⟨_, _, rfl⟩
  rw [List.cons_append, hy, pairsOf_append]
  rfl

theorem zip_chainOf {τ : ℕ → α} {N : ℕ → List α} {ξ : ℕ → β} {M : ℕ → List β} {G : ℕ} (h : ∀ j < G, (N j).length = (M j).length) :
    (chainOf τ N G).zip (chainOf ξ M G) = chainOf (fun j => (τ j, ξ j)) (fun j => (N j).zip (M j)) G ∧
      (chainOf τ N G).length = (chainOf ξ M G).length := by
  induction G with
  | zero => simp [chainOf]
  | succ G ih =>
    obtain ⟨h1, h2⟩ := ih fun j hj => h j (by omega)
    have h3 := h G (by omega)
    rw [chainOf_succ, chainOf_succ, chainOf_succ, List.zip_append h2, List.zip_append h3, h1]
    simp [h2, h3]

theorem chainOf_sorted {τ : ℕ → ℝ} {N : ℕ → List ℝ} {G : ℕ} (hτ : ∀ j < G, τ j < τ (j + 1)) (hN : ∀ j < G, (N j).Pairwise (· < ·))
    (hb : ∀ j < G, ∀ r ∈ N j, τ j < r ∧ r < τ (j + 1)) : (chainOf τ N G).Pairwise (· < ·) ∧ ∀ r ∈ chainOf τ N G, r ≤ τ G := by
  induction G with
  | zero => simp [chainOf]
  | succ G ih =>
    obtain ⟨h1, h2⟩ := ih (fun j hj => hτ j (by omega)) (fun j hj => hN j (by omega)) (fun j hj => hb j (by omega))
    have b := hb G (by omega)
    have c := hτ G (by omega)
    rw [chainOf_succ]
    refine ⟨?_, ?_⟩
    · rw [List.pairwise_append]
      refine ⟨h1, ?_, ?_⟩
      · rw [List.pairwise_append]
        refine ⟨hN G (by omega), by simp, ?_⟩
        intro r hr s hs
        rw [List.mem_singleton] at hs
        rw [hs]
        exact (b r hr).2
      · intro r hr s hs
        have := h2 r hr
        rcases List.mem_append.1 hs with hs | hs
        · exact this.trans_lt (b s hs).1
        · rw [List.mem_singleton] at hs
          rw [hs]
          exact this.trans_lt c
    · intro r hr
      rcases List.mem_append.1 hr with hr | hr
      · exact (h2 r hr).trans c.le
      · rcases List.mem_append.1 hr with hr | hr
        · exact (b r hr).2.le
        · rw [List.mem_singleton] at hr
          exact hr.le

theorem chainOf_self {l : List α} (hl : l ≠ []) (d : α) : chainOf (fun j => l.getD j d) (fun _ => []) (l.length - 1) = l := by
  obtain ⟨G, hG⟩ : ∃ G, l.length = G + 1 := ⟨l.length - 1, by have := List.length_pos_iff.2 hl; omega⟩
  have key : ∀ G, G < l.length → chainOf (fun j => l.getD j d) (fun _ => []) G = l.take (G + 1) := by
    intro G
    induction G with
    | zero =>
      intro h
      cases l with
      | nil => simp at h
      | cons a l => simp [chainOf]
    | succ G ih =>
      intro h
      rw [chainOf_succ, ih (by omega), List.take_add_one (i := G + 1)]
      simp [List.getD_eq_getElem?_getD, h]
  rw [key _ (by omega), List.take_of_length_le (by omega)]

end Chain

variable {t x newT t' x' : List ℝ} {minX : ℝ} {ue hitX : Option ℝ} {hitI hit' : Option (List Bool)} {n k : ℕ}
  {R : ℕ → List ℝ × Option (List Bool)}

theorem getD_sorted (ht : t.Pairwise (· < ·)) {j : ℕ} (hj : j < t.length - 1) : t.getD j 0 < t.getD (j + 1) 0 := by
  have := List.pairwise_iff_getElem.1 ht j (j + 1) (by omega) (by omega) (by omega)
  simpa [List.getD_eq_getElem?_getD, show j < t.length by omega, show j + 1 < t.length by omega] using this

theorem mem_gapTimes {j : ℕ} {r : ℝ} : r ∈ gapTimes t newT j ↔ r ∈ newT ∧ t.getD j 0 < r ∧ r < t.getD (j + 1) 0 := by
  simp [gapTimes]

namespace GapFill

variable (h : GapFill n k t x newT minX ue hitX hitI t' x' hit' R)

include h

theorem time_chain : t' = chainOf (fun j => t.getD j 0) (gapTimes t newT) (t.length - 1) := h.time

theorem value_chain : x' = chainOf (fun j => x.getD j 0) (fun j => (R j).1) (t.length - 1) := h.value

theorem len {j : ℕ} (hj : j < t.length - 1) : (gapTimes t newT j).length = (R j).1.length := by
  by_cases he : gapTimes t newT j = []
  · rw [h.empty j hj he, he]
  · obtain ⟨i, hp, -⟩ := sampleLayerbr_out (h.sample j hj he)
    rw [hp.len, List.length_map]

theorem times_sorted (ht : t.Pairwise (· < ·)) (hN : newT.Pairwise (· < ·)) : t'.Pairwise (· < ·) := by
  rw [h.time_chain]
  refine (chainOf_sorted (τ := fun j => t.getD j 0) (fun j hj => getD_sorted ht hj) (fun j _ => hN.filter _) ?_).1
  intro j _ r hr
  exact (mem_gapTimes.1 hr).2

theorem same_len (ht0 : t ≠ []) : x'.length = t'.length := by
  rw [h.time_chain, h.value_chain]
  exact (zip_chainOf fun j hj => h.len hj).2.symm

theorem pairs : t'.zip x' = chainOf (fun j => (t.getD j 0, x.getD j 0)) (fun j => (gapTimes t newT j).zip (R j).1) (t.length - 1) := by
  rw [h.time_chain, h.value_chain]
  exact (zip_chainOf fun j hj => h.len hj).1

theorem old_pairs (ht0 : t ≠ []) (hx : x.length = t.length) {p : ℝ × ℝ} (hp : p ∈ t.zip x) : p ∈ t'.zip x' := by
  rw [h.pairs, mem_chainOf]
  left
  obtain ⟨i, hi, rfl⟩ := List.mem_iff_getElem.1 hp
  rw [List.length_zip, hx, min_self] at hi
  refine ⟨i, by omega, ?_⟩
  simp [List.getD_eq_getElem?_getD, hi, hx]

theorem low (hx : x.length = t.length) (hxlow : ∀ v ∈ x, minX ≤ v) (ht0 : t ≠ []) : ∀ v ∈ x', minX ≤ v := by
  intro v hv
  rw [h.value_chain, mem_chainOf] at hv
  rcases hv with ⟨j, hj, rfl⟩ | ⟨j, hj, hv⟩
  · apply hxlow
    have : 0 < t.length := List.length_pos_iff.2 ht0
    rw [List.getD_eq_getElem _ _ (by omega)]
    exact List.getElem_mem _
  · by_cases he : gapTimes t newT j = []
    · rw [h.empty j hj he] at hv
      simp at hv
    · obtain ⟨i, hp, -⟩ := sampleLayerbr_out (h.sample j hj he)
      exact hp.low v hv

theorem up (hx : x.length = t.length) {U H : ℝ} (hU : ue = some U) (hH : hitX = some H) (hHU : H < U) (hxup : ∀ v ∈ x, v < U) (ht0 : t ≠ []) :
    ∀ v ∈ x', v < U := by
  intro v hv
  rw [h.value_chain, mem_chainOf] at hv
  rcases hv with ⟨j, hj, rfl⟩ | ⟨j, hj, hv⟩
  · apply hxup
    have : 0 < t.length := List.length_pos_iff.2 ht0
    rw [List.getD_eq_getElem _ _ (by omega)]
    exact List.getElem_mem _
  · by_cases he : gapTimes t newT j = []
    · rw [h.empty j hj he] at hv
      simp at hv
    · obtain ⟨i, hp, -⟩ := sampleLayerbr_out (h.sample j hj he)
      subst hU hH
      rcases hitI with _ | hs
      · exact hp.up U rfl v hv
      · by_cases hf : hs.getD j false = true
        · exact hp.up U (by simp only [gapUe]; rw [if_pos hf]) v hv
        · exact (hp.up H (by simp only [gapUe]; rw [if_neg hf]) v hv).trans hHU

theorem times_mem (ht0 : t ≠ []) (hin : ∀ r ∈ newT, ∃ j < t.length - 1, t.getD j 0 < r ∧ r < t.getD (j + 1) 0) (r : ℝ) :
    r ∈ t' ↔ r ∈ t ∨ r ∈ newT := by
  have h0 : 0 < t.length := List.length_pos_iff.2 ht0
  rw [h.time_chain, mem_chainOf]
  constructor
  · rintro (⟨j, hj, rfl⟩ | ⟨j, hj, hr⟩)
    · left
      rw [List.getD_eq_getElem _ _ (by omega)]
      exact List.getElem_mem _
    · exact Or.inr (mem_gapTimes.1 hr).1
  · rintro (hr | hr)
    · left
      obtain ⟨j, hj, rfl⟩ := List.mem_iff_getElem.1 hr
      exact ⟨j, by omega, by simp [List.getD_eq_getElem?_getD, hj]⟩
    · right
      obtain ⟨j, hj, h2⟩ := hin r hr
      exact ⟨j, hj, mem_gapTimes.2 ⟨hr, h2⟩⟩

omit h in
theorem flags_forall₂ {P : Bool → ℝ × ℝ → Prop} {ξ : ℕ → ℝ} {N : ℕ → List ℝ} {F : ℕ → List Bool} {G : ℕ}
    (hP : ∀ j < G, List.Forall₂ P (F j) (pairsOf (ξ j :: N j ++ [ξ (j + 1)]))) :
    List.Forall₂ P ((List.range G).flatMap F) (pairsOf (chainOf ξ N G)) := by
  induction G with
  | zero => exact List.Forall₂.nil
  | succ G ih =>
    rw [List.range_succ, List.flatMap_append, pairsOf_chainOf_succ]
    refine List.rel_append (ih fun j hj => hP j (by omega)) ?_
    simpa using hP G (by omega)

/-- A gap without hit stays without hit. -/
theorem no_hit {hs : List Bool} (hI : hitI = some hs) {j : ℕ} (hj : j < t.length - 1) (hf : hs.getD j false = false) :
    gapFlags (gapTimes t newT j).length (hs.getD j false) (R j).2 = List.replicate ((gapTimes t newT j).length + 1) false := by
  have : (R j).2 = none := by
    by_cases he : gapTimes t newT j = []
    · rw [h.empty j hj he]
    · subst hI
      obtain ⟨i, -, h2, -⟩ := sampleLayerbr_out (h.sample j hj he)
      exact h2 (by simp only [gapHit]; rw [hf]; simp)
  rw [this, hf]
  rfl

/-- A gap with hit: either nothing was inserted or the sampler has put at least one flag. -/
theorem with_hit {hs : List Bool} {H : ℝ} (hI : hitI = some hs) (hH : hitX = some H) {j : ℕ} (hj : j < t.length - 1)
    (hf : hs.getD j false = true) :
    true ∈ gapFlags (gapTimes t newT j).length (hs.getD j false) (R j).2 ∧
      (gapTimes t newT j ≠ [] → List.Forall₂ (BelowUnlessHit H) (gapFlags (gapTimes t newT j).length (hs.getD j false) (R j).2)
        (pairsOf (x.getD j 0 :: (R j).1 ++ [x.getD (j + 1) 0]))) ∧
      (gapFlags (gapTimes t newT j).length (hs.getD j false) (R j).2).length = (gapTimes t newT j).length + 1 := by
  by_cases he : gapTimes t newT j = []
  · refine ⟨?_, fun hn => absurd he hn, ?_⟩
    · rw [h.empty j hj he, hf]
      simp [gapFlags]
    · rw [h.empty j hj he, hf]
      simp [gapFlags]
  · subst hI hH
    obtain ⟨i, hp, -, h3⟩ := sampleLayerbr_out (h.sample j hj he)
    have hg : gapHit (some H) (some hs) j = some H := by simp only [gapHit]; rw [if_pos hf]
    obtain ⟨e, h4⟩ := h3 (by simp [hg])
    rw [e]
    refine ⟨h4, fun _ => hp.hit H hg, ?_⟩
    have := (hp.hit H hg).length_eq
    rw [pairsOf_length] at this
    simp only [gapFlags]
    rw [this]
    simp [hp.len]

theorem flags_len {hs hs' : List Bool} {H : ℝ} (hI : hitI = some hs) (hH : hitX = some H) (hI' : hit' = some hs') :
    hs'.length = t'.length - 1 := by
  have h1 : hs' = (List.range (t.length - 1)).flatMap fun j : ℕ => gapFlags (gapTimes t newT j).length (hs.getD j false) (R j).2 := by
    have := h.flag
    rw [hI, hI'] at this
    simpa using this
  have : List.Forall₂ (fun _ _ => True) hs' (pairsOf t') := by
    rw [h1, h.time_chain]
    apply flags_forall₂
    intro j hj
    rw [List.forall₂_iff_get]
    refine ⟨?_, fun _ _ _ => trivial⟩
    rw [pairsOf_length]
    by_cases hf : hs.getD j false = true
    · rw [(h.with_hit hI hH hj hf).2.2]
      simp
    · rw [h.no_hit hI hj (by simpa using hf)]
      simp
  rw [this.length_eq, pairsOf_length]

theorem flags_below {hs hs' : List Bool} {H : ℝ} (hI : hitI = some hs) (hH : hitX = some H) (hI' : hit' = some hs') (hx : x.length = t.length)
    (ht0 : t ≠ []) (hold : List.Forall₂ (BelowUnlessHit H) hs (pairsOf x)) : List.Forall₂ (BelowUnlessHit H) hs' (pairsOf x') := by
  have h1 : hs' = (List.range (t.length - 1)).flatMap fun j : ℕ => gapFlags (gapTimes t newT j).length (hs.getD j false) (R j).2 := by
    have := h.flag
    rw [hI, hI'] at this
    simpa using this
  rw [h1, h.value_chain]
  apply flags_forall₂
  intro j hj
  have hx0 : x ≠ [] := by rw [← List.length_pos_iff, hx]; exact List.length_pos_iff.2 ht0
  have hpair : BelowUnlessHit H (hs.getD j false) (x.getD j 0, x.getD (j + 1) 0) := by
    have hl := hold.length_eq
    rw [pairsOf_length, hx] at hl
    have hg := (List.forall₂_iff_get.1 hold).2 j (by omega) (by rw [pairsOf_length]; omega)
    have e2 : (pairsOf x)[j]'(by rw [pairsOf_length]; omega) = (x.getD j 0, x.getD (j + 1) 0) := by
      have : ∀ (l : List ℝ) (j : ℕ) (hj : j < (pairsOf l).length), (pairsOf l)[j] = (l.getD j 0, l.getD (j + 1) 0) := by
        intro l
        induction l with
        | nil => intro j hj; simp [pairsOf] at hj
        | cons a l ih =>
          cases l with
          | nil => intro j hj; simp [pairsOf] at hj
          | cons b l =>
            intro j hj
            cases j with
            | zero => simp [pairsOf]
            | succ j =>
              simp only [pairsOf, List.getElem_cons_succ]
              rw [ih]
              simp
      exact this _ _ _
    have e1 : hs.getD j false = hs[j]'(by omega) := by simp [List.getD_eq_getElem?_getD, show j < hs.length by omega]
    rw [e1, ← e2]
    exact hg
  by_cases he : gapTimes t newT j = []
  · rw [h.empty j hj he, he]
    simp only [gapFlags, List.length_nil, zero_add, List.replicate_one, List.cons_append, List.nil_append, pairsOf]
    exact List.Forall₂.cons hpair List.Forall₂.nil
  · by_cases hf : hs.getD j false = true
    · exact (h.with_hit hI hH hj hf).2.1 he
    · rw [h.no_hit hI hj (by simpa using hf)]
      have hs0 := h.sample j hj he
      obtain ⟨i, hp, -, -⟩ := sampleLayerbr_out hs0
      have hg : gapUe ue hitX hitI j = some H := by rw [hI]; simp only [gapUe]; rw [if_neg hf, hH]
      have hb := hpair (by simpa using hf)
      rw [List.forall₂_iff_get]
      refine ⟨by rw [pairsOf_length]; simp [h.len hj], ?_⟩
      intro i h1 h2 _
      have hm := mem_pairsOf (List.getElem_mem h2)
      have hall : ∀ v ∈ x.getD j 0 :: (R j).1 ++ [x.getD (j + 1) 0], v < H := by
        intro v hv
        simp only [List.cons_append, List.mem_cons, List.mem_append, List.not_mem_nil, or_false] at hv
        rcases hv with rfl | hv | rfl
        · exact hb.1
        · exact hp.up H hg v hv
        · exact hb.2
      exact ⟨hall _ hm.1, hall _ hm.2⟩

end GapFill

end Ctb
