import Verif.Model.Interp
import Verif.Lemmas.LayerPaths
import Verif.Lemmas.Ars

set_option linter.unusedSectionVars false

/-! # Interpolation, gap by gap -/

namespace Ctb

open Classical

section Lists

variable {α β : Type}

theorem select_map_left (f : α → β) (l : List α) (m : List Bool) : select (l.map f) m = (select l m).map f := by
  induction l generalizing m with
  | nil => cases m <;> rfl
  | cons a l ih =>
    cases m with
    | nil => rfl
    | cons b m => cases b <;> simp [select, ih]

theorem select_filter (p : α → Bool) (l : List α) : select l (l.map p) = l.filter p := by
  induction l with
  | nil => rfl
  | cons a l ih => cases h : p a <;> simp [select, h, ih]

theorem select_append (l l' : List α) (m m' : List Bool) (h : l.length = m.length) :
    select (l ++ l') (m ++ m') = select l m ++ select l' m' := by
  induction l generalizing m with
  | nil => cases m <;> simp_all [select]
  | cons a l ih =>
    cases m with
    | nil => simp at h
    | cons b m =>
      simp only [List.length_cons, add_left_inj] at h
      cases b <;> simp [select, ih m h]

theorem select_false (l : List α) (n : ℕ) : select l (List.replicate n false) = [] := by
  induction l generalizing n with
  | nil => cases n <;> simp [select, List.replicate_succ]
  | cons a l ih => cases n <;> simp [select, List.replicate_succ, ih]

theorem select_true (l : List α) : select l (List.replicate l.length true) = l := by
  induction l with
  | nil => rfl
  | cons a l ih => simp [select, List.replicate_succ, ih]

/-- A sorted list of positions, block by block. -/
theorem sorted_blocks {idx : List ℕ} (hs : idx.Pairwise (· ≤ ·)) (N : ℕ) (hN : ∀ i ∈ idx, i < N) :
    idx = (List.range N).flatMap fun i : ℕ => List.replicate (idx.count i) i := by
  have hp : ((List.range N).flatMap fun i : ℕ => List.replicate (idx.count i) i).Pairwise (· ≤ ·) := by
    clear hN
    induction N with
    | zero => simp
    | succ N ih =>
      rw [List.range_succ, List.flatMap_append, List.pairwise_append]
      refine ⟨ih, by simp [List.pairwise_replicate], ?_⟩
      intro a ha b hb
      simp only [List.mem_flatMap, List.mem_range, List.mem_replicate] at ha hb
      obtain ⟨i, hi, -, rfl⟩ := ha
      simp at hb
      omega
  refine List.Perm.eq_of_pairwise (le := (· ≤ ·)) (fun a b _ _ h1 h2 => le_antisymm h1 h2) hs hp ?_
  rw [List.perm_iff_count]
  intro a
  rw [List.count_flatMap]
  by_cases ha : a ∈ idx
  · have := hN a ha
    have h2 : (List.map (List.count a ∘ fun i => List.replicate (List.count i idx) i) (List.range N)) =
        (List.range N).map fun i => if i = a then List.count a idx else 0 := by
      apply List.map_congr_left
      intro i _
      by_cases h : i = a
      · subst h; simp
      · simp [List.count_replicate, h]
    have h3 : ∀ M c : ℕ, ((List.range M).map fun i => if i = a then c else 0).sum = if a < M then c else 0 := by
      intro M c
      induction M with
      | zero => simp
      | succ M ih =>
        rw [List.range_succ, List.map_append, List.sum_append, ih]
        rcases lt_trichotomy a M with h | h | h
        · simp [h, h.ne', h.trans (Nat.lt_succ_self M)]
        · simp [h]
        · simp [not_lt.2 h.le, h.ne, not_lt.2 (Nat.succ_le_of_lt h)]
    rw [h2, h3, if_pos this]
  · rw [List.count_eq_zero_of_not_mem ha]
    symm
    rw [List.sum_eq_zero_iff]
    simp only [List.mem_map, List.mem_range, Function.comp]
    rintro n ⟨i, -, rfl⟩
    rw [List.count_replicate]
    split_ifs with h
    · simp only [beq_iff_eq] at h
      subst h
      exact List.count_eq_zero_of_not_mem ha
    · rfl

theorem select_blocks_aux (ys : ℕ → List α) (j M : ℕ) :
    select ((List.range M).flatMap ys) (((List.range M).flatMap fun i : ℕ => List.replicate (ys i).length i).map fun i => decide (i = j)) =
      if j < M then ys j else [] := by
  induction M with
  | zero => rfl
  | succ M ih =>
    rw [List.range_succ, List.flatMap_append, List.flatMap_append, List.map_append, select_append, ih]
    · simp only [List.flatMap_cons, List.flatMap_nil, List.append_nil, List.map_replicate]
      rcases lt_trichotomy j M with h | h | h
      · have : decide (M = j) = false := by simp; omega
        rw [this, select_false, if_pos h, if_pos (by omega), List.append_nil]
      · subst h
        simp [select_true]
      · have : decide (M = j) = false := by simp; omega
        rw [this, select_false, if_neg (by omega), if_neg (by omega), List.append_nil]
    · simp [List.length_flatMap, Function.comp_def]

/-- Values listed block by block are recovered from their positions. -/
theorem select_blocks {idx : List ℕ} (hs : idx.Pairwise (· ≤ ·)) {N : ℕ} (hN : ∀ i ∈ idx, i < N) {ys : ℕ → List α}
    (hy : ∀ i, (ys i).length = idx.count i) {j : ℕ} (hj : j < N) :
    select ((List.range N).flatMap ys) (idx.map fun i => decide (i = j)) = ys j := by
  have := select_blocks_aux ys j N
  rw [if_pos hj] at this
  conv_lhs => rw [sorted_blocks hs N hN]
  simp only [← hy]
  exact this

theorem forall₂_nodup {R : ℕ → β → Prop} {l : List ℕ} (hl : l.Nodup) {l' : List β} (h : List.Forall₂ R l l') (d : β) :
    ∃ f : ℕ → β, l' = l.map f ∧ (∀ i ∈ l, R i (f i)) ∧ ∀ i, i ∉ l → f i = d := by
  induction h with
  | nil => exact ⟨fun _ => d, rfl, by simp, fun _ _ => rfl⟩
  | @cons a b l l' hR _ ih =>
    rw [List.nodup_cons] at hl
    obtain ⟨f, rfl, hf, hd⟩ := ih hl.2
    refine ⟨Function.update f a b, ?_, ?_, ?_⟩
    · rw [List.map_cons, Function.update_self]
      congr 1
      apply List.map_congr_left
      intro i hi
      rw [Function.update_of_ne]
      rintro rfl
      exact hl.1 hi
    · intro i hi
      rcases List.mem_cons.1 hi with rfl | hi'
      · rwa [Function.update_self]
      · rw [Function.update_of_ne]
        · exact hf i hi'
        · rintro rfl
          exact hl.1 hi'
    · intro i hi
      rw [List.mem_cons, not_or] at hi
      rw [Function.update_of_ne hi.1]
      exact hd i hi.2

theorem find_map_pair (l : List ℕ) (f : ℕ → β) (i : ℕ) :
    (l.map fun j => (j, f j)).find? (fun r => decide (r.1 = i)) = if i ∈ l then some (i, f i) else none := by
  induction l with
  | nil => rfl
  | cons a l ih =>
    by_cases h : a = i
    · subst h; simp
    · simp only [List.map_cons, List.find?_cons, decide_eq_false h, ih, List.mem_cons]
      simp [Ne.symm h]

end Lists

/-- What becomes of the flag of a gap that gets `k` new times. -/
def gapFlags (k : ℕ) (h : Bool) : Option (List Bool) → List Bool
  | none => List.replicate (k + 1) h
  | some a => a

/-- Upper edge and hitting level used in gap `j`. -/
def gapUe (ue hitX : Option ℝ) (hitI : Option (List Bool)) (j : ℕ) : Option ℝ :=
  match hitI with
  | none => ue
  | some hs => if hs.getD j false then ue else hitX

/-- See `gapUe`. -/
def gapHit (hitX : Option ℝ) (hitI : Option (List Bool)) (j : ℕ) : Option ℝ :=
  match hitI with
  | none => none
  | some hs => if hs.getD j false then hitX else none

/-- New times in gap `j`. -/
noncomputable def gapTimes (t newT : List ℝ) (j : ℕ) : List ℝ := newT.filter fun r => decide (t.getD j 0 < r ∧ r < t.getD (j + 1) 0)

variable {t x newT t' x' : List ℝ} {idx : List ℕ} {minX : ℝ} {ue hitX : Option ℝ} {hitI hit' : Option (List Bool)} {n k : ℕ}

/-- The filled skeleton, gap by gap. -/
structure GapFill (n k : ℕ) (t x newT : List ℝ) (minX : ℝ) (ue hitX : Option ℝ) (hitI : Option (List Bool)) (t' x' : List ℝ)
    (hit' : Option (List Bool)) (R : ℕ → List ℝ × Option (List Bool)) : Prop where
  empty : ∀ j < t.length - 1, gapTimes t newT j = [] → R j = ([], none)
  sample : ∀ j < t.length - 1, gapTimes t newT j ≠ [] →
    (sampleLayerbr n k ((gapTimes t newT j).map (· - t.getD j 0)) (t.getD (j + 1) 0 - t.getD j 0) (x.getD j 0) (x.getD (j + 1) 0) minX
      (gapUe ue hitX hitI j) (gapHit hitX hitI j)).Out (.ok (R j))
  time : t' = t.getD 0 0 :: (List.range (t.length - 1)).flatMap fun j : ℕ => gapTimes t newT j ++ [t.getD (j + 1) 0]
  value : x' = x.getD 0 0 :: (List.range (t.length - 1)).flatMap fun j : ℕ => (R j).1 ++ [x.getD (j + 1) 0]
  flag : hit' = hitI.map fun hs => (List.range (t.length - 1)).flatMap fun j : ℕ =>
    gapFlags (gapTimes t newT j).length (hs.getD j false) (R j).2

theorem searchLeft_gap (ht : t.Pairwise (· < ·)) {r : ℝ} (hr : r ∉ t) (h0 : ∃ s ∈ t, s < r) (h1 : ∃ s ∈ t, r < s) :
    1 ≤ searchLeft t r ∧ searchLeft t r < t.length ∧ ∀ j, j < t.length - 1 →
      (searchLeft t r = j + 1 ↔ t.getD j 0 < r ∧ r < t.getD (j + 1) 0) := by
  obtain ⟨s1, s2, s3⟩ := searchLeft_spec (ht.imp le_of_lt) r
  have hg : ∀ (i : ℕ) (hi : i < t.length), t.getD i 0 = t[i] := fun i hi => by simp [List.getD_eq_getElem?_getD, hi]
  have e1 : 1 ≤ searchLeft t r := by
    obtain ⟨s, hs, hsr⟩ := h0
    obtain ⟨i, hi, rfl⟩ := List.mem_iff_getElem.1 hs
    by_contra hc
    exact absurd hsr (not_lt.2 (s3 i hi (by omega)))
  have e2 : searchLeft t r < t.length := by
    obtain ⟨s, hs, hsr⟩ := h1
    obtain ⟨i, hi, rfl⟩ := List.mem_iff_getElem.1 hs
    by_contra hc
    exact absurd hsr (not_lt.2 (s2 i hi (by omega)).le)
  refine ⟨e1, e2, fun j hj => ?_⟩
  rw [hg j (by omega), hg (j + 1) (by omega)]
  constructor
  · intro h
    refine ⟨s2 j (by omega) (by omega), ?_⟩
    refine lt_of_le_of_ne (s3 (j + 1) (by omega) (by omega)) ?_
    intro he
    exact hr (he ▸ List.getElem_mem _)
  · rintro ⟨h1, h2⟩
    have a1 : ¬ searchLeft t r ≤ j := fun h => absurd h1 (not_lt.2 (s3 j (by omega) h))
    have a2 : ¬ j + 1 < searchLeft t r := fun h => absurd h2 (not_lt.2 (s2 (j + 1) (by omega) h).le)
    omega

theorem searchLeft_mono (ht : t.Pairwise (· < ·)) {r r' : ℝ} (h : r ≤ r') : searchLeft t r ≤ searchLeft t r' := by
  obtain ⟨s1, s2, s3⟩ := searchLeft_spec (ht.imp le_of_lt) r
  obtain ⟨u1, u2, u3⟩ := searchLeft_spec (ht.imp le_of_lt) r'
  by_contra hc
  have := s2 (searchLeft t r') (by omega) (by omega)
  have := u3 (searchLeft t r') (by omega) le_rfl
  linarith

theorem range_shift {α : Type} (f : ℕ → List α) (G : ℕ) (h0 : f 0 = []) :
    (List.range (G + 1)).flatMap f = (List.range G).flatMap fun j : ℕ => f (j + 1) := by
  rw [List.range_succ_eq_map, List.flatMap_cons, h0, List.nil_append, List.flatMap_map]

/-- `np.insert` with positions strictly inside. -/
theorem npInsert_gaps {α : Type} {l : List α} (d : α) {idx : List ℕ} {vals : List α} (hl : l ≠ []) (h : ∀ i ∈ idx, 1 ≤ i ∧ i < l.length) :
    npInsert l idx vals = l.getD 0 d :: (List.range (l.length - 1)).flatMap fun j : ℕ =>
      select vals (idx.map fun i => decide (i = j + 1)) ++ [l.getD (j + 1) d] := by
  obtain ⟨G, hG⟩ : ∃ G, l.length = G + 1 := ⟨l.length - 1, by have := List.length_pos_iff.2 hl; omega⟩
  have hz : ∀ i, i = 0 ∨ i = G + 1 → (idx.map fun j => decide (j = i)) = List.replicate idx.length false := by
    intro i hi
    rw [List.eq_replicate_iff]
    refine ⟨by simp, ?_⟩
    intro b hb
    rw [List.mem_map] at hb
    obtain ⟨j, hj, rfl⟩ := hb
    have := h j hj
    simp
    omega
  unfold npInsert
  rw [hG, List.range_succ, List.flatMap_append, List.flatMap_singleton, hz (G + 1) (Or.inr rfl), select_false,
    List.getElem?_eq_none (by omega)]
  simp only [Option.toList, List.append_nil]
  rw [List.range_succ_eq_map, List.flatMap_cons, hz 0 (Or.inl rfl), select_false, List.flatMap_map]
  have e0 : l[0]? = some (l.getD 0 d) := by
    rw [List.getElem?_eq_getElem (by omega), List.getD_eq_getElem?_getD, List.getElem?_eq_getElem (by omega)]; rfl
  rw [e0]
  simp only [List.nil_append, List.singleton_append, Nat.succ_eq_add_one, Nat.add_sub_cancel]
  congr 1
  rw [List.flatMap_def, List.flatMap_def]
  congr 1
  apply List.map_congr_left
  intro j hj
  rw [List.mem_range] at hj
  have e1 : l[j + 1]? = some (l.getD (j + 1) d) := by
    rw [List.getElem?_eq_getElem (by omega), List.getD_eq_getElem?_getD, List.getElem?_eq_getElem (by omega)]; rfl
  rw [e1]

theorem pyGet_some {α : Type} {l : List α} (d : α) {i : ℕ} (h : i < l.length) : pyGet l (i : ℤ) = some (l.getD i d) := by
  unfold pyGet
  rw [if_pos (by positivity)]
  simp [h, List.getD_eq_getElem?_getD]

theorem fillInner_gaps (ht : t.Pairwise (· < ·)) (hx : x.length = t.length) (hN : newT.Pairwise (· < ·)) (hd : ∀ r ∈ newT, r ∉ t)
    (hne : newT ≠ []) (hh : ∀ hs, hitI = some hs → hs.length = t.length - 1)
    (h : (fillInner n k t x newT minX ue hitX hitI).Out (.ok (t', x', idx, hit'))) :
    (∃ R, GapFill n k t x newT minX ue hitX hitI t' x' hit' R) ∧ ∀ r ∈ newT, ∃ j < t.length - 1, t.getD j 0 < r ∧ r < t.getD (j + 1) 0 := by
  simp only [fillInner] at h
  rw [if_neg hne] at h
  by_cases ht0 : t = []
  · rw [if_pos ht0] at h; cases h
  rw [if_neg ht0, Prog.out_bind_ok] at h
  obtain ⟨_, hA, h⟩ := h
  rw [Prog.out_assert_ok] at hA
  by_cases hx0 : x = []
  · rw [if_pos hx0] at h; cases h
  rw [if_neg hx0] at h
  simp only [Prog.out_bind_ok, Prog.out_assert_ok] at h
  obtain ⟨-, -, -, -, -, -, res, hres, h⟩ := h
  simp only [Prog.out_ret, Except.ok.injEq, Prod.mk.injEq] at h
  obtain ⟨rfl, rfl, -, rfl⟩ := h
  obtain ⟨-, ⟨s0, hs0, hs0'⟩, ⟨s1, hs1, hs1'⟩⟩ := hA
  have hgap := fun r hr => searchLeft_gap ht (hd r hr) ⟨s0, hs0, hs0' r hr⟩ ⟨s1, hs1, hs1' r hr⟩
  set ins := newT.map (searchLeft t) with hins
  have hi : ∀ i ∈ ins, 1 ≤ i ∧ i < t.length := by
    intro i hi
    rw [hins, List.mem_map] at hi
    obtain ⟨r, hr, rfl⟩ := hi
    exact ⟨(hgap r hr).1, (hgap r hr).2.1⟩
  have hsort : ins.Pairwise (· ≤ ·) := by
    rw [hins, List.pairwise_map]
    exact hN.imp fun h => searchLeft_mono ht h.le
  have hfil : ∀ j < t.length - 1, (newT.filter fun r => decide (searchLeft t r = j + 1)) = gapTimes t newT j := by
    intro j hj
    unfold gapTimes
    apply List.filter_congr
    intro r hr
    rw [decide_eq_decide]
    exact (hgap r hr).2.2 j hj
  have hnod : (npUnique t.length ins).Nodup := (List.nodup_range).filter _
  have hmem : ∀ i, i ∈ npUnique t.length ins ↔ i ∈ ins := by
    intro i
    simp only [npUnique, List.mem_filter, List.mem_range, decide_eq_true_eq, and_iff_right_iff_imp]
    intro h
    have := hi i h
    omega
  rw [Prog.out_mapM'_ok] at hres
  obtain ⟨f, rfl, hf, hfd⟩ := forall₂_nodup hnod hres ([], none)
  have hsec : ∀ j < t.length - 1, j + 1 ∈ ins → (sampleLayerbr n k ((gapTimes t newT j).map (· - t.getD j 0)) (t.getD (j + 1) 0 - t.getD j 0)
      (x.getD j 0) (x.getD (j + 1) 0) minX (gapUe ue hitX hitI j) (gapHit hitX hitI j)).Out (.ok (f (j + 1))) := by
    intro j hj hm
    have h1 := hf (j + 1) ((hmem _).2 hm)
    unfold fillSector at h1
    have ec : ((j + 1 : ℕ) : ℤ) - 1 = (j : ℤ) := by push_cast; ring
    have eu : pyGet (ueSec t.length ue hitX hitI) (j : ℤ) = some (gapUe ue hitX hitI j) := by
      rcases hitI with _ | hs
      · rw [pyGet_some none (by simpa [ueSec] using hj)]
        simp [ueSec, gapUe, hj]
      · have := hh hs rfl
        rw [pyGet_some none (by simpa [ueSec, this] using hj)]
        simp [ueSec, gapUe, this, hj]
    have ehh : pyGet (hitSec t.length hitX hitI) (j : ℤ) = some (gapHit hitX hitI j) := by
      rcases hitI with _ | hs
      · rw [pyGet_some none (by simpa [hitSec] using hj)]
        simp [hitSec, gapHit, hj]
      · have := hh hs rfl
        rw [pyGet_some none (by simpa [hitSec, this] using hj)]
        simp [hitSec, gapHit, this, hj]
    rw [ec, eu, ehh, pyGet_some 0 (by omega), pyGet_some 0 (by omega), pyGet_some 0 (by omega), pyGet_some 0 (by omega), hfil j hj] at h1
    exact h1
  have hcount : ∀ j < t.length - 1, (gapTimes t newT j).length = ins.count (j + 1) := by
    intro j hj
    rw [← hfil j hj, hins, List.count_eq_length_filter, List.filter_map, List.length_map]
    congr 1
  have hemp : ∀ j < t.length - 1, (gapTimes t newT j = [] ↔ j + 1 ∉ ins) := by
    intro j hj
    rw [← List.length_eq_zero_iff, hcount j hj, List.count_eq_zero]
  have hlen : ∀ i, (f i).1.length = ins.count i := by
    intro i
    by_cases hm : i ∈ ins
    · obtain ⟨h1, h2⟩ := hi i hm
      obtain ⟨j, rfl⟩ : ∃ j, i = j + 1 := ⟨i - 1, by omega⟩
      obtain ⟨i', hp, -⟩ := sampleLayerbr_out (hsec j (by omega) hm)
      rw [hp.len, List.length_map, hcount j (by omega)]
    · rw [hfd i (by rwa [hmem]), List.count_eq_zero_of_not_mem hm]
      rfl
  have hflat : (((npUnique t.length ins).map f).map Prod.fst).flatten = (List.range t.length).flatMap fun i : ℕ => (f i).1 := by
    rw [List.map_map, ← List.flatMap_def]
    have e : ∀ M, ((List.range M).filter fun i => decide (i ∈ ins)).flatMap (Prod.fst ∘ f) = (List.range M).flatMap fun i : ℕ => (f i).1 := by
      intro M
      induction M with
      | zero => rfl
      | succ M ih =>
        rw [List.range_succ, List.filter_append, List.flatMap_append, List.flatMap_append, ih]
        by_cases hm : M ∈ ins
        · simp [hm]
        · have : (f M).1 = [] := by rw [hfd M (by rwa [hmem])]
          simp [hm, this]
    have e1 := e t.length
    rw [← e1]
    unfold npUnique
    rw [List.range_succ, List.filter_append, List.flatMap_append]
    have : t.length ∉ ins := fun h => by have := (hi _ h).2; omega
    simp [this]
  refine ⟨⟨fun j => f (j + 1), ?_, ?_, ?_, ?_, ?_⟩, ?_⟩
  · intro j hj he
    exact hfd _ (by rw [hmem]; exact (hemp j hj).1 he)
  · intro j hj he
    exact hsec j hj (by by_contra hm; exact he ((hemp j hj).2 hm))
  · rw [npInsert_gaps 0 ht0 hi]
    congr 1
    rw [List.flatMap_def, List.flatMap_def]
    congr 1
    apply List.map_congr_left
    intro j hj
    rw [List.mem_range] at hj
    rw [← hfil j hj, hins, List.map_map, ← select_filter]
    rfl
  · rw [npInsert_gaps 0 hx0 (by rw [hx]; exact hi), hx, hflat]
    congr 1
    rw [List.flatMap_def, List.flatMap_def]
    congr 1
    apply List.map_congr_left
    intro j hj
    rw [List.mem_range] at hj
    rw [← List.flatMap_def, select_blocks hsort (fun i h => (hi i h).2) hlen (j := j + 1) (by omega)]
  · rcases hitI with _ | hs
    · rfl
    · simp only [Option.map_some, Option.some.injEq]
      unfold stackHits
      rw [hh hs rfl, List.flatMap_def, List.flatMap_def]
      congr 1
      apply List.map_congr_left
      intro j hj
      rw [List.mem_range] at hj
      have e : (npUnique t.length ins).zip ((npUnique t.length ins).map f) = (npUnique t.length ins).map fun i => (i, f i) := by
        rw [List.zip_map_right, List.zip_eq_zipWith, List.zipWith_self]
        simp
      unfold splitFlag
      rw [e, find_map_pair]
      by_cases hm : j + 1 ∈ ins
      · rw [if_pos ((hmem _).2 hm)]
        have hl := hlen (j + 1)
        rw [← hcount j hj] at hl
        rcases hr : f (j + 1) with ⟨xs, _ | a⟩
        · rw [hr] at hl
          simp only at hl
          simp [gapFlags, hl]
        · simp [gapFlags]
      · rw [if_neg (by rwa [hmem]), hfd _ (by rwa [hmem]), (hemp j hj).2 hm]
        simp [gapFlags]
  · intro r hr
    obtain ⟨h1, h2, h3⟩ := hgap r hr
    exact ⟨searchLeft t r - 1, by omega, (h3 _ (by omega)).1 (by omega)⟩

end Ctb
