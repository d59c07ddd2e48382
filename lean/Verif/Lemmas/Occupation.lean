import Verif.Lemmas.Partition
import Verif.Model.MjpInference
import Mathlib.MeasureTheory.Measure.Lebesgue.Basic
import Mathlib.Algebra.BigOperators.Ring.Finset
import Mathlib.Algebra.Order.BigOperators.Group.Finset

/-! Sojourn times and transition counts along a jump list. -/

set_option linter.unusedSectionVars false

open MeasureTheory

namespace Ctb

section field
variable {K : Type} [Field K] [LinearOrder K] [IsStrictOrderedRing K]

/-- Total sojourn in state `i`; the sojourn after the last jump at time `a` counts `E a`. -/
def occL (E : K → K) (i : ℕ) : List (K × ℕ) → K
  | [] => 0
  | [(a, x)] => if x = i then E a else 0
  | (a, x) :: (b, y) :: l => (if x = i then b - a else 0) + occL E i ((b, y) :: l)

theorem occL_select (e : K) (E : K → K) (i : ℕ) (l : List (K × ℕ)) (a : K) (x : ℕ)
    (he : ∀ p, ((a, x) :: l).getLast? = some p → E p.1 = e) :
    (select (npDiff (((a, x) :: l).map Prod.fst) ++ [e]) ((((a, x) :: l).map Prod.snd).map fun y => decide (y = i))).sum =
      occL E i ((a, x) :: l) := by
  induction l generalizing a x with
  | nil =>
    have := he (a, x) rfl
    by_cases h : x = i <;> simp [npDiff, select, occL, h, this]
  | cons p l ih =>
    obtain ⟨b, y⟩ := p
    have := ih b y (by intro p hp; exact he p (by simpa using hp))
    simp only [List.map_cons, npDiff, List.cons_append] at this ⊢
    by_cases h : x = i
    · simp only [h, decide_true, select, List.sum_cons, occL, if_true]; rw [this]
    · simp only [h, decide_false, select, occL, if_false, zero_add]; rw [this]

theorem occL_zip (e : K) (E : K → K) (i : ℕ) (l : List (K × ℕ)) (a : K) (x : ℕ)
    (he : ∀ p, ((a, x) :: l).getLast? = some p → E p.1 = e) :
    (((((a, x) :: l).map Prod.snd).zip (npDiff (((a, x) :: l).map Prod.fst) ++ [e])).map
      fun p => if p.1 = i then p.2 else 0).sum = occL E i ((a, x) :: l) := by
  induction l generalizing a x with
  | nil =>
    have := he (a, x) rfl
    simp [npDiff, occL, this]
  | cons p l ih =>
    obtain ⟨b, y⟩ := p
    have := ih b y (by intro p hp; exact he p (by simpa using hp))
    simp only [List.map_cons, npDiff, List.cons_append, List.zip_cons_cons, List.sum_cons, occL] at this ⊢
    rw [this]

theorem occL_nonneg (fin : K) (i : ℕ) (l : List (K × ℕ)) (h : l.Pairwise fun p q => p.1 < q.1)
    (hf : ∀ p ∈ l, p.1 ≤ fin) : 0 ≤ occL (fun a => fin - a) i l := by
  induction l with
  | nil => exact le_rfl
  | cons p l ih =>
    obtain ⟨a, x⟩ := p
    cases l with
    | nil =>
      have := hf (a, x) (by simp)
      simp only [occL]; split
      · simpa using this
      · exact le_rfl
    | cons q l =>
      obtain ⟨b, y⟩ := q
      have h1 : a < b := (List.pairwise_cons.1 h).1 (b, y) (by simp)
      have h2 := ih h.of_cons (fun p hp => hf p (by simp [hp]))
      simp only [occL]; split <;> linarith

theorem occL_sum (fin : K) (states : List ℕ) (hn : states.Nodup) (l : List (K × ℕ)) (a : K) (x : ℕ)
    (hm : ∀ p ∈ (a, x) :: l, p.2 ∈ states) :
    (states.map fun i => occL (fun a => fin - a) i ((a, x) :: l)).sum = fin - a := by
  have key : ∀ (x : ℕ) (c : K), x ∈ states → (states.map fun i => if x = i then c else 0).sum = c := by
    intro x c hx
    clear hm
    induction states with
    | nil => simp at hx
    | cons s ss ih =>
      rw [List.nodup_cons] at hn
      rcases List.mem_cons.1 hx with rfl | hx2
      · have : (ss.map fun i => if x = i then c else 0).sum = 0 := by
          apply List.sum_eq_zero; intro y hy
          obtain ⟨i, hi, rfl⟩ := List.mem_map.1 hy
          rw [if_neg]; rintro rfl; exact hn.1 hi
        simp [this]
      · have : x ≠ s := by rintro rfl; exact hn.1 hx2
        simp [this, ih hn.2 hx2]
  induction l generalizing a x with
  | nil => simp only [occL]; exact key x _ (hm (a, x) (by simp))
  | cons p l ih =>
    obtain ⟨b, y⟩ := p
    simp only [occL]
    rw [List.sum_map_add, key x _ (hm (a, x) (by simp)), ih b y (fun p hp => hm p (List.mem_cons_of_mem _ hp))]
    ring
end field

/-- Sojourn totals are Lebesgue measures of the times at which the path is in the state. -/
theorem volume_occ (fin : ℝ) (i : ℕ) (l : List (ℝ × ℕ)) (a : ℝ) (x : ℕ)
    (h : ((a, x) :: l).Pairwise fun p q => p.1 < q.1) (hf : ∀ p ∈ (a, x) :: l, p.1 ≤ fin) :
    volume {s : ℝ | a ≤ s ∧ s < fin ∧ stAt ((a, x) :: l) s = some i} =
      ENNReal.ofReal (occL (fun a => fin - a) i ((a, x) :: l)) := by
  induction l generalizing a x with
  | nil =>
    by_cases hx : x = i
    · have : {s : ℝ | a ≤ s ∧ s < fin ∧ stAt [(a, x)] s = some i} = Set.Ico a fin := by
        ext s; simp only [Set.mem_setOf_eq, Set.mem_Ico, stAt_cons, stAt_nil]
        constructor
        · rintro ⟨h1, h2, -⟩; exact ⟨h1, h2⟩
        · rintro ⟨h1, h2⟩; exact ⟨h1, h2, by simp [h1, hx]⟩
      rw [this, Real.volume_Ico]; simp [occL, hx]
    · have : {s : ℝ | a ≤ s ∧ s < fin ∧ stAt [(a, x)] s = some i} = ∅ := by
        ext s; simp only [Set.mem_setOf_eq, stAt_cons, stAt_nil, Set.mem_empty_iff_false, iff_false]
        rintro ⟨h1, h2, h3⟩; simp [h1] at h3; exact hx h3
      rw [this]; simp [occL, hx]
  | cons p l ih =>
    obtain ⟨b, y⟩ := p
    have hab : a < b := (List.pairwise_cons.1 h).1 (b, y) (by simp)
    have hbf : b ≤ fin := hf (b, y) (by simp)
    have hsplit : {s : ℝ | a ≤ s ∧ s < fin ∧ stAt ((a, x) :: (b, y) :: l) s = some i} =
        (if x = i then Set.Ico a b else ∅) ∪ {s : ℝ | b ≤ s ∧ s < fin ∧ stAt ((b, y) :: l) s = some i} := by
      ext s
      simp only [Set.mem_setOf_eq, Set.mem_union]
      rw [stAt_cons (a, x)]
      by_cases hsb : s < b
      · have hn : stAt ((b, y) :: l) s = none := by
          rw [stAt_eq_none_iff]
          intro p hp
          rcases List.mem_cons.1 hp with rfl | hp
          · exact hsb
          · exact lt_trans hsb ((List.pairwise_cons.1 h.of_cons).1 p hp)
        rw [hn]
        by_cases hx : x = i
        · simp only [hx, if_true, Set.mem_Ico, Option.none_or]
          constructor
          · rintro ⟨h1, h2, h3⟩; exact .inl ⟨h1, hsb⟩
          · rintro (⟨h1, h2⟩ | ⟨h1, -⟩)
            · exact ⟨h1, lt_of_lt_of_le hsb hbf, by simp [h1]⟩
            · exact absurd hsb (not_lt.2 h1)
        · simp only [hx, if_false, Set.mem_empty_iff_false, Option.none_or, false_or]
          constructor
          · rintro ⟨h1, h2, h3⟩; simp [h1] at h3; exact absurd h3 hx
          · rintro ⟨h1, -⟩; exact absurd hsb (not_lt.2 h1)
      · have hsb' := not_lt.1 hsb
        obtain ⟨z, hz⟩ := stAt_isSome_of_mem (l := (b, y) :: l) (p := (b, y)) (by simp) hsb'
        rw [hz]
        have hni : s ∉ (if x = i then Set.Ico a b else ∅) := by
          split
          · simp [hsb']
          · simp
        simp only [Option.some_or]
        constructor
        · rintro ⟨-, h2, h3⟩; exact .inr ⟨hsb', h2, h3⟩
        · rintro (h1 | ⟨h1, h2, h3⟩)
          · exact absurd h1 hni
          · exact ⟨le_trans hab.le h1, h2, h3⟩
    have hdisj : Disjoint (if x = i then Set.Ico a b else ∅)
        {s : ℝ | b ≤ s ∧ s < fin ∧ stAt ((b, y) :: l) s = some i} := by
      rw [Set.disjoint_left]
      intro s hs hs'
      split at hs
      · exact absurd hs.2 (not_lt.2 hs'.1)
      · exact hs
    have hmeas : MeasurableSet (if x = i then Set.Ico a b else (∅ : Set ℝ)) := by
      split
      · exact measurableSet_Ico
      · exact MeasurableSet.empty
    rw [hsplit, measure_union' hdisj hmeas, ih b y h.of_cons (fun p hp => hf p (List.mem_cons_of_mem _ hp))]
    have hnn := occL_nonneg fin i ((b, y) :: l) h.of_cons (fun p hp => hf p (List.mem_cons_of_mem _ hp))
    simp only [occL]
    split
    · rw [Real.volume_Ico, ENNReal.ofReal_add (by linarith) hnn]
    · simp

/-! ## transition counts -/

theorem transCount_cons (x y : ℕ) (l : List ℕ) (i j : ℕ) :
    transCount (x :: y :: l) i j = (if x = i ∧ y = j then 1 else 0) + transCount (y :: l) i j := by
  unfold transCount
  simp only [List.map_cons, List.dropLast_cons₂]
  have h1 : ∀ m, select (x :: y :: l) (false :: m) = select (y :: l) m := fun m => rfl
  rw [h1]
  have h2 : select (y :: l) (false :: (decide (y = i) :: l.map fun x => decide (x = i)).dropLast) =
      select l ((decide (y = i) :: l.map fun x => decide (x = i)).dropLast) := rfl
  rw [h2]
  by_cases hx : x = i
  · by_cases hy : y = j
    · simp [select, hx, hy]; omega
    · simp [select, hx, hy]
  · simp [select, hx]

theorem transCount_eq (xt : List ℕ) (i j : ℕ) : transCount xt i j = (xt.zip xt.tail).count (i, j) := by
  induction xt with
  | nil => rfl
  | cons x l ih =>
    cases l with
    | nil => simp [transCount, select]
    | cons y l =>
      rw [transCount_cons, ih]
      simp only [List.tail_cons, List.zip_cons_cons, List.count_cons]
      by_cases h : x = i ∧ y = j
      · simp [h.1, h.2]; omega
      · have : ((x, y) == (i, j)) = false := by simpa using h
        simp [h, this]

end Ctb
