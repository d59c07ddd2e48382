import Verif.Lemmas.HalfLine
import Verif.Lemmas.ArsHull

/-! # A grid cut at a time -/

set_option linter.unusedSectionVars false

namespace Ctb

open MeasureTheory Set
open scoped ENNReal

theorem cumsumFrom_shift (c : ℝ) : ∀ (l : List ℝ) (a : ℝ), cumsumFrom (c + a) l = (cumsumFrom a l).map (c + ·)
  | [], _ => rfl
  | v :: l, a => by
    simp only [cumsumFrom, List.map_cons, add_assoc]
    rw [← cumsumFrom_shift c l (a + v)]

theorem grid_one (v : ℝ) : (npCumsum [v]).dropLast = [] := by simp [npCumsum, cumsumFrom]

theorem grid_cons (v w : ℝ) (vs : List ℝ) : (npCumsum (v :: w :: vs)).dropLast = v :: ((npCumsum (w :: vs)).dropLast).map (v + ·) := by
  have h := cumsumFrom_shift v (w :: vs) 0
  unfold npCumsum
  have e : cumsumFrom 0 (v :: w :: vs) = v :: cumsumFrom (v + 0) (w :: vs) := by simp [cumsumFrom]
  rw [e, h]
  rw [List.dropLast_cons_of_ne_nil (by simp [cumsumFrom]), ← List.map_dropLast]

theorem cumsumFrom_append (l : List ℝ) (v : ℝ) : ∀ a : ℝ, cumsumFrom a (l ++ [v]) = cumsumFrom a l ++ [a + l.sum + v] := by
  induction l with
  | nil => intro a; simp [cumsumFrom]
  | cons u l ih =>
    intro a
    simp only [List.cons_append, cumsumFrom, ih, List.sum_cons]
    rw [add_assoc a u]

theorem cumsumFrom_last : ∀ (l : List ℝ), l ≠ [] → ∀ a : ℝ, cumsumFrom a l = (cumsumFrom a l).dropLast ++ [a + l.sum]
  | [], h, _ => absurd rfl h
  | [v], _, a => by simp [cumsumFrom]
  | v :: w :: l, _, a => by
    have h := cumsumFrom_last (w :: l) (by simp) (a + v)
    rw [List.sum_cons, ← add_assoc a v]
    have e : cumsumFrom a (v :: w :: l) = (a + v) :: cumsumFrom (a + v) (w :: l) := rfl
    rw [e, List.dropLast_cons_of_ne_nil (by simp [cumsumFrom]), List.cons_append, ← h]

theorem grid_append (l : List ℝ) (hl : l ≠ []) (v : ℝ) : (npCumsum (l ++ [v])).dropLast = (npCumsum l).dropLast ++ [l.sum] := by
  unfold npCumsum
  rw [cumsumFrom_append, List.dropLast_concat]
  have := cumsumFrom_last l hl 0
  rwa [zero_add] at this

theorem searchLeft_shift (v s : ℝ) : ∀ l : List ℝ, searchLeft (l.map (v + ·)) s = searchLeft l (s - v)
  | [] => by simp [searchLeft]
  | a :: l => by
    rw [List.map_cons, searchLeft_cons, searchLeft_cons, searchLeft_shift v s l]
    by_cases h : v + a < s
    · rw [if_pos h, if_pos (by linarith)]
    · rw [if_neg h, if_neg (by linarith)]

theorem leftIncs_sum : ∀ (vs : List ℝ) (s : ℝ), vs ≠ [] → (leftIncs s vs).sum = s
  | [], _, h => absurd rfl h
  | [v], s, _ => by simp [leftIncs]
  | v :: w :: vs, s, _ => by
    simp only [leftIncs]
    split_ifs
    · simp
    · rw [List.sum_cons, leftIncs_sum (w :: vs) (s - v) (by simp)]; ring

theorem rightIncs_sum : ∀ (vs : List ℝ) (s : ℝ), vs ≠ [] → (rightIncs s vs).sum = vs.sum - s
  | [], _, h => absurd rfl h
  | [v], s, _ => by simp [rightIncs]
  | v :: w :: vs, s, _ => by
    simp only [rightIncs]
    split_ifs
    · simp only [List.sum_cons]; ring
    · rw [rightIncs_sum (w :: vs) (s - v) (by simp)]; simp only [List.sum_cons]; ring

theorem incs_pos : ∀ (vs : List ℝ), (∀ v ∈ vs, 0 < v) → ∀ s, 0 < s → s < vs.sum → s ∉ (npCumsum vs).dropLast →
    (∀ v ∈ leftIncs s vs, 0 < v) ∧ ∀ v ∈ rightIncs s vs, 0 < v
  | [], _, s, h0, h1, _ => by simp at h1; linarith
  | [v], _, s, h0, h1, _ => by
    simp only [List.sum_cons, List.sum_nil, add_zero] at h1
    simp only [leftIncs, rightIncs, List.mem_singleton, forall_eq]
    exact ⟨h0, by linarith⟩
  | v :: w :: vs, hp, s, h0, h1, hn => by
    have hp' : ∀ u ∈ w :: vs, 0 < u := fun u hu => hp u (List.mem_cons_of_mem _ hu)
    rw [grid_cons, List.mem_cons, not_or] at hn
    simp only [leftIncs, rightIncs]
    split_ifs with h
    · simp only [List.mem_singleton, forall_eq]
      refine ⟨h0, fun u hu => ?_⟩
      rcases List.mem_cons.1 hu with rfl | hu
      · linarith
      · exact hp' u hu
    · have hlt : v < s := lt_of_le_of_ne (not_lt.1 h) (Ne.symm hn.1)
      have ih := incs_pos (w :: vs) hp' (s - v) (by linarith) (by rw [List.sum_cons] at h1; linarith) (fun hm => hn.2 (List.mem_map.2 ⟨s - v, hm, by ring⟩))
      refine ⟨fun u hu => ?_, ih.2⟩
      rcases List.mem_cons.1 hu with rfl | hu
      · exact hp _ List.mem_cons_self
      · exact ih.1 u hu

theorem searchLeft_all_ge {s : ℝ} {l : List ℝ} (h : ∀ a ∈ l, s ≤ a) : searchLeft l s = 0 := by
  cases l with
  | nil => simp [searchLeft]
  | cons a l => rw [searchLeft_cons, if_neg (not_lt.2 (h a List.mem_cons_self))]

/-- The times after the cut. -/
theorem grid_right : ∀ (vs : List ℝ), (∀ v ∈ vs, 0 < v) → ∀ s, s ∉ (npCumsum vs).dropLast →
    (((npCumsum vs).dropLast).drop (searchLeft (npCumsum vs).dropLast s)).map (· - s) = (npCumsum (rightIncs s vs)).dropLast
  | [], _, s, _ => by simp [npCumsum, cumsumFrom, rightIncs]
  | [v], _, s, _ => by simp [npCumsum, cumsumFrom, rightIncs]
  | v :: w :: vs, hp, s, hn => by
    have hp' : ∀ u ∈ w :: vs, 0 < u := fun u hu => hp u (List.mem_cons_of_mem _ hu)
    rw [grid_cons] at hn ⊢
    rw [List.mem_cons, not_or] at hn
    rw [searchLeft_cons]
    simp only [rightIncs]
    by_cases h : s < v
    · rw [if_neg (not_lt.2 h.le), if_pos h, grid_cons, List.drop_zero, List.map_cons, List.map_map]
      congr 1
      refine List.map_congr_left fun a _ => ?_
      simp only [Function.comp]
      ring
    · have hlt : v < s := lt_of_le_of_ne (not_lt.1 h) (Ne.symm hn.1)
      rw [if_pos hlt, if_neg h, searchLeft_shift, List.drop_succ_cons, ← List.map_drop, List.map_map,
        ← grid_right (w :: vs) hp' (s - v) (fun hm => hn.2 (List.mem_map.2 ⟨s - v, hm, by ring⟩))]
      refine List.map_congr_left fun a _ => ?_
      simp only [Function.comp]
      ring

/-- The times before the cut, backwards. -/
theorem grid_left : ∀ (vs : List ℝ), (∀ v ∈ vs, 0 < v) → ∀ s, s ∉ (npCumsum vs).dropLast →
    (((npCumsum vs).dropLast).take (searchLeft (npCumsum vs).dropLast s)).reverse.map (s - ·) = (npCumsum (leftIncs s vs).reverse).dropLast
  | [], _, s, _ => by simp [npCumsum, cumsumFrom, leftIncs]
  | [v], _, s, _ => by simp [npCumsum, cumsumFrom, leftIncs]
  | v :: w :: vs, hp, s, hn => by
    have hp' : ∀ u ∈ w :: vs, 0 < u := fun u hu => hp u (List.mem_cons_of_mem _ hu)
    rw [grid_cons] at hn ⊢
    rw [List.mem_cons, not_or] at hn
    rw [searchLeft_cons]
    simp only [leftIncs]
    by_cases h : s < v
    · rw [if_neg (not_lt.2 h.le), if_pos h, List.take_zero, List.reverse_singleton, grid_one]
      rfl
    · have hlt : v < s := lt_of_le_of_ne (not_lt.1 h) (Ne.symm hn.1)
      have hne : (leftIncs (s - v) (w :: vs)).reverse ≠ [] := by
        rw [ne_eq, List.reverse_eq_nil_iff]; exact leftIncs_ne _ _ (by simp)
      rw [if_pos hlt, if_neg h, searchLeft_shift, List.take_succ_cons, List.reverse_cons, List.reverse_cons, grid_append _ hne, List.map_append,
        ← grid_left (w :: vs) hp' (s - v) (fun hm => hn.2 (List.mem_map.2 ⟨s - v, hm, by ring⟩)), List.sum_reverse,
        leftIncs_sum _ _ (by simp), ← List.map_take, ← List.map_reverse, List.map_map]
      congr 1
      refine List.map_congr_left fun a _ => ?_
      simp only [Function.comp]
      ring

/-! ## moving the level -/

theorem killDens_shift (m v x y : ℝ) : killDens m v (x + m) (y + m) = killDens 0 v x y := by
  unfold killDens
  by_cases h : 0 < x ∧ 0 < y
  · rw [if_pos ⟨by linarith [h.1], by linarith [h.2]⟩, if_pos h]
    ring_nf
  · rw [if_neg h, if_neg fun h' => h ⟨by linarith [h'.1], by linarith [h'.2]⟩]

theorem entrDens_shift (m v y : ℝ) : entrDens m v (y + m) = entrDens 0 v y := by
  unfold entrDens
  by_cases h : 0 < y
  · rw [if_pos (by linarith), if_pos h]
    ring_nf
  · rw [if_neg h, if_neg fun h' => h (by linarith)]

theorem kerInt_shift {k k' : ℝ → ℝ → ℝ → ℝ≥0∞} {m : ℝ} (h : ∀ v x y, k v (x + m) (y + m) = k' v x y) (x1 : ℝ) :
    ∀ (vs : List ℝ) (x : ℝ) (F : List ℝ → ℝ≥0∞), kerInt k' x1 vs x (fun l => F (l.map (· + m))) = kerInt k (x1 + m) vs (x + m) F
  | [], _, _ => rfl
  | [v], x, F => by simp [kerInt, h]
  | v :: w :: vs, x, F => by
    simp only [kerInt]
    rw [← lintegral_add_right_eq_self (fun y => k v (x + m) y * kerInt k (x1 + m) (w :: vs) y fun l => F (y :: l)) m]
    refine lintegral_congr fun y => ?_
    rw [h, ← kerInt_shift h x1 (w :: vs) y fun l => F ((y + m) :: l)]
    rfl

theorem startInt_shift {e e' : ℝ → ℝ → ℝ≥0∞} {k k' : ℝ → ℝ → ℝ → ℝ≥0∞} {m : ℝ} (he : ∀ v y, e v (y + m) = e' v y)
    (h : ∀ v x y, k v (x + m) (y + m) = k' v x y) (x1 : ℝ) (vs : List ℝ) (F : List ℝ → ℝ≥0∞) :
    startInt e' k' x1 vs (fun l => F (l.map (· + m))) = startInt e k (x1 + m) vs F := by
  match vs with
  | [] => rfl
  | [v] => simp [startInt, he]
  | v :: w :: vs =>
    simp only [startInt]
    rw [← lintegral_add_right_eq_self (fun y => e v y * kerInt k (x1 + m) (w :: vs) y fun l => F (y :: l)) m]
    refine lintegral_congr fun y => ?_
    rw [he, ← kerInt_shift h x1 (w :: vs) y fun l => F ((y + m) :: l)]
    rfl

end Ctb
