import Verif.Props.Interp

set_option linter.unusedSectionVars false

/-! # C45: the positions returned by `fill_wiener_inner` -/

namespace Ctb

open Classical

theorem select_none {α : Type} : ∀ (vals : List α) (m : List Bool), (∀ b ∈ m, b = false) → select vals m = []
  | [], m, _ => by cases m <;> rfl
  | _ :: _, [], _ => rfl
  | _ :: vals, b :: m, h => by
    rw [h b (by simp)] at *
    simpa [select] using select_none vals m fun b hb => h b (by simp [hb])

theorem take_flatMap {α : Type} (l : List α) (j : ℕ) (hj : j ≤ l.length) : ((List.range j).flatMap fun i : ℕ => (l[i]?).toList) = l.take j := by
  induction j with
  | zero => simp
  | succ j ih =>
    rw [List.range_succ, List.flatMap_append, ih (by omega), List.take_add_one]
    simp

/-- The first insertion splits the array. -/
theorem npInsert_cons {α : Type} {l vals : List α} {idx : List ℕ} {j : ℕ} {v : α} (hj : j ≤ l.length) (hs : ∀ i ∈ idx, j ≤ i) :
    npInsert l (j :: idx) (v :: vals) = l.take j ++ v :: npInsert (l.drop j) (idx.map (· - j)) vals := by
  unfold npInsert
  rw [show l.length + 1 = j + ((l.drop j).length + 1) by rw [List.length_drop]; omega, List.range_add, List.flatMap_append]
  congr 1
  · rw [← take_flatMap l j hj]
    refine List.flatMap_congr fun i hi => ?_
    rw [select_none, List.nil_append]
    intro b hb
    obtain ⟨k, hk, rfl⟩ := List.mem_map.1 hb
    have := List.mem_range.1 hi
    rcases List.mem_cons.1 hk with rfl | hk
    · simp; omega
    · have := hs k hk
      simp; omega
  · have hsel : ∀ i, select vals (idx.map fun k => decide (k = j + i)) = select vals ((idx.map (· - j)).map fun k => decide (k = i)) := by
      intro i
      rw [List.map_map]
      congr 1
      refine List.map_congr_left fun k hk => ?_
      have := hs k hk
      simp only [Function.comp_apply, decide_eq_decide]
      omega
    rw [List.flatMap_map, List.range_succ_eq_map, List.flatMap_cons, List.flatMap_cons]
    simp only [List.map_cons, Nat.add_zero, decide_true, select, List.cons_append]
    congr 1
    congr 1
    · rw [← hsel 0]
      simp
    · rw [List.flatMap_map, List.flatMap_map]
      refine List.flatMap_congr fun i _ => ?_
      rw [decide_eq_false (by omega)]
      simp only [select]
      rw [hsel]
      simp

theorem npInsert_at {α : Type} : ∀ (idx : List ℕ) (l vals : List α), idx.Pairwise (· ≤ ·) → (∀ i ∈ idx, i ≤ l.length) → idx.length = vals.length →
    ∀ k (hk : k < idx.length), (npInsert l idx vals)[idx[k] + k]? = vals[k]?
  | [], _, _, _, _, _, k, hk => absurd hk (by simp)
  | j :: idx, l, [], _, _, hl, _, _ => by simp at hl
  | j :: idx, l, v :: vals, hs, hb, hl, k, hk => by
    have hj := hb j (by simp)
    have hs' := List.pairwise_cons.1 hs
    rw [npInsert_cons hj hs'.1]
    have ht : (l.take j).length = j := by simp [hj]
    cases k with
    | zero => simp [ht]
    | succ k =>
      have hk' : k < idx.length := by simpa using hk
      have hjk := hs'.1 _ (List.getElem_mem hk')
      have ih := npInsert_at (idx.map (· - j)) (l.drop j) vals
        (List.pairwise_map.2 (hs'.2.imp fun h => Nat.sub_le_sub_right h j))
        (by
          intro i hi
          obtain ⟨a, ha, rfl⟩ := List.mem_map.1 hi
          rw [List.length_drop]
          exact Nat.sub_le_sub_right (hb a (by simp [ha])) j) (by simpa using hl) k (by simpa using hk')
      rw [List.getElem_map] at ih
      rw [List.getElem_cons_succ, List.getElem?_cons_succ, ← ih, List.getElem?_append_right (by rw [ht]; omega), ht,
        show idx[k] + (k + 1) - j = idx[k] - j + k + 1 by omega, List.getElem?_cons_succ]

/-- The positions returned by `fill_wiener_inner` are those of the new times, in order. -/
theorem C45_positions {n k : ℕ} {t x newT : List ℝ} {minX : ℝ} {ue hitX : Option ℝ} {hitI : Option (List Bool)} {r : Filled} (ht : t.Pairwise (· < ·)) (hs : newT.Pairwise (· ≤ ·))
    (h : (fillInner n k t x newT minX ue hitX hitI).Out (.ok r)) :
    r.2.2.1.length = newT.length ∧ ∀ j (hj : j < r.2.2.1.length), r.1[r.2.2.1[j]]? = newT[j]? := by
  unfold fillInner at h
  split_ifs at h with h1 h2 h3
  · cases h
    simp [h1]
  · cases h
  · obtain ⟨_, _, h⟩ := Prog.out_bind_ok.1 h
    cases h
  · obtain ⟨_, _, h⟩ := Prog.out_bind_ok.1 h
    obtain ⟨_, _, h⟩ := Prog.out_bind_ok.1 h
    obtain ⟨_, _, h⟩ := Prog.out_bind_ok.1 h
    obtain ⟨_, _, h⟩ := Prog.out_bind_ok.1 h
    obtain ⟨res, _, h⟩ := Prog.out_bind_ok.1 h
    cases h
    refine ⟨by simp, fun j hj => ?_⟩
    simp only [List.length_zipWith, List.length_map, List.length_range, min_self] at hj
    simp only [List.getElem_zipWith, List.getElem_range]
    refine npInsert_at (newT.map (searchLeft t)) t newT ?_ ?_ (by simp) j (by simpa using hj)
    · exact List.pairwise_map.2 (hs.imp fun {a b} h => searchLeft_mono ht h)
    · intro i hi
      obtain ⟨a, _, rfl⟩ := List.mem_map.1 hi
      unfold searchLeft
      exact (List.takeWhile_sublist _).length_le

/-- Times 1 and 3 between 0, 2 and 4 end up at positions 1 and 3. -/
example : npInsert [(0 : ℝ), 2, 4] [1, 2] [1, 3] = [0, 1, 2, 3, 4] := by
  rw [npInsert_cons (by simp) (by simp)]
  simp only [List.map_cons, List.map_nil, List.drop_succ_cons, List.drop_zero]
  rw [npInsert_cons (by simp) (by simp)]
  norm_num [npInsert, List.range_succ, select]

end Ctb
