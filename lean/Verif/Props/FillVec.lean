import Verif.Model.FillVec
import Verif.Spec.FillVec
import Verif.Lemmas.LayerPaths
import Verif.Lemmas.SwitchAug
import Verif.Lemmas.Moments
import Mathlib.Data.List.TakeWhile
import Verif.Props.InterpPos

set_option linter.unusedSectionVars false

/-! # C107: `fill_wiener_vector` -/

namespace Ctb

open Classical

/-! ### what it rejects -/

variable {t : List ℝ} {x : List (List ℝ)} {newT : List ℝ} {r : List ℝ × List (List ℝ) × List ℕ}

/-- Without new times the chained assertion raises, in front of the line that would return the path. -/
theorem C107_empty_violated (hne : t ≠ []) (h0 : ∀ s ∈ t, 0 ≤ s) : fillVec t x [] = .err .value := by
  unfold fillVec
  rw [if_neg hne, Prog.assert, if_pos h0, Prog.ret_bind, if_pos rfl]

/-- What a result tells about the sectors. -/
theorem fillVec_out (h : (fillVec t x newT).Out (.ok r)) :
    newT ≠ [] ∧ t.length = x.length ∧ ∃ rows, (Prog.mapM' (fillVecSector t x newT) (npUnique t.length (newT.map (searchRight t)))).Out (.ok rows) ∧
      (∀ y ∈ rows, y.length = 1) ∧ r = (npInsert t (newT.map (searchRight t)) newT, npInsert x (newT.map (searchRight t)) rows,
        List.zipWith (· + ·) (newT.map (searchRight t)) (List.range newT.length)) := by
  unfold fillVec at h
  split_ifs at h with h1 h2
  · cases h
  · obtain ⟨_, _, h⟩ := Prog.out_bind_ok.1 h
    cases h
  obtain ⟨_, _, h⟩ := Prog.out_bind_ok.1 h
  obtain ⟨_, _, h⟩ := Prog.out_bind_ok.1 h
  obtain ⟨_, h3, h⟩ := Prog.out_bind_ok.1 h
  obtain ⟨rows, h4, h⟩ := Prog.out_bind_ok.1 h
  split_ifs at h with h5
  · refine ⟨h2, ?_, rows, h4, fun y hy => by simpa using List.all_eq_true.1 h5 y hy, ?_⟩
    · by_contra hc
      simp [Prog.assert, hc] at h3
    · simpa using h
  · cases h

theorem mem_npUnique {idx : List ℕ} {n i : ℕ} : i ∈ npUnique n idx ↔ i ≤ n ∧ i ∈ idx := by
  simp [npUnique, Nat.lt_succ_iff]

theorem searchRight_le (t : List ℝ) (v : ℝ) : searchRight t v ≤ t.length := (List.takeWhile_sublist _).length_le

/-- The bridge of every sector that receives a new time has a value for each of them. -/
theorem fillVec_sector (h : (fillVec t x newT).Out (.ok r)) {a : ℝ} (ha : a ∈ newT) :
    (newT.filter fun b => decide (searchRight t b = searchRight t a)).length = 1 ∧ ∃ x0 x1, pyGet x ((searchRight t a : ℤ) - 1) = some [x0] ∧ pyGet x (searchRight t a) = some [x1] ∧
      searchRight t a < t.length := by
  obtain ⟨-, hl, rows, h4, h5, -⟩ := fillVec_out h
  have hm : searchRight t a ∈ npUnique t.length (newT.map (searchRight t)) := mem_npUnique.2 ⟨searchRight_le t a, List.mem_map_of_mem ha⟩
  rw [Prog.out_mapM'_ok] at h4
  obtain ⟨k, hk, e⟩ := List.mem_iff_getElem.1 hm
  have hk' : k < rows.length := h4.length_eq ▸ hk
  have := (List.forall₂_iff_get.1 h4).2 k hk hk'
  simp only [List.get_eq_getElem, e] at this
  have h6 := h5 _ (List.getElem_mem hk')
  generalize rows[k] = y at this h6
  unfold fillVecSector at this
  split at this
  · next t0 t1 x0 x1 e0 e1 e2 e3 =>
    have hb : ∀ u v : ℝ, (sampleBrownbr ((newT.filter fun b => decide (searchRight t b = searchRight t a)).map (· - t0)) (t1 - t0) u v).Out (.ok y) →
        (newT.filter fun b => decide (searchRight t b = searchRight t a)).length = 1 := by
      intro u v h
      have := brownbr_len h
      rw [List.length_map] at this
      omega
    have hlt : searchRight t a < t.length := by
      unfold pyGet at e1
      rw [if_pos (by positivity), Int.toNat_natCast] at e1
      exact (List.getElem?_eq_some_iff.1 e1).1
    unfold brownbrRows at this
    split at this
    · exact ⟨hb _ _ this, _, _, e2, e3, hlt⟩
    · obtain ⟨_, _, h⟩ := Prog.out_bind_ok.1 this
      cases h
  · cases this

/-- Two new times between the same neighbours: no sequence of draws leads to a result. -/
theorem C107_gap_violated (h : ¬ (newT.map (searchRight t)).Nodup) : ¬ (fillVec t x newT).Out (.ok r) := by
  intro hr
  refine h (List.nodup_iff_count_le_one.2 fun i => ?_)
  by_cases hi : i ∈ newT.map (searchRight t)
  · obtain ⟨a, ha, rfl⟩ := List.mem_map.1 hi
    have := (fillVec_sector hr ha).1
    rw [List.count_eq_countP, List.countP_map, List.countP_eq_length_filter]
    refine le_of_eq (Eq.trans ?_ this)
    congr 1
  · rw [List.count_eq_zero_of_not_mem hi]
    exact Nat.zero_le _

/-- Paths of vectors, for which the function is meant, are never filled. -/
theorem C107_width_violated {d : ℕ} (hd : d ≠ 1) (hx : ∀ y ∈ x, y.length = d) : ¬ (fillVec t x newT).Out (.ok r) := by
  intro hr
  obtain ⟨h1, -⟩ := fillVec_out hr
  obtain ⟨a, ha⟩ := List.exists_mem_of_ne_nil _ h1
  obtain ⟨-, x0, x1, -, e, -⟩ := fillVec_sector hr ha
  unfold pyGet at e
  rw [if_pos (by positivity)] at e
  exact hd (hx _ (List.mem_of_getElem? e)).symm

/-- A new time at the end of the path passes the assertion and is an index out of range. -/
theorem C107_end_violated {T : ℝ} (hT : ∀ s ∈ t, s ≤ T) (h : T ∈ newT) : ¬ (fillVec t x newT).Out (.ok r) := by
  intro hr
  obtain ⟨-, _, _, -, -, hlt⟩ := fillVec_sector hr h
  refine absurd hlt (not_lt.2 (le_of_eq ?_))
  unfold searchRight
  rw [List.takeWhile_eq_self_iff.2 fun s hs => by simpa using hT s hs]

theorem demoFill_eq : fillVec [0, 1] [[0], [0]] [1 / 3, 2 / 3] = (sampleBrownbr [1 / 3, 2 / 3] 1 0 0).bind fun y =>
    if y.length = 1 then .ret (npInsert [0, 1] [1, 1] [1 / 3, 2 / 3], npInsert [[0], [0]] [1, 1] [y], [1, 2]) else .err .value := by
  have h1 : searchRight [(0 : ℝ), 1] (1 / 3) = 1 := by norm_num [searchRight, List.takeWhile]
  have h2 : searchRight [(0 : ℝ), 1] (2 / 3) = 1 := by norm_num [searchRight, List.takeWhile]
  have h3 : npUnique 2 [1, 1] = [1] := by decide
  unfold fillVec
  rw [if_neg (by simp), Prog.assert, if_pos (by norm_num), Prog.ret_bind, if_neg (by simp), Prog.assert, if_pos (by norm_num), Prog.ret_bind, Prog.assert,
    if_pos (by simp), Prog.ret_bind]
  simp only [List.map_cons, List.map_nil, h1, h2, List.length_cons, List.length_nil, h3, Prog.mapM', Prog.bind_assoc, Prog.ret_bind]
  norm_num [fillVecSector, pyGet, h1, h2, brownbrRows, List.range_succ]

/-- Two times in the one gap of a path from 0 to 1, as in the documentation of the function: ValueError, whatever is drawn. -/
theorem C107_violated : (fillVec [0, 1] [[0], [0]] [1 / 3, 2 / 3]).Out (.error .value) ∧
    ∀ e, (fillVec [0, 1] [[0], [0]] [1 / 3, 2 / 3]).Out e → e = .error .value := by
  have key : ∀ r, (sampleBrownbr [1 / 3, 2 / 3] 1 0 0).Out r → ∃ l, r = .ok l ∧ l.length = 2 := fun r h =>
    brownbr_out (by simp) (by norm_num) (by norm_num) h
  rw [demoFill_eq]
  refine ⟨?_, fun e h => ?_⟩
  · have : ∃ l, (sampleBrownbr [1 / 3, 2 / 3] 1 0 0).Out (.ok l) := by
      rw [(sampleBrownbr_affine (t := [1 / 3, 2 / 3]) (T := 1) (x0 := 0) (x1 := 0) (by simp) (by norm_num) (by norm_num)).2.2.2]
      exact ⟨_, Prog.out_bind_ok.2 ⟨[0, 0], Prog.out_replicate_ok.2 ⟨rfl, fun a _ => by simp [Prog.draw, RDist.support]⟩, rfl⟩⟩
    obtain ⟨l, hl⟩ := this
    obtain ⟨l', e1, e2⟩ := key _ hl
    cases e1
    refine Prog.out_bind.2 (.inl ⟨l, hl, ?_⟩)
    rw [if_neg (by omega)]
    rfl
  · rcases Prog.out_bind.1 h with ⟨a, h1, h2⟩ | ⟨e', h1, -⟩
    · obtain ⟨l, e1, e2⟩ := key _ h1
      cases e1
      rw [if_neg (by omega)] at h2
      exact h2
    · obtain ⟨l, e1, -⟩ := key _ h1
      cases e1

/-! ### what it does with one new time per gap and one column -/

/-- Positions of the new times in front of the ends of their gaps. -/
def segIdx : List GapSeg → List ℕ
  | [] => []
  | (none, _) :: l => (segIdx l).map (· + 1)
  | (some _, _) :: l => 0 :: (segIdx l).map (· + 1)

/-- Old entries with the new ones in front of the ends of their gaps. -/
def segMerge {α : Type} (f : GapSeg → α) : List GapSeg → List α → List α
  | [], _ => []
  | (none, q) :: l, vals => f (none, q) :: segMerge f l vals
  | (some a, q) :: l, v :: vals => v :: f (some a, q) :: segMerge f l vals
  | (some a, q) :: l, [] => f (some a, q) :: segMerge f l []

theorem searchRight_cons (a : ℝ) (l : List ℝ) (v : ℝ) : searchRight (a :: l) v = if a ≤ v then searchRight l v + 1 else 0 := by
  unfold searchRight
  by_cases h : a ≤ v <;> simp [List.takeWhile, h]

theorem segs_gt : ∀ (l : List GapSeg) (t0 : ℝ), SegsOk t0 l → ∀ a ∈ l.filterMap Prod.fst, t0 < a
  | [], _, _, a, ha => by simp at ha
  | (none, t, x) :: l, t0, h, a, ha => h.1.trans (segs_gt l t h.2.2 a (by simpa using ha))
  | (some r, t, x) :: l, t0, h, a, ha => by
    have ha : a = r ∨ a ∈ l.filterMap Prod.fst := by simpa using ha
    rcases ha with rfl | ha
    · exact (h.2.1 a rfl).1
    · exact h.1.trans (segs_gt l t h.2.2 a ha)

theorem segs_search : ∀ (l : List GapSeg) (t0 : ℝ), SegsOk t0 l →
    (l.filterMap Prod.fst).map (searchRight (t0 :: l.map fun s => s.2.1)) = (segIdx l).map (· + 1)
  | [], _, _ => rfl
  | (none, t, x) :: l, t0, h => by
    have ih := segs_search l t h.2.2
    simp only [List.filterMap_cons_none, segIdx, List.map_cons, ← ih, List.map_map]
    refine List.map_congr_left fun a ha => ?_
    rw [searchRight_cons t0, if_pos (segs_gt ((none, t, x) :: l) t0 h a (by simpa using ha)).le]
    rfl
  | (some r, t, x) :: l, t0, h => by
    have ih := segs_search l t h.2.2
    have hr := h.2.1 r rfl
    rw [show ((some r, t, x) :: l).filterMap Prod.fst = r :: l.filterMap Prod.fst from rfl]
    simp only [segIdx, List.map_cons, ← ih, List.map_map, List.cons.injEq]
    refine ⟨?_, List.map_congr_left fun a ha => ?_⟩
    · rw [searchRight_cons, if_pos hr.1.le, searchRight_cons, if_neg (not_le.2 hr.2)]
    · rw [searchRight_cons t0, if_pos (segs_gt ((some r, t, x) :: l) t0 h a (List.mem_cons_of_mem _ ha)).le]
      rfl

theorem segIdx_sorted : ∀ l : List GapSeg, (segIdx l).Pairwise (· < ·)
  | [] => .nil
  | (none, q) :: l => List.pairwise_map.2 ((segIdx_sorted l).imp fun h => by omega)
  | (some a, q) :: l => by
    refine List.pairwise_cons.2 ⟨fun i hi => ?_, List.pairwise_map.2 ((segIdx_sorted l).imp fun h => by omega)⟩
    obtain ⟨j, -, rfl⟩ := List.mem_map.1 hi
    omega

theorem segIdx_lt : ∀ (l : List GapSeg), ∀ i ∈ segIdx l, i < l.length
  | [], i, hi => by simp [segIdx] at hi
  | (none, q) :: l, i, hi => by
    obtain ⟨j, hj, rfl⟩ := List.mem_map.1 hi
    have := segIdx_lt l j hj
    simpa using this
  | (some a, q) :: l, i, hi => by
    rcases List.mem_cons.1 hi with rfl | hi
    · simp
    · obtain ⟨j, hj, rfl⟩ := List.mem_map.1 hi
      have := segIdx_lt l j hj
      simpa using this

theorem segIdx_seg : ∀ (l : List GapSeg), ∀ i ∈ segIdx l, ∃ r t x, l[i]? = some (some r, t, x)
  | [], i, hi => by simp [segIdx] at hi
  | (none, q) :: l, i, hi => by
    obtain ⟨j, hj, rfl⟩ := List.mem_map.1 hi
    simpa using segIdx_seg l j hj
  | (some a, q) :: l, i, hi => by
    rcases List.mem_cons.1 hi with rfl | hi
    · exact ⟨a, q.1, q.2, rfl⟩
    · obtain ⟨j, hj, rfl⟩ := List.mem_map.1 hi
      simpa using segIdx_seg l j hj

theorem segIdx_length : ∀ l : List GapSeg, (segIdx l).length = (l.filterMap Prod.fst).length
  | [] => rfl
  | (none, q) :: l => by simp [segIdx, segIdx_length l]
  | (some a, q) :: l => by simp [segIdx, segIdx_length l]

theorem npUnique_sorted {n : ℕ} {idx : List ℕ} (h : idx.Pairwise (· < ·)) (hn : ∀ i ∈ idx, i ≤ n) : npUnique n idx = idx := by
  have hs : (npUnique n idx).Pairwise (· < ·) := (List.pairwise_lt_range).filter _
  refine List.Perm.eq_of_pairwise (fun a b _ _ h1 h2 => absurd h1 (by omega)) hs h ?_
  refine (List.perm_ext_iff_of_nodup (hs.imp fun h => by omega) (h.imp fun h => by omega)).2 fun i => ?_
  rw [mem_npUnique]
  exact ⟨fun h => h.2, fun h => ⟨hn i h, h⟩⟩

theorem npInsert_succ {α : Type} (a : α) (l : List α) (idx : List ℕ) (vals : List α) : npInsert (a :: l) (idx.map (· + 1)) vals = a :: npInsert l idx vals := by
  unfold npInsert
  rw [List.length_cons, List.range_succ_eq_map, List.flatMap_cons, List.flatMap_map, select_none]
  · simp [Function.comp_def]
  · intro b hb
    simp only [List.map_map, List.mem_map, Function.comp_apply] at hb
    obtain ⟨i, -, rfl⟩ := hb
    simp

theorem npInsert_merge {α : Type} (f : GapSeg → α) : ∀ (l : List GapSeg) (vals : List α), vals.length = (segIdx l).length →
    npInsert (l.map f) (segIdx l) vals = segMerge f l vals
  | [], vals, h => by
    have : vals = [] := by simpa [segIdx] using h
    subst this
    rfl
  | (none, q) :: l, vals, h => by
    rw [List.map_cons, segIdx, npInsert_succ, npInsert_merge f l vals (by simpa [segIdx] using h), segMerge]
  | (some a, q) :: l, [], h => by simp [segIdx] at h
  | (some a, q) :: l, v :: vals, h => by
    rw [List.map_cons, segIdx, npInsert_cons (by simp) (by simp), segMerge, List.take_zero, List.nil_append, List.drop_zero,
      ← npInsert_merge f l vals (by simpa [segIdx] using h), ← npInsert_succ (f (some a, q))]
    simp [Function.comp_def]

theorem segPos_zip : ∀ (l : List GapSeg) (k m : ℕ), List.zipWith (· + ·) ((segIdx l).map (· + k)) (List.range' m (segIdx l).length) = segPos (k + m) l
  | [], _, _ => rfl
  | (none, q) :: l, k, m => by
    have := segPos_zip l (k + 1) m
    rw [segIdx, segPos, show k + m + 1 = k + 1 + m by omega, ← this, List.map_map, List.length_map]
    congr 2
    funext i
    simp only [Function.comp_apply]
    omega
  | (some a, q) :: l, k, m => by
    have := segPos_zip l (k + 1) (m + 1)
    rw [segIdx, segPos, show k + m + 2 = k + 1 + (m + 1) by omega, ← this, List.map_cons, List.map_map, List.length_cons, List.length_map, List.range'_succ,
      List.zipWith_cons_cons]
    congr 1
    · omega
    · congr 2
      funext i
      simp only [Function.comp_apply]
      omega

/-- One point of a bridge. -/
theorem brownbr_point {s T a b : ℝ} (h0 : 0 < s) (hT : s < T) :
    sampleBrownbr [s] T a b = .real (.normal 0 1) fun z => .ret [((T - s) * a + s * b) / T + Real.sqrt (s * (T - s) / T) * z] := by
  have h1 : 0 < T := h0.trans hT
  have h2 : 0 < T - s := sub_pos.2 hT
  have hq : 0 < Real.sqrt T := Real.sqrt_pos.2 h1
  have e : s / T / (1 - s / T) = s / (T - s) := by field_simp
  have e2 : Real.sqrt T * (1 - s / T) * Real.sqrt (s / (T - s)) = Real.sqrt (s * (T - s) / T) := by
    have : 1 - s / T = (T - s) / T := by field_simp
    rw [this, ← Real.sqrt_sq (div_pos h2 h1).le, ← Real.sqrt_mul h1.le, ← Real.sqrt_mul (by positivity)]
    congr 1
    field_simp
  unfold sampleBrownbr
  rw [if_neg (by simp), Prog.assert, if_pos (by simpa using ⟨h0, hT⟩), Prog.ret_bind]
  unfold sampleWiener
  simp only [List.map_cons, List.map_nil, e]
  have hp : 0 < s / (T - s) := by positivity
  rw [if_neg (by simp), Prog.assert, if_pos (by simpa using hp), Prog.ret_bind, if_neg (by simpa [ediffBegin, npDiff] using hp.le)]
  simp only [List.length_cons, List.length_nil, Nat.zero_add, Prog.replicate, Prog.draw, Prog.real_bind, Prog.ret_bind, wienerIncs, ediffBegin, npDiff,
    List.zipWith_cons_cons, List.zipWith_nil_left, npCumsum, List.map_cons, List.map_nil]
  congr 1; funext z
  simp only [cumsumFrom, List.map_cons, List.map_nil, List.zipWith_cons_cons, List.zipWith_nil_left, zero_add]
  congr 2
  rw [← e2]
  field_simp
  ring

theorem filter_map_nodup {α : Type} {g : α → ℕ} : ∀ {l : List α} {a : α}, (l.map g).Nodup → a ∈ l → (l.filter fun b => decide (g b = g a)) = [a]
  | [], _, _, h => by simp at h
  | c :: l, a, hn, h => by
    rw [List.map_cons, List.nodup_cons] at hn
    rcases List.mem_cons.1 h with rfl | h
    · rw [List.filter_cons_of_pos (by simp), List.filter_eq_nil_iff.2]
      intro b hb
      simp only [decide_eq_true_eq]
      intro e
      exact hn.1 (e ▸ List.mem_map_of_mem hb)
    · rw [List.filter_cons_of_neg, filter_map_nodup hn.2 h]
      simp only [decide_eq_true_eq]
      intro e
      exact hn.1 (e ▸ List.mem_map_of_mem h)

theorem seg_at : ∀ (l : List GapSeg) (t0 : ℝ), SegsOk t0 l → ∀ (j : ℕ) (r t x : ℝ), l[j]? = some (some r, t, x) →
    r ∈ l.filterMap Prod.fst ∧ searchRight (t0 :: l.map fun s => s.2.1) r = j + 1 ∧ (t0 :: l.map fun s => s.2.1).getD j 0 < r ∧ r < t
  | [], _, _, j, r, t, x, h => by simp at h
  | (o, t', x') :: l, t0, hk, 0, r, t, x, h => by
    simp only [List.getElem?_cons_zero, Option.some.injEq, Prod.mk.injEq] at h
    obtain ⟨rfl, rfl, rfl⟩ := h
    have hr := hk.2.1 r rfl
    refine ⟨by simp, ?_, by simpa using hr.1, hr.2⟩
    rw [searchRight_cons, if_pos hr.1.le, List.map_cons, searchRight_cons, if_neg (not_le.2 hr.2)]
  | (o, t', x') :: l, t0, hk, j + 1, r, t, x, h => by
    obtain ⟨h1, h2, h3, h4⟩ := seg_at l t' hk.2.2 j r t x (by simpa using h)
    have hm : r ∈ ((o, t', x') :: l).filterMap Prod.fst := by
      cases o <;> simp_all
    refine ⟨hm, ?_, by simpa using h3, h4⟩
    rw [searchRight_cons, if_pos (segs_gt _ t0 hk r hm).le, List.map_cons, h2]

/-- The bridges of all sectors are the draws of the reference. -/
theorem seg_prog {f : ℕ → Prog (List ℝ)} : ∀ (l : List GapSeg) (t0 x0 : ℝ) (k : ℕ), (∀ (j : ℕ) (r t x : ℝ), l[j]? = some (some r, t, x) →
      f (j + k) = .real (.normal 0 1) fun z => .ret [((t - r) * (x0 :: l.map fun s => s.2.2).getD j 0 + (r - (t0 :: l.map fun s => s.2.1).getD j 0) * x) /
        (t - (t0 :: l.map fun s => s.2.1).getD j 0) + Real.sqrt ((r - (t0 :: l.map fun s => s.2.1).getD j 0) * (t - r) / (t - (t0 :: l.map fun s => s.2.1).getD j 0)) * z]) →
    segPath t0 x0 l = (Prog.mapM' f ((segIdx l).map (· + k))).bind fun rows =>
      .ret ((segMerge (fun s => s.2.1) l (l.filterMap Prod.fst)).zip (segMerge (fun s => s.2.2) l (rows.map fun y => y.getD 0 0)))
  | [], _, _, _, _ => rfl
  | (none, t, x) :: l, t0, x0, k, h => by
    have ih := seg_prog (f := f) l t x (k + 1) fun j r t' x' hj => by
      have := h (j + 1) r t' x' (by simpa using hj)
      rw [show j + (k + 1) = j + 1 + k by omega, this]
      simp
    rw [segPath, ih, segIdx, List.map_map, Prog.bind_assoc]
    have : ((fun x => x + k) ∘ fun x => x + 1) = fun x => x + (k + 1) := by
      funext i
      simp only [Function.comp_apply]
      omega
    rw [this]
    rfl
  | (some r, t, x) :: l, t0, x0, k, h => by
    have ih := seg_prog (f := f) l t x (k + 1) fun j r t' x' hj => by
      have := h (j + 1) r t' x' (by simpa using hj)
      rw [show j + (k + 1) = j + 1 + k by omega, this]
      simp
    have h0 := h 0 r t x rfl
    have : ((fun x => x + k) ∘ fun x => x + 1) = fun x => x + (k + 1) := by
      funext i
      simp only [Function.comp_apply]
      omega
    rw [segPath, ih, segIdx, List.map_cons, List.map_map, this, Prog.mapM', h0]
    simp only [Prog.real_bind, Prog.ret_bind, Prog.bind_assoc]
    rfl

theorem merge_map {α β : Type} (g : α → β) (f : GapSeg → α) : ∀ (l : List GapSeg) (vals : List α), (segMerge f l vals).map g = segMerge (fun s => g (f s)) l (vals.map g)
  | [], _ => rfl
  | (none, q) :: l, vals => by simp [segMerge, merge_map g f l]
  | (some a, q) :: l, [] => by simpa [segMerge] using merge_map g f l []
  | (some a, q) :: l, v :: vals => by simp [segMerge, merge_map g f l]

theorem merge_length {α : Type} (f : GapSeg → α) : ∀ (l : List GapSeg) (vals : List α), vals.length = (segIdx l).length →
    (segMerge f l vals).length = l.length + (segIdx l).length
  | [], _, _ => rfl
  | (none, q) :: l, vals, h => by
    have := merge_length f l vals (by simpa [segIdx] using h)
    simp [segMerge, segIdx, this]
    omega
  | (some a, q) :: l, [], h => by simp [segIdx] at h
  | (some a, q) :: l, v :: vals, h => by
    have := merge_length f l vals (by simpa [segIdx] using h)
    simp [segMerge, segIdx, this]
    omega

theorem mapM'_bind_congr {α β γ : Type} {f : α → Prog β} {P : β → Prop} : ∀ {l : List α} {K K' : List β → Prog γ},
    (∀ a ∈ l, ∀ {k k' : β → Prog γ}, (∀ b, P b → k b = k' b) → (f a).bind k = (f a).bind k') →
    (∀ bs : List β, bs.length = l.length → (∀ b ∈ bs, P b) → K bs = K' bs) → (Prog.mapM' f l).bind K = (Prog.mapM' f l).bind K'
  | [], K, K', _, h => by simpa [Prog.mapM'] using h [] rfl (by simp)
  | a :: l, K, K', hf, h => by
    simp only [Prog.mapM', Prog.bind_assoc, Prog.ret_bind]
    refine hf a (by simp) fun b hb => mapM'_bind_congr (P := P) (fun a ha => hf a (List.mem_cons_of_mem _ ha)) fun bs hl hbs => ?_
    refine h (b :: bs) (by simp [hl]) fun c hc => ?_
    rcases List.mem_cons.1 hc with rfl | hc
    · exact hb
    · exact hbs c hc

/-- The bridge of the gap with index `j`. -/
theorem seg_sector {t0 x0 : ℝ} {l : List GapSeg} (h : SegsOk t0 l) {j : ℕ} {r t x : ℝ} (hj : l[j]? = some (some r, t, x)) :
    fillVecSector (t0 :: l.map fun s => s.2.1) ([x0] :: l.map fun s => [s.2.2]) (l.filterMap Prod.fst) (j + 1) =
      .real (.normal 0 1) fun z => .ret [((t - r) * (x0 :: l.map fun s => s.2.2).getD j 0 + (r - (t0 :: l.map fun s => s.2.1).getD j 0) * x) /
        (t - (t0 :: l.map fun s => s.2.1).getD j 0) + Real.sqrt ((r - (t0 :: l.map fun s => s.2.1).getD j 0) * (t - r) / (t - (t0 :: l.map fun s => s.2.1).getD j 0)) * z] := by
  obtain ⟨h1, h2, h3, h4⟩ := seg_at l t0 h j r t x hj
  have hl : j < l.length := (List.getElem?_eq_some_iff.1 hj).1
  have hd : ((l.filterMap Prod.fst).map (searchRight (t0 :: l.map fun s => s.2.1))).Nodup := by
    rw [segs_search l t0 h]
    exact List.pairwise_map.2 ((segIdx_sorted l).imp fun h => by omega)
  have hf := filter_map_nodup hd h1
  rw [h2] at hf
  set T : ℝ := (t0 :: l.map fun s => s.2.1).getD j 0 with hT
  have g1 : pyGet (t0 :: l.map fun s => s.2.1) (((j + 1 : ℕ) : ℤ) - 1) = some T := by
    unfold pyGet
    rw [if_pos (by push_cast; omega), show (((j + 1 : ℕ) : ℤ) - 1).toNat = j by push_cast; omega, hT, List.getD_eq_getElem?_getD,
      List.getElem?_eq_getElem (by simp; omega)]
    rfl
  have g2 : pyGet (t0 :: l.map fun s => s.2.1) ((j + 1 : ℕ) : ℤ) = some t := by
    unfold pyGet
    rw [if_pos (by positivity), Int.toNat_natCast, List.getElem?_cons_succ, List.getElem?_map, hj]
    rfl
  have g3 : pyGet ([x0] :: l.map fun s => [s.2.2]) (((j + 1 : ℕ) : ℤ) - 1) = some [(x0 :: l.map fun s => s.2.2).getD j 0] := by
    unfold pyGet
    rw [if_pos (by push_cast; omega), show (((j + 1 : ℕ) : ℤ) - 1).toNat = j by push_cast; omega]
    cases j with
    | zero => rfl
    | succ j =>
      rw [List.getElem?_cons_succ, List.getElem?_map, List.getD_cons_succ, List.getD_eq_getElem?_getD, List.getElem?_map,
        List.getElem?_eq_getElem (show j < l.length by omega)]
      rfl
  have g4 : pyGet ([x0] :: l.map fun s => [s.2.2]) ((j + 1 : ℕ) : ℤ) = some [x] := by
    unfold pyGet
    rw [if_pos (by positivity), Int.toNat_natCast, List.getElem?_cons_succ, List.getElem?_map, hj]
    rfl
  unfold fillVecSector
  simp only [g1, g2, g3, g4, hf, List.map_cons, List.map_nil, brownbrRows]
  rw [brownbr_point (sub_pos.2 h3) (by linarith), show t - T - (r - T) = t - r by ring]

theorem segs_le : ∀ (l : List GapSeg) (t0 : ℝ), SegsOk t0 l → ∀ s ∈ l, t0 ≤ s.2.1
  | [], _, _, s, hs => by simp at hs
  | (o, t, x) :: l, t0, h, s, hs => by
    rcases List.mem_cons.1 hs with rfl | hs
    · exact h.1.le
    · exact h.1.le.trans (segs_le l t h.2.2 s hs)

theorem segs_end : ∀ (l : List GapSeg) (t0 : ℝ), SegsOk t0 l → ∃ s ∈ t0 :: l.map (fun s => s.2.1), ∀ r ∈ l.filterMap Prod.fst, r ≤ s
  | [], t0, _ => ⟨t0, by simp, by simp⟩
  | (o, t, x) :: l, t0, h => by
    obtain ⟨s, hs, hr⟩ := segs_end l t h.2.2
    have hts : t ≤ s := by
      rcases List.mem_cons.1 hs with rfl | hs'
      · exact le_rfl
      · obtain ⟨q, hq, rfl⟩ := List.mem_map.1 hs'
        exact segs_le l t h.2.2 q hq
    refine ⟨s, List.mem_cons_of_mem _ hs, fun r hm => ?_⟩
    cases o with
    | none => exact hr r (by simpa using hm)
    | some a =>
      rcases List.mem_cons.1 (show r ∈ a :: l.filterMap Prod.fst from hm) with rfl | hm
      · exact (h.2.1 r rfl).2.le.trans hts
      · exact hr r hm

/-- One column and at most one new time in every gap, strictly inside it: the path is filled with independent points of Brownian bridges, in the order of
time, and the positions of the new points are returned.  What is missing are several new times in a gap, several columns and new times that are old ones,
for which the function raises. -/
theorem C107_partial {t0 x0 : ℝ} {l : List GapSeg} (h0 : 0 ≤ t0) (h : SegsOk t0 l) (hne : l.filterMap Prod.fst ≠ []) :
    fillVec (t0 :: l.map fun s => s.2.1) ([x0] :: l.map fun s => [s.2.2]) (l.filterMap Prod.fst) =
      (segPath t0 x0 l).bind fun p => .ret (t0 :: p.map Prod.fst, [x0] :: p.map fun q => [q.2], segPos 1 l) := by
  unfold fillVec
  have a1 : ∀ s ∈ t0 :: l.map fun s => s.2.1, 0 ≤ s := by
    intro s hs
    rcases List.mem_cons.1 hs with rfl | hs
    · exact h0
    · obtain ⟨q, hq, rfl⟩ := List.mem_map.1 hs
      exact h0.trans (segs_le l t0 h q hq)
  rw [if_neg (by simp), Prog.assert, if_pos a1, Prog.ret_bind, if_neg hne, Prog.assert, if_pos ⟨⟨t0, by simp, segs_gt l t0 h⟩, segs_end l t0 h⟩, Prog.ret_bind,
    Prog.assert, if_pos (by simp), Prog.ret_bind]
  have hu : npUnique (t0 :: l.map fun s => s.2.1).length ((segIdx l).map (· + 1)) = (segIdx l).map (· + 1) := by
    refine npUnique_sorted (List.pairwise_map.2 ((segIdx_sorted l).imp fun h => by omega)) fun i hi => ?_
    obtain ⟨k, hk, rfl⟩ := List.mem_map.1 hi
    have := segIdx_lt l k hk
    simp
    omega
  simp only [segs_search l t0 h, hu]
  rw [seg_prog (f := fillVecSector (t0 :: l.map fun s => s.2.1) ([x0] :: l.map fun s => [s.2.2]) (l.filterMap Prod.fst)) l t0 x0 1
    fun j r t x hj => seg_sector h hj, Prog.bind_assoc]
  refine mapM'_bind_congr (P := fun y => y.length = 1) ?_ fun rows hr hy => ?_
  · intro i hi k k' hk
    obtain ⟨j, hj, rfl⟩ := List.mem_map.1 hi
    obtain ⟨r, t, x, e⟩ := segIdx_seg l j hj
    rw [seg_sector h e, Prog.real_bind, Prog.real_bind]
    simp only [Prog.ret_bind]
    congr 1
    funext z
    exact hk _ rfl
  · rw [List.length_map] at hr
    rw [if_pos (List.all_eq_true.2 fun y hm => by simpa using hy y hm), Prog.ret_bind, npInsert_succ, npInsert_succ,
      npInsert_merge (fun s => s.2.1) l _ (segIdx_length l).symm, npInsert_merge (fun s => [s.2.2]) l rows hr]
    have hz : (segMerge (fun s => s.2.1) l (l.filterMap Prod.fst)).length = (segMerge (fun s => s.2.2) l (rows.map fun y => y.getD 0 0)).length := by
      rw [merge_length _ _ _ (segIdx_length l).symm, merge_length _ _ _ (by simpa using hr)]
    congr 3
    · rw [List.map_fst_zip hz.le]
    · have : (fun q : ℝ × ℝ => [q.2]) = (fun v => [v]) ∘ Prod.snd := rfl
      rw [this, ← List.map_map, List.map_snd_zip hz.ge, merge_map, List.map_map]
      congr 2
      refine (List.map_id rows).symm.trans (List.map_congr_left fun y hm => ?_)
      have := hy y hm
      obtain ⟨v, rfl⟩ := List.length_eq_one_iff.1 this
      rfl
    · rw [← segPos_zip l 1 0, List.length_map, List.range_eq_range']

/-- A path from 0 to 4 with values at 0, 2 and 4 and new times 1 and 3. -/
example : fillVec [0, 2, 4] [[1], [3], [0]] [1, 3] = .real (.normal 0 1) fun z => .real (.normal 0 1) fun z' =>
    .ret ([0, 1, 2, 3, 4], [[1], [2 + Real.sqrt (1 / 2) * z], [3], [3 / 2 + Real.sqrt (1 / 2) * z'], [0]], [1, 3]) := by
  have := C107_partial (t0 := 0) (x0 := 1) (l := [(some 1, 2, 3), (some 3, 4, 0)]) le_rfl (by norm_num [SegsOk]) (by simp)
  norm_num [segPath, segPos, Prog.real_bind, Prog.ret_bind] at this
  simpa using this

example : ¬ (([1 / 3, 2 / 3] : List ℝ).map (searchRight [0, 1])).Nodup := by norm_num [searchRight, List.takeWhile]

end Ctb
