import Verif.Lemmas.Path
import Mathlib.Data.List.Chain

/-! Helper lemmas about `partitionSkeleton` and `pastePartition`. -/

set_option linter.unusedSectionVars false

namespace Ctb

variable {K : Type} [Field K] [LinearOrder K] [IsStrictOrderedRing K]

/-! ## decomposition of sorted jump lists -/

theorem filter_split {α : Type} {r : α → α → Prop} {l : List α} (h : l.Pairwise r) (q : α → Bool)
    (hq : ∀ a b, r a b → q b = true → q a = true) : l = l.filter q ++ l.filter (fun a => !q a) := by
  induction l with
  | nil => rfl
  | cons a l ih =>
    rw [List.pairwise_cons] at h
    by_cases ha : q a = true
    · simp only [List.filter_cons, ha, if_true, Bool.not_true, Bool.false_eq_true, if_false, List.cons_append]
      rw [← ih h.2]
    · have h0 : ∀ b ∈ l, q b = false := by
        intro b hb
        by_contra hb'
        exact ha (hq a b (h.1 b hb) (by simpa using hb'))
      have h1 : l.filter q = [] := by
        rw [List.filter_eq_nil_iff]; intro b hb; simp [h0 b hb]
      have h2 : l.filter (fun a => !q a) = l := by
        rw [List.filter_eq_self]; intro b hb; simp [h0 b hb]
      simp [List.filter_cons, ha, h1, h2]

/-- One piece of the partition, between consecutive breakpoints `a` and `b`. -/
def pieceOf (sk : Skel K) (a b : K) : Skel K :=
  let t := (0 : K) :: (pySlice sk.t (searchRight sk.t a : ℤ) (searchLeft sk.t b : ℤ)).map (· - a)
  ⟨t, pySlice sk.xt ((searchRight sk.t a : ℤ) - 1) ((searchRight sk.t a : ℤ) - 1 + t.length), b - a⟩

/-- Pieces between consecutive breakpoints. -/
def piecesOf (sk : Skel K) : List K → List (Skel K)
  | a :: b :: l => pieceOf sk a b :: piecesOf sk (b :: l)
  | _ => []

theorem partitionSkeleton_eq (sk : Skel K) (new_t : List K) :
    partitionSkeleton sk new_t = piecesOf sk (0 :: (new_t ++ [sk.fin])) := by
  unfold partitionSkeleton
  simp only
  generalize sk.fin = c
  suffices H : ∀ (L : List K) (a : K),
      (((((a :: L).zip (((a :: L).map (searchRight sk.t)).zip ((a :: L).map (searchLeft sk.t)).tail)).map fun p =>
          (0 : K) :: (pySlice sk.t (p.2.1 : ℤ) (p.2.2 : ℤ)).map (· - p.1))).zip
        (((((a :: L).map (searchRight sk.t)).zip
          (((a :: L).zip (((a :: L).map (searchRight sk.t)).zip ((a :: L).map (searchLeft sk.t)).tail)).map fun p =>
          (0 : K) :: (pySlice sk.t (p.2.1 : ℤ) (p.2.2 : ℤ)).map (· - p.1))).map fun p =>
            pySlice sk.xt ((p.1 : ℤ) - 1) ((p.1 : ℤ) - 1 + p.2.length)).zip
          (npDiff ((a :: L) ++ [c])))).map (fun p => (⟨p.1, p.2.1, p.2.2⟩ : Skel K)) = piecesOf sk (a :: L) by
    exact H (new_t ++ [c]) 0
  intro L
  induction L with
  | nil => intro a; simp [piecesOf]
  | cons b L ih =>
    intro a
    have := ih b
    simp only [List.map_cons, List.tail_cons, List.zip_cons_cons, List.cons_append, npDiff, piecesOf, pieceOf] at this ⊢
    rw [← this]

theorem Skel.t_eq_of_len {sk : Skel K} (h : sk.t.length = sk.xt.length) :
    sk.t = sk.jumps.map Prod.fst ∧ sk.xt = sk.jumps.map Prod.snd := by
  constructor
  · exact (List.map_fst_zip (l₁ := sk.t) (l₂ := sk.xt) (by omega)).symm
  · exact (List.map_snd_zip (l₁ := sk.t) (l₂ := sk.xt) (by omega)).symm

theorem Skel.Valid.jumps_inc {sk : Skel K} (h : sk.Valid) : sk.jumps.Pairwise fun p q => p.1 < q.1 := by
  have := h.inc
  rw [(Skel.t_eq_of_len h.len).1, List.pairwise_map] at this
  exact this

theorem Skel.Valid.jumps_head {sk : Skel K} (h : sk.Valid) : ∃ x l, sk.jumps = (0, x) :: l := by
  have h1 := h.head; have h2 := h.len
  unfold Skel.jumps
  cases ht : sk.t with
  | nil => simp [ht] at h1
  | cons a t =>
    cases hx : sk.xt with
    | nil => simp [ht, hx] at h2
    | cons x xt => simp [ht] at h1; subst h1; exact ⟨x, t.zip xt, rfl⟩

theorem Skel.Valid.jumps_lt {sk : Skel K} (h : sk.Valid) : ∀ p ∈ sk.jumps, p.1 < sk.fin := by
  intro p hp
  exact h.lt _ (List.of_mem_zip (a := p.1) (b := p.2) hp).1

theorem Skel.Valid.fin_pos {sk : Skel K} (h : sk.Valid) : 0 < sk.fin := by
  obtain ⟨x, l, hl⟩ := h.jumps_head
  exact h.jumps_lt (0, x) (by simp [hl])

theorem searchRight_map {l : List (K × ℕ)} (h : l.Pairwise fun p q => p.1 < q.1) (a : K) :
    searchRight (l.map Prod.fst) a = (l.filter fun p => p.1 ≤ a).length := by
  unfold searchRight
  rw [takeWhile_eq_filter_le, List.filter_map, List.length_map]; rfl
  rw [List.pairwise_map]; exact h.imp fun h => h.le

theorem searchLeft_map {l : List (K × ℕ)} (h : l.Pairwise fun p q => p.1 < q.1) (a : K) :
    searchLeft (l.map Prod.fst) a = (l.filter fun p => p.1 < a).length := by
  unfold searchLeft
  rw [takeWhile_eq_filter_lt, List.filter_map, List.length_map]; rfl
  rw [List.pairwise_map]; exact h.imp fun h => h.le

theorem pySlice_nat {α : Type} (l : List α) (a b : ℕ) (ha : a ≤ l.length) (hb : b ≤ l.length) :
    pySlice l (a : ℤ) (b : ℤ) = (l.take b).drop a := by
  unfold pySlice pyClip
  simp [ha, hb]

/-- Decomposition of a jump list at breakpoints `a ≤ b`. -/
theorem jumps_decomp {l : List (K × ℕ)} (h : l.Pairwise fun p q => p.1 < q.1) {a b : K} (hab : a ≤ b)
    (h0 : ∃ p ∈ l, p.1 ≤ a) :
    ∃ (A : List (K × ℕ)) (p : K × ℕ) (C : List (K × ℕ)),
      l = A ++ p :: ((l.filter fun q => a < q.1 ∧ q.1 < b) ++ C) ∧ stAt l a = some p.2 ∧ p.1 ≤ a ∧
      (l.filter fun p => p.1 ≤ a).length = A.length + 1 ∧
      (a < b → (l.filter fun p => p.1 < b).length =
        A.length + 1 + (l.filter fun q => a < q.1 ∧ q.1 < b).length) ∧
      (a = b → (l.filter fun p => p.1 < b).length ≤ A.length + 1 ∧ (l.filter fun q => a < q.1 ∧ q.1 < b) = []) := by
  have s1 := filter_split h (fun p => p.1 ≤ a) (by
    intro p q hpq hq; simp at hq ⊢; exact le_trans hpq.le hq)
  have hne : (l.filter fun p => decide (p.1 ≤ a)) ≠ [] := by
    obtain ⟨p, hp, hpa⟩ := h0
    intro hn
    have : p ∈ l.filter fun p => decide (p.1 ≤ a) := by simp [hp, hpa]
    rw [hn] at this; simp at this
  have s2 := filter_split (h.sublist (List.filter_sublist (p := fun p => !decide (p.1 ≤ a)))) (fun p => decide (p.1 < b)) (by
    intro p q hpq hq; simp at hq ⊢; exact lt_trans hpq hq)
  rw [List.filter_filter, List.filter_filter] at s2
  have hB : (l.filter fun p => decide (p.1 < b) && !decide (p.1 ≤ a)) = l.filter fun q => a < q.1 ∧ q.1 < b := by
    apply List.filter_congr; intro p _; by_cases h1 : p.1 ≤ a <;> by_cases h2 : p.1 < b <;> simp [h1, h2, not_le.1, not_lt.2, lt_of_not_ge]
  rw [hB] at s2
  refine ⟨(l.filter fun p => decide (p.1 ≤ a)).dropLast, (l.filter fun p => decide (p.1 ≤ a)).getLast hne,
    l.filter fun p => (!decide (p.1 < b)) && !decide (p.1 ≤ a), ?_, ?_, ?_, ?_, ?_, ?_⟩
  · conv_lhs => rw [s1, s2]
    conv_lhs => rw [← List.dropLast_append_getLast hne]
    simp
  · unfold stAt; rw [List.getLast?_eq_some_getLast hne]; rfl
  · have := List.getLast_mem hne
    rw [List.mem_filter] at this; simpa using this.2
  · rw [List.length_dropLast]
    have := List.length_pos_iff.2 hne; omega
  · intro hlt
    have e : (l.filter fun p => decide (p.1 < b)) = (l.filter fun p => decide (p.1 ≤ a)) ++ (l.filter fun q => a < q.1 ∧ q.1 < b) := by
      conv_lhs => rw [s1]
      rw [List.filter_append, List.filter_filter, List.filter_filter]
      congr 1
      · apply List.filter_congr; intro p _
        by_cases hp : p.1 ≤ a
        · simp [hp, lt_of_le_of_lt hp hlt]
        · simp [hp]
    rw [e, List.length_append, List.length_dropLast]
    have := List.length_pos_iff.2 hne; omega
  · intro he
    subst he
    refine ⟨?_, ?_⟩
    · rw [List.length_dropLast]
      have h1 : (l.filter fun p => decide (p.1 < a)).length ≤ (l.filter fun p => decide (p.1 ≤ a)).length := by
        have : (l.filter fun p => decide (p.1 < a)) = (l.filter fun p => decide (p.1 ≤ a)).filter fun p => decide (p.1 < a) := by
          rw [List.filter_filter]; apply List.filter_congr; intro p _
          by_cases hp : p.1 < a
          · simp [hp, hp.le]
          · simp [hp]
        rw [this]; exact List.length_filter_le _ _
      have := List.length_pos_iff.2 hne; omega
    · rw [List.filter_eq_nil_iff]; intro p _; simp only [decide_eq_true_eq, not_and, not_lt]; exact fun h => h.le

/-- Jumps of one piece. -/
theorem pieceOf_jumps {sk : Skel K} (hv : sk.Valid) {a b : K} (ha : 0 ≤ a) (hab : a ≤ b) :
    ∃ x, sk.stateAt a = some x ∧
      (pieceOf sk a b).t.length = (pieceOf sk a b).xt.length ∧
      (pieceOf sk a b).jumps = (0, x) :: shift (-a) (sk.jumps.filter fun q => a < q.1 ∧ q.1 < b) := by
  obtain ⟨x0, l0, hl0⟩ := hv.jumps_head
  obtain ⟨A, p, C, hl, hst, hpa, hR, hL1, hL2⟩ := jumps_decomp hv.jumps_inc hab ⟨(0, x0), by simp [hl0], ha⟩
  refine ⟨p.2, hst, ?_⟩
  obtain ⟨ht, hx⟩ := Skel.t_eq_of_len hv.len
  set l := sk.jumps with hldef
  set B := l.filter fun q => decide (a < q.1 ∧ q.1 < b) with hB
  have hsr : searchRight sk.t a = A.length + 1 := by rw [ht, searchRight_map hv.jumps_inc, ← hR]
  have hlen : l.length = A.length + 1 + (B.length + C.length) := by
    have := congrArg List.length hl; simp at this; rw [this]; omega
  have htl : sk.t.length = l.length := by rw [ht]; simp
  have hxl : sk.xt.length = l.length := by rw [hx]; simp
  have hslice : pySlice sk.t (searchRight sk.t a : ℤ) (searchLeft sk.t b : ℤ) = B.map Prod.fst := by
    have hsl : searchLeft sk.t b = (l.filter fun p => decide (p.1 < b)).length := by
      rw [ht, searchLeft_map hv.jumps_inc]
    rw [pySlice_nat _ _ _ (by omega) (by rw [hsl, htl]; exact List.length_filter_le _ _), hsr]
    rcases lt_or_eq_of_le hab with h | h
    · rw [hsl, hL1 h, ht]
      conv_lhs => rw [hl]
      rw [← List.map_take, ← List.map_drop]
      congr 1
      rw [List.take_append, List.drop_append]
      simp [Nat.add_assoc, Nat.add_comm 1 B.length]
    · obtain ⟨h1, h2⟩ := hL2 h
      rw [h2, List.map_nil, List.drop_eq_nil_iff, List.length_take, hsl]; omega
  have hxs : pySlice sk.xt ((searchRight sk.t a : ℤ) - 1) ((searchRight sk.t a : ℤ) - 1 + ((B.length + 1 : ℕ) : ℤ)) =
      p.2 :: B.map Prod.snd := by
    have e1 : ((searchRight sk.t a : ℤ) - 1) = ((A.length : ℕ) : ℤ) := by rw [hsr]; push_cast; ring
    rw [e1, ← Nat.cast_add, pySlice_nat _ _ _ (by omega) (by omega), hx]
    conv_lhs => rw [hl]
    rw [← List.map_take, ← List.map_drop, ← List.map_cons]
    congr 1
    rw [List.take_append, List.drop_append]
    simp
  have ht2 : (pieceOf sk a b).t = 0 :: (B.map Prod.fst).map (· - a) := by
    simp only [pieceOf, hslice]
  have hx2 : (pieceOf sk a b).xt = p.2 :: B.map Prod.snd := by
    simp only [pieceOf, hslice, List.length_cons, List.length_map]
    exact hxs
  refine ⟨by rw [ht2, hx2]; simp, ?_⟩
  unfold Skel.jumps
  rw [ht2, hx2, List.zip_cons_cons]
  congr 1
  rw [List.map_map, List.zip_map', shift]
  apply List.map_congr_left
  intro q _
  simp [sub_eq_add_neg, add_comm]

theorem pieceOf_fin (sk : Skel K) (a b : K) : (pieceOf sk a b).fin = b - a := rfl

/-- Semantics of one piece. -/
theorem pieceOf_stateAt {sk : Skel K} (hv : sk.Valid) {a b : K} (ha : 0 ≤ a) (hab : a ≤ b) {s : K} (hs : 0 ≤ s)
    (hsb : a + s < b) : (pieceOf sk a b).stateAt s = sk.stateAt (a + s) := by
  obtain ⟨x, hx, -, hj⟩ := pieceOf_jumps hv ha hab
  unfold Skel.stateAt at hx ⊢
  rw [hj, stAt_cons, stAt_shift']
  rw [show s - -a = a + s by ring]
  have s1 := filter_split hv.jumps_inc (fun p => p.1 ≤ a) (by
    intro p q hpq hq; simp at hq ⊢; exact le_trans hpq.le hq)
  conv_rhs => rw [s1, stAt_append]
  have e1 : stAt (sk.jumps.filter fun p => decide (p.1 ≤ a)) (a + s) = some x := by
    rw [← hx]
    unfold stAt
    congr 2
    rw [List.filter_filter]
    apply List.filter_congr
    intro p _
    by_cases h : p.1 ≤ a
    · simp [h]; linarith
    · simp [h]
  have e2 : stAt (sk.jumps.filter fun p => !decide (p.1 ≤ a)) (a + s) =
      stAt (sk.jumps.filter fun q => decide (a < q.1 ∧ q.1 < b)) (a + s) := by
    unfold stAt
    congr 2
    rw [List.filter_filter, List.filter_filter]
    apply List.filter_congr
    intro p _
    by_cases h : p.1 ≤ a + s
    · have : p.1 < b := lt_of_le_of_lt h hsb
      by_cases h3 : p.1 ≤ a <;> simp [h, this, h3, lt_of_not_ge]
    · simp [h]
  rw [e1, e2]
  simp [hs]

/-- A piece of positive length is a valid path. -/
theorem pieceOf_valid {sk : Skel K} (hv : sk.Valid) {a b : K} (ha : 0 ≤ a) (hab : a < b) : (pieceOf sk a b).Valid := by
  obtain ⟨x, hx, hlen, hj⟩ := pieceOf_jumps hv ha hab.le
  have ht := (Skel.t_eq_of_len hlen).1
  rw [hj] at ht
  refine ⟨hlen, by rw [ht]; simp, ?_, ?_⟩
  · rw [ht, List.map_cons, List.pairwise_cons, shift]
    simp only [List.map_map, List.mem_map, List.pairwise_map]
    refine ⟨?_, ?_⟩
    · rintro c ⟨q, hq, rfl⟩
      rw [List.mem_filter] at hq; simp at hq ⊢; exact hq.2.1
    · refine (hv.jumps_inc.sublist List.filter_sublist).imp ?_
      intro p q h; simpa using h
  · rw [ht, pieceOf_fin]
    intro c hc
    simp only [List.map_cons, List.mem_cons, shift, List.map_map, List.mem_map] at hc
    rcases hc with rfl | ⟨q, hq, rfl⟩
    · linarith
    · rw [List.mem_filter] at hq; simp at hq ⊢; linarith [hq.2.2]

theorem pieceOf_reduced {sk : Skel K} (hv : sk.Valid) (hr : sk.Reduced) {a b : K} (ha : 0 ≤ a) (hab : a ≤ b) :
    (pieceOf sk a b).Reduced := by
  obtain ⟨x0, l0, hl0⟩ := hv.jumps_head
  obtain ⟨x, hx, hlen, hj⟩ := pieceOf_jumps hv ha hab
  obtain ⟨A, p, C, hl, hst, -⟩ := jumps_decomp hv.jumps_inc hab ⟨(0, x0), by simp [hl0], ha⟩
  have hxp : x = p.2 := by
    unfold Skel.stateAt at hx; rw [hx] at hst; exact Option.some.inj hst
  have hxt := (Skel.t_eq_of_len hlen).2
  unfold Skel.Reduced at hr ⊢
  rw [(Skel.t_eq_of_len hv.len).2] at hr
  rw [hxt, hj]
  have : (((0, x) :: shift (-a) (sk.jumps.filter fun q => decide (a < q.1 ∧ q.1 < b))).map Prod.snd) =
      (p :: (sk.jumps.filter fun q => decide (a < q.1 ∧ q.1 < b))).map Prod.snd := by
    simp [shift, hxp, Function.comp_def]
  rw [this]
  refine hr.infix ?_
  conv_rhs => rw [hl]
  refine ⟨A.map Prod.snd, C.map Prod.snd, ?_⟩
  simp

/-! ## pasting -/

/-- Concatenated jumps of pieces, starting at time `off`. -/
def catJ (off : K) : List (Skel K) → List (K × ℕ)
  | [] => []
  | p :: ps => shift off p.jumps ++ catJ (off + p.fin) ps

/-- Remove virtual jumps from a non-empty jump list. -/
def dedupAll : List (K × ℕ) → List (K × ℕ)
  | [] => []
  | p :: l => p :: dedup p.2 l

theorem select_dedup {β : Type} (f : K × ℕ → β) (l : List (K × ℕ)) (x : ℕ) :
    select (l.map f) (List.zipWith (fun a b => decide (a ≠ b)) (l.map Prod.snd) (x :: (l.map Prod.snd).dropLast)) =
      (dedup x l).map f := by
  induction l generalizing x with
  | nil => rfl
  | cons p l ih =>
    have key : List.zipWith (fun a b => decide (a ≠ b)) (l.map Prod.snd) (((p :: l).map Prod.snd).dropLast) =
        List.zipWith (fun a b => decide (a ≠ b)) (l.map Prod.snd) (p.2 :: (l.map Prod.snd).dropLast) := by
      cases l with
      | nil => rfl
      | cons q l => simp [List.dropLast]
    rw [List.map_cons, List.map_cons, List.zipWith_cons_cons]
    rw [List.map_cons] at key
    rw [key]
    unfold dedup
    by_cases h : p.2 = x
    · subst h
      simp only [ne_eq, not_true_eq_false, decide_false, select, if_true]
      exact ih p.2
    · simp only [h, ne_eq, not_false_eq_true, decide_true, select, if_false, List.map_cons]
      rw [← ih p.2]

theorem catJ_fst (off : K) (ps : List (Skel K)) (h : ∀ p ∈ ps, p.t.length = p.xt.length) :
    (((off :: cumsumFrom off (ps.map Skel.fin)).dropLast.zip ps).map fun p => p.2.t.map (p.1 + ·)).flatten =
      (catJ off ps).map Prod.fst := by
  induction ps generalizing off with
  | nil => rfl
  | cons p ps ih =>
    simp only [List.map_cons, cumsumFrom, List.dropLast_cons₂, List.zip_cons_cons, List.flatten_cons, catJ,
      List.map_append]
    rw [ih (off + p.fin) (fun q hq => h q (List.mem_cons_of_mem _ hq)), (Skel.t_eq_of_len (h p (by simp))).1]
    simp [shift, Function.comp_def]

theorem catJ_snd (off : K) (ps : List (Skel K)) (h : ∀ p ∈ ps, p.t.length = p.xt.length) :
    (((off :: cumsumFrom off (ps.map Skel.fin)).dropLast.zip ps).map fun p => p.2.xt).flatten =
      (catJ off ps).map Prod.snd := by
  induction ps generalizing off with
  | nil => rfl
  | cons p ps ih =>
    simp only [List.map_cons, cumsumFrom, List.dropLast_cons₂, List.zip_cons_cons, List.flatten_cons, catJ,
      List.map_append]
    rw [ih (off + p.fin) (fun q hq => h q (List.mem_cons_of_mem _ hq)), (Skel.t_eq_of_len (h p (by simp))).2]
    simp [shift, Function.comp_def]

theorem getLast_cumsum (off : K) (l : List K) :
    (off :: cumsumFrom off l).getLast (by simp) = off + l.sum := by
  induction l generalizing off with
  | nil => simp [cumsumFrom]
  | cons a l ih =>
    simp only [cumsumFrom, List.sum_cons]
    rw [List.getLast_cons (by simp), ih (off + a), add_assoc]

/-- Closed form of `pastePartition` for well-formed pieces. -/
theorem pastePartition_eq (ps : List (Skel K)) (hlen : ∀ p ∈ ps, p.fin ≠ 0 → p.t.length = p.xt.length)
    (hne : (ps.filter fun sk => sk.fin ≠ 0) ≠ [])
    (hpos : ∀ p ∈ ps, p.fin ≠ 0 → p.t ≠ []) :
    pastePartition ps = .ok
      ⟨(dedupAll (catJ 0 (ps.filter fun sk => sk.fin ≠ 0))).map Prod.fst,
       (dedupAll (catJ 0 (ps.filter fun sk => sk.fin ≠ 0))).map Prod.snd,
       ((ps.filter fun sk => sk.fin ≠ 0).map Skel.fin).sum⟩ := by
  unfold pastePartition
  simp only
  set qs := ps.filter fun sk => decide (sk.fin ≠ 0) with hqs
  have hql : ∀ p ∈ qs, p.t.length = p.xt.length := fun p hp =>
    hlen p (List.mem_of_mem_filter hp) (by simpa using (List.mem_filter.1 hp).2)
  unfold npCumsum
  have hE : ((((0 : K) :: cumsumFrom 0 (qs.map Skel.fin)).dropLast.zip qs).isEmpty) = false := by
    cases hq : qs with
    | nil => exact absurd hq hne
    | cons q qs => simp [cumsumFrom]
  rw [hE, catJ_fst 0 qs hql, catJ_snd 0 qs hql, getLast_cumsum]
  have hc : ∃ p l, catJ 0 qs = p :: l := by
    cases hq : qs with
    | nil => exact absurd hq hne
    | cons q qs' =>
      have hm : q ∈ qs := by simp [hq]
      have hmem := List.mem_filter.1 hm
      have h1 := hpos q hmem.1 (by simpa using hmem.2)
      have h2 := hlen q hmem.1 (by simpa using hmem.2)
      cases ht : q.t with
      | nil => exact absurd ht h1
      | cons a t =>
        cases hx : q.xt with
        | nil => simp [ht, hx] at h2
        | cons x xt => simp [catJ, Skel.jumps, ht, hx]
  obtain ⟨p, l, hpl⟩ := hc
  rw [hpl]
  have hm : List.zipWith (fun a b => decide (a ≠ b)) (((p :: l).map Prod.snd).tail) (((p :: l).map Prod.snd).dropLast) =
      List.zipWith (fun a b => decide (a ≠ b)) (l.map Prod.snd) (p.2 :: (l.map Prod.snd).dropLast) := by
    cases l with
    | nil => rfl
    | cons q l => simp [List.dropLast]
  rw [hm]
  have hz : (List.zipWith (fun a b => decide (a ≠ b)) (l.map Prod.snd) (p.2 :: (l.map Prod.snd).dropLast)).length =
      l.length := by
    simp [List.length_zipWith]; omega
  simp only [List.length_cons, hz, List.length_map, ne_eq, not_true_eq_false, or_self, if_false, dedupAll, zero_add,
    Bool.false_eq_true]
  have k1 := select_dedup (K := K) Prod.fst l p.2
  have k2 := select_dedup (K := K) Prod.snd l p.2
  simp only [ne_eq] at k1 k2
  simp only [List.map_cons, select]
  rw [k1, k2]

theorem catJ_append (off : K) (ps qs : List (Skel K)) :
    catJ off (ps ++ qs) = catJ off ps ++ catJ (off + (ps.map Skel.fin).sum) qs := by
  induction ps generalizing off with
  | nil => simp [catJ]
  | cons p ps ih => simp [catJ, ih, add_assoc]

theorem catJ_ge (off : K) (ps : List (Skel K)) (h : ∀ p ∈ ps, p.Valid) : ∀ q ∈ catJ off ps, off ≤ q.1 := by
  induction ps generalizing off with
  | nil => simp [catJ]
  | cons p ps ih =>
    intro q hq
    rw [catJ, List.mem_append] at hq
    have hp := h p (by simp)
    rcases hq with hq | hq
    · rw [shift, List.mem_map] at hq
      obtain ⟨r, hr, rfl⟩ := hq
      obtain ⟨x, l, hl⟩ := hp.jumps_head
      have h0 : 0 ≤ r.1 := by
        have := hp.jumps_inc
        rw [hl] at hr this
        rcases List.mem_cons.1 hr with rfl | hr
        · exact le_rfl
        · exact ((List.pairwise_cons.1 this).1 r hr).le
      simpa using h0
    · have := ih (off + p.fin) (fun q hq => h q (List.mem_cons_of_mem _ hq)) q hq
      linarith [hp.fin_pos]

theorem catJ_lt (off : K) (ps : List (Skel K)) (h : ∀ p ∈ ps, p.Valid) :
    ∀ q ∈ catJ off ps, q.1 < off + (ps.map Skel.fin).sum := by
  induction ps generalizing off with
  | nil => simp [catJ]
  | cons p ps ih =>
    intro q hq
    have hp := h p (by simp)
    have hps : ∀ q ∈ ps, q.Valid := fun q hq => h q (List.mem_cons_of_mem _ hq)
    have hsum : 0 ≤ (ps.map Skel.fin).sum := by
      apply List.sum_nonneg; intro x hx
      obtain ⟨r, hr, rfl⟩ := List.mem_map.1 hx
      exact (hps r hr).fin_pos.le
    rw [catJ, List.mem_append] at hq
    rcases hq with hq | hq
    · rw [shift, List.mem_map] at hq
      obtain ⟨r, hr, rfl⟩ := hq
      have := hp.jumps_lt r hr
      simp only [List.map_cons, List.sum_cons]; linarith
    · have := ih (off + p.fin) hps q hq
      simp only [List.map_cons, List.sum_cons]; linarith

theorem catJ_inc (off : K) (ps : List (Skel K)) (h : ∀ p ∈ ps, p.Valid) :
    (catJ off ps).Pairwise fun p q => p.1 < q.1 := by
  induction ps generalizing off with
  | nil => simp [catJ]
  | cons p ps ih =>
    have hp := h p (by simp)
    have hps : ∀ q ∈ ps, q.Valid := fun q hq => h q (List.mem_cons_of_mem _ hq)
    rw [catJ, List.pairwise_append]
    refine ⟨?_, ih _ hps, ?_⟩
    · rw [shift, List.pairwise_map]
      refine hp.jumps_inc.imp ?_; intro a b h; simpa using h
    · intro a ha b hb
      rw [shift, List.mem_map] at ha
      obtain ⟨r, hr, rfl⟩ := ha
      have h1 := hp.jumps_lt r hr
      have h2 := catJ_ge (off + p.fin) ps hps b hb
      simp only; linarith

theorem stAt_dedupAll {l : List (K × ℕ)} (h : l.Pairwise fun a b => a.1 < b.1) (s : K) :
    stAt (dedupAll l) s = stAt l s := by
  cases l with
  | nil => rfl
  | cons p l => exact stAt_dedup p l (h.imp fun h => h.le) s

theorem dedupAll_sublist (l : List (K × ℕ)) : (dedupAll l).Sublist l := by
  cases l with
  | nil => exact List.Sublist.slnil
  | cons p l => exact (dedup_sublist p.2 l).cons_cons p

theorem dedupAll_chain (l : List (K × ℕ)) : ((dedupAll l).map Prod.snd).IsChain (· ≠ ·) := by
  cases l with
  | nil => exact List.IsChain.nil
  | cons p l => exact dedup_chain p l

/-- State of concatenated pieces. -/
theorem stAt_catJ (off : K) (pre post : List (Skel K)) (p : Skel K) (hpre : ∀ q ∈ pre, q.Valid) (hp : p.Valid)
    (hpost : ∀ q ∈ post, q.Valid) {s : K} (h0 : 0 ≤ s) (hs : s < p.fin) :
    stAt (catJ off (pre ++ p :: post)) (off + (pre.map Skel.fin).sum + s) = p.stateAt s := by
  rw [catJ_append, catJ, stAt_append, stAt_append, stAt_shift]
  have h1 : stAt (catJ (off + (pre.map Skel.fin).sum + p.fin) post) (off + (pre.map Skel.fin).sum + s) = none := by
    rw [stAt_eq_none_iff]
    intro q hq
    have := catJ_ge _ post hpost q hq
    linarith
  rw [h1, Option.none_or]
  obtain ⟨x, l, hl⟩ := hp.jumps_head
  obtain ⟨y, hy⟩ := stAt_isSome_of_mem (l := p.jumps) (s := s) (p := (0, x)) (by simp [hl]) h0
  unfold Skel.stateAt
  rw [hy]; rfl

/-- A skeleton made of a jump list. -/
theorem jumps_mk (l : List (K × ℕ)) (f : K) : (⟨l.map Prod.fst, l.map Prod.snd, f⟩ : Skel K).jumps = l := by
  simp [Skel.jumps, List.zip_map']

theorem piecesOf_split (sk : Skel K) (rest : List K) (a : K) (hs : (a :: rest).Pairwise (· ≤ ·)) (s : K) (has : a ≤ s)
    (hl : ∃ b ∈ rest, s < b) :
    ∃ pre post a' b', piecesOf sk (a :: rest) = pre ++ pieceOf sk a' b' :: post ∧ a + (pre.map Skel.fin).sum = a' ∧
      a' ≤ s ∧ s < b' := by
  induction rest generalizing a with
  | nil => simp at hl
  | cons b rest ih =>
    by_cases hb : s < b
    · exact ⟨[], piecesOf sk (b :: rest), a, b, rfl, by simp, has, hb⟩
    · have hl' : ∃ c ∈ rest, s < c := by
        obtain ⟨c, hc, hsc⟩ := hl
        rcases List.mem_cons.1 hc with rfl | hc
        · exact absurd hsc hb
        · exact ⟨c, hc, hsc⟩
      obtain ⟨pre, post, a', b', h1, h2, h3, h4⟩ := ih b hs.of_cons (not_lt.1 hb) hl'
      refine ⟨pieceOf sk a b :: pre, post, a', b', by simp [piecesOf, h1], ?_, h3, h4⟩
      simp only [List.map_cons, List.sum_cons, pieceOf_fin]; rw [← h2]; ring

theorem piecesOf_sum (sk : Skel K) (rest : List K) (a : K) :
    ((piecesOf sk (a :: rest)).map Skel.fin).sum = (a :: rest).getLast (by simp) - a := by
  induction rest generalizing a with
  | nil => simp [piecesOf]
  | cons b rest ih =>
    simp only [piecesOf, List.map_cons, List.sum_cons, ih b, pieceOf_fin]
    have : (a :: b :: rest).getLast (by simp) = (b :: rest).getLast (by simp) := List.getLast_cons (by simp)
    rw [this]; ring

theorem piecesOf_mem (sk : Skel K) (L : List K) (hs : L.Pairwise (· ≤ ·)) : ∀ p ∈ piecesOf sk L,
    ∃ a ∈ L, ∃ b ∈ L, a ≤ b ∧ p = pieceOf sk a b := by
  intro p hp
  induction L with
  | nil => simp [piecesOf] at hp
  | cons a L ih =>
    cases L with
    | nil => simp [piecesOf] at hp
    | cons b L =>
      rw [piecesOf, List.mem_cons] at hp
      rcases hp with rfl | hp
      · exact ⟨a, by simp, b, by simp, (List.pairwise_cons.1 hs).1 b (by simp), rfl⟩
      · obtain ⟨a', h1, b', h2, h3⟩ := ih hs.of_cons hp
        exact ⟨a', by simp [h1], b', by simp [h2], h3⟩

theorem piecesOf_length (sk : Skel K) (L : List K) : (piecesOf sk L).length = L.length - 1 := by
  induction L with
  | nil => rfl
  | cons a L ih =>
    cases L with
    | nil => rfl
    | cons b L => rw [piecesOf, List.length_cons, ih]; simp

theorem piecesOf_get (sk : Skel K) (L : List K) (k : ℕ) (h : k + 1 < L.length) :
    (piecesOf sk L)[k]? = some (pieceOf sk L[k] L[k + 1]) := by
  induction L generalizing k with
  | nil => simp at h
  | cons a L ih =>
    cases L with
    | nil => simp at h
    | cons b L =>
      cases k with
      | zero => simp [piecesOf]
      | succ k =>
        rw [piecesOf, List.getElem?_cons_succ, ih k (by simpa using h)]
        simp

theorem Breaks.sorted_ext {fin : K} {l : List K} (h : Breaks fin l) (hf : 0 ≤ fin) :
    (0 :: (l ++ [fin])).Pairwise (· ≤ ·) := by
  rw [List.pairwise_cons, List.pairwise_append]
  refine ⟨?_, h.sorted, by simp, ?_⟩
  · intro a ha
    rcases List.mem_append.1 ha with ha | ha
    · exact h.nonneg a ha
    · rw [List.mem_singleton] at ha; rw [ha]; exact hf
  · intro a ha b hb
    rw [List.mem_singleton] at hb; rw [hb]; exact h.le a ha

theorem Skel.ext_of_stateAt {a b : Skel K} (ha : a.Valid) (hb : b.Valid) (ra : a.Reduced) (rb : b.Reduced)
    (hf : a.fin = b.fin) (hs : ∀ s, 0 ≤ s → s < a.fin → a.stateAt s = b.stateAt s) : a = b := by
  obtain ⟨x, l, hl⟩ := ha.jumps_head
  obtain ⟨y, m, hm⟩ := hb.jumps_head
  have ta := Skel.t_eq_of_len ha.len
  have tb := Skel.t_eq_of_len hb.len
  unfold Skel.Reduced at ra rb
  rw [ta.2, hl] at ra
  rw [tb.2, hm] at rb
  have hi := ha.jumps_inc; have hi' := hb.jumps_inc
  have hlt := ha.jumps_lt; have hlt' := hb.jumps_lt
  rw [hl] at hi hlt; rw [hm] at hi' hlt'
  have := jumps_ext l m 0 x y hi hi' ra rb hlt (by rw [hf]; exact hlt') (by
    intro s h0 h1
    have := hs s h0 h1
    unfold Skel.stateAt at this; rw [hl, hm] at this; exact this)
  rw [← hl, ← hm] at this
  cases a; cases b
  simp only [Skel.mk.injEq]
  rw [this] at ta
  exact ⟨ta.1.trans tb.1.symm, ta.2.trans tb.2.symm, hf⟩

end Ctb
