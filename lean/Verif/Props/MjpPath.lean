import Verif.Lemmas.Partition
import Mathlib.Tactic.NormNum

/-!
# C01–C05, C16: jump-process skeletons, partitions and pastes

Theorems over an arbitrary linear ordered field; the `example`s instantiate the hypotheses on `ℚ`.
-/

set_option linter.unusedSectionVars false

namespace Ctb

variable {K : Type} [Field K] [LinearOrder K] [IsStrictOrderedRing K]

/-- A concrete valid, self-transition-free skeleton used in the examples: horizon 3, jumps at 1 and 2. -/
def demoSkel : Skel ℚ := ⟨[0, 1, 2], [1, 0, 2], 3⟩

theorem demoSkel_valid : demoSkel.Valid := by
  constructor <;> simp [demoSkel] <;> norm_num

theorem demoSkel_reduced : demoSkel.Reduced := by
  simp [Skel.Reduced, demoSkel]

/-! ## C01 lookup -/

/-- The array index used by `__call__` finds the state in force. -/
theorem lookup_eq {sk : Skel K} (hv : sk.Valid) {s : K} (h0 : 0 ≤ s) :
    pyGet sk.xt ((searchRight sk.t s : ℤ) - 1) = sk.stateAt s := by
  obtain ⟨x0, l0, hl0⟩ := hv.jumps_head
  obtain ⟨A, p, C, hl, hst, -, hR, -⟩ := jumps_decomp hv.jumps_inc (le_refl s) ⟨(0, x0), by simp [hl0], h0⟩
  obtain ⟨ht, hx⟩ := Skel.t_eq_of_len hv.len
  have hsr : searchRight sk.t s = A.length + 1 := by rw [ht, searchRight_map hv.jumps_inc, ← hR]
  unfold Skel.stateAt
  rw [hst, hsr, hx]
  have e : (((A.length + 1 : ℕ) : ℤ) - 1) = (A.length : ℤ) := by push_cast; ring
  rw [e]; unfold pyGet
  simp only [Nat.cast_nonneg, if_true, Int.toNat_natCast]
  conv_lhs => rw [hl]
  simp

/-- **C01.** For non-negative query times: `ValueError` exactly when some time exceeds the horizon, otherwise the list
of states in force at the query times. -/
theorem C01_call {sk : Skel K} (hv : sk.Valid) (ts : List K) (h0 : ∀ s ∈ ts, 0 ≤ s) :
    (sk.call ts = .error .value ↔ ∃ s ∈ ts, sk.fin < s) ∧
    ((∀ s ∈ ts, s ≤ sk.fin) → ∃ xs, sk.call ts = .ok xs ∧ xs.map some = ts.map sk.stateAt) := by
  have key : ∀ ts : List K, (∀ s ∈ ts, 0 ≤ s) → ∃ xs : List ℕ,
      ts.mapM sk.lookup = .ok xs ∧ xs.map some = ts.map sk.stateAt := by
    intro ts
    induction ts with
    | nil => intro _; exact ⟨[], rfl, rfl⟩
    | cons s ts ih =>
      intro h0
      obtain ⟨xs, h1, h2⟩ := ih fun s hs => h0 s (by simp [hs])
      have hs := h0 s (by simp)
      obtain ⟨x0, l0, hl0⟩ := hv.jumps_head
      obtain ⟨y, hy⟩ := stAt_isSome_of_mem (l := sk.jumps) (s := s) (p := (0, x0)) (by simp [hl0]) hs
      have hy' : sk.stateAt s = some y := hy
      refine ⟨y :: xs, ?_, by simp [hy', h2]⟩
      rw [List.mapM_cons, Skel.lookup, lookup_eq hv hs, hy', h1]; rfl
  obtain ⟨xs, h1, h2⟩ := key ts h0
  unfold Skel.call
  by_cases h : ∃ s ∈ ts, sk.fin < s
  · have : ts.any (fun s => sk.fin < s) = true := by simpa using h
    rw [this]
    refine ⟨by simp [h], ?_⟩
    intro h'
    obtain ⟨s, hs, hlt⟩ := h
    exact absurd hlt (not_lt.2 (h' s hs))
  · have : ts.any (fun s => sk.fin < s) = false := by simpa using h
    rw [this]
    refine ⟨by simp [h, h1], fun _ => ⟨xs, by simpa using h1, h2⟩⟩

/-- Outside C01's range: a negative query time is not rejected but answered with the state of the *last* jump
(array index −1 wraps around). -/
theorem C01_negative_time_wraps {sk : Skel K} (hv : sk.Valid) {s : K} (hs : s < 0) :
    sk.call [s] = .ok [sk.xt.getLast (by
      intro h; have h1 := hv.len; have h2 := hv.head; rw [h] at h1
      cases ht : sk.t <;> simp [ht] at h1 h2)] := by
  have hne : sk.xt ≠ [] := by
    intro h; have h1 := hv.len; have h2 := hv.head; rw [h] at h1
    cases ht : sk.t <;> simp [ht] at h1 h2
  have h1 : searchRight sk.t s = 0 := by
    have h2 := hv.head
    unfold searchRight
    cases ht : sk.t with
    | nil => rfl
    | cons a t => simp [ht] at h2; simp [h2, hs]
  have h3 : ¬ sk.fin < s := by have := hv.fin_pos; exact not_lt.2 (le_trans hs.le this.le)
  unfold Skel.call
  simp only [List.any_cons, h3, decide_false, List.any_nil, Bool.or_self, List.mapM_cons, List.mapM_nil, Skel.lookup, h1]
  have h4 : pyGet sk.xt (((0 : ℕ) : ℤ) - 1) = some (sk.xt.getLast hne) := by
    unfold pyGet
    have hl : 0 < sk.xt.length := List.length_pos_iff.2 hne
    have e : ((((0 : ℕ) : ℤ) - 1) + (sk.xt.length : ℤ)).toNat = sk.xt.length - 1 := by omega
    rw [if_neg (by simp), if_pos (by push_cast; omega), e, List.getLast_eq_getElem, List.getElem?_eq_getElem]
  rw [h4]; rfl

example : demoSkel.call [0, 1, 5/2, 3] = .ok [1, 0, 2, 2] := by
  simp [demoSkel, Skel.call, Skel.lookup, searchRight, pyGet]
  norm_num
  rfl
example : demoSkel.call [1, 7/2] = .error .value := by
  have := (C01_call demoSkel_valid [1, 7/2] (by simp; norm_num)).1
  rw [this]; exact ⟨7/2, by simp, by norm_num [demoSkel]⟩

/-! ## C16 equality -/

theorem pyEq_iff (a b : Skel K) : a.pyEq b = true ↔ a = b := by
  have key : ∀ {α : Type} [BEq α] [LawfulBEq α] (l m : List α),
      (l.length == m.length && (l.zip m).all fun p => p.1 == p.2) = true ↔ l = m := by
    intro α _ _ l
    induction l with
    | nil => intro m; cases m <;> simp
    | cons x l ih =>
      intro m
      cases m with
      | nil => simp
      | cons y m =>
        have := ih m
        simp only [Bool.and_eq_true, beq_iff_eq] at this
        simp only [List.length_cons, List.zip_cons_cons, List.all_cons, Bool.and_eq_true, beq_iff_eq,
          List.cons.injEq, add_left_inj]
        rw [← this]; tauto
  unfold Skel.pyEq
  rw [Bool.and_eq_true, Bool.and_eq_true, key, key, beq_iff_eq]
  cases a; cases b; simp [and_assoc]

/-- **C16.** `==` on skeletons is an equivalence relation … -/
theorem C16_equivalence : Equivalence fun a b : Skel K => a.pyEq b = true := by
  refine ⟨fun a => (pyEq_iff a a).2 rfl, fun {a b} h => ?_, fun {a b c} h h' => ?_⟩
  · rw [pyEq_iff] at h ⊢; exact h.symm
  · rw [pyEq_iff] at h h' ⊢; exact h.trans h'

/-- … and, on valid self-transition-free skeletons, holds exactly when the paths coincide. -/
theorem C16_same_path {a b : Skel K} (ha : a.Valid) (hb : b.Valid) (ra : a.Reduced) (rb : b.Reduced) :
    a.pyEq b = true ↔ a.fin = b.fin ∧ ∀ s, 0 ≤ s → s < a.fin → a.stateAt s = b.stateAt s := by
  rw [pyEq_iff]
  constructor
  · rintro rfl; exact ⟨rfl, fun _ _ _ => rfl⟩
  · rintro ⟨h1, h2⟩; exact Skel.ext_of_stateAt ha hb ra rb h1 h2

example : demoSkel.Valid ∧ demoSkel.Reduced ∧ demoSkel.pyEq ⟨[0, 1], [1, 0], 3⟩ = false :=
  ⟨demoSkel_valid, demoSkel_reduced, by simp [demoSkel, Skel.pyEq]⟩

/-! ## C04 pasting -/

/-- **C04.** Pasting valid pieces (zero-length pieces may be anything) with at least one positive duration. -/
theorem C04_paste (ps : List (Skel K)) (hv : ∀ p ∈ ps, p.fin ≠ 0 → p.Valid) (hne : ∃ p ∈ ps, p.fin ≠ 0) :
    ∃ sk, pastePartition ps = .ok sk ∧ sk.Valid ∧ sk.Reduced ∧ sk.fin = (ps.map Skel.fin).sum ∧
      ∀ pre p post s, ps = pre ++ p :: post → 0 ≤ s → s < p.fin →
        sk.stateAt ((pre.map Skel.fin).sum + s) = p.stateAt s := by
  have hsum : ∀ l : List (Skel K), ((l.filter fun sk => sk.fin ≠ 0).map Skel.fin).sum = (l.map Skel.fin).sum := by
    intro l
    induction l with
    | nil => rfl
    | cons p l ih =>
      by_cases h : p.fin = 0
      · simp only [List.filter_cons, h]; simpa [h] using ih
      · simp only [List.filter_cons, h]; simpa [h] using ih
  have hqv : ∀ q ∈ ps.filter (fun sk => sk.fin ≠ 0), q.Valid := by
    intro q hq
    rw [List.mem_filter] at hq
    exact hv q hq.1 (by simpa using hq.2)
  have hqne : (ps.filter fun sk => sk.fin ≠ 0) ≠ [] := by
    obtain ⟨p, hp, h⟩ := hne
    intro e
    have : p ∈ ps.filter fun sk => sk.fin ≠ 0 := by rw [List.mem_filter]; exact ⟨hp, by simpa using h⟩
    rw [e] at this; simp at this
  have heq := pastePartition_eq ps (fun p hp h => (hv p hp h).len) hqne (by
    intro p hp h ht
    have := (hv p hp h).head; simp [ht] at this)
  set qs := ps.filter fun sk => decide (sk.fin ≠ 0) with hqs
  have hinc := catJ_inc 0 qs hqv
  have hcne : ∃ x l, catJ 0 qs = (0, x) :: l := by
    cases hq : qs with
    | nil => exact absurd hq hqne
    | cons q qs' =>
      obtain ⟨x, l, hl⟩ := (hqv q (by simp [hq])).jumps_head
      exact ⟨x, shift 0 l ++ catJ (0 + q.fin) qs', by simp [catJ, hl]⟩
  obtain ⟨x, l, hxl⟩ := hcne
  refine ⟨_, heq, ⟨by simp, by simp [hxl, dedupAll], ?_, ?_⟩, dedupAll_chain _, hsum ps, ?_⟩
  · rw [List.pairwise_map]; exact hinc.sublist (dedupAll_sublist _)
  · intro a ha
    obtain ⟨q, hq, rfl⟩ := List.mem_map.1 ha
    have := catJ_lt 0 qs hqv q ((dedupAll_sublist _).mem hq)
    simpa using this
  · intro pre p post s hps h0 hs
    unfold Skel.stateAt
    rw [jumps_mk, stAt_dedupAll hinc]
    have hp : p.fin ≠ 0 := by intro h; rw [h] at hs; exact absurd (lt_of_le_of_lt h0 hs) (lt_irrefl _)
    have hsplit : qs = (pre.filter fun sk => decide (sk.fin ≠ 0)) ++ p :: (post.filter fun sk => decide (sk.fin ≠ 0)) := by
      rw [hqs, hps, List.filter_append, List.filter_cons]; simp [hp]
    have hqv' := hqv
    rw [hsplit] at hqv'
    have := stAt_catJ 0 (pre.filter fun sk => decide (sk.fin ≠ 0)) (post.filter fun sk => decide (sk.fin ≠ 0)) p
      (fun q hq => hqv' q (by simp only [List.mem_append]; exact .inl hq))
      (hqv' p (by simp))
      (fun q hq => hqv' q (by simp only [List.mem_append, List.mem_cons]; exact .inr (.inr hq))) h0 hs
    rw [hsum pre, zero_add, ← hsplit] at this
    exact this

/-- If every piece has zero duration the paste raises ValueError instead of returning a path. -/
theorem C04_paste_all_zero (ps : List (Skel K)) (h : ∀ p ∈ ps, p.fin = 0) : pastePartition ps = .error .value := by
  have : (ps.filter fun sk => sk.fin ≠ 0) = [] := by
    rw [List.filter_eq_nil_iff]; intro p hp; simp [h p hp]
  unfold pastePartition
  simp only [this]
  rfl

example : ∃ ps : List (Skel ℚ), (∀ p ∈ ps, p.fin ≠ 0 → p.Valid) ∧ (∃ p ∈ ps, p.fin ≠ 0) ∧ ps.length = 3 := by
  refine ⟨[demoSkel, ⟨[], [5], 0⟩, demoSkel], ?_, ⟨demoSkel, by simp, by simp [demoSkel]⟩, rfl⟩
  intro p hp h
  simp only [List.mem_cons, List.not_mem_nil, or_false] at hp
  rcases hp with rfl | rfl | rfl
  · exact demoSkel_valid
  · exact absurd rfl h
  · exact demoSkel_valid

/-! ## C03 pieces -/

/-- **C03.** The pieces of a partition: their number, durations, start, validity and state at each local time. -/
theorem C03_pieces {sk : Skel K} (hv : sk.Valid) {new_t : List K} (hb : Breaks sk.fin new_t) :
    (partitionSkeleton sk new_t).length = new_t.length + 1 ∧
    ∀ k, (hk : k < new_t.length + 1) →
      ∃ p a b, (partitionSkeleton sk new_t)[k]? = some p ∧
        (0 :: (new_t ++ [sk.fin]))[k]? = some a ∧ (0 :: (new_t ++ [sk.fin]))[k + 1]? = some b ∧
        p.fin = b - a ∧ p.t.head? = some 0 ∧ p.t.length = p.xt.length ∧ p.stateAt 0 = sk.stateAt a ∧
        (0 < p.fin → p.Valid) ∧ (sk.Reduced → p.Reduced) ∧
        ∀ s, 0 ≤ s → s < p.fin → p.stateAt s = sk.stateAt (a + s) := by
  have hs := hb.sorted_ext hv.fin_pos.le
  rw [partitionSkeleton_eq]
  refine ⟨by rw [piecesOf_length]; simp, ?_⟩
  intro k hk
  have hk' : k + 1 < (0 :: (new_t ++ [sk.fin])).length := by simp; omega
  have hk0 : k < (0 :: (new_t ++ [sk.fin])).length := by omega
  have hle : (0 :: (new_t ++ [sk.fin]))[k] ≤ (0 :: (new_t ++ [sk.fin]))[k + 1] :=
    (List.pairwise_iff_getElem.1 hs) k (k + 1) hk0 hk' (by omega)
  have h0 : 0 ≤ (0 :: (new_t ++ [sk.fin]))[k] := by
    rcases Nat.eq_zero_or_pos k with rfl | hkp
    · simp
    · have := (List.pairwise_iff_getElem.1 hs) 0 k (by simp) hk0 hkp
      simpa using this
  refine ⟨_, _, _, piecesOf_get sk _ k hk', List.getElem?_eq_getElem hk0, List.getElem?_eq_getElem hk', rfl, rfl, ?_, ?_,
    ?_, ?_, ?_⟩
  · obtain ⟨x, -, h, -⟩ := pieceOf_jumps hv h0 hle; exact h
  · obtain ⟨x, hx, -, hj⟩ := pieceOf_jumps hv h0 hle
    rw [hx]
    unfold Skel.stateAt
    rw [hj, stAt_cons]
    have : stAt (shift (-(0 :: (new_t ++ [sk.fin]))[k]) (sk.jumps.filter fun q => decide
        ((0 :: (new_t ++ [sk.fin]))[k] < q.1 ∧ q.1 < (0 :: (new_t ++ [sk.fin]))[k + 1]))) 0 = none := by
      rw [stAt_eq_none_iff]
      intro q hq
      rw [shift, List.mem_map] at hq
      obtain ⟨r, hr, rfl⟩ := hq
      rw [List.mem_filter, decide_eq_true_eq] at hr
      have := hr.2.1
      simp only; linarith
    rw [this]; simp
  · intro hp
    rw [pieceOf_fin] at hp
    exact pieceOf_valid hv h0 (by linarith)
  · intro hr; exact pieceOf_reduced hv hr h0 hle
  · intro s hs0 hs1
    rw [pieceOf_fin] at hs1
    exact pieceOf_stateAt hv h0 hle hs0 (by linarith)

example : demoSkel.Valid ∧ Breaks demoSkel.fin [0, 1, 1, 3/2, 3] :=
  ⟨demoSkel_valid, by constructor <;> simp [demoSkel] <;> norm_num⟩

/-! ## C02, C05 round trips -/

/-- **C02.** Partitioning and pasting is the identity. -/
theorem C02_paste_partition {sk : Skel K} (hv : sk.Valid) (hr : sk.Reduced) {new_t : List K}
    (hb : Breaks sk.fin new_t) : pastePartition (partitionSkeleton sk new_t) = .ok sk := by
  have hs := hb.sorted_ext hv.fin_pos.le
  have hpv : ∀ p ∈ partitionSkeleton sk new_t, p.fin ≠ 0 → p.Valid := by
    intro p hp hf
    rw [partitionSkeleton_eq] at hp
    obtain ⟨a, ha, b, hb', hab, rfl⟩ := piecesOf_mem sk _ hs p hp
    have h0 : 0 ≤ a := by
      rw [List.pairwise_cons] at hs
      rcases List.mem_cons.1 ha with rfl | ha
      · exact le_rfl
      · exact hs.1 a ha
    exact pieceOf_valid hv h0 (lt_of_le_of_ne hab (by
      rintro rfl; exact hf (by simp [pieceOf_fin])))
  have hsum : ((partitionSkeleton sk new_t).map Skel.fin).sum = sk.fin := by
    rw [partitionSkeleton_eq, piecesOf_sum]; simp
  have hex : ∃ p ∈ partitionSkeleton sk new_t, p.fin ≠ 0 := by
    by_contra h
    push Not at h
    have : ((partitionSkeleton sk new_t).map Skel.fin).sum = 0 := by
      apply List.sum_eq_zero; intro x hx
      obtain ⟨p, hp, rfl⟩ := List.mem_map.1 hx
      exact h p hp
    rw [hsum] at this
    exact absurd this hv.fin_pos.ne'
  obtain ⟨sk', h1, h2, h3, h4, h5⟩ := C04_paste _ hpv hex
  rw [h1]
  congr 1
  refine Skel.ext_of_stateAt h2 hv h3 hr (by rw [h4, hsum]) ?_
  intro s h0 hsf
  rw [h4, hsum] at hsf
  obtain ⟨pre, post, a, b, e1, e2, e3, e4⟩ := piecesOf_split sk (new_t ++ [sk.fin]) 0 hs s h0 ⟨sk.fin, by simp, hsf⟩
  rw [partitionSkeleton_eq] at h5
  have hmem : (0 : K) ≤ a := by
    rw [zero_add] at e2; rw [← e2]
    apply List.sum_nonneg; intro x hx
    obtain ⟨p, hp, rfl⟩ := List.mem_map.1 hx
    have hp' : p ∈ piecesOf sk (0 :: (new_t ++ [sk.fin])) := by rw [e1]; simp [hp]
    obtain ⟨c, -, d, -, hcd, rfl⟩ := piecesOf_mem sk _ hs p hp'
    rw [pieceOf_fin]; linarith
  have := h5 pre (pieceOf sk a b) post (s - a) e1 (by linarith) (by rw [pieceOf_fin]; linarith)
  rw [zero_add] at e2
  rw [e2, show a + (s - a) = s by ring, pieceOf_stateAt hv hmem (by linarith) (by linarith) (by linarith),
    show a + (s - a) = s by ring] at this
  exact this

/-- Without the "no self-transition" hypothesis the round trip still preserves horizon and path; it only removes the
self-transitions, so it cannot be the identity. -/
theorem C02_needs_reduced : ∃ sk : Skel ℚ, sk.Valid ∧ ¬ sk.Reduced ∧
    pastePartition (partitionSkeleton sk []) ≠ .ok sk := by
  refine ⟨⟨[0, 1], [4, 4], 2⟩, by constructor <;> simp, by simp [Skel.Reduced], ?_⟩
  intro h
  obtain ⟨sk', h1, h2, h3, -⟩ := C04_paste (partitionSkeleton (⟨[0, 1], [4, 4], 2⟩ : Skel ℚ) []) (by
    intro p hp _
    rw [partitionSkeleton_eq] at hp
    simp only [List.nil_append, piecesOf, List.mem_singleton] at hp
    rw [hp]
    exact pieceOf_valid (by constructor <;> simp) le_rfl (by norm_num)) (by
    refine ⟨_, by rw [partitionSkeleton_eq]; simp only [List.nil_append, piecesOf]; exact List.mem_singleton.2 rfl, ?_⟩
    rw [pieceOf_fin]; norm_num)
  rw [h] at h1
  cases h1
  simp [Skel.Reduced] at h3

/-- **C05.** Repartitioning depends only on the path, not on the previous breakpoints. -/
theorem C05_repartition {sk : Skel K} (hv : sk.Valid) (hr : sk.Reduced) {a b : List K} (ha : Breaks sk.fin a) :
    repartitionSkeleton (partitionSkeleton sk a) b = .ok (partitionSkeleton sk b) := by
  unfold repartitionSkeleton
  rw [C02_paste_partition hv hr ha]; rfl

example : pastePartition (partitionSkeleton demoSkel [0, 1, 1, 3/2, 3]) = .ok demoSkel :=
  C02_paste_partition demoSkel_valid demoSkel_reduced (by constructor <;> simp [demoSkel] <;> norm_num)

end Ctb
