import Verif.Lemmas.Stationary
import Verif.Props.MjpPath

/-! # Lemmas about `MyopicMjpSampler.propose` -/

set_option linter.unusedSectionVars false

namespace Ctb

variable {d : ℕ}

theorem select_sublist {α : Type} (l : List α) (m : List Bool) : (select l m).Sublist l := by
  induction l generalizing m with
  | nil => cases m <;> simp [select]
  | cons a l ih =>
    cases m with
    | nil => simp [select]
    | cons b m =>
      cases b
      · exact (ih m).cons _
      · exact (ih m).cons_cons _

theorem pySlice_interior {α : Type} (t : List α) : pySlice t 1 (-1) = t.tail.dropLast := by
  unfold pySlice pyClip
  simp only [show ¬ (0 : ℤ) ≤ -1 by norm_num, if_false, zero_le_one, if_true]
  have e : (-1 + (t.length : ℤ)).toNat = t.length - 1 := by omega
  rw [e]
  cases t with
  | nil => rfl
  | cons a t =>
    simp only [List.length_cons, Nat.add_sub_cancel, List.tail_cons]
    have : min (Int.toNat 1) (t.length + 1) = 1 := by simp
    rw [this]
    cases t with
    | nil => rfl
    | cons b t =>
      rw [List.dropLast_eq_take]
      simp

theorem condTimes_out {p : ℝ} {t tc : List ℝ} (h : (condTimes p t).Out (.ok tc)) :
    2 ≤ t.length ∧ tc.Sublist t.tail.dropLast := by
  unfold condTimes at h
  split at h
  · simp at h
  · rw [Prog.out_bind_ok] at h
    obtain ⟨us, -, h⟩ := h
    simp only [Prog.out_ret, Except.ok.injEq] at h
    subst h
    rw [pySlice_interior]
    exact ⟨by omega, select_sublist _ _⟩

theorem condTimes_error {p : ℝ} {t : List ℝ} {e : PyErr} (ht : 2 ≤ t.length) : ¬ (condTimes p t).Out (.error e) := by
  intro h
  unfold condTimes at h
  rw [if_neg (by omega), Prog.out_bind_error] at h
  rcases h with h | ⟨us, -, h⟩
  · exact replicate_draw_no_error h
  · simp at h

/-- Interior points of a strictly increasing grid in `[0, fin]` lie strictly inside. -/
theorem interior_strict {t : List ℝ} {fin : ℝ} (hs : t.Pairwise (· < ·)) (h0 : ∀ a ∈ t, 0 ≤ a ∧ a ≤ fin) :
    ∀ a ∈ t.tail.dropLast, 0 < a ∧ a < fin := by
  intro a ha
  cases t with
  | nil => simp at ha
  | cons b t =>
    simp only [List.tail_cons] at ha
    rw [List.pairwise_cons] at hs
    have h1 := hs.1 a (List.mem_of_mem_dropLast ha)
    refine ⟨lt_of_le_of_lt (h0 b (by simp)).1 h1, ?_⟩
    have hne : t ≠ [] := by rintro rfl; simp at ha
    have h2 := hs.2
    rw [← List.dropLast_append_getLast hne, List.pairwise_append] at h2
    exact lt_of_lt_of_le (h2.2.2 a ha _ (by simp)) (h0 _ (List.mem_cons_of_mem _ (List.getLast_mem hne))).2

theorem piecesOf_take_sum (sk : Skel ℝ) (L : List ℝ) (k : ℕ) (hk : k < L.length) :
    (((piecesOf sk L).take k).map Skel.fin).sum = L[k] - L[0] := by
  induction L generalizing k with
  | nil => simp at hk
  | cons a L ih =>
    cases k with
    | zero => simp
    | succ k =>
      cases L with
      | nil => simp at hk
      | cons b L =>
        have := ih k (by simpa using hk)
        simp only [piecesOf, List.take_succ_cons, List.map_cons, List.sum_cons, this, pieceOf_fin]
        simp

theorem Skel.Valid.stateAt_zero {sk : Skel ℝ} (h : sk.Valid) : sk.stateAt 0 = sk.xt.head? := by
  obtain ⟨x, l, hl⟩ := h.jumps_head
  have hinc := h.jumps_inc
  have hx := (Skel.t_eq_of_len h.len).2
  unfold Skel.stateAt
  rw [hx, hl] at *
  rw [stAt_cons]
  rw [List.pairwise_cons] at hinc
  have : stAt l 0 = none := by
    rw [stAt_eq_none_iff]; intro p hp; exact hinc.1 p hp
  simp [this]

theorem pieceOf_states {sk : Skel ℝ} (hv : sk.Valid) (hs : sk.StatesLt d) {a b : ℝ} (ha : 0 ≤ a) (hab : a ≤ b) :
    (pieceOf sk a b).StatesLt d ∧ (pieceOf sk a b).xt ≠ [] := by
  obtain ⟨x, hx, hlen, hj⟩ := pieceOf_jumps hv ha hab
  have h2 := (Skel.t_eq_of_len hlen).2
  have hx' := (Skel.t_eq_of_len hv.len).2
  rw [hj] at h2
  constructor
  · intro y hy
    rw [h2] at hy
    simp only [List.map_cons, List.mem_cons] at hy
    rcases hy with rfl | hy
    · obtain ⟨c, hc, -⟩ := stAt_mem hx
      exact hs _ (by rw [hx']; exact List.mem_map.2 ⟨_, hc, rfl⟩)
    · obtain ⟨q, hq, rfl⟩ := List.mem_map.1 hy
      rw [shift, List.mem_map] at hq
      obtain ⟨r, hr, rfl⟩ := hq
      exact hs _ (by rw [hx']; exact List.mem_map.2 ⟨r, List.mem_of_mem_filter hr, rfl⟩)
  · rw [h2]; simp

theorem propose_gen [NeZero d] {fuel : ℕ} {ls : ℝ} {g : Mat} (hg : IsGenerator d g) {st : Skel ℝ} (hv : st.Valid)
    {t : List ℝ} (hs : t.Pairwise (· < ·)) (ht : ∀ a ∈ t, 0 ≤ a ∧ a ≤ st.fin) {prop : Skel ℝ} {tc : List ℝ}
    {h0 h1 : List ℝ} (hz : 0 ∈ h0) (ho : (mjpPropose fuel d ls st g t).Gen h0 (.ok (prop, tc)) h1) :
    prop.Valid ∧ prop.Reduced ∧ prop.fin = st.fin ∧ prop.StatesLt d ∧ tc.Sublist t.tail.dropLast ∧
      ∀ s ∈ tc, prop.stateAt s = st.stateAt s := by
  unfold mjpPropose at ho
  rw [Prog.gen_bind_ok] at ho
  obtain ⟨tc', k1, htc, ho⟩ := ho
  rw [Prog.gen_bind_ok] at ho
  obtain ⟨qs, k2, hqs, ho⟩ := ho
  have ho := ho.out
  rw [Prog.out_bind_ok] at ho
  obtain ⟨pr, hpr, ho⟩ := ho
  simp only [Prog.out_ret, Except.ok.injEq, Prod.mk.injEq] at ho
  obtain ⟨rfl, rfl⟩ := ho
  rw [Prog.out_lift] at hpr
  have hz1 := htc.mono 0 hz
  obtain ⟨-, hsub⟩ := condTimes_out htc.out
  have hint := interior_strict hs ht
  have hsl : tc.Pairwise (· < ·) := by
    refine List.Pairwise.sublist hsub (hs.sublist ?_)
    exact (List.dropLast_sublist _).trans (List.tail_sublist _)
  have hin : ∀ a ∈ tc, 0 < a ∧ a < st.fin := fun a ha => hint a (hsub.subset ha)
  set L : List ℝ := 0 :: (tc ++ [st.fin]) with hL
  have hLs : L.Pairwise (· < ·) := by
    rw [hL, List.pairwise_cons, List.pairwise_append]
    refine ⟨?_, hsl, by simp, ?_⟩
    · intro a ha
      simp only [List.mem_append, List.mem_singleton] at ha
      rcases ha with ha | rfl
      · exact (hin a ha).1
      · exact hv.fin_pos
    · intro a ha b hb
      simp only [List.mem_singleton] at hb; subst hb; exact (hin a ha).2
  have hps : partitionSkeleton st tc = piecesOf st L := partitionSkeleton_eq st tc
  rw [hps] at hqs
  have hlenP : (piecesOf st L).length = tc.length + 1 := by rw [piecesOf_length, hL]; simp
  have hget : ∀ k (hk : k + 1 < L.length), (piecesOf st L)[k]? = some (pieceOf st L[k] L[k + 1]) :=
    fun k hk => piecesOf_get st L k hk
  have hlt : ∀ k (hk : k + 1 < L.length), L[k] < L[k + 1] := fun k hk =>
    (List.pairwise_iff_getElem.1 hLs) k (k + 1) (by omega) hk (by omega)
  have hge : ∀ k (hk : k < L.length), 0 ≤ L[k] := by
    intro k hk
    rcases Nat.eq_zero_or_pos k with rfl | hk0
    · simp [hL]
    · have := (List.pairwise_iff_getElem.1 hLs) 0 k (by simp [hL]) hk hk0
      have h0 : L[0] = 0 := by simp [hL]
      linarith
  have hLlen : L.length = tc.length + 2 := by simp [hL]
  have hpos : ∀ p ∈ piecesOf st L, 0 < p.fin := by
    intro p hp
    obtain ⟨k, hk⟩ := List.mem_iff_getElem?.1 hp
    have hkl : k + 1 < L.length := by
      have := (List.getElem?_eq_some_iff.1 hk).1
      omega
    rw [hget k hkl] at hk
    simp only [Option.some.injEq] at hk
    subst hk
    rw [pieceOf_fin]
    have := hlt k hkl; linarith
  obtain ⟨hlen, hM⟩ := mutate_gen hg hpos hz1 hqs
  have hQ : ∀ k (hk : k < qs.length), Mutated d g (piecesOf st L).length k (piecesOf st L)[k] qs[k] := fun k hk =>
    hM k _ _ (List.getElem?_eq_getElem (by omega)) (List.getElem?_eq_getElem hk)
  have hqv : ∀ q ∈ qs, q.Valid ∧ q.StatesLt d := by
    intro q hq
    obtain ⟨k, hk, rfl⟩ := List.mem_iff_getElem.1 hq
    exact ⟨(hQ k hk).path.valid, (hQ k hk).path.states⟩
  have hfins : qs.map Skel.fin = (piecesOf st L).map Skel.fin := by
    apply List.ext_getElem
    · simp [hlen]
    · intro k h1 h2
      simp only [List.getElem_map]
      exact (hQ k (by simpa using h1)).path.fin_eq
  have hqne : qs ≠ [] := by intro h; rw [h] at hlen; simp at hlen; omega
  obtain ⟨q0, hq0⟩ := List.exists_mem_of_ne_nil _ hqne
  obtain ⟨sk, e1, e2, e3, e4, e5⟩ := C04_paste qs (fun q hq _ => (hqv q hq).1)
    ⟨q0, hq0, (hqv q0 hq0).1.fin_pos.ne'⟩
  rw [e1] at hpr
  cases hpr
  refine ⟨e2, e3, ?_, ?_, hsub, ?_⟩
  · rw [e4, hfins, piecesOf_sum]; simp
  · -- states: every jump of the pasted path is a state of some piece
    rw [pastePartition_eq qs (fun q hq _ => (hqv q hq).1.len) (by
      intro h
      have : q0 ∈ qs.filter fun sk => decide (sk.fin ≠ 0) :=
        List.mem_filter.2 ⟨hq0, by simpa using (hqv q0 hq0).1.fin_pos.ne'⟩
      rw [h] at this; simp at this) (by
      intro q hq _ h
      have := (hqv q hq).1.head; simp [h] at this)] at e1
    cases e1
    intro y hy
    simp only at hy
    obtain ⟨p, hp, rfl⟩ := List.mem_map.1 hy
    have hp' := (dedupAll_sublist _).subset hp
    have key : ∀ (off : ℝ) (l : List (Skel ℝ)), (∀ q ∈ l, q.StatesLt d) → ∀ p ∈ catJ off l, p.2 < d := by
      intro off l
      induction l generalizing off with
      | nil => simp [catJ]
      | cons q l ih =>
        intro hl p hp
        simp only [catJ, List.mem_append] at hp
        rcases hp with hp | hp
        · rw [shift, List.mem_map] at hp
          obtain ⟨r, hr, rfl⟩ := hp
          exact hl q (by simp) _ (List.of_mem_zip (a := r.1) (b := r.2) hr).2
        · exact ih _ (fun q hq => hl q (by simp [hq])) p hp
    exact key 0 _ (fun q hq => (hqv q (List.mem_of_mem_filter hq)).2) p hp'
  · intro s hsm
    obtain ⟨j, hj, hjs⟩ := List.mem_iff_getElem.1 hsm
    have hLk : L[j + 1]'(by omega) = s := by
      simp only [hL, List.getElem_cons_succ]
      rw [List.getElem_append_left hj, hjs]
    have hjq : j + 1 < qs.length := by omega
    have hsplit : qs = qs.take (j + 1) ++ qs[j + 1] :: qs.drop (j + 2) := by
      rw [List.getElem_cons_drop, List.take_append_drop]
    have hm := hQ (j + 1) hjq
    have hval := e5 (qs.take (j + 1)) qs[j + 1] (qs.drop (j + 2)) 0 hsplit le_rfl hm.path.valid.fin_pos
    have hsum : ((qs.take (j + 1)).map Skel.fin).sum = s := by
      rw [← List.map_take.symm, hfins, List.map_take.symm, piecesOf_take_sum st L (j + 1) (by omega), hLk]
      simp [hL]
    rw [hsum, add_zero, hm.path.valid.stateAt_zero, hm.first (by omega)] at hval
    rw [hval]
    have hpk : (piecesOf st L)[j + 1]'(by omega) = pieceOf st (L[j + 1]'(by omega)) (L[j + 2]'(by omega)) := by
      have := hget (j + 1) (by omega)
      rw [List.getElem?_eq_getElem (by omega)] at this
      simpa using this
    rw [hpk]
    have hle := hlt (j + 1) (by omega)
    obtain ⟨x, hx, hlen', hjm⟩ := pieceOf_jumps hv (hge (j + 1) (by omega)) hle.le
    have := (Skel.t_eq_of_len hlen').2
    rw [this, hjm]
    simp only [List.map_cons, List.head?_cons]
    rw [hLk] at hx
    exact hx.symm

theorem propose_error [NeZero d] {fuel : ℕ} {ls : ℝ} {g : Mat} (hd : 2 ≤ d) (hg : IsGenerator d g) {st : Skel ℝ}
    (hv : st.Valid) (hst : st.StatesLt d) {t : List ℝ} (hs : t.Pairwise (· < ·)) (ht : ∀ a ∈ t, 0 ≤ a ∧ a ≤ st.fin)
    (h2 : 2 ≤ t.length) {e : PyErr} {h0 h1 : List ℝ} (hz : 0 ∈ h0)
    (ho : (mjpPropose fuel d ls st g t).Gen h0 (.error e) h1) : e = .fuel := by
  unfold mjpPropose at ho
  rw [Prog.gen_bind] at ho
  rcases ho with ⟨tc, k1, htc, ho⟩ | ⟨e', he, hr⟩
  swap
  · exact absurd he.out (condTimes_error h2)
  have hz1 := htc.mono 0 hz
  obtain ⟨-, hsub⟩ := condTimes_out htc.out
  have hint := interior_strict hs ht
  have hb : Breaks st.fin tc := by
    refine ⟨?_, fun a ha => (hint a (hsub.subset ha)).1.le, fun a ha => (hint a (hsub.subset ha)).2.le⟩
    exact ((hs.sublist ((List.dropLast_sublist _).trans (List.tail_sublist _))).sublist hsub).imp fun h => h.le
  have hsl : tc.Pairwise (· < ·) := by
    refine List.Pairwise.sublist hsub (hs.sublist ?_)
    exact (List.dropLast_sublist _).trans (List.tail_sublist _)
  have hsort := hb.sorted_ext hv.fin_pos.le
  have hpp : ∀ p ∈ partitionSkeleton st tc, 0 ≤ p.fin ∧ p.xt ≠ [] ∧ p.StatesLt d := by
    intro p hp
    rw [partitionSkeleton_eq] at hp
    obtain ⟨a, ha, b, -, hab, rfl⟩ := piecesOf_mem st _ hsort p hp
    have ha0 : 0 ≤ a := by
      rcases List.mem_cons.1 ha with rfl | ha
      · exact le_rfl
      · exact (List.pairwise_cons.1 hsort).1 a ha
    obtain ⟨h1, h2⟩ := pieceOf_states hv hst ha0 hab
    exact ⟨by rw [pieceOf_fin]; linarith, h2, h1⟩
  have hne : partitionSkeleton st tc ≠ [] := by
    intro h
    have := congrArg List.length h
    rw [partitionSkeleton_eq, piecesOf_length] at this
    simp at this
  rw [Prog.gen_bind] at ho
  rcases ho with ⟨qs, k2, hqs, ho⟩ | ⟨e', he, hr⟩
  swap
  · cases hr; exact mutate_error hd hg hne hpp he.out
  have ho := ho.out
  rw [Prog.out_bind_error] at ho
  rcases ho with ho | ⟨pr, -, ho⟩
  swap
  · simp at ho
  rw [Prog.out_lift] at ho
  have hLs : (0 :: (tc ++ [st.fin])).Pairwise (· < ·) := by
    rw [List.pairwise_cons, List.pairwise_append]
    refine ⟨?_, hsl, by simp, ?_⟩
    · intro a ha
      simp only [List.mem_append, List.mem_singleton] at ha
      rcases ha with ha | rfl
      · exact (hint a (hsub.subset ha)).1
      · exact hv.fin_pos
    · intro a ha b hb
      simp only [List.mem_singleton] at hb; subst hb; exact (hint a (hsub.subset ha)).2
  have hpos : ∀ p ∈ partitionSkeleton st tc, 0 < p.fin := by
    intro p hp
    rw [partitionSkeleton_eq] at hp
    obtain ⟨k, hk⟩ := List.mem_iff_getElem?.1 hp
    have hkl : k + 1 < (0 :: (tc ++ [st.fin])).length := by
      have := (List.getElem?_eq_some_iff.1 hk).1
      rw [piecesOf_length] at this
      omega
    rw [piecesOf_get st _ k hkl] at hk
    simp only [Option.some.injEq] at hk
    subst hk
    rw [pieceOf_fin]
    have := (List.pairwise_iff_getElem.1 hLs) k (k + 1) (by omega) hkl (by omega)
    linarith
  obtain ⟨hlen, hM⟩ := mutate_gen hg hpos hz1 hqs
  have hqv : ∀ q ∈ qs, q.Valid := by
    intro q hq
    obtain ⟨k, hk, rfl⟩ := List.mem_iff_getElem.1 hq
    exact (hM k _ _ (List.getElem?_eq_getElem (by omega)) (List.getElem?_eq_getElem hk)).path.valid
  have hqne : qs ≠ [] := by
    intro h; rw [h] at hlen; simp at hlen; exact hne (List.length_eq_zero_iff.1 hlen.symm)
  obtain ⟨q0, hq0⟩ := List.exists_mem_of_ne_nil _ hqne
  obtain ⟨sk, e1, -⟩ := C04_paste qs (fun q hq _ => hqv q hq) ⟨q0, hq0, (hqv q0 hq0).fin_pos.ne'⟩
  rw [e1] at ho
  cases ho

end Ctb
