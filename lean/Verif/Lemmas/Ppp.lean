import Verif.Lemmas.Stationary

/-! # Lemmas about `sample_ppp` and `sample_batch_ppp` -/

set_option linter.unusedSectionVars false

namespace Ctb

theorem uniform_mem' {lo hi : ℝ} (h : lo ≤ hi) {x : ℝ} (hx : x ∈ (RDist.uniform lo hi).support) : lo ≤ x ∧ x ≤ hi := by
  obtain ⟨u, h0, h1, rfl⟩ := hx
  constructor <;> nlinarith

theorem drawRow_ok {bound row : List ℝ} (hb : ∀ b ∈ bound, 0 < b) (h : (drawRow bound).Out (.ok row)) :
    List.Forall₂ (fun b x => 0 ≤ x ∧ x < b) bound row := by
  unfold drawRow at h
  rw [Prog.out_mapM'_ok] at h
  induction h with
  | nil => exact .nil
  | cons h1 h2 ih =>
    refine .cons ?_ (ih fun b hb' => hb b (by simp [hb']))
    simp only [Prog.out_draw, Except.ok.injEq] at h1
    obtain ⟨x, hx, rfl⟩ := h1
    exact uniform_mem (hb _ (by simp)) hx

theorem drawRow_no_error {bound : List ℝ} {e : PyErr} : ¬ (drawRow bound).Out (.error e) := by
  intro h
  obtain ⟨b, -, h⟩ := mapM'_error h
  simp at h

theorem replicate_no_error {α : Type} {p : Prog α} {e : PyErr} (hp : ¬ p.Out (.error e)) (n : ℕ) :
    ¬ (Prog.replicate n p).Out (.error e) := by
  induction n with
  | zero => simp [Prog.replicate]
  | succ n ih =>
    intro h
    rw [Prog.replicate, Prog.out_bind_error] at h
    rcases h with h | ⟨a, -, h⟩
    · exact hp h
    · rw [Prog.out_bind_error] at h
      rcases h with h | ⟨l, -, h⟩
      · exact ih h
      · simp at h

theorem sort_rows (rows : List (List ℝ)) :
    (rows.insertionSort fun a b => firstCoord a ≤ firstCoord b).Perm rows ∧
    (rows.insertionSort fun a b => firstCoord a ≤ firstCoord b).Pairwise fun a b => firstCoord a ≤ firstCoord b := by
  refine ⟨List.perm_insertionSort _ _, ?_⟩
  haveI : Std.Total (fun a b : List ℝ => firstCoord a ≤ firstCoord b) := ⟨fun a b => le_total _ _⟩
  haveI : IsTrans (List ℝ) (fun a b : List ℝ => firstCoord a ≤ firstCoord b) := ⟨fun a b c => le_trans⟩
  exact List.pairwise_insertionSort _ _

theorem batchSizes_sum (n size : ℕ) : (batchSizes n size).sum = n := by
  unfold batchSizes
  rw [List.sum_append, List.sum_replicate, smul_eq_mul]
  have := Nat.div_add_mod' n size
  split <;> simp_all

theorem batchSizes_pos {n size : ℕ} (hs : 0 < size) : ∀ i ∈ batchSizes n size, 0 < i ∧ i ≤ size := by
  intro i hi
  unfold batchSizes at hi
  rw [List.mem_append, List.mem_replicate] at hi
  rcases hi with hi | hi
  · rw [hi.2]; exact ⟨hs, le_rfl⟩
  · split at hi
    · simp at hi; subst hi
      exact ⟨Nat.pos_of_ne_zero ‹_›, (Nat.mod_lt _ hs).le⟩
    · simp at hi

theorem batchSizes_dropLast {n size : ℕ} : ∀ i ∈ (batchSizes n size).dropLast, i = size := by
  intro i hi
  unfold batchSizes at hi
  split at hi
  · rw [List.dropLast_concat] at hi
    exact (List.mem_replicate.1 hi).2
  · rw [List.append_nil] at hi
    exact (List.mem_replicate.1 (List.mem_of_mem_dropLast hi)).2

/-- One batch. -/
theorem pppBatch_ok {n : ℕ} {b0 : ℝ} (hb0 : 0 < b0) {bs : List ℝ} (hbs : ∀ b ∈ bs, 0 < b) {lb : ℝ} {i : ℕ} (hi : 0 < i)
    {ub : ℝ} {pts : List (List ℝ)} (h : (pppBatch n b0 bs lb i).Out (.ok (ub, pts))) :
    lb < ub ∧ ub < lb + b0 ∧ pts.length = i ∧ pts.Pairwise (fun a b => firstCoord a ≤ firstCoord b) ∧
    ∀ p ∈ pts, (lb ≤ firstCoord p ∧ firstCoord p ≤ ub) ∧ p ≠ [] ∧ List.Forall₂ (fun b x => 0 ≤ x ∧ x < b) bs p.tail := by
  unfold pppBatch at h
  rw [Prog.out_real] at h
  obtain ⟨z, hz, h⟩ := h
  simp only [RDist.support, Set.mem_Ioo] at hz
  dsimp only at h
  rw [Prog.out_bind_ok] at h
  obtain ⟨u0, hu0, h⟩ := h
  rw [Prog.out_bind_ok] at h
  obtain ⟨u, hu, h⟩ := h
  simp only [Prog.out_ret, Except.ok.injEq, Prod.mk.injEq] at h
  obtain ⟨rfl, rfl⟩ := h
  rw [Prog.out_replicate_ok] at hu
  obtain ⟨hul, hur⟩ := hu
  have hub : lb < lb + b0 * z := by nlinarith [mul_pos hb0 hz.1]
  have h0 : u0.length = i ∧ u0.Pairwise (· ≤ ·) ∧ ∀ a ∈ u0, lb ≤ a ∧ a ≤ lb + b0 * z := by
    split at hu0
    · rename_i h1
      simp only [Prog.out_ret, Except.ok.injEq] at hu0
      subst hu0
      refine ⟨by simp [h1], by simp, ?_⟩
      intro a ha
      simp at ha; subst ha; exact ⟨hub.le, le_rfl⟩
    · rw [Prog.out_bind_ok] at hu0
      obtain ⟨us, hus, hu0⟩ := hu0
      simp only [Prog.out_ret, Except.ok.injEq] at hu0
      subst hu0
      rw [Prog.out_replicate_ok] at hus
      have hmem : ∀ a ∈ npSort us, lb ≤ a ∧ a ≤ lb + b0 * z := by
        intro a ha
        have := hus.2 a ((npSort_perm us).mem_iff.1 ha)
        simp only [Prog.out_draw, Except.ok.injEq] at this
        obtain ⟨x, hx, rfl⟩ := this
        exact uniform_mem' hub.le hx
      refine ⟨?_, ?_, ?_⟩
      · rw [List.length_append, (npSort_perm us).length_eq, hus.1]; simp; omega
      · rw [List.pairwise_append]
        refine ⟨npSort_sorted us, by simp, ?_⟩
        intro a ha b hb
        simp at hb; subst hb; exact (hmem a ha).2
      · intro a ha
        rw [List.mem_append] at ha
        rcases ha with ha | ha
        · exact hmem a ha
        · simp at ha; subst ha; exact ⟨hub.le, le_rfl⟩
  refine ⟨hub, by nlinarith [mul_lt_mul_of_pos_left hz.2 hb0], by simp [h0.1, hul], ?_, ?_⟩
  · have hz : List.zipWith (fun a r => a :: r) u0 u = (u0.zip u).map fun p => p.1 :: p.2 := by
      rw [List.zip, List.map_zipWith]
    rw [hz, List.pairwise_map]
    have h1 : ((u0.zip u).map Prod.fst).Pairwise (· ≤ ·) := by
      rw [List.map_fst_zip (by omega)]; exact h0.2.1
    rw [List.pairwise_map] at h1
    simpa [firstCoord] using h1
  · intro p hp
    rw [List.zipWith_eq_zipWith_take_min] at hp
    rw [← List.zipWith_eq_zipWith_take_min] at hp
    obtain ⟨k, hk, rfl⟩ := List.mem_iff_getElem.1 hp
    simp only [List.getElem_zipWith]
    have hk' : k < u0.length ∧ k < u.length := by simp at hk; omega
    refine ⟨?_, by simp, ?_⟩
    · simpa [firstCoord] using h0.2.2 _ (List.getElem_mem hk'.1)
    · exact drawRow_ok hbs (hur _ (List.getElem_mem hk'.2))

theorem pppLoop_ok {n : ℕ} {b0 : ℝ} (hb0 : 0 < b0) {bs : List ℝ} (hbs : ∀ b ∈ bs, 0 < b) (is : List ℕ)
    (his : ∀ i ∈ is, 0 < i) : ∀ {lb : ℝ} {out : List (List (List ℝ))}, (pppLoop n b0 bs lb is).Out (.ok out) →
    out.map List.length = is ∧ out.flatten.Pairwise (fun a b => firstCoord a ≤ firstCoord b) ∧
    (∀ p ∈ out.flatten, lb ≤ firstCoord p ∧ p ≠ [] ∧ List.Forall₂ (fun b x => 0 ≤ x ∧ x < b) bs p.tail) ∧
    ∀ k : ℕ, ∀ c, out[k]? = some c → ∀ p ∈ c, firstCoord p < lb + ((k : ℝ) + 1) * b0 := by
  induction is with
  | nil =>
    intro lb out h
    simp only [pppLoop, Prog.out_ret, Except.ok.injEq] at h
    subst h; simp
  | cons i is ih =>
    intro lb out h
    rw [pppLoop, Prog.out_bind_ok] at h
    obtain ⟨⟨ub, pts⟩, h1, h⟩ := h
    rw [Prog.out_bind_ok] at h
    obtain ⟨rest, h2, h⟩ := h
    simp only [Prog.out_ret, Except.ok.injEq] at h
    subst h
    obtain ⟨a1, a2, a3, a4, a5⟩ := pppBatch_ok hb0 hbs (his i (by simp)) h1
    obtain ⟨c1, c2, c3, c4⟩ := ih (fun j hj => his j (by simp [hj])) h2
    dsimp only at *
    refine ⟨by simp [a3, c1], ?_, ?_, ?_⟩
    · rw [List.flatten_cons, List.pairwise_append]
      refine ⟨a4, c2, fun a ha b hb => ?_⟩
      exact le_trans (a5 a ha).1.2 (c3 b hb).1
    · intro p hp
      rw [List.flatten_cons, List.mem_append] at hp
      rcases hp with hp | hp
      · exact ⟨(a5 p hp).1.1, (a5 p hp).2⟩
      · exact ⟨by have := (c3 p hp).1; linarith, (c3 p hp).2⟩
    · intro k c hk p hp
      cases k with
      | zero =>
        simp at hk; subst hk
        have := (a5 p hp).1.2
        simp; linarith
      | succ k =>
        simp at hk
        have := c4 k c hk p hp
        push_cast; linarith

theorem pppLoop_no_error {n : ℕ} {b0 : ℝ} {bs : List ℝ} (is : List ℕ) {e : PyErr} : ∀ {lb : ℝ},
    ¬ (pppLoop n b0 bs lb is).Out (.error e) := by
  induction is with
  | nil => simp [pppLoop]
  | cons i is ih =>
    intro lb h
    rw [pppLoop, Prog.out_bind_error] at h
    rcases h with h | ⟨r, -, h⟩
    · unfold pppBatch at h
      rw [Prog.out_real] at h
      obtain ⟨z, -, h⟩ := h
      dsimp only at h
      rw [Prog.out_bind_error] at h
      rcases h with h | ⟨u0, -, h⟩
      · split at h
        · simp at h
        · rw [Prog.out_bind_error] at h
          rcases h with h | ⟨us, -, h⟩
          · exact replicate_draw_no_error h
          · simp at h
      · rw [Prog.out_bind_error] at h
        rcases h with h | ⟨us, -, h⟩
        · exact replicate_no_error drawRow_no_error _ h
        · simp at h
    · rw [Prog.out_bind_error] at h
      rcases h with h | ⟨l, -, h⟩
      · exact ih h
      · simp at h

end Ctb
