import Verif.Lemmas.Uniformisation
import Verif.Lemmas.Partition

/-! # Lemmas about `sample_bridge` -/

set_option linter.unusedSectionVars false

namespace Ctb

open Matrix

variable {d : ℕ}

/-! ## choice -/

theorem pyChoice_ok {q : Fin d → ℝ} {y : Fin d} (h : (pyChoice q).Out (.ok y)) :
    (∀ j, 0 ≤ q j) ∧ ∑ j, q j = 1 ∧ 0 < q y := by
  unfold pyChoice at h
  split at h
  · rename_i hv
    simp only [Prog.out_nat, NDist.support, Set.mem_setOf_eq] at h
    obtain ⟨n, ⟨hn, hp⟩, h⟩ := h
    rw [dif_pos hn] at h hp
    simp only [Prog.out_ret, Except.ok.injEq] at h
    subst h
    exact ⟨hv.1, hv.2, hp⟩
  · simp at h

theorem pyChoice_error {q : Fin d → ℝ} {e : PyErr} (h : (pyChoice q).Out (.error e)) :
    e = .value ∧ ¬ ((∀ j, 0 ≤ q j) ∧ ∑ j, q j = 1) := by
  unfold pyChoice at h
  split at h
  · simp only [Prog.out_nat, NDist.support, Set.mem_setOf_eq] at h
    obtain ⟨n, ⟨hn, hp⟩, h⟩ := h
    rw [dif_pos hn] at h
    simp at h
  · rename_i hv
    simp at h; exact ⟨h, hv⟩

/-! ## the jump-count search -/

/-- Partial sums. -/
noncomputable def psum (term : ℕ → ℝ) (n : ℕ) : ℝ := ∑ k ∈ Finset.range (n + 1), term k

theorem psum_succ (term : ℕ → ℝ) (n : ℕ) : psum term (n + 1) = psum term n + term (n + 1) := by
  unfold psum; rw [Finset.sum_range_succ]

theorem nTransLoop_ok {term : ℕ → ℝ} {u : ℝ} {fuel : ℕ} : ∀ {n m : ℕ}, nTransLoop term u fuel n (psum term n) = .ok m →
    n ≤ m ∧ u ≤ psum term m ∧ ∀ k, n ≤ k → k < m → psum term k < u := by
  induction fuel with
  | zero => intro n m h; simp [nTransLoop] at h
  | succ fuel ih =>
    intro n m h
    unfold nTransLoop at h
    split at h
    · rename_i hp
      rw [← psum_succ] at h
      obtain ⟨h1, h2, h3⟩ := ih h
      refine ⟨by omega, h2, ?_⟩
      intro k hk1 hk2
      rcases hk1.eq_or_lt with rfl | hk
      · exact hp
      · exact h3 k hk hk2
    · rename_i hp
      simp at h; subst h
      exact ⟨le_rfl, not_lt.1 hp, fun k h1 h2 => absurd h1 (not_le.2 h2)⟩

theorem nTransLoop_total {term : ℕ → ℝ} {u : ℝ} {N : ℕ} (hN : u ≤ psum term N) : ∀ (fuel n : ℕ), n ≤ N →
    N < n + fuel → ∃ m, nTransLoop term u fuel n (psum term n) = .ok m := by
  intro fuel
  induction fuel with
  | zero => intro n h1 h2; omega
  | succ fuel ih =>
    intro n h1 h2
    unfold nTransLoop
    split
    · rename_i hp
      rw [← psum_succ]
      rcases h1.eq_or_lt with rfl | h
      · exact absurd hN (not_le.2 hp)
      · exact ih (n + 1) h (by omega)
    · exact ⟨n, rfl⟩

theorem nTransLoop_error {term : ℕ → ℝ} {u : ℝ} {e : PyErr} (fuel : ℕ) : ∀ {n : ℕ} {p : ℝ},
    nTransLoop term u fuel n p = .error e → e = .fuel := by
  induction fuel with
  | zero => intro n p h; simp [nTransLoop] at h; exact h.symm
  | succ fuel ih =>
    intro n p h
    unfold nTransLoop at h
    split at h
    · exact ih h
    · simp at h

theorem psum_zero_term [NeZero d] (G : Matrix (Fin d) (Fin d) ℝ) (fin : ℝ) (i f : Fin d) :
    (if i = f then (1 : ℝ) else 0) = psum (nTransTerm G fin i f) 0 := by
  simp [psum, nTransTerm, Matrix.one_apply]

/-- A returned positive count has a positive path weight. -/
theorem sampleNTrans_pos [NeZero d] {fuel : ℕ} {G : Matrix (Fin d) (Fin d) ℝ} (h : IsQMatrix G) {fin : ℝ} (hf : 0 ≤ fin)
    {i f : Fin d} {U : ℝ} {n : ℕ} (hn : sampleNTrans fuel G fin i f U = .ok (n + 1)) : 0 < (dtrans G ^ (n + 1)) i f := by
  unfold sampleNTrans at hn
  rw [psum_zero_term G fin i f] at hn
  obtain ⟨-, h2, h3⟩ := nTransLoop_ok hn
  have h4 := h3 n (Nat.zero_le _) (Nat.lt_succ_self n)
  rw [psum_succ] at h2
  have h5 : 0 < nTransTerm G fin i f (n + 1) := by linarith
  unfold nTransTerm at h5
  have h6 : 0 ≤ (rateBound G * fin) ^ (n + 1) / ((n + 1).factorial : ℝ) := by
    have := h.rateBound_nonneg; positivity
  exact pos_of_mul_pos_right h5 h6

/-- With a positive draw and a positive transition probability, a count of zero means the endpoints agree. -/
theorem sampleNTrans_zero [NeZero d] {fuel : ℕ} {G : Matrix (Fin d) (Fin d) ℝ} {fin : ℝ} {i f : Fin d} {U : ℝ}
    (hU : 0 < U) (hc : 0 < getTrans fin G i f) (hn : sampleNTrans fuel G fin i f U = .ok 0) : i = f := by
  unfold sampleNTrans at hn
  rw [psum_zero_term G fin i f] at hn
  obtain ⟨-, h2, -⟩ := nTransLoop_ok hn
  rw [← psum_zero_term] at h2
  by_contra hne
  rw [if_neg hne] at h2
  have : 0 < U * getTrans fin G i f * Real.exp (rateBound G * fin) := by positivity
  linarith

/-! ## the chain of intermediate states -/

theorem stepProbs_valid {P : Matrix (Fin d) (Fin d) ℝ} (hP : ∀ i j, 0 ≤ P i j) {x f : Fin d} {m : ℕ}
    (hx : 0 < (P ^ (m + 1)) x f) :
    (∀ j, 0 ≤ P x j * (P ^ m) j f / (P ^ (m + 1)) x f) ∧ ∑ j, P x j * (P ^ m) j f / (P ^ (m + 1)) x f = 1 := by
  constructor
  · intro j
    exact div_nonneg (mul_nonneg (hP x j) (pow_nonneg_entry hP m j f)) hx.le
  · rw [← Finset.sum_div, div_eq_one_iff_eq hx.ne', pow_succ', Matrix.mul_apply]

theorem bridgeSteps_ok {P : Matrix (Fin d) (Fin d) ℝ} (hP : ∀ i j, 0 ≤ P i j) {f : Fin d} (m : ℕ) : ∀ {x : Fin d}
    {l : List (Fin d)}, 0 < (P ^ (m + 1)) x f → (bridgeSteps P f m x).Out (.ok l) →
    l.length = m ∧ (x :: l ++ [f]).IsChain fun i j => 0 < P i j := by
  induction m with
  | zero =>
    intro x l hx h
    simp [bridgeSteps] at h; subst h
    simpa using hx
  | succ m ih =>
    intro x l hx h
    unfold bridgeSteps at h
    rw [Prog.out_bind_ok] at h
    obtain ⟨y, hy, h⟩ := h
    rw [Prog.out_bind_ok] at h
    obtain ⟨l', hl', h⟩ := h
    simp at h; subst h
    obtain ⟨-, -, hq⟩ := pyChoice_ok hy
    have h1 : 0 < P x y * (P ^ (m + 1)) y f := by
      by_contra hc
      have : P x y * (P ^ (m + 1)) y f / (P ^ (m + 2)) x f ≤ 0 := div_nonpos_of_nonpos_of_nonneg (not_lt.1 hc) hx.le
      linarith
    have h2 : 0 < P x y := pos_of_mul_pos_left h1 (pow_nonneg_entry hP _ y f)
    have h3 : 0 < (P ^ (m + 1)) y f := pos_of_mul_pos_right h1 (hP x y)
    obtain ⟨h4, h5⟩ := ih h3 hl'
    refine ⟨by simp [h4], ?_⟩
    simp only [List.cons_append] at h5 ⊢
    exact List.isChain_cons_cons.2 ⟨h2, h5⟩

theorem bridgeSteps_no_error {P : Matrix (Fin d) (Fin d) ℝ} (hP : ∀ i j, 0 ≤ P i j) {f : Fin d} (m : ℕ) : ∀ {x : Fin d}
    {e : PyErr}, 0 < (P ^ (m + 1)) x f → ¬ (bridgeSteps P f m x).Out (.error e) := by
  induction m with
  | zero => intro x e _ h; simp [bridgeSteps] at h
  | succ m ih =>
    intro x e hx h
    unfold bridgeSteps at h
    rw [Prog.out_bind_error] at h
    rcases h with h | ⟨y, hy, h⟩
    · exact (pyChoice_error h).2 (stepProbs_valid hP hx)
    · rw [Prog.out_bind_error] at h
      obtain ⟨-, -, hq⟩ := pyChoice_ok hy
      have h1 : 0 < P x y * (P ^ (m + 1)) y f := by
        by_contra hc
        have : P x y * (P ^ (m + 1)) y f / (P ^ (m + 2)) x f ≤ 0 := div_nonpos_of_nonpos_of_nonneg (not_lt.1 hc) hx.le
        linarith
      have h3 : 0 < (P ^ (m + 1)) y f := pos_of_mul_pos_right h1 (hP x y)
      rcases h with h | ⟨_, -, h⟩
      · exact ih h3 h
      · simp at h

/-! ## assembly -/

theorem dedup_chain_rel {R : ℕ → ℕ → Prop} (p : ℝ × ℕ) (l : List (ℝ × ℕ)) (h : ((p :: l).map Prod.snd).IsChain R) :
    ((p :: dedup p.2 l).map Prod.snd).IsChain fun i j => i ≠ j ∧ R i j := by
  induction l generalizing p with
  | nil => simp [dedup]
  | cons q l ih =>
    simp only [List.map_cons, List.isChain_cons_cons] at h
    unfold dedup; split
    · rename_i e
      have := ih (p.1, q.2) (by simpa using h.2)
      rw [e] at this; simpa using this
    · rename_i e
      have := ih q (by simpa using h.2)
      simp only [List.map_cons] at this ⊢
      exact List.isChain_cons_cons.2 ⟨⟨fun e' => e e'.symm, h.1⟩, this⟩

theorem dedup_getLast (p : ℝ × ℕ) (l : List (ℝ × ℕ)) :
    ((p :: dedup p.2 l).map Prod.snd).getLast? = ((p :: l).map Prod.snd).getLast? := by
  induction l generalizing p with
  | nil => rfl
  | cons q l ih =>
    unfold dedup; split
    · rename_i e
      have h1 := ih (p.1, q.2)
      simp only [List.map_cons, List.getLast?_cons_cons] at h1 ⊢
      rw [e] at h1
      rw [h1, e]
    · have h1 := ih q
      simp only [List.map_cons, List.getLast?_cons_cons] at h1 ⊢
      exact h1

/-- The assembled bridge as a jump list. -/
theorem bridgeAssemble_eq (fin : ℝ) (x : ℕ) (xs : List ℕ) (us : List ℝ) (h : us.length = xs.length) :
    bridgeAssemble fin (x :: xs) us =
      ⟨(((0 : ℝ), x) :: dedup x ((npSort us).zip xs)).map Prod.fst,
       (((0 : ℝ), x) :: dedup x ((npSort us).zip xs)).map Prod.snd, fin⟩ := by
  have hlen : (npSort us).length = xs.length := by simpa [npSort] using h
  have h1 : ((npSort us).zip xs).map Prod.fst = npSort us := List.map_fst_zip (by omega)
  have h2 : ((npSort us).zip xs).map Prod.snd = xs := List.map_snd_zip (by omega)
  have hd : (x :: xs).dropLast = if xs = [] then [] else x :: xs.dropLast := by
    cases xs <;> simp
  unfold bridgeAssemble
  simp only [List.tail_cons, select, List.map_cons]
  have hz : List.zipWith (fun a b => decide (a ≠ b)) xs (x :: xs).dropLast =
      List.zipWith (fun a b => decide (a ≠ b)) xs (x :: xs.dropLast) := by
    cases xs <;> simp
  have s1 := select_dedup Prod.fst ((npSort us).zip xs) x
  have s2 := select_dedup Prod.snd ((npSort us).zip xs) x
  rw [h1, h2] at s1
  rw [h2] at s2
  rw [hz, s1, s2]

theorem npSort_perm (us : List ℝ) : (npSort us).Perm us := List.perm_insertionSort _ _

theorem npSort_sorted (us : List ℝ) : (npSort us).Pairwise (· ≤ ·) := List.pairwise_insertionSort _ _

/-- What every bridge looks like, whatever is drawn: weakly increasing times. -/
structure BridgeLike (g : Fin d → Fin d → Prop) (fin : ℝ) (i f : Fin d) (sk : Skel ℝ) : Prop where
  len : sk.t.length = sk.xt.length
  fin_eq : sk.fin = fin
  head : sk.t.head? = some 0
  sorted : sk.t.Pairwise (· ≤ ·)
  lt : ∀ a ∈ sk.t, a < fin
  first : sk.xt.head? = some i.val
  last : sk.xt.getLast? = some f.val
  states : ∀ x ∈ sk.xt, x < d
  chain : sk.xt.IsChain fun a b => a ≠ b ∧ ∃ (ha : a < d) (hb : b < d), g ⟨a, ha⟩ ⟨b, hb⟩

theorem uniform_mem {fin : ℝ} (hf : 0 < fin) {x : ℝ} (h : x ∈ (RDist.uniform 0 fin).support) : 0 ≤ x ∧ x < fin := by
  obtain ⟨u, h0, h1, rfl⟩ := h
  constructor
  · simp; positivity
  · simp; nlinarith

theorem assemble_bridgeLike {P : Matrix (Fin d) (Fin d) ℝ} {fin : ℝ} (hf : 0 < fin) {i f : Fin d} {xs : List (Fin d)}
    (hch : (i :: xs ++ [f]).IsChain fun a b => 0 < P a b) {us : List ℝ} (hlen : us.length = xs.length + 1)
    (hus : ∀ u ∈ us, 0 ≤ u ∧ u < fin) :
    BridgeLike (fun a b => 0 < P a b) fin i f (bridgeAssemble fin (i.val :: xs.map Fin.val ++ [f.val]) us) ∧
    (us.Nodup → 0 ∉ us → (bridgeAssemble fin (i.val :: xs.map Fin.val ++ [f.val]) us).Valid) := by
  rw [List.cons_append, bridgeAssemble_eq _ _ _ _ (by simp [hlen])]
  set ys := xs.map Fin.val ++ [f.val] with hys
  set L := (npSort us).zip ys with hL
  have hlen2 : (npSort us).length = ys.length := by simp [npSort, hys, hlen]
  have h1 : L.map Prod.fst = npSort us := List.map_fst_zip (by omega)
  have h2 : L.map Prod.snd = ys := List.map_snd_zip (by omega)
  have hsub := dedup_sublist i.val L
  have hmem : ∀ a ∈ (npSort us), 0 ≤ a ∧ a < fin := fun a ha => hus a ((npSort_perm us).mem_iff.1 ha)
  have hmemd : ∀ a ∈ (dedup i.val L).map Prod.fst, a ∈ npSort us := by
    intro a ha; rw [← h1]; exact (hsub.map Prod.fst).mem ha
  have hvalch : ((i.val :: xs.map Fin.val ++ [f.val])).IsChain
      fun a b => ∃ (ha : a < d) (hb : b < d), 0 < P ⟨a, ha⟩ ⟨b, hb⟩ := by
    have : i.val :: xs.map Fin.val ++ [f.val] = (i :: xs ++ [f]).map Fin.val := by simp
    rw [this, List.isChain_map]
    exact hch.imp fun a b h => ⟨a.2, b.2, h⟩
  have hst : ∀ y ∈ i.val :: ys, y < d := by
    intro y hy
    simp only [hys, List.mem_cons, List.mem_append, List.mem_map, List.not_mem_nil, or_false] at hy
    rcases hy with rfl | ⟨z, -, rfl⟩ | rfl
    · exact i.2
    · exact z.2
    · exact f.2
  constructor
  · refine ⟨by simp, rfl, rfl, ?_, ?_, rfl, ?_, ?_, ?_⟩
    · rw [List.map_cons, List.pairwise_cons]
      refine ⟨fun a ha => (hmem a (hmemd a ha)).1, ?_⟩
      have := npSort_sorted us
      rw [← h1] at this
      exact this.sublist (hsub.map Prod.fst)
    · intro a ha
      rw [List.map_cons, List.mem_cons] at ha
      rcases ha with rfl | ha
      · exact hf
      · exact (hmem a (hmemd a ha)).2
    · have := dedup_getLast ((0 : ℝ), i.val) L
      simp only at this
      rw [this, List.map_cons, h2, hys, ← List.cons_append, List.getLast?_concat]
    · intro y hy
      simp only [List.map_cons, List.mem_cons] at hy
      rcases hy with rfl | hy
      · exact i.2
      · apply hst
        rw [← h2]
        exact List.mem_cons_of_mem _ ((hsub.map Prod.snd).mem hy)
    · have := dedup_chain_rel ((0 : ℝ), i.val) L (by
        rw [List.map_cons, h2]; exact hvalch)
      exact this
  · intro hnd h0
    have hlt : (npSort us).Pairwise (· < ·) := by
      have hnd' : (npSort us).Nodup := (npSort_perm us).nodup_iff.2 hnd
      exact (npSort_sorted us).imp₂ (fun a b h1 h2 => lt_of_le_of_ne h1 h2) hnd'
    refine ⟨by simp, rfl, ?_, ?_⟩
    · rw [List.map_cons, List.pairwise_cons]
      refine ⟨fun a ha => ?_, ?_⟩
      · have h3 := hmemd a ha
        refine lt_of_le_of_ne (hmem a h3).1 ?_
        rintro rfl
        exact h0 ((npSort_perm us).mem_iff.1 h3)
      · rw [← h1] at hlt
        exact hlt.sublist (hsub.map Prod.fst)
    · intro a ha
      rw [List.map_cons, List.mem_cons] at ha
      rcases ha with rfl | ha
      · exact hf
      · exact (hmem a (hmemd a ha)).2

/-- Any result of the bridge after a draw `U > 0`. -/
theorem bridgeFrom_ok [NeZero d] {fuel : ℕ} {G : Matrix (Fin d) (Fin d) ℝ} (h : IsQMatrix G) {fin : ℝ} (hf : 0 < fin)
    {i f : Fin d} (hc : 0 < getTrans fin G i f) {U : ℝ} (hU : 0 < U) {sk : Skel ℝ}
    (ho : (bridgeFrom fuel G fin i f U).Out (.ok sk)) : BridgeLike (fun a b => 0 < dtrans G a b) fin i f sk := by
  unfold bridgeFrom at ho
  rw [Prog.out_bind_ok] at ho
  obtain ⟨n, hn, ho⟩ := ho
  rw [Prog.out_lift] at hn
  split at ho
  · rename_i hcase
    have hif : i = f := by
      rcases hcase with rfl | ⟨-, h⟩
      · exact sampleNTrans_zero hU hc hn.symm
      · exact h
    simp at ho; subst ho; subst hif
    exact ⟨rfl, rfl, rfl, by simp, by simpa using hf, rfl, rfl, by simp, by simp⟩
  · rename_i hcase
    obtain ⟨m, rfl⟩ : ∃ m, n = m + 1 := ⟨n - 1, by omega⟩
    rw [Prog.out_bind_ok] at ho
    obtain ⟨xs, hxs, ho⟩ := ho
    rw [Prog.out_bind_ok] at ho
    obtain ⟨us, hus, ho⟩ := ho
    rw [Prog.out_replicate_ok] at hus
    simp only [Prog.out_ret, Except.ok.injEq] at ho
    subst ho
    obtain ⟨h1, h2⟩ := bridgeSteps_ok h.dtrans_nonneg _ (sampleNTrans_pos h hf.le hn.symm) hxs
    refine (assemble_bridgeLike hf h2 (by rw [hus.1, h1]) ?_).1
    intro u hu
    have := hus.2 u hu
    simp only [Prog.out_draw, Except.ok.injEq] at this
    obtain ⟨x, hx, rfl⟩ := this
    exact uniform_mem hf hx

/-- Generic results are valid paths. -/
theorem bridgeFrom_gen [NeZero d] {fuel : ℕ} {G : Matrix (Fin d) (Fin d) ℝ} (h : IsQMatrix G) {fin : ℝ} (hf : 0 < fin)
    {i f : Fin d} {U : ℝ} {sk : Skel ℝ} {h0 h1 : List ℝ} (hz : 0 ∈ h0)
    (ho : (bridgeFrom fuel G fin i f U).Gen h0 (.ok sk) h1) : sk.Valid := by
  unfold bridgeFrom at ho
  rw [Prog.gen_bind_ok] at ho
  obtain ⟨n, k1, hn, ho⟩ := ho
  have hz1 := hn.mono 0 hz
  have hn := hn.out
  rw [Prog.out_lift] at hn
  split at ho
  · simp at ho; rw [ho.1]
    exact ⟨rfl, rfl, by simp, by simpa using hf⟩
  · rename_i hcase
    obtain ⟨m, rfl⟩ : ∃ m, n = m + 1 := ⟨n - 1, by omega⟩
    rw [Prog.gen_bind_ok] at ho
    obtain ⟨xs, k2, hxs, ho⟩ := ho
    have hz2 := hxs.mono 0 hz1
    rw [Prog.gen_bind_ok] at ho
    obtain ⟨us, k3, hus, ho⟩ := ho
    obtain ⟨u1, u2, u3, -⟩ := Prog.gen_replicate_draw hus
    simp only [Prog.gen_ret, Except.ok.injEq] at ho
    obtain ⟨rfl, -⟩ := ho
    obtain ⟨h1, h2⟩ := bridgeSteps_ok h.dtrans_nonneg _ (sampleNTrans_pos h hf.le hn.symm) hxs.out
    refine (assemble_bridgeLike hf h2 (by rw [u1, h1]) fun u hu => uniform_mem hf (u2 u hu).1).2 u3 ?_
    intro h0'
    exact (u2 0 h0').2 hz2

theorem bridgeFrom_error [NeZero d] {fuel : ℕ} {G : Matrix (Fin d) (Fin d) ℝ} (h : IsQMatrix G) {fin : ℝ} (hf : 0 ≤ fin)
    {i f : Fin d} {U : ℝ} {e : PyErr} (ho : (bridgeFrom fuel G fin i f U).Out (.error e)) : e = .fuel := by
  unfold bridgeFrom at ho
  rw [Prog.out_bind_error] at ho
  rcases ho with ho | ⟨n, hn, ho⟩
  · rw [Prog.out_lift] at ho
    exact nTransLoop_error _ ho.symm
  · rw [Prog.out_lift] at hn
    split at ho
    · simp at ho
    · rename_i hcase
      obtain ⟨m, rfl⟩ : ∃ m, n = m + 1 := ⟨n - 1, by omega⟩
      rw [Prog.out_bind_error] at ho
      rcases ho with ho | ⟨xs, -, ho⟩
      · exact absurd ho (bridgeSteps_no_error h.dtrans_nonneg _ (sampleNTrans_pos h hf hn.symm))
      · rw [Prog.out_bind_error] at ho
        rcases ho with ho | ⟨_, -, ho⟩
        · exfalso
          generalize m + 1 = k at ho
          induction k with
          | zero => simp [Prog.replicate] at ho
          | succ k ih => simp [Prog.replicate, Prog.out_bind_error, Prog.draw] at ho; exact ih ho.2
        · simp at ho

end Ctb
