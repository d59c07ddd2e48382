import Verif.Model.MjpSampling
import Verif.Lemmas.Partition

/-! # Lemmas about the forward simulation loop -/

set_option linter.unusedSectionVars false

namespace Ctb

theorem argmin_get {l : List (WithTop ℝ)} {k : ℕ} {m : WithTop ℝ} (h : argmin l = .ok (k, m)) : l[k]? = some m := by
  induction l generalizing k m with
  | nil => simp [argmin] at h
  | cons a l ih =>
    cases l with
    | nil => simp [argmin] at h; obtain ⟨rfl, rfl⟩ := h; rfl
    | cons b l =>
      unfold argmin at h
      split at h
      · rename_i k' m' hk
        split at h
        · simp at h; obtain ⟨rfl, rfl⟩ := h; rfl
        · simp at h; obtain ⟨rfl, rfl⟩ := h
          simpa using ih hk
      · simp at h

theorem argmin_ok {l : List (WithTop ℝ)} (h : l ≠ []) : ∃ r, argmin l = .ok r := by
  induction l with
  | nil => exact absurd rfl h
  | cons a l ih =>
    cases l with
    | nil => exact ⟨_, rfl⟩
    | cons b l =>
      obtain ⟨r, hr⟩ := ih (by simp)
      unfold argmin; rw [hr]
      dsimp only
      split <;> exact ⟨_, rfl⟩

theorem argmin_le {l : List (WithTop ℝ)} {k : ℕ} {m : WithTop ℝ} (h : argmin l = .ok (k, m)) : ∀ a ∈ l, m ≤ a := by
  induction l generalizing k m with
  | nil => simp
  | cons a l ih =>
    cases l with
    | nil => simp [argmin] at h; obtain ⟨rfl, rfl⟩ := h; simp
    | cons b l =>
      unfold argmin at h
      split at h
      · rename_i k' m' hk
        have IH := ih hk
        split at h
        · rename_i hle
          simp at h; obtain ⟨rfl, rfl⟩ := h
          intro c hc
          rcases List.mem_cons.1 hc with rfl | hc
          · exact le_rfl
          · exact le_trans hle (IH c hc)
        · rename_i hle
          simp at h; obtain ⟨rfl, rfl⟩ := h
          intro c hc
          rcases List.mem_cons.1 hc with rfl | hc
          · exact (not_le.1 hle).le
          · exact IH c hc
      · simp at h

theorem drawHold_ok {r : ℝ} {v : WithTop ℝ} (h : (drawHold r).Out (.ok v)) : (∃ w : ℝ, v = w ∧ 0 < w ∧ 0 < r) ∨ (v = ⊤ ∧ r = 0) := by
  unfold drawHold at h
  split at h
  · rename_i hr
    simp only [Prog.out_real, Prog.out_ret, Except.ok.injEq] at h
    obtain ⟨x, hx, rfl⟩ := h
    exact .inl ⟨x, rfl, hx, hr⟩
  · split at h
    · rename_i hr
      simp at h; exact .inr ⟨h, hr⟩
    · simp at h

theorem exitRates_get {d : ℕ} {g : Mat} {x k : ℕ} {r : ℝ} (hx : x < d) (h : (exitRates d g x)[k]? = some r) :
    (if x ≤ k then k + 1 else k) < d ∧ (if x ≤ k then k + 1 else k) ≠ x ∧ r = g x (if x ≤ k then k + 1 else k) := by
  unfold exitRates at h
  rw [List.getElem?_map, Option.map_eq_some_iff] at h
  obtain ⟨j, hj, rfl⟩ := h
  rw [List.getElem?_eraseIdx] at hj
  by_cases hxk : x ≤ k
  · rw [if_neg (not_lt.2 hxk)] at hj
    rw [List.getElem?_eq_some_iff] at hj
    obtain ⟨h1, h2⟩ := hj
    simp at h1 h2
    subst h2
    simp [hxk, h1]; omega
  · rw [if_pos (not_le.1 hxk)] at hj
    rw [List.getElem?_eq_some_iff] at hj
    obtain ⟨h1, h2⟩ := hj
    simp at h1 h2
    subst h2
    simp [hxk, h1]; omega

theorem exitRates_length {d : ℕ} {g : Mat} {x : ℕ} (hx : x < d) : (exitRates d g x).length = d - 1 := by
  simp [exitRates, List.length_eraseIdx, hx]

theorem exitRates_mem {d : ℕ} {g : Mat} {x : ℕ} (hx : x < d) {r : ℝ} (h : r ∈ exitRates d g x) :
    ∃ j < d, j ≠ x ∧ r = g x j := by
  rw [List.mem_iff_getElem?] at h
  obtain ⟨k, hk⟩ := h
  obtain ⟨a, b, c⟩ := exitRates_get hx hk
  exact ⟨_, a, b, c⟩

/-- Result of one round: where the chain moves to. -/
theorem forwards_step {d : ℕ} {g : Mat} {x : ℕ} (hx : x < d) {hold : List (WithTop ℝ)}
    (hh : (Prog.mapM' drawHold (exitRates d g x)).Out (.ok hold)) {k : ℕ} {v : ℝ} (hm : argmin hold = .ok (k, (v : WithTop ℝ))) :
    0 < v ∧ (if x ≤ k then k + 1 else k) < d ∧ (if x ≤ k then k + 1 else k) ≠ x ∧ 0 < g x (if x ≤ k then k + 1 else k) := by
  rw [Prog.out_mapM'_ok] at hh
  have hk := argmin_get hm
  have hlen := hh.length_eq
  have hklt : k < hold.length := by
    by_contra hc; rw [List.getElem?_eq_none (by omega)] at hk; simp at hk
  have hk' : k < (exitRates d g x).length := by omega
  have := (List.forall₂_iff_get.1 hh).2 k hk' hklt
  have e : hold.get ⟨k, hklt⟩ = (v : WithTop ℝ) := by
    rw [List.getElem?_eq_getElem hklt] at hk; exact Option.some.inj hk
  rw [e] at this
  obtain ⟨a, b, c⟩ := exitRates_get (g := g) hx (List.getElem?_eq_getElem hk')
  rcases drawHold_ok this with ⟨w, hw, hw0, hr⟩ | ⟨hw, -⟩
  · have : v = w := WithTop.coe_injective hw
    subst this
    refine ⟨hw0, a, b, ?_⟩
    rw [← c]; exact hr
  · exact absurd hw (WithTop.coe_ne_top)

/-- Everything the loop can return. -/
theorem forwardsLoop_out {d : ℕ} {g : Mat} {fin : ℝ} (n : ℕ) : ∀ (t : ℝ) (x : ℕ) (l : List (ℝ × ℕ)), t < fin →
    (forwardsLoop d g fin n t x).Out (.ok l) →
    ∃ m, l = (t, x) :: m ∧ l.Pairwise (fun p q => p.1 < q.1) ∧ (∀ p ∈ l, p.1 < fin ∧ p.2 < d) ∧
      (l.map Prod.snd).IsChain fun i j => i ≠ j ∧ 0 < g i j := by
  induction n with
  | zero => intro t x l _ h; simp [forwardsLoop] at h
  | succ n ih =>
    intro t x l ht h
    unfold forwardsLoop at h
    rw [if_pos ht] at h
    by_cases hx : x < d
    swap
    · rw [if_neg hx] at h; simp at h
    rw [if_pos hx, Prog.out_bind_ok] at h
    obtain ⟨hold, hh, h⟩ := h
    rw [Prog.out_bind_ok] at h
    obtain ⟨⟨k, m⟩, hm, h⟩ := h
    rw [Prog.out_lift] at hm
    dsimp only at h
    split at h
    · simp at h; subst h
      exact ⟨[], rfl, by simp, by simp [ht, hx], by simp⟩
    · rename_i v
      rw [Prog.out_bind_ok] at h
      obtain ⟨rest, hr, h⟩ := h
      simp only [Prog.out_ret, Except.ok.injEq] at h
      subst h
      obtain ⟨h1, h2, h3, h4⟩ := forwards_step hx hh hm.symm
      by_cases htv : t + v < fin
      · obtain ⟨m, rfl, a, b, c⟩ := ih _ _ _ htv hr
        refine ⟨_, rfl, ?_, ?_, ?_⟩
        · rw [List.pairwise_cons]
          refine ⟨?_, a⟩
          intro p hp
          rcases List.mem_cons.1 hp with rfl | hp
          · simpa using h1
          · have := (List.pairwise_cons.1 a).1 p hp
            simp only at this; linarith
        · intro p hp
          rcases List.mem_cons.1 hp with rfl | hp
          · exact ⟨ht, hx⟩
          · exact b p hp
        · rw [List.map_cons, List.map_cons, List.isChain_cons_cons]
          exact ⟨⟨Ne.symm h3, h4⟩, c⟩
      · have : rest = [] := by
          cases n with
          | zero => simp [forwardsLoop] at hr
          | succ n => unfold forwardsLoop at hr; rw [if_neg htv] at hr; simpa using hr
        subst this
        exact ⟨[], rfl, by simp, by simp [ht, hx], by simp⟩

theorem mapM'_error {α β : Type} {f : α → Prog β} {l : List α} {e : PyErr} (h : (Prog.mapM' f l).Out (.error e)) :
    ∃ a ∈ l, (f a).Out (.error e) := by
  induction l with
  | nil => simp [Prog.mapM'] at h
  | cons a l ih =>
    simp only [Prog.mapM', Prog.out_bind_error, Prog.out_ret, reduceCtorEq, and_false, exists_false, or_false] at h
    rcases h with h | ⟨b, -, h⟩
    · exact ⟨a, by simp, h⟩
    · obtain ⟨a', ha', h'⟩ := ih h
      exact ⟨a', by simp [ha'], h'⟩

/-- The loop never raises on a matrix with non-negative rates and at least two states. -/
theorem forwardsLoop_error {d : ℕ} {g : Mat} {fin : ℝ} (hd : 2 ≤ d) (hg : ∀ i < d, ∀ j < d, i ≠ j → 0 ≤ g i j) (n : ℕ) :
    ∀ (t : ℝ) (x : ℕ) (e : PyErr), x < d → (forwardsLoop d g fin n t x).Out (.error e) → e = .fuel := by
  induction n with
  | zero => intro t x e _ h; simpa [forwardsLoop] using h
  | succ n ih =>
    intro t x e hx h
    unfold forwardsLoop at h
    by_cases ht : t < fin
    swap
    · rw [if_neg ht] at h; simp at h
    rw [if_pos ht, if_pos hx, Prog.out_bind_error] at h
    rcases h with h | ⟨hold, hh, h⟩
    · exfalso
      obtain ⟨r, hr, h⟩ := mapM'_error h
      obtain ⟨j, hj, hne, rfl⟩ := exitRates_mem hx hr
      unfold drawHold at h
      have := hg x hx j hj (Ne.symm hne)
      split at h
      · simp at h
      · rename_i h0
        rw [if_pos (le_antisymm (not_lt.1 h0) this)] at h; simp at h
    · rw [Prog.out_bind_error] at h
      have hlen : hold ≠ [] := by
        have := (Prog.out_mapM'_ok.1 hh).length_eq
        rw [exitRates_length hx] at this
        intro hc; rw [hc] at this; simp at this; omega
      obtain ⟨⟨k, m⟩, hr⟩ := argmin_ok hlen
      rcases h with h | ⟨mv, hm, h⟩
      · rw [hr] at h; simp at h
      · rw [Prog.out_lift, hr] at hm
        cases hm
        dsimp only at h
        split at h
        · simp at h
        · rename_i v
          rw [Prog.out_bind_error] at h
          rcases h with h | ⟨_, -, h⟩
          · exact ih _ _ _ (forwards_step hx hh hr).2.1 h
          · simp at h

end Ctb
