import Verif.Spec.Path
import Mathlib.Tactic.Linarith
import Mathlib.Tactic.Ring
import Mathlib.Algebra.Order.Ring.Rat

/-! Helper lemmas about jump lists and `stAt`. -/

set_option linter.unusedSectionVars false

namespace Ctb

variable {K : Type} [Field K] [LinearOrder K] 

/-! ## searchsorted and slices on sorted lists -/

theorem takeWhile_eq_filter_le {l : List K} (h : l.Pairwise (· ≤ ·)) (v : K) :
    l.takeWhile (· ≤ v) = l.filter (· ≤ v) := by
  induction l with
  | nil => rfl
  | cons a l ih =>
    rw [List.pairwise_cons] at h
    by_cases ha : a ≤ v
    · simp [ha, ih h.2]
    · have : l.filter (· ≤ v) = [] := by
        rw [List.filter_eq_nil_iff]; intro b hb
        have := h.1 b hb; simp; push Not at ha; exact lt_of_lt_of_le ha this
      simp [ha, this]

theorem takeWhile_eq_filter_lt {l : List K} (h : l.Pairwise (· ≤ ·)) (v : K) :
    l.takeWhile (· < v) = l.filter (· < v) := by
  induction l with
  | nil => rfl
  | cons a l ih =>
    rw [List.pairwise_cons] at h
    by_cases ha : a < v
    · simp [ha, ih h.2]
    · have : l.filter (· < v) = [] := by
        rw [List.filter_eq_nil_iff]; intro b hb
        have := h.1 b hb; simp; push Not at ha; exact le_trans ha this
      simp [ha, this]

/-! ## stAt -/

@[simp] theorem stAt_nil (s : K) : stAt ([] : List (K × ℕ)) s = none := rfl

theorem stAt_append (l₁ l₂ : List (K × ℕ)) (s : K) : stAt (l₁ ++ l₂) s = (stAt l₂ s).or (stAt l₁ s) := by
  unfold stAt
  rw [List.filter_append, List.getLast?_append]
  cases (l₂.filter fun p => p.1 ≤ s).getLast? <;> simp

theorem stAt_cons (p : K × ℕ) (l : List (K × ℕ)) (s : K) :
    stAt (p :: l) s = (stAt l s).or (if p.1 ≤ s then some p.2 else none) := by
  rw [← List.singleton_append, stAt_append]
  congr 1
  by_cases h : p.1 ≤ s <;> simp [stAt, h]

theorem stAt_eq_none_iff (l : List (K × ℕ)) (s : K) : stAt l s = none ↔ ∀ p ∈ l, s < p.1 := by
  simp [stAt, List.filter_eq_nil_iff]

theorem stAt_isSome_of_mem {l : List (K × ℕ)} {s : K} {p : K × ℕ} (hp : p ∈ l) (h : p.1 ≤ s) :
    ∃ x, stAt l s = some x := by
  rw [← Option.isSome_iff_exists, Option.isSome_iff_ne_none]
  intro hn
  have := (stAt_eq_none_iff l s).1 hn p hp
  exact absurd h (not_le.2 this)

/-- Only the jumps up to `s` matter. -/
theorem stAt_filter (l : List (K × ℕ)) (s : K) (q : K × ℕ → Bool) (hq : ∀ p ∈ l, p.1 ≤ s → q p = true) :
    stAt (l.filter q) s = stAt l s := by
  unfold stAt
  rw [List.filter_filter]
  congr 2
  apply List.filter_congr
  intro p hp
  by_cases h : p.1 ≤ s
  · simp [h, hq p hp h]
  · simp [h]

theorem stAt_mem {l : List (K × ℕ)} {s : K} {x : ℕ} (h : stAt l s = some x) : ∃ a, (a, x) ∈ l ∧ a ≤ s := by
  unfold stAt at h
  rw [Option.map_eq_some_iff] at h
  obtain ⟨p, hp, rfl⟩ := h
  have := List.mem_of_getLast? hp
  rw [List.mem_filter] at this
  exact ⟨p.1, this.1, by simpa using this.2⟩

variable [IsStrictOrderedRing K]

/-- Shift a jump list in time. -/
def shift (d : K) (l : List (K × ℕ)) : List (K × ℕ) := l.map fun p => (d + p.1, p.2)

@[simp] theorem shift_nil (d : K) : shift d [] = [] := rfl
@[simp] theorem shift_cons (d : K) (p) (l : List (K × ℕ)) : shift d (p :: l) = (d + p.1, p.2) :: shift d l := rfl
theorem shift_append (d : K) (l m : List (K × ℕ)) : shift d (l ++ m) = shift d l ++ shift d m := by simp [shift]
theorem shift_shift (d e : K) (l : List (K × ℕ)) : shift d (shift e l) = shift (d + e) l := by
  simp [shift, Function.comp_def, add_assoc]
@[simp] theorem shift_zero (l : List (K × ℕ)) : shift 0 l = l := by simp [shift]

theorem stAt_shift (d : K) (l : List (K × ℕ)) (s : K) : stAt (shift d l) (d + s) = stAt l s := by
  unfold stAt shift
  rw [List.filter_map, List.getLast?_map]
  simp [Function.comp_def]

theorem stAt_shift' (d : K) (l : List (K × ℕ)) (s : K) : stAt (shift d l) s = stAt l (s - d) := by
  rw [← stAt_shift d l (s - d)]; congr 1; ring

/-! ## removing virtual jumps -/

/-- Drop every jump whose state equals the previous state `x`. -/
def dedup (x : ℕ) : List (K × ℕ) → List (K × ℕ)
  | [] => []
  | p :: l => if p.2 = x then dedup x l else p :: dedup p.2 l

theorem dedup_sublist (x : ℕ) (l : List (K × ℕ)) : (dedup x l).Sublist l := by
  induction l generalizing x with
  | nil => exact List.Sublist.slnil
  | cons p l ih =>
    unfold dedup; split
    · exact (ih x).cons p
    · exact (ih p.2).cons_cons p

/-- `dedup` as computed with a mask: the pair list version of the code's `t[~is_virtual], x[~is_virtual]`. -/
theorem dedup_chain (p : K × ℕ) (l : List (K × ℕ)) : ((p :: dedup p.2 l).map Prod.snd).IsChain (· ≠ ·) := by
  induction l generalizing p with
  | nil => simp [dedup]
  | cons q l ih =>
    unfold dedup; split
    · exact ih p
    · rename_i h
      have := ih q
      simp only [List.map_cons] at this ⊢
      exact List.isChain_cons_cons.2 ⟨fun e => h e.symm, this⟩

theorem stAt_dedup (p : K × ℕ) (l : List (K × ℕ)) (h : (p :: l).Pairwise fun a b => a.1 ≤ b.1) (s : K) :
    stAt (p :: dedup p.2 l) s = stAt (p :: l) s := by
  suffices H : ∀ (l : List (K × ℕ)) (p : K × ℕ), (p :: l).Pairwise (fun a b => a.1 ≤ b.1) →
      stAt (p :: dedup p.2 l) s = stAt (p :: l) s from H l p h
  intro l
  induction l with
  | nil => intro p _; rfl
  | cons q l ih =>
    intro p h
    have hpq : p.1 ≤ q.1 := by
      rw [List.pairwise_cons] at h; exact h.1 q (by simp)
    have hq : (q :: l).Pairwise fun a b => a.1 ≤ b.1 := h.of_cons
    have hpl : (p :: l).Pairwise fun a b => a.1 ≤ b.1 := by
      refine h.sublist ?_; exact List.Sublist.cons_cons p (List.Sublist.cons q (List.Sublist.refl l))
    unfold dedup; split
    · rename_i e
      rw [ih p hpl, stAt_cons, stAt_cons p (q :: l), stAt_cons q l]
      cases stAt l s with
      | some y => simp
      | none =>
        simp only [Option.none_or]
        by_cases h1 : q.1 ≤ s
        · simp [h1, e, le_trans hpq h1]
        · simp [h1]
    · rw [stAt_cons, ih q hq, ← stAt_cons]

/-! ## extensionality -/

/-- Two strictly increasing, self-transition-free jump lists that start with the same time and agree on `[a, fin)`
are equal. -/
theorem jumps_ext {fin : K} : ∀ (l m : List (K × ℕ)) (a : K) (x y : ℕ),
    ((a, x) :: l).Pairwise (fun p q => p.1 < q.1) → ((a, y) :: m).Pairwise (fun p q => p.1 < q.1) →
    (((a, x) :: l).map Prod.snd).IsChain (· ≠ ·) → (((a, y) :: m).map Prod.snd).IsChain (· ≠ ·) →
    (∀ p ∈ (a, x) :: l, p.1 < fin) → (∀ p ∈ (a, y) :: m, p.1 < fin) →
    (∀ s, a ≤ s → s < fin → stAt ((a, x) :: l) s = stAt ((a, y) :: m) s) →
    (a, x) :: l = (a, y) :: m := by
  have key : ∀ (l : List (K × ℕ)) (a : K) (x : ℕ) (s : K), ((a, x) :: l).Pairwise (fun p q => p.1 < q.1) →
      a ≤ s → (∀ p ∈ l, s < p.1) → stAt ((a, x) :: l) s = some x := by
    intro l a x s _ hs hl
    rw [stAt_cons, (stAt_eq_none_iff l s).2 hl]; simp [hs]
  have lt_tail : ∀ (b : K) (z : ℕ) (l : List (K × ℕ)) (s : K), ((b, z) :: l).Pairwise (fun p q => p.1 < q.1) →
      s < b → ∀ p ∈ (b, z) :: l, s < p.1 := by
    intro b z l s h hs p hp
    rcases List.mem_cons.1 hp with rfl | hp
    · exact hs
    · exact lt_trans hs ((List.pairwise_cons.1 h).1 p hp)
  intro l
  induction l with
  | nil =>
    intro m a x y hl hm cl cm fl fm hs
    have hx : x = y := by
      have h0 := hs a le_rfl (fl (a, x) (by simp))
      rw [key [] a x a hl le_rfl (by simp), key m a y a hm le_rfl (fun p hp => (List.pairwise_cons.1 hm).1 p hp)] at h0
      exact Option.some.inj h0
    subst hx
    cases m with
    | nil => rfl
    | cons q m =>
      exfalso
      obtain ⟨b, z⟩ := q
      have hab : a < b := (List.pairwise_cons.1 hm).1 (b, z) (by simp)
      have h0 := hs b hab.le (fm (b, z) (by simp))
      rw [key [] a x b hl hab.le (by simp), stAt_cons,
        key m b z b hm.of_cons le_rfl (fun p hp => (List.pairwise_cons.1 hm.of_cons).1 p hp)] at h0
      simp only [List.map_cons, List.isChain_cons_cons] at cm
      exact cm.1 (Option.some.inj h0)
  | cons q l ih =>
    intro m a x y hl hm cl cm fl fm hs
    have hx : x = y := by
      have h0 := hs a le_rfl (fl (a, x) (by simp))
      rw [key _ a x a hl le_rfl (fun p hp => (List.pairwise_cons.1 hl).1 p hp),
        key m a y a hm le_rfl (fun p hp => (List.pairwise_cons.1 hm).1 p hp)] at h0
      exact Option.some.inj h0
    subst hx
    obtain ⟨b, z⟩ := q
    have hab : a < b := (List.pairwise_cons.1 hl).1 (b, z) (by simp)
    have hz : stAt ((a, x) :: (b, z) :: l) b = some z := by
      rw [stAt_cons, key l b z b hl.of_cons le_rfl (fun p hp => (List.pairwise_cons.1 hl.of_cons).1 p hp)]; rfl
    have hxz : x ≠ z := by simp only [List.map_cons, List.isChain_cons_cons] at cl; exact cl.1
    cases m with
    | nil =>
      exfalso
      have h0 := hs b hab.le (fl (b, z) (by simp))
      rw [key [] a x b hm hab.le (by simp), hz] at h0
      exact hxz (Option.some.inj h0).symm
    | cons r m =>
      obtain ⟨c, w⟩ := r
      have hac : a < c := (List.pairwise_cons.1 hm).1 (c, w) (by simp)
      have hw : stAt ((a, x) :: (c, w) :: m) c = some w := by
        rw [stAt_cons, key m c w c hm.of_cons le_rfl (fun p hp => (List.pairwise_cons.1 hm.of_cons).1 p hp)]; rfl
      have hxw : x ≠ w := by simp only [List.map_cons, List.isChain_cons_cons] at cm; exact cm.1
      have hbc : b = c := by
        rcases lt_trichotomy b c with h | h | h
        · exfalso
          have h0 := hs b hab.le (fl (b, z) (by simp))
          rw [hz, key _ a x b hm hab.le (lt_tail c w m b hm.of_cons h)] at h0
          exact hxz (Option.some.inj h0).symm
        · exact h
        · exfalso
          have h0 := hs c hac.le (fm (c, w) (by simp))
          rw [hw, key _ a x c hl hac.le (lt_tail b z l c hl.of_cons h)] at h0
          exact hxw (Option.some.inj h0)
      subst hbc
      have := ih m b z w hl.of_cons hm.of_cons
        (by simp only [List.map_cons, List.isChain_cons_cons] at cl; exact cl.2)
        (by simp only [List.map_cons, List.isChain_cons_cons] at cm; exact cm.2)
        (fun p hp => fl p (List.mem_cons_of_mem _ hp)) (fun p hp => fm p (List.mem_cons_of_mem _ hp))
        (by
          intro s h1 h2
          have h0 := hs s (le_trans hab.le h1) h2
          rw [stAt_cons, stAt_cons (a, x)] at h0
          obtain ⟨u, hu⟩ := stAt_isSome_of_mem (l := (b, z) :: l) (p := (b, z)) (by simp) h1
          obtain ⟨v, hv⟩ := stAt_isSome_of_mem (l := (b, w) :: m) (p := (b, w)) (by simp) h1
          rw [hu, hv] at h0 ⊢
          simpa using h0)
      rw [this]

end Ctb
