import Verif.Spec.SwitchHidden
import Verif.Lemmas.Partition

set_option linter.unusedSectionVars false

/-!
# Anchorages as lists of triples
-/

namespace Ctb

variable {K : Type} [Field K] [LinearOrder K] [IsStrictOrderedRing K] {V ζ : Type}

/-- Anchorage of a list of (time, regime, value). -/
def ofTr (A : List (K × ℕ × V)) : Anchorage K V := ⟨A.map (·.1), A.map (·.2.1), A.map (·.2.2)⟩

/-- Triples of an anchorage. -/
def Anchorage.tr (h : Anchorage K V) : List (K × ℕ × V) := h.t.zip (h.yt.zip h.vt)

/-- Translate the times. -/
def shiftTr (d : K) (A : List (K × ℕ × V)) : List (K × ℕ × V) := A.map fun p => (p.1 + d, p.2)

/-- Jump list of a list of triples. -/
def trJ (A : List (K × ℕ × V)) : List (K × ℕ) := A.map fun p => (p.1, p.2.1)

theorem ofTr_tr {h : Anchorage K V} (hy : h.yt.length = h.t.length) (hv : h.vt.length = h.t.length) : ofTr h.tr = h := by
  obtain ⟨t, yt, vt⟩ := h
  simp only at hy hv
  simp only [ofTr, Anchorage.tr, Anchorage.mk.injEq]
  refine ⟨List.map_fst_zip (by simp [hy, hv]), ?_, ?_⟩
  · rw [show (fun x : K × ℕ × V => x.2.1) = Prod.fst ∘ Prod.snd from rfl, ← List.map_map, List.map_snd_zip (by simp [hy, hv]),
      List.map_fst_zip (by omega)]
  · rw [show (fun x : K × ℕ × V => x.2.2) = Prod.snd ∘ Prod.snd from rfl, ← List.map_map, List.map_snd_zip (by simp [hy, hv]),
      List.map_snd_zip (by omega)]

theorem ofTr_stateAt (A : List (K × ℕ × V)) (s : K) : (ofTr A).stateAt s = stAt (trJ A) s := by
  unfold Anchorage.stateAt ofTr trJ
  simp only [List.zip_map']

theorem ofTr_has (A : List (K × ℕ × V)) (s : K) (v : V) : (ofTr A).Has s v ↔ ∃ y, (s, y, v) ∈ A := by
  unfold Anchorage.Has ofTr
  simp only [List.zip_map', List.mem_map]
  constructor
  · rintro ⟨⟨a, b, c⟩, h, h2⟩
    simp only [Prod.mk.injEq] at h2
    obtain ⟨rfl, rfl⟩ := h2
    exact ⟨b, h⟩
  · rintro ⟨y, h⟩; exact ⟨_, h, rfl⟩

theorem ofTr_fin (A : List (K × ℕ × V)) : (ofTr A).fin = (A.getLast?.map (·.1)).getD 0 := by
  simp [Anchorage.fin, ofTr, List.getLast?_map]

/-- Validity in terms of triples. -/
theorem ofTr_valid (A : List (K × ℕ × V)) : (ofTr A).Valid ↔
    (∃ y v, A.head? = some (0, y, v)) ∧ A.Pairwise (fun p q => p.1 < q.1) ∧ 2 ≤ A.length := by
  constructor
  · rintro ⟨-, -, h, hi, h2⟩
    simp only [ofTr, List.head?_map, List.length_map, List.pairwise_map, Option.map_eq_some_iff] at h hi h2
    obtain ⟨⟨a, b, c⟩, ha, hb⟩ := h
    exact ⟨⟨b, c, by rw [ha]; simp only at hb; rw [hb]⟩, hi, h2⟩
  · rintro ⟨⟨y, v, h⟩, hi, h2⟩
    exact ⟨by simp [ofTr], by simp [ofTr], by simp [ofTr, List.head?_map, h], by simpa [ofTr, List.pairwise_map] using hi,
      by simpa [ofTr] using h2⟩

theorem Anchorage.Valid.tr_eq {h : Anchorage K V} (hv : h.Valid) : ofTr h.tr = h := ofTr_tr hv.leny hv.lenv

theorem trJ_append (A B : List (K × ℕ × V)) : trJ (A ++ B) = trJ A ++ trJ B := by simp [trJ]

theorem trJ_shift (d : K) (A : List (K × ℕ × V)) : trJ (shiftTr d A) = shift d (trJ A) := by
  simp [trJ, shiftTr, shift, add_comm]

/-! ## paste -/

theorem pasteStep_ofTr {A B : List (K × ℕ × V)} {f : K} {q : ℕ × V} (h : A.getLast? = some (f, q)) :
    pasteStep (ofTr A) (ofTr B) = .ok (ofTr (A ++ shiftTr f B.tail)) := by
  unfold pasteStep
  have : (ofTr A).t.getLast? = some f := by simp [ofTr, List.getLast?_map, h]
  rw [this]
  simp [ofTr, shiftTr, List.map_tail, Function.comp_def]

/-- One paste step when the pieces fit. -/
theorem pasteStep_sound {A B : List (K × ℕ × V)} (hA : (ofTr A).Valid) (hB : (ofTr B).Valid)
    (hj : (ofTr A).Joins (ofTr B)) :
    ∃ C, pasteStep (ofTr A) (ofTr B) = .ok (ofTr C) ∧ (ofTr C).Valid ∧ (ofTr C).fin = (ofTr A).fin + (ofTr B).fin ∧
      C.length = A.length + (B.length - 1) ∧
      C.head? = A.head? ∧ (C.getLast?.map Prod.snd = B.getLast?.map Prod.snd) ∧ ((ofTr B).Closed → (ofTr C).Closed) ∧
      (∀ s, s ≤ (ofTr A).fin → (ofTr C).stateAt s = (ofTr A).stateAt s) ∧
      (∀ s, 0 ≤ s → (ofTr C).stateAt ((ofTr A).fin + s) = (ofTr B).stateAt s) ∧
      (∀ s v, (ofTr A).Has s v → (ofTr C).Has s v) ∧ (∀ s v, (ofTr B).Has s v → (ofTr C).Has ((ofTr A).fin + s) v) := by
  obtain ⟨⟨ya, va, hah⟩, hai, ha2⟩ := (ofTr_valid A).1 hA
  obtain ⟨⟨yb, vb, hbh⟩, hbi, hb2⟩ := (ofTr_valid B).1 hB
  obtain ⟨A', rfl⟩ : ∃ A', A = (0, ya, va) :: A' := by
    cases A with
    | nil => simp at hah
    | cons p A' => simp at hah; exact ⟨A', by rw [hah]⟩
  obtain ⟨B', rfl⟩ : ∃ B', B = (0, yb, vb) :: B' := by
    cases B with
    | nil => simp at hbh
    | cons p B' => simp at hbh; exact ⟨B', by rw [hbh]⟩
  obtain ⟨⟨f, yl, vl⟩, hl⟩ : ∃ p, ((0, ya, va) :: A').getLast? = some p := ⟨_, List.getLast?_eq_some_getLast (by simp)⟩
  set A := (0, ya, va) :: A' with hAdef
  have hfin : (ofTr A).fin = f := by rw [ofTr_fin, hl]; rfl
  have hyl : yl = yb ∧ vl = vb := by
    have h1 := hj.1; have h2 := hj.2
    simp only [ofTr, List.getLast?_map, hl, List.map_cons, List.head?_cons, Option.map_some, Option.some.injEq] at h1 h2
    exact ⟨h1, h2⟩
  obtain ⟨rfl, rfl⟩ := hyl
  have hB' : B' ≠ [] := by rintro rfl; simp at hb2
  rw [List.pairwise_cons] at hbi
  have hAle : ∀ p ∈ A, p.1 ≤ f := by
    obtain ⟨A0, hA0⟩ := List.getLast?_eq_some_iff.1 hl
    rw [hA0, List.pairwise_append] at hai
    intro p hp
    rw [hA0, List.mem_append, List.mem_singleton] at hp
    rcases hp with hp | rfl
    · exact (hai.2.2 p hp (f, yl, vl) (by simp)).le
    · exact le_rfl
  have hlmem : (f, yl, vl) ∈ A := List.mem_of_getLast? hl
  have hf0 : (0 : K) ≤ f := by
    have := hAle (0, ya, va) (by simp [hAdef])
    exact this
  have hlastC : (A ++ shiftTr f B').getLast? = (B'.getLast?.map fun p => (p.1 + f, p.2)) := by
    rw [List.getLast?_append, shiftTr, List.getLast?_map]
    cases h : B'.getLast? with
    | none => exact absurd (List.getLast?_eq_none_iff.1 h) hB'
    | some p => simp
  have hBlast : ((0, yl, vl) :: B').getLast? = B'.getLast? := by
    rw [List.getLast?_cons]
    cases h : B'.getLast? with
    | none => exact absurd (List.getLast?_eq_none_iff.1 h) hB'
    | some p => simp
  refine ⟨A ++ shiftTr f B', pasteStep_ofTr hl, ?_, ?_, ?_, ?_, ?_, ?_, ?_, ?_, ?_, ?_⟩
  · refine (ofTr_valid _).2 ⟨⟨ya, va, by simp [hAdef]⟩, ?_, by simp; omega⟩
    rw [List.pairwise_append]
    refine ⟨hai, ?_, ?_⟩
    · rw [shiftTr, List.pairwise_map]; exact hbi.2.imp fun h => by simpa using h
    · intro p hp q hq
      obtain ⟨r, hr, rfl⟩ := List.mem_map.1 hq
      have h1 := hAle p hp
      have h2 : (0 : K) < r.1 := hbi.1 r hr
      simp only
      linarith
  · rw [hfin, ofTr_fin, ofTr_fin, hlastC, hBlast]
    cases h : B'.getLast? with
    | none => exact absurd (List.getLast?_eq_none_iff.1 h) hB'
    | some p => simp [add_comm]
  · simp [shiftTr]
  · simp [hAdef]
  · rw [hlastC, hBlast]; cases B'.getLast? <;> simp
  · intro hc
    unfold Anchorage.Closed at hc ⊢
    simp only [ofTr] at hc ⊢
    rw [← List.map_dropLast, List.getLast?_map, List.getLast?_map] at hc ⊢
    rw [hBlast] at hc
    rw [hlastC]
    have : (A ++ shiftTr f B').dropLast = A ++ shiftTr f B'.dropLast := by
      rw [List.dropLast_append_of_ne_nil (by simpa [shiftTr] using hB'), shiftTr, ← List.map_dropLast]; rfl
    rw [this, List.getLast?_append, shiftTr, List.getLast?_map, hl]
    obtain ⟨B0, b, rfl⟩ := List.eq_nil_or_concat B' |>.resolve_left hB'
    simp only [List.concat_eq_append, List.dropLast_concat, List.getLast?_concat, Option.map_some] at hc ⊢
    rw [← List.cons_append, List.dropLast_concat, List.getLast?_cons] at hc
    cases h : B0.getLast? with
    | none => simpa [h] using hc
    | some p => simpa [h] using hc
  · intro s hs
    rw [hfin] at hs
    rw [ofTr_stateAt, ofTr_stateAt, trJ_append, stAt_append, trJ_shift]
    have : stAt (shift f (trJ B')) s = none := by
      rw [stAt_eq_none_iff]
      intro p hp
      obtain ⟨q, hq, rfl⟩ := List.mem_map.1 hp
      obtain ⟨r, hr, rfl⟩ := List.mem_map.1 hq
      have h2 : (0 : K) < r.1 := hbi.1 r hr
      simp only
      linarith
    rw [this]; rfl
  · intro s hs
    rw [hfin]
    rw [ofTr_stateAt, ofTr_stateAt, trJ_append, stAt_append, trJ_shift, stAt_shift]
    rw [show trJ ((0, yl, vl) :: B') = (0, yl) :: trJ B' from rfl, stAt_cons]
    simp only [hs, if_true]
    congr 1
    obtain ⟨A0, hA0⟩ := List.getLast?_eq_some_iff.1 hl
    rw [hA0, trJ_append, stAt_append]
    simp [trJ, stAt, hs]
  · intro s v
    rw [ofTr_has, ofTr_has]
    rintro ⟨y, hy⟩
    exact ⟨y, List.mem_append_left _ hy⟩
  · intro s v
    rw [ofTr_has, ofTr_has, hfin]
    rintro ⟨y, hy⟩
    rcases List.mem_cons.1 hy with h | h
    · cases h
      exact ⟨yl, List.mem_append_left _ (by simpa using hlmem)⟩
    · exact ⟨y, List.mem_append_right _ (List.mem_map.2 ⟨_, h, by simp [add_comm]⟩)⟩

/-- What is known of the pasted result. -/
structure Pasted (h : Anchorage K V) (hs : List (Anchorage K V)) (H : Anchorage K V) : Prop where
  valid : H.Valid
  fin : H.fin = h.fin + (hs.map Anchorage.fin).sum
  len : H.t.length = h.t.length + (hs.map fun p => p.t.length - 1).sum
  first : ∀ s, s ≤ h.fin → H.stateAt s = h.stateAt s
  firstHas : ∀ s v, h.Has s v → H.Has s v
  state : ∀ pre p post s, hs = pre ++ p :: post → 0 ≤ s → s ≤ p.fin →
    H.stateAt (h.fin + (pre.map Anchorage.fin).sum + s) = p.stateAt s
  has : ∀ pre p post s v, hs = pre ++ p :: post → p.Has s v → H.Has (h.fin + (pre.map Anchorage.fin).sum + s) v
  closed : ((h :: hs).getLast (by simp)).Closed → H.Closed

theorem pasteAll (hs : List (Anchorage K V)) (h : Anchorage K V) (hv : ∀ p ∈ h :: hs, p.Valid)
    (hj : (h :: hs).IsChain Anchorage.Joins) : ∃ H, hs.foldlM pasteStep h = .ok H ∧ Pasted h hs H := by
  induction hs generalizing h with
  | nil =>
    refine ⟨h, rfl, hv h (by simp), by simp, by simp, fun _ _ => rfl, fun _ _ h => h, ?_, ?_, fun h => h⟩
    · intro pre p post s h; simp at h
    · intro pre p post s v h; simp at h
  | cons g hs ih =>
    have vh := hv h (by simp)
    have vg := hv g (by simp)
    rw [List.isChain_cons_cons] at hj
    obtain ⟨C, hC, cv, cf, cl, ch, clast, ccl, c1, c2, c3, c4⟩ := pasteStep_sound (A := h.tr) (B := g.tr)
      (by rw [vh.tr_eq]; exact vh) (by rw [vg.tr_eq]; exact vg) (by rw [vh.tr_eq, vg.tr_eq]; exact hj.1)
    rw [vh.tr_eq, vg.tr_eq] at hC c2 c4 cf
    rw [vh.tr_eq] at c1 c3
    rw [vg.tr_eq] at ccl
    have lt : h.tr.length = h.t.length := by simp [Anchorage.tr, vh.leny, vh.lenv]
    have lg : g.tr.length = g.t.length := by simp [Anchorage.tr, vg.leny, vg.lenv]
    have hchain : (ofTr C :: hs).IsChain Anchorage.Joins := by
      cases hs with
      | nil => simp
      | cons k hs =>
        rw [List.isChain_cons_cons] at hj ⊢
        refine ⟨?_, hj.2.2⟩
        have hg := hj.2.1
        unfold Anchorage.Joins at hg ⊢
        rw [← vg.tr_eq] at hg
        simp only [ofTr, List.getLast?_map] at hg ⊢
        rw [← hg.1, ← hg.2]
        constructor
        · have := congrArg (Option.map Prod.fst) clast
          simpa [Option.map_map, Function.comp_def] using this
        · have := congrArg (Option.map Prod.snd) clast
          simpa [Option.map_map, Function.comp_def] using this
    obtain ⟨H, hH, hP⟩ := ih (ofTr C) (by
      intro p hp
      rcases List.mem_cons.1 hp with rfl | hp
      · exact cv
      · exact hv p (by simp [hp])) hchain
    refine ⟨H, by rw [List.foldlM_cons, hC]; exact hH, hP.valid, ?_, ?_, ?_, ?_, ?_, ?_, ?_⟩
    · rw [hP.fin, cf]; simp [add_assoc]
    · rw [hP.len]; simp only [List.map_cons, List.sum_cons, ofTr, List.length_map, cl, lt, lg]; omega
    · intro s hs
      have hg0 : 0 ≤ g.fin := by
        rw [← vg.tr_eq, ofTr_fin]
        obtain ⟨⟨y, v, hh⟩, hi, h2⟩ := (ofTr_valid g.tr).1 (by rw [vg.tr_eq]; exact vg)
        cases hgt : g.tr with
        | nil => simp [hgt] at h2
        | cons p l =>
          rw [hgt] at hh hi
          obtain rfl : p = (0, y, v) := by simpa using hh
          rw [List.pairwise_cons] at hi
          have : (((0, y, v) :: l).getLast?) = some (((0, y, v) :: l).getLast (by simp)) := List.getLast?_eq_some_getLast _
          rw [this]
          simp only [Option.map_some, Option.getD_some]
          rcases List.mem_cons.1 (List.getLast_mem (l := (0, y, v) :: l) (by simp)) with h | h
          · rw [h]
          · exact (hi.1 _ h).le
      rw [hP.first s (by rw [cf]; linarith), c1 s hs]
    · intro s v hh; exact hP.firstHas s v (c3 s v hh)
    · intro pre p post s hs h0 hsp
      cases pre with
      | nil =>
        simp only [List.nil_append, List.cons.injEq] at hs
        obtain ⟨rfl, rfl⟩ := hs
        rw [hP.first _ (by rw [cf]; simp; exact hsp)]
        simpa using c2 s h0
      | cons q pre =>
        simp only [List.cons_append, List.cons.injEq] at hs
        obtain ⟨rfl, rfl⟩ := hs
        have := hP.state pre p post s rfl h0 hsp
        rw [cf] at this
        simpa [add_assoc] using this
    · intro pre p post s v hs hh
      cases pre with
      | nil =>
        simp only [List.nil_append, List.cons.injEq] at hs
        obtain ⟨rfl, rfl⟩ := hs
        have := hP.firstHas _ _ (c4 s v hh)
        simpa using this
      | cons q pre =>
        simp only [List.cons_append, List.cons.injEq] at hs
        obtain ⟨rfl, rfl⟩ := hs
        have := hP.has pre p post s v rfl hh
        rw [cf] at this
        simpa [add_assoc] using this
    · intro hc
      apply hP.closed
      cases hs with
      | nil => exact ccl (by simpa using hc)
      | cons k hs => simpa using hc

end Ctb
