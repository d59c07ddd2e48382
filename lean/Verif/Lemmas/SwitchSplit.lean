import Verif.Lemmas.SwitchHidden
import Verif.Lemmas.Propose

set_option linter.unusedSectionVars false

/-!
# `split_hidden` cuts at the split times, and pasting undoes it
-/

namespace Ctb

variable {K : Type} [Field K] [LinearOrder K] [IsStrictOrderedRing K] {V ζ : Type}

/-- `l[a:b]` for natural bounds. -/
def sl {α : Type} (l : List α) (a b : ℕ) : List α := (l.take b).drop a

theorem sl_append {α : Type} (l : List α) {a b c : ℕ} (h1 : a ≤ b) (h2 : b ≤ c) (h3 : c ≤ l.length) :
    sl l a b ++ sl l b c = sl l a c := by
  unfold sl
  have h : l.take c = l.take b ++ (l.take c).drop b := by
    conv_lhs => rw [← List.take_append_drop b (l.take c), List.take_take, min_eq_left h2]
  conv_rhs => rw [h, List.drop_append_of_le_length (by simp; omega)]

theorem sl_length {α : Type} (l : List α) {a b : ℕ} (h3 : b ≤ l.length) : (sl l a b).length = b - a := by
  simp [sl, h3]

theorem sl_cons {α : Type} (l : List α) {a b : ℕ} (h : a < b) (hb : b ≤ l.length) :
    sl l a b = l[a]'(by omega) :: sl l (a + 1) b := by
  unfold sl
  rw [List.drop_eq_getElem_cons (by simp; omega)]
  simp

theorem sl_concat {α : Type} (l : List α) {a b : ℕ} (h : a ≤ b) (hb : b < l.length) :
    sl l a (b + 1) = sl l a b ++ [l[b]] := by
  unfold sl
  rw [List.take_succ_eq_append_getElem hb, List.drop_append_of_le_length (by simp; omega)]

theorem sl_map {α β : Type} (f : α → β) (l : List α) (a b : ℕ) : (sl l a b).map f = sl (l.map f) a b := by
  simp [sl, List.map_drop, List.map_take]

theorem sl_full {α : Type} (l : List α) : sl l 0 l.length = l := by simp [sl]

theorem pySlice_sl {α : Type} (l : List α) (a b : ℕ) (ha : a ≤ l.length) (hb : b ≤ l.length) :
    pySlice l (a : ℤ) (b : ℤ) = sl l a b := pySlice_nat l a b ha hb

/-- Rows at which to cut. -/
def rowsNat (t new_t : List K) : List ℕ :=
  0 :: (((t.tail.dropLast.zipIdx.filter fun p => decide (p.1 ∈ new_t)).map fun p => p.2 + 1) ++ [t.length - 1])

theorem breakRows_eq {t : List K} (new_t : List K) (h : 2 ≤ t.length) :
    breakRows t new_t = (rowsNat t new_t).map Int.ofNat := by
  unfold breakRows rowsNat
  rw [pySlice_interior]
  simp only [List.map_cons, List.map_append, List.map_map, List.map_nil]
  congr 3
  simp only [List.cons.injEq, and_true, Int.ofNat_eq_natCast]
  omega

theorem rowsNat_chain {t : List K} (new_t : List K) (h : 2 ≤ t.length) :
    (rowsNat t new_t).Pairwise (· < ·) ∧ ∀ r ∈ rowsNat t new_t, r < t.length := by
  have hmem : ∀ i ∈ (t.tail.dropLast.zipIdx.filter fun p => decide (p.1 ∈ new_t)).map (fun p => p.2 + 1),
      0 < i ∧ i < t.length - 1 := by
    intro i hi
    obtain ⟨p, hp, rfl⟩ := List.mem_map.1 hi
    have := (List.mem_filter.1 hp).1
    have := List.snd_lt_of_mem_zipIdx this
    simp at this
    omega
  have hsort : ((t.tail.dropLast.zipIdx.filter fun p => decide (p.1 ∈ new_t)).map fun p => p.2 + 1).Pairwise (· < ·) := by
    rw [List.pairwise_map]
    apply List.Pairwise.filter
    have : (t.tail.dropLast.zipIdx.map Prod.snd).Pairwise (· < ·) := by
      rw [List.zipIdx_map_snd]; exact List.pairwise_lt_range'
    rw [List.pairwise_map] at this
    exact this.imp fun h => by omega
  unfold rowsNat
  constructor
  · rw [List.pairwise_cons, List.pairwise_append]
    refine ⟨?_, hsort, by simp, ?_⟩
    · intro a ha
      rcases List.mem_append.1 ha with ha | ha
      · exact (hmem a ha).1
      · simp at ha; omega
    · intro a ha b hb
      simp at hb
      have := hmem a ha
      omega
  · intro r hr
    rcases List.mem_cons.1 hr with rfl | hr
    · omega
    · rcases List.mem_append.1 hr with hr | hr
      · have := hmem r hr; omega
      · simp at hr; omega

theorem zipIdx_filter_fst {α : Type} (l : List α) (q : α → Bool) (f : α → α) (k : ℕ) :
    ((l.zipIdx k).filter fun p => q p.1).map Prod.fst = l.filter q := by
  induction l generalizing k with
  | nil => rfl
  | cons a l ih =>
    simp only [List.zipIdx_cons, List.filter_cons]
    split
    · simp [ih]
    · exact ih _

/-- Times at the cut rows. -/
theorem rowsNat_times {t : List K} (tc : List K) (h : 2 ≤ t.length) (hi : t.Pairwise (· < ·))
    (hs : tc.Sublist t.tail.dropLast) (h0 : t.head? = some 0) :
    (rowsNat t tc).map (fun r => t[r]?) = (0 :: (tc ++ [t.getLast?.getD 0])).map some := by
  have hlast : t[t.length - 1]? = some (t.getLast?.getD 0) := by
    rw [← List.getLast?_eq_getElem?]
    cases hg : t.getLast? with
    | none => rw [List.getLast?_eq_none_iff] at hg; subst hg; simp at h
    | some x => rfl
  have hint : (t.tail.dropLast).Pairwise (· < ·) :=
    (hi.sublist (List.tail_sublist t)).sublist (List.dropLast_sublist _)
  have hfil : t.tail.dropLast.filter (fun a => decide (a ∈ tc)) = tc := by
    have s1 : (t.tail.dropLast.filter (fun a => decide (a ∈ tc))).Pairwise (· < ·) := hint.filter _
    have s2 : tc.Pairwise (· < ·) := hint.sublist hs
    have hp : (t.tail.dropLast.filter (fun a => decide (a ∈ tc))).Perm tc := by
      rw [List.perm_ext_iff_of_nodup (s1.imp fun h => h.ne) (s2.imp fun h => h.ne)]
      intro a
      simp only [List.mem_filter, decide_eq_true_eq]
      exact ⟨fun h => h.2, fun h => ⟨hs.subset h, h⟩⟩
    exact hp.eq_of_pairwise (fun a b _ _ h1 h2 => absurd h1 (not_lt.2 h2.le)) s1 s2
  unfold rowsNat
  simp only [List.map_cons, List.map_append, List.map_map, List.map_nil, hlast]
  rw [← List.head?_eq_getElem?, h0]
  congr 2
  have : tc.map some = ((t.tail.dropLast.zipIdx.filter fun p => decide (p.1 ∈ tc)).map Prod.fst).map some := by
    rw [zipIdx_filter_fst _ (fun a => decide (a ∈ tc)) id, hfil]
  rw [this, List.map_map]
  apply List.map_congr_left
  rintro ⟨a, i⟩ hp
  have := (List.mem_filter.1 hp).1
  have := (List.mem_zipIdx_iff_getElem?).1 this
  simp only [Function.comp]
  rw [List.getElem?_dropLast] at this
  split at this
  · rw [List.getElem?_tail] at this; exact this
  · cases this

/-- Piece of a list of triples. -/
def trPiece (A : List (K × ℕ × V)) (a b : ℕ) : List (K × ℕ × V) :=
  shiftTr (-((A[a]?.map (·.1)).getD 0)) (sl A a (b + 1))

theorem anchPiece_ofTr (A : List (K × ℕ × V)) {a b : ℕ} (h : a < A.length) (hb : b < A.length) :
    anchPiece (ofTr A) (Int.ofNat a, Int.ofNat b) = .ok (ofTr (trPiece A a b)) := by
  unfold anchPiece
  have : pyGet (ofTr A).t (Int.ofNat a) = some A[a].1 := by
    simp [pyGet, ofTr, h]
  simp only [this]
  have e : (Int.ofNat b + 1 : ℤ) = ((b + 1 : ℕ) : ℤ) := by simp
  rw [e, show Int.ofNat a = ((a : ℕ) : ℤ) from rfl,
    pySlice_sl _ _ _ (by simp [ofTr]; omega) (by simp [ofTr]; omega),
    pySlice_sl _ _ _ (by simp [ofTr]; omega) (by simp [ofTr]; omega),
    pySlice_sl _ _ _ (by simp [ofTr]; omega) (by simp [ofTr]; omega)]
  simp only [ofTr, trPiece, shiftTr, List.map_map]
  rw [← sl_map, ← sl_map, ← sl_map]
  simp [Function.comp_def, h, sub_eq_add_neg]

/-- `[f(a, b) for a, b in zip(l, l[1:])]` -/
def onPairs {α β : Type} (f : α → α → β) : List α → List β
  | a :: b :: l => f a b :: onPairs f (b :: l)
  | _ => []

theorem zip_tail_map {α β : Type} (f : α × α → β) (l : List α) : (l.zip l.tail).map f = onPairs (fun a b => f (a, b)) l := by
  induction l with
  | nil => rfl
  | cons a l ih =>
    cases l with
    | nil => rfl
    | cons b l => simpa [onPairs] using ih

theorem mapM_ok {α β : Type} {f : α → Res β} {g : α → β} {l : List α} (h : ∀ a ∈ l, f a = .ok (g a)) :
    l.mapM f = .ok (l.map g) := by
  induction l with
  | nil => rfl
  | cons a l ih =>
    rw [List.mapM_cons, h a (by simp), ih fun b hb => h b (by simp [hb])]
    rfl

theorem splitHidden_ofTr {A : List (K × ℕ × V)} (z : List ζ) (new_t : List K) (h : 2 ≤ A.length)
    (hz : z.length + 1 = A.length) :
    splitHidden z (ofTr A) new_t = .ok (onPairs (sl z) (rowsNat (ofTr A).t new_t),
      onPairs (fun a b => ofTr (trPiece A a b)) (rowsNat (ofTr A).t new_t)) := by
  have h' : 2 ≤ (ofTr A).t.length := by simpa [ofTr] using h
  obtain ⟨hc, hlt⟩ := rowsNat_chain new_t h'
  have hlt' : ∀ r ∈ rowsNat (ofTr A).t new_t, r < A.length := by simpa [ofTr] using hlt
  unfold splitHidden
  simp only [breakRows_eq new_t h']
  generalize rowsNat (ofTr A).t new_t = R at hlt'
  have hzip : ((R.map Int.ofNat).zip (R.map Int.ofNat).tail) = (R.zip R.tail).map fun p => (Int.ofNat p.1, Int.ofNat p.2) := by
    rw [← List.map_tail, List.zip_map]; rfl
  have hmem : ∀ p ∈ R.zip R.tail, p.1 < A.length ∧ p.2 < A.length := by
    intro p hp
    have := List.of_mem_zip (a := p.1) (b := p.2) hp
    exact ⟨hlt' _ this.1, hlt' _ (List.mem_of_mem_tail this.2)⟩
  rw [hzip, List.mapM_map]
  have hm : (R.zip R.tail).mapM ((anchPiece (ofTr A)) ∘ fun p => (Int.ofNat p.1, Int.ofNat p.2)) =
      .ok ((R.zip R.tail).map fun p => ofTr (trPiece A p.1 p.2)) :=
    mapM_ok fun p hp => anchPiece_ofTr A (hmem p hp).1 (hmem p hp).2
  rw [hm]
  simp only [List.map_map]
  show Except.ok _ = _
  rw [zip_tail_map (fun p : ℕ × ℕ => ofTr (trPiece A p.1 p.2))]
  congr 2
  rw [← zip_tail_map (fun p : ℕ × ℕ => sl z p.1 p.2)]
  apply List.map_congr_left
  intro p hp
  have := hmem p hp
  simp only [Function.comp, Int.ofNat_eq_natCast]
  exact pySlice_sl _ _ _ (by omega) (by omega)

/-! ## identity -/

theorem flatten_onPairs_sl {α : Type} (z : List α) (R : List ℕ) (a : ℕ) (h : (a :: R).Pairwise (· < ·))
    (hl : ∀ r ∈ a :: R, r ≤ z.length) : (onPairs (sl z) (a :: R)).flatten = sl z a ((a :: R).getLast (by simp)) := by
  induction R generalizing a with
  | nil => simp [onPairs, sl]
  | cons b R ih =>
    rw [List.pairwise_cons] at h
    simp only [onPairs, List.flatten_cons]
    rw [ih b h.2 fun r hr => hl r (by simp [List.mem_cons.1 hr])]
    rw [List.getLast_cons (a := a) (l := b :: R) (by simp)]
    refine sl_append z (h.1 b (by simp)).le ?_ (hl _ (List.mem_cons_of_mem _ (List.getLast_mem _)))
    rcases List.mem_cons.1 (List.getLast_mem (l := b :: R) (by simp)) with he | he
    · rw [he]
    · exact ((List.pairwise_cons.1 h.2).1 _ he).le

theorem shiftTr_shiftTr (d e : K) (A : List (K × ℕ × V)) : shiftTr d (shiftTr e A) = shiftTr (d + e) A := by
  simp [shiftTr, Function.comp_def, add_comm, add_left_comm]

theorem shiftTr_append (d : K) (A B : List (K × ℕ × V)) : shiftTr d (A ++ B) = shiftTr d A ++ shiftTr d B := by
  simp [shiftTr]

theorem shiftTr_zero (A : List (K × ℕ × V)) : shiftTr 0 A = A := by
  simp [shiftTr]

theorem paste_pieces (A : List (K × ℕ × V)) (R : List ℕ) (a b : ℕ) (h : (a :: b :: R).Pairwise (· < ·))
    (hl : ∀ r ∈ a :: b :: R, r < A.length) :
    (onPairs (fun a b => ofTr (trPiece A a b)) (b :: R)).foldlM pasteStep (ofTr (trPiece A a b)) =
      .ok (ofTr (trPiece A a ((b :: R).getLast (by simp)))) := by
  induction R generalizing b with
  | nil => rfl
  | cons c R ih =>
    simp only [onPairs, List.foldlM_cons]
    have hab : a < b := (List.pairwise_cons.1 h).1 b (by simp)
    have hbc : b < c := (List.pairwise_cons.1 (List.pairwise_cons.1 h).2).1 c (by simp)
    have ha := hl a (by simp)
    have hb := hl b (by simp)
    have hc := hl c (by simp)
    have hlast : (trPiece A a b).getLast? = some (A[b].1 - A[a].1, A[b].2) := by
      rw [trPiece, sl_concat A hab.le hb, shiftTr, List.map_append, List.map_singleton, List.getLast?_concat]
      simp [ha, sub_eq_add_neg]
    rw [pasteStep_ofTr hlast]
    have : trPiece A a b ++ shiftTr (A[b].1 - A[a].1) (trPiece A b c).tail = trPiece A a c := by
      have e : (trPiece A b c).tail = shiftTr (-A[b].1) (sl A (b + 1) (c + 1)) := by
        rw [trPiece, sl_cons A (by omega) (by omega)]
        simp [shiftTr, hb]
      rw [e, shiftTr_shiftTr]
      unfold trPiece
      simp only [ha, List.getElem?_eq_getElem, Option.map_some, Option.getD_some]
      rw [show A[b].1 - A[a].1 + -A[b].1 = -A[a].1 by ring, ← shiftTr_append,
        sl_append A (by omega) (by omega) (by omega)]
    rw [this]
    rw [List.getLast_cons (by simp)]
    refine ih c ?_ ?_
    · rw [List.pairwise_cons] at h ⊢
      exact ⟨fun r hr => h.1 r (by simp [List.mem_cons.1 hr]), (List.pairwise_cons.1 h.2).2⟩
    · intro r hr
      rcases List.mem_cons.1 hr with rfl | hr
      · exact ha
      · exact hl r (by simp [List.mem_cons.1 hr])

/-! ## meaning of the pieces -/

theorem trPiece_sound {A : List (K × ℕ × V)} (hA : (ofTr A).Valid) {a b : ℕ} (hab : a < b) (hb : b < A.length) :
    (ofTr (trPiece A a b)).Valid ∧ (trPiece A a b).length = b - a + 1 ∧
    (ofTr (trPiece A a b)).fin = A[b].1 - A[a].1 ∧
    (∀ s, 0 ≤ s → s ≤ (ofTr (trPiece A a b)).fin →
      (ofTr (trPiece A a b)).stateAt s = (ofTr A).stateAt (A[a].1 + s)) ∧
    (∀ s v, (ofTr (trPiece A a b)).Has s v ↔ 0 ≤ s ∧ s ≤ (ofTr (trPiece A a b)).fin ∧ (ofTr A).Has (A[a].1 + s) v) ∧
    (b + 1 = A.length → (ofTr A).Closed → (ofTr (trPiece A a b)).Closed) := by
  obtain ⟨-, hi, -⟩ := (ofTr_valid A).1 hA
  have ha : a < A.length := by omega
  have hd : trPiece A a b = shiftTr (-A[a].1) (sl A a (b + 1)) := by simp [trPiece, ha]
  have hcons : sl A a (b + 1) = A[a] :: sl A (a + 1) (b + 1) := sl_cons A (by omega) (by omega)
  have hconc : sl A a (b + 1) = sl A a b ++ [A[b]] := sl_concat A (by omega) hb
  have hlen : (sl A a (b + 1)).length = b - a + 1 := by rw [sl_length A (by omega)]; omega
  have hsub : (sl A a (b + 1)).Sublist A := (List.drop_sublist _ _).trans (List.take_sublist _ _)
  have hinc : (sl A a (b + 1)).Pairwise fun p q => p.1 < q.1 := hi.sublist hsub
  have hge : ∀ p ∈ sl A a (b + 1), A[a].1 ≤ p.1 := by
    intro p hp
    rw [hcons] at hp hinc
    rcases List.mem_cons.1 hp with rfl | hp
    · exact le_rfl
    · exact ((List.pairwise_cons.1 hinc).1 p hp).le
  have hle : ∀ p ∈ sl A a (b + 1), p.1 ≤ A[b].1 := by
    intro p hp
    rw [hconc] at hp hinc
    rcases List.mem_append.1 hp with hp | hp
    · exact ((List.pairwise_append.1 hinc).2.2 p hp _ (by simp)).le
    · simp at hp; rw [hp]
  have hfin : (ofTr (trPiece A a b)).fin = A[b].1 - A[a].1 := by
    rw [ofTr_fin, hd, hconc, shiftTr, List.map_append, List.map_singleton, List.getLast?_concat]
    simp [sub_eq_add_neg]
  have hsplit : A = sl A 0 a ++ (sl A a (b + 1) ++ sl A (b + 1) A.length) := by
    rw [sl_append A (by omega) (by omega) le_rfl, sl_append A (by omega) (by omega) le_rfl, sl_full]
  have hpost : ∀ p ∈ sl A (b + 1) A.length, A[b].1 < p.1 := by
    intro p hp
    have := hi
    rw [hsplit, List.pairwise_append] at this
    have := (List.pairwise_append.1 this.2.1).2.2 A[b] (by rw [hconc]; simp) p hp
    exact this
  have hpre : ∀ p ∈ sl A 0 a, p.1 < A[a].1 := by
    intro p hp
    have := hi
    rw [hsplit, List.pairwise_append] at this
    exact this.2.2 p hp A[a] (by rw [hcons]; simp)
  refine ⟨?_, ?_, hfin, ?_, ?_, ?_⟩
  · refine (ofTr_valid _).2 ⟨⟨A[a].2.1, A[a].2.2, ?_⟩, ?_, ?_⟩
    · rw [hd, hcons]; simp [shiftTr]
    · rw [hd, shiftTr, List.pairwise_map]; exact hinc.imp fun h => by simpa using h
    · rw [hd]; simp only [shiftTr, List.length_map, hlen]; omega
  · rw [hd]; simp [shiftTr, hlen]
  · intro s h0 hs
    rw [hfin] at hs
    rw [ofTr_stateAt, ofTr_stateAt, hd, trJ_shift, stAt_shift']
    rw [show s - -A[a].1 = A[a].1 + s by ring]
    rw [show trJ A = trJ (sl A 0 a ++ (sl A a (b + 1) ++ sl A (b + 1) A.length)) from congrArg trJ hsplit]
    rw [trJ_append, trJ_append, stAt_append, stAt_append]
    have h1 : stAt (trJ (sl A (b + 1) A.length)) (A[a].1 + s) = none := by
      rw [stAt_eq_none_iff]
      intro p hp
      obtain ⟨q, hq, rfl⟩ := List.mem_map.1 hp
      have := hpost q hq
      simp only
      linarith
    obtain ⟨x, hx⟩ := stAt_isSome_of_mem (l := trJ (sl A a (b + 1))) (s := A[a].1 + s) (p := (A[a].1, A[a].2.1))
      (List.mem_map.2 ⟨A[a], by rw [hcons]; simp, rfl⟩) (by simp only; linarith)
    rw [h1, hx]; rfl
  · intro s v
    rw [ofTr_has, ofTr_has, hfin, hd]
    constructor
    · rintro ⟨y, hy⟩
      obtain ⟨p, hp, h2⟩ := List.mem_map.1 hy
      simp only [Prod.mk.injEq] at h2
      have g1 := hge p hp
      have g2 := hle p hp
      refine ⟨by linarith [h2.1], by linarith [h2.1], y, ?_⟩
      have e : A[a].1 + s = p.1 := by rw [← h2.1]; ring
      rw [e, ← h2.2]
      exact hsub.subset hp
    · rintro ⟨h0, hs, y, hy⟩
      refine ⟨y, ?_⟩
      have : (A[a].1 + s, y, v) ∈ sl A a (b + 1) := by
        have hy' : (A[a].1 + s, y, v) ∈ sl A 0 a ++ (sl A a (b + 1) ++ sl A (b + 1) A.length) := by
          rw [← hsplit]; exact hy
        rcases List.mem_append.1 hy' with hy | hy
        · have := hpre _ hy; simp only at this; linarith
        · rcases List.mem_append.1 hy with hy | hy
          · exact hy
          · have := hpost _ hy; simp only at this; linarith
      exact List.mem_map.2 ⟨_, this, by simp⟩
  · intro hbl hc
    unfold Anchorage.Closed at hc ⊢
    simp only [ofTr] at hc ⊢
    rw [← List.map_dropLast, List.getLast?_map, List.getLast?_map] at hc ⊢
    have hfull : A = sl A 0 b ++ [A[b]] := by
      rw [← sl_concat A (by omega) hb, hbl, sl_full]
    rw [hd, hconc, shiftTr, List.map_append, List.map_singleton, List.dropLast_concat, List.getLast?_concat]
    have h1 : A.dropLast.getLast? = (sl A 0 b).getLast? := by conv_lhs => rw [hfull, List.dropLast_concat]
    have h2 : A.getLast? = some A[b] := by conv_lhs => rw [hfull, List.getLast?_concat]
    rw [h1, h2] at hc
    obtain ⟨b', rfl⟩ : ∃ b', b = b' + 1 := ⟨b - 1, by omega⟩
    rw [sl_concat A (by omega) (by omega), List.getLast?_concat] at hc
    rw [sl_concat A (by omega) (by omega), List.map_append, List.map_singleton, List.getLast?_concat]
    simpa using hc

theorem onPairs_get {α β : Type} (f : α → α → β) (l : List α) (k : ℕ) {a b : α} (ha : l[k]? = some a)
    (hb : l[k + 1]? = some b) : (onPairs f l)[k]? = some (f a b) := by
  induction l generalizing k with
  | nil => simp at ha
  | cons x l ih =>
    cases l with
    | nil => simp at hb
    | cons y l =>
      cases k with
      | zero => simp at ha hb; subst ha hb; rfl
      | succ k => simpa [onPairs] using ih k (by simpa using ha) (by simpa using hb)

theorem onPairs_length {α β : Type} (f : α → α → β) (l : List α) : (onPairs f l).length = l.length - 1 := by
  induction l with
  | nil => rfl
  | cons x l ih =>
    cases l with
    | nil => rfl
    | cons y l => simp only [onPairs, List.length_cons, ih]; omega

/-- Pieces returned by `split_hidden`, one for each pair of neighbouring cut times. -/
theorem split_sound {h : Anchorage K V} (hv : h.Valid) {z : List ζ} (hz : z.length + 1 = h.t.length) {tc : List K}
    (hs : tc.Sublist h.t.tail.dropLast) :
    ∃ zp hp, splitHidden z h tc = .ok (zp, hp) ∧ zp.length = tc.length + 1 ∧ hp.length = tc.length + 1 ∧
      ∀ k a b, (0 :: (tc ++ [h.fin]))[k]? = some a → (0 :: (tc ++ [h.fin]))[k + 1]? = some b →
        ∃ zk p, zp[k]? = some zk ∧ hp[k]? = some p ∧ p.Valid ∧ zk.length + 1 = p.t.length ∧ p.fin = b - a ∧
          (∀ s, 0 ≤ s → s ≤ p.fin → p.stateAt s = h.stateAt (a + s)) ∧
          (∀ s v, p.Has s v ↔ 0 ≤ s ∧ s ≤ p.fin ∧ h.Has (a + s) v) ∧ (k = tc.length → h.Closed → p.Closed) := by
  have hAv : (ofTr h.tr).Valid := by rw [hv.tr_eq]; exact hv
  have hlen : h.tr.length = h.t.length := by simp [Anchorage.tr, hv.leny, hv.lenv]
  have hsp := splitHidden_ofTr (A := h.tr) z tc (by rw [hlen]; exact hv.two) (by rw [hlen]; exact hz)
  rw [hv.tr_eq] at hsp
  have htimes := rowsNat_times tc hv.two hv.inc hs hv.head
  obtain ⟨hc, hlt⟩ := rowsNat_chain tc hv.two
  have hRlen : (rowsNat h.t tc).length = tc.length + 2 := by
    have := congrArg List.length htimes; simpa using this
  refine ⟨_, _, hsp, by rw [onPairs_length]; omega, by rw [onPairs_length]; omega, ?_⟩
  intro k a b hka hkb
  have hk2 : k + 1 < tc.length + 2 := by
    have := (List.getElem?_eq_some_iff.1 hkb).1; simpa using this
  have hk : k + 1 < (rowsNat h.t tc).length := by omega
  set R := rowsNat h.t tc with hR
  have hrk : R[k]? = some R[k] := List.getElem?_eq_getElem (by omega)
  have hrk1 : R[k + 1]? = some R[k + 1] := List.getElem?_eq_getElem hk
  have htk : h.t[R[k]]? = some a := by
    have := congrArg (fun l => l[k]?) htimes
    simp only [List.getElem?_map, hrk, Option.map_some] at this
    have e : h.t.getLast?.getD 0 = h.fin := rfl
    rw [e, hka] at this
    simpa using this
  have htk1 : h.t[R[k + 1]]? = some b := by
    have := congrArg (fun l => l[k + 1]?) htimes
    simp only [List.getElem?_map, hrk1, Option.map_some] at this
    have e : h.t.getLast?.getD 0 = h.fin := rfl
    rw [e, hkb] at this
    simpa using this
  have hab : R[k] < R[k + 1] := List.pairwise_iff_getElem.1 hc k (k + 1) (by omega) hk (by omega)
  have hbl : R[k + 1] < h.tr.length := by rw [hlen]; exact hlt _ (List.getElem_mem _)
  have tt : ∀ (i : ℕ) (c : K) (hi : i < h.tr.length), h.t[i]? = some c → (h.tr[i]).1 = c := by
    intro i c hi hc
    have e : h.t = h.tr.map (·.1) := (congrArg Anchorage.t hv.tr_eq).symm
    rw [e, List.getElem?_map, List.getElem?_eq_getElem hi] at hc
    simpa using hc
  have ea := tt R[k] a (by omega) htk
  have eb := tt R[k + 1] b hbl htk1
  obtain ⟨p1, p2, p3, p4, p5, p6⟩ := trPiece_sound hAv hab hbl
  rw [hv.tr_eq] at p4 p5 p6
  rw [ea] at p4 p5
  refine ⟨_, _, onPairs_get _ _ _ hrk hrk1, onPairs_get _ _ _ hrk hrk1, p1, ?_, ?_, p4, p5, ?_⟩
  · rw [sl_length z (by omega)]
    simp only [ofTr, List.length_map, p2]
  · rw [p3, ea, eb]
  · intro hkt
    refine p6 ?_
    have : R[k + 1] = h.t.length - 1 := by
      have e : R.getLast? = some (h.t.length - 1) := by
        rw [hR]; unfold rowsNat
        rw [← List.cons_append, List.getLast?_concat]
      rw [List.getLast?_eq_getElem?] at e
      have e2 : R.length - 1 = k + 1 := by omega
      rw [e2, hrk1] at e
      exact Option.some.inj e
    rw [this, hlen]
    have := hv.two
    omega

theorem split_paste {h : Anchorage K V} (hv : h.Valid) {z : List ζ} (hz : z.length + 1 = h.t.length) (new_t : List K) :
    ∃ zp hp, splitHidden z h new_t = .ok (zp, hp) ∧ pasteHidden zp hp = .ok (z, h) := by
  have hlen : h.tr.length = h.t.length := by simp [Anchorage.tr, hv.leny, hv.lenv]
  have hsp := splitHidden_ofTr (A := h.tr) z new_t (by rw [hlen]; exact hv.two) (by rw [hlen]; exact hz)
  rw [hv.tr_eq] at hsp
  obtain ⟨hc, hlt⟩ := rowsNat_chain new_t hv.two
  refine ⟨_, _, hsp, ?_⟩
  obtain ⟨b, R, hR⟩ : ∃ b R, rowsNat h.t new_t = 0 :: b :: R := by
    unfold rowsNat
    generalize (h.t.tail.dropLast.zipIdx.filter fun p => decide (p.1 ∈ new_t)).map (fun p => p.2 + 1) = I
    cases I with
    | nil => exact ⟨_, _, rfl⟩
    | cons i I => exact ⟨_, _, rfl⟩
  have hlast : (0 :: b :: R).getLast (by simp) = h.t.length - 1 := by
    have e : (rowsNat h.t new_t).getLast? = some (h.t.length - 1) := by
      unfold rowsNat
      rw [← List.cons_append, List.getLast?_concat]
    rw [hR, List.getLast?_eq_some_getLast (by simp)] at e
    exact Option.some.inj e
  rw [hR] at hc hlt
  rw [hR]
  unfold pasteHidden
  have hp := paste_pieces h.tr R 0 b hc (by rw [hlen]; exact hlt)
  simp only [onPairs] at hp ⊢
  rw [hp]
  have hfl := flatten_onPairs_sl z (b :: R) 0 hc fun r hr => by have := hlt r hr; omega
  simp only [onPairs] at hfl
  rw [hfl, hlast]
  rw [List.getLast_cons (by simp)] at hlast
  rw [hlast]
  have two := hv.two
  have e1 : h.t.length - 1 = z.length := by omega
  have e2 : h.t.length - 1 + 1 = h.tr.length := by omega
  have e3 : trPiece h.tr 0 (h.t.length - 1) = h.tr := by
    unfold trPiece
    rw [e2, sl_full]
    have h0 : h.tr[0]?.map (·.1) = some 0 := by
      have e : h.t = h.tr.map (·.1) := (congrArg Anchorage.t hv.tr_eq).symm
      have := hv.head
      rw [e, List.head?_map, List.head?_eq_getElem?] at this
      exact this
    rw [h0]
    simp [shiftTr_zero]
  rw [e3, hv.tr_eq, e1, sl_full]
  rfl

/-! ## ends of a valid anchorage, pruning -/

theorem Anchorage.Valid.mem_of_has {h : Anchorage K V} {s : K} {v : V} (hh : h.Has s v) : s ∈ h.t :=
  (List.of_mem_zip hh).1

theorem Anchorage.Valid.decomp {h : Anchorage K V} (hv : h.Valid) :
    ∃ y v A, h.tr = (0, y, v) :: A ∧ A ≠ [] ∧ (h.tr).Pairwise (fun p q => p.1 < q.1) := by
  have hAv : (ofTr h.tr).Valid := by rw [hv.tr_eq]; exact hv
  obtain ⟨⟨y, v, hh⟩, hi, h2⟩ := (ofTr_valid _).1 hAv
  cases hA : h.tr with
  | nil => simp [hA] at hh
  | cons p A =>
    rw [hA] at hh h2 hi
    simp at hh
    exact ⟨y, v, A, by rw [hh], by rintro rfl; simp at h2, hi⟩

theorem Anchorage.Valid.fin_pos {h : Anchorage K V} (hv : h.Valid) : 0 < h.fin := by
  obtain ⟨y, v, A, hA, hne, hi⟩ := hv.decomp
  rw [← hv.tr_eq, ofTr_fin, hA, List.getLast?_cons]
  rw [hA, List.pairwise_cons] at hi
  cases h : A.getLast? with
  | none => exact absurd (List.getLast?_eq_none_iff.1 h) hne
  | some p => simpa using hi.1 p (List.mem_of_getLast? h)

theorem Anchorage.Valid.le_fin {h : Anchorage K V} (hv : h.Valid) {s : K} (hs : s ∈ h.t) : 0 ≤ s ∧ s ≤ h.fin := by
  obtain ⟨t, yt, vt⟩ := h
  have h1 := hv.head; have h2 := hv.inc
  simp only [Anchorage.fin] at *
  constructor
  · cases t with
    | nil => simp at hs
    | cons a t =>
      simp at h1
      subst h1
      rw [List.pairwise_cons] at h2
      rcases List.mem_cons.1 hs with rfl | hs
      · exact le_rfl
      · exact (h2.1 s hs).le
  · obtain ⟨t0, l, rfl⟩ := List.eq_nil_or_concat t |>.resolve_left (by rintro rfl; simp at hs)
    rw [List.concat_eq_append] at *
    rw [List.getLast?_concat]
    rw [List.pairwise_append] at h2
    rcases List.mem_append.1 hs with hs | hs
    · exact (h2.2.2 s hs l (by simp)).le
    · simp at hs; rw [hs]; exact le_rfl

theorem Anchorage.Valid.stateAt_zero {h : Anchorage K V} (hv : h.Valid) : h.stateAt 0 = h.yt.head? := by
  obtain ⟨y, v, A, hA, hne, hi⟩ := hv.decomp
  rw [← hv.tr_eq, ofTr_stateAt, hA]
  rw [hA, List.pairwise_cons] at hi
  simp only [trJ, List.map_cons, stAt_cons]
  have : stAt (List.map (fun p : K × ℕ × V => (p.1, p.2.1)) A) 0 = none := by
    rw [stAt_eq_none_iff]
    intro p hp
    obtain ⟨q, hq, rfl⟩ := List.mem_map.1 hp
    exact hi.1 q hq
  rw [this]
  simp [ofTr]

theorem Anchorage.Valid.stateAt_fin {h : Anchorage K V} (hv : h.Valid) : h.stateAt h.fin = h.yt.getLast? := by
  have hle : ∀ s ∈ h.t, s ≤ h.fin := fun s hs => (hv.le_fin hs).2
  unfold Anchorage.stateAt stAt
  rw [List.filter_eq_self.2]
  · rw [← List.getLast?_map, List.map_snd_zip (by rw [hv.leny])]
  · intro p hp
    simpa using hle p.1 (List.of_mem_zip (a := p.1) (b := p.2) hp).1

theorem Anchorage.Valid.has_zero {h : Anchorage K V} (hv : h.Valid) {v : V} (hh : h.Has 0 v) : h.vt.head? = some v := by
  obtain ⟨y, w, A, hA, hne, hi⟩ := hv.decomp
  rw [← hv.tr_eq, ofTr_has, hA] at hh
  rw [← hv.tr_eq, hA]
  rw [hA, List.pairwise_cons] at hi
  obtain ⟨y', hy⟩ := hh
  rcases List.mem_cons.1 hy with h | h
  · cases h; simp [ofTr]
  · exact absurd (hi.1 _ h) (by simp)

theorem Anchorage.Valid.has_fin {h : Anchorage K V} (hv : h.Valid) {v : V} (hh : h.Has h.fin v) : h.vt.getLast? = some v := by
  obtain ⟨y, w, A, hA, hne, hi⟩ := hv.decomp
  obtain ⟨B, l, hB⟩ := List.eq_nil_or_concat h.tr |>.resolve_left (by rw [hA]; simp)
  rw [List.concat_eq_append] at hB
  rw [hB, List.pairwise_append] at hi
  have hf : h.fin = l.1 := by
    rw [← hv.tr_eq, ofTr_fin, hB, List.getLast?_concat]; rfl
  rw [hf, ← hv.tr_eq, ofTr_has, hB] at hh
  obtain ⟨y', hy⟩ := hh
  rw [← hv.tr_eq, hB]
  rcases List.mem_append.1 hy with h | h
  · exact absurd (hi.2.2 _ h l (by simp)) (by simp)
  · simp at h
    rw [← h]
    simp [ofTr]

/-- Anchors never share a time. -/
theorem Anchorage.Valid.has_unique {h : Anchorage K V} (hv : h.Valid) {s : K} {v w : V} (h1 : h.Has s v) (h2 : h.Has s w) :
    v = w := by
  obtain ⟨-, -, -, -, -, hi⟩ := hv.decomp
  rw [← hv.tr_eq, ofTr_has] at h1 h2
  obtain ⟨y, hy⟩ := h1
  obtain ⟨y', hy'⟩ := h2
  by_contra hne
  haveI : Std.Symm fun p q : K × ℕ × V => p ≠ q → p.1 ≠ q.1 := ⟨fun p q h hn => (h hn.symm).symm⟩
  have := List.Pairwise.forall_of_forall (R := fun p q : K × ℕ × V => p ≠ q → p.1 ≠ q.1) (l := h.tr)
    (fun p _ hn => absurd rfl hn) (hi.imp fun h _ => h.ne) hy hy'
  exact this (by simp [hne]) rfl

theorem prune_eq {h : Anchorage K V} (hy : h.yt.length = h.t.length) (hne : h.t ≠ []) :
    pruneAnchorage h = .ok ⟨(dedupAll (h.t.zip h.yt)).map Prod.fst, (dedupAll (h.t.zip h.yt)).map Prod.snd, h.fin⟩ := by
  obtain ⟨t, yt, vt⟩ := h
  simp only at hy hne
  cases t with
  | nil => exact absurd rfl hne
  | cons a t =>
    cases yt with
    | nil => simp at hy
    | cons x yt =>
      have hl : yt.length = t.length := by simpa using hy
      obtain ⟨f, hf⟩ : ∃ f, (a :: t).getLast? = some f := ⟨_, List.getLast?_eq_some_getLast (by simp)⟩
      have hk : (true :: List.zipWith (fun a b => decide (a ≠ b)) yt (x :: yt).dropLast).length = yt.length + 1 := by
        simp
      unfold pruneAnchorage
      simp only [List.tail_cons, Anchorage.fin, hf]
      rw [if_neg (by rw [hk]; simp [hl])]
      have e1 := select_dedup (K := K) Prod.fst (t.zip yt) x
      have e2 := select_dedup (K := K) Prod.snd (t.zip yt) x
      rw [List.map_fst_zip (by omega), List.map_snd_zip (by omega)] at e1
      rw [List.map_snd_zip (by omega)] at e2
      have hd : List.zipWith (fun a b => decide (a ≠ b)) yt (x :: yt).dropLast =
          List.zipWith (fun a b => decide (a ≠ b)) yt (x :: yt.dropLast) := by
        cases yt with
        | nil => rfl
        | cons y yt => rfl
      rw [hd]
      simp only [select, e1, e2, List.zip_cons_cons, dedupAll, List.map_cons, Option.getD_some]

/-- Pruning a closed anchorage gives a reduced path with the same regimes. -/
theorem prune_sound {h : Anchorage K V} (hv : h.Valid) (hc : h.Closed) :
    ∃ sk, pruneAnchorage h = .ok sk ∧ sk.Valid ∧ sk.Reduced ∧ sk.fin = h.fin ∧
      ∀ s, sk.stateAt s = h.stateAt s := by
  have hne : h.t ≠ [] := by intro h0; have := hv.two; simp [h0] at this
  refine ⟨_, prune_eq hv.leny hne, ?_, ?_, rfl, ?_⟩
  · have hz1 : (h.t.zip h.yt).map Prod.fst = h.t := List.map_fst_zip (by rw [hv.leny])
    have hinc : (h.t.zip h.yt).Pairwise fun p q => p.1 < q.1 := by
      have := hv.inc; rw [← hz1, List.pairwise_map] at this; exact this
    refine ⟨by simp, ?_, ?_, ?_⟩
    · have := hv.head
      rw [← hz1] at this
      cases hz : h.t.zip h.yt with
      | nil => simp [hz] at this
      | cons p l => rw [hz] at this; simpa [dedupAll] using this
    · simp only [List.pairwise_map]; exact hinc.sublist (dedupAll_sublist _)
    · intro a ha
      obtain ⟨p, hp, rfl⟩ := List.mem_map.1 ha
      have hp' := (dedupAll_sublist _).subset hp
      have hle : p.1 ≤ h.fin := (hv.le_fin (List.of_mem_zip (a := p.1) (b := p.2) hp').1).2
      refine lt_of_le_of_ne hle fun he => ?_
      -- the last anchor is removed
      obtain ⟨J, q, hJ⟩ := List.eq_nil_or_concat (h.t.zip h.yt) |>.resolve_left (by
        intro h0; rw [h0] at hp'; simp at hp')
      rw [List.concat_eq_append] at hJ
      have hq1 : q.1 = h.fin := by
        unfold Anchorage.fin
        rw [← hz1, hJ]
        simp
      have hz2 : (h.t.zip h.yt).map Prod.snd = h.yt := List.map_snd_zip (by rw [hv.leny])
      unfold Anchorage.Closed at hc
      rw [← hz2, hJ] at hc
      rw [hJ] at hinc hp
      simp only [List.map_append, List.map_cons, List.map_nil, List.dropLast_concat, List.getLast?_concat] at hc
      have hJne : J ≠ [] := by rintro rfl; simp at hc
      have hdd : dedupAll (J ++ [q]) = dedupAll J := by
        have aux : ∀ (L : List (K × ℕ)) (x : ℕ), ((x :: L.map Prod.snd).getLast?) = some q.2 →
            dedup x (L ++ [q]) = dedup x L := by
          intro L
          induction L with
          | nil => intro x hx; simp at hx; simp [dedup, hx]
          | cons r L ih =>
            intro x hx
            rw [List.map_cons, List.getLast?_cons_cons] at hx
            simp only [List.cons_append, dedup]
            split
            · rename_i h; exact ih x (by rw [← h]; exact hx)
            · rw [ih r.2 hx]
        cases J with
        | nil => exact absurd rfl hJne
        | cons r L => simp only [List.cons_append, dedupAll]; rw [aux L r.2 (by simpa using hc)]
      rw [hdd] at hp
      have := (dedupAll_sublist _).subset hp
      have := (List.pairwise_append.1 hinc).2.2 p this q (by simp)
      rw [hq1, he] at this
      exact lt_irrefl _ this
  · unfold Skel.Reduced; exact dedupAll_chain _
  · intro s
    have hz1 : (h.t.zip h.yt).map Prod.fst = h.t := List.map_fst_zip (by rw [hv.leny])
    have hinc : (h.t.zip h.yt).Pairwise fun p q => p.1 < q.1 := by
      have := hv.inc; rw [← hz1, List.pairwise_map] at this; exact this
    unfold Skel.stateAt
    rw [jumps_mk, stAt_dedupAll hinc]
    rfl

end Ctb
