import Verif.Lemmas.SwitchAug
import Mathlib.Data.List.Sort
import Verif.Lemmas.Propose
import Verif.Lemmas.Adapt
import Verif.Lemmas.Bfactories

/-! # Lemmas about the hidden-state update -/

set_option linter.unusedSectionVars false

namespace Ctb

section
variable {K : Type} [Field K] [LinearOrder K] [IsStrictOrderedRing K] {V ζ : Type}

/-- All pieces at once: piece `k` of the pasted result, the first included. -/
theorem Pasted.at {h : Anchorage K V} {hs : List (Anchorage K V)} {H : Anchorage K V} (P : Pasted h hs H) {k : ℕ}
    {p : Anchorage K V} (hk : (h :: hs)[k]? = some p) :
    (∀ s, 0 ≤ s → s ≤ p.fin → H.stateAt ((((h :: hs).take k).map Anchorage.fin).sum + s) = p.stateAt s) ∧
    (∀ s v, p.Has s v → H.Has ((((h :: hs).take k).map Anchorage.fin).sum + s) v) := by
  cases k with
  | zero =>
    simp only [List.getElem?_cons_zero, Option.some.injEq] at hk
    subst hk
    simp only [List.take_zero, List.map_nil, List.sum_nil, zero_add]
    exact ⟨fun s _ hs => P.first s hs, P.firstHas⟩
  | succ k =>
    simp only [List.getElem?_cons_succ] at hk
    obtain ⟨hlt, hp⟩ := List.getElem?_eq_some_iff.1 hk
    have hsplit : hs = hs.take k ++ p :: hs.drop (k + 1) := by
      rw [← hp, ← List.drop_eq_getElem_cons hlt, List.take_append_drop]
    simp only [List.take_succ_cons, List.map_cons, List.sum_cons]
    exact ⟨fun s h0 h1 => P.state _ _ _ s hsplit h0 h1, fun s v hh => P.has _ _ _ s v hsplit hh⟩

theorem sum_cuts {ps : List (Anchorage K V)} {cuts : List K} {c0 : K} (h0 : cuts[0]? = some c0)
    (h : ∀ k p a b, ps[k]? = some p → cuts[k]? = some a → cuts[k + 1]? = some b → p.fin = b - a)
    (hl : ps.length + 1 = cuts.length) : ∀ k c, cuts[k]? = some c → ((ps.take k).map Anchorage.fin).sum = c - c0 := by
  intro k
  induction k with
  | zero => intro c hc; rw [h0] at hc; cases hc; simp
  | succ k ih =>
    intro c hc
    have hk : k + 1 < cuts.length := (List.getElem?_eq_some_iff.1 hc).1
    have hk' : k < ps.length := by omega
    have hp : ps[k]? = some ps[k] := List.getElem?_eq_getElem hk'
    have ha : cuts[k]? = some (cuts[k]'(by omega)) := List.getElem?_eq_getElem (by omega)
    rw [List.take_add_one, hp]
    simp only [Option.toList_some, List.map_append, List.map_cons, List.map_nil, List.sum_append, List.sum_cons,
      List.sum_nil, add_zero]
    rw [ih _ ha, h k _ _ _ hp ha hc]
    ring

/-- Any mixture of the sections of two anchorages that agree at the cut times pastes into one anchorage. -/
theorem recombine {hN hP : Anchorage K V} (vN : hN.Valid) (vP : hP.Valid) (cN : hN.Closed) (cP : hP.Closed)
    (hf : hP.fin = hN.fin) {zN zP : List ζ} (lN : zN.length + 1 = hN.t.length) (lP : zP.length + 1 = hP.t.length)
    {tc : List K} (sN : tc.Sublist hN.t.tail.dropLast) (sP : tc.Sublist hP.t.tail.dropLast)
    (hst : ∀ c ∈ tc, hP.stateAt c = hN.stateAt c) (hval : ∀ c ∈ tc, ∃ v, hN.Has c v ∧ hP.Has c v) :
    ∃ zn hn zp hp, splitHidden zN hN tc = .ok (zn, hn) ∧ splitHidden zP hP tc = .ok (zp, hp) ∧
      ((zn.zip hn).zip (zp.zip hp)).length = tc.length + 1 ∧
      (∀ q ∈ (zn.zip hn).zip (zp.zip hp), q.1.2.Valid ∧ q.1.1.length + 1 = q.1.2.t.length ∧ q.2.2.Valid ∧
        q.2.1.length + 1 = q.2.2.t.length) ∧
      ∀ accs : List (Bool × List ζ × Anchorage K V),
        List.Forall₂ (fun q a => a.2.2 = (if a.1 then q.2.2 else q.1.2) ∧
          a.2.1.length = (if a.1 then q.2.1 else q.1.1).length) ((zn.zip hn).zip (zp.zip hp)) accs →
        ∃ z H, pasteHidden (accs.map fun a => a.2.1) (accs.map fun a => a.2.2) = .ok (z, H) ∧ H.Valid ∧ H.Closed ∧
          H.fin = hN.fin ∧ z.length + 1 = H.t.length ∧ (∀ s v, hN.Has s v → hP.Has s v → H.Has s v) ∧
          ∀ k a b acc, (0 :: (tc ++ [hN.fin]))[k]? = some a → (0 :: (tc ++ [hN.fin]))[k + 1]? = some b →
            (accs.map Prod.fst)[k]? = some acc → ∀ s, a ≤ s → s ≤ b →
              H.stateAt s = (if acc then hP else hN).stateAt s := by
  obtain ⟨zn, hn, en, zn1, hn1, pn⟩ := split_sound vN lN sN
  obtain ⟨zp, hp, ep, zp1, hp1, pp⟩ := split_sound vP lP sP
  rw [hf] at pp
  set cuts := (0 :: (tc ++ [hN.fin])) with hcuts
  have hcl : cuts.length = tc.length + 2 := by simp [hcuts]
  have hql : ((zn.zip hn).zip (zp.zip hp)).length = tc.length + 1 := by
    simp [zn1, hn1, zp1, hp1]
  -- per-index facts
  have hidx : ∀ k, k < tc.length + 1 → ∃ a b, cuts[k]? = some a ∧ cuts[k + 1]? = some b := by
    intro k hk
    exact ⟨_, _, List.getElem?_eq_getElem (by omega), List.getElem?_eq_getElem (by omega)⟩
  have hq : ∀ (k : ℕ) (q : (List ζ × Anchorage K V) × List ζ × Anchorage K V), ((zn.zip hn).zip (zp.zip hp))[k]? = some q → zn[k]? = some q.1.1 ∧ hn[k]? = some q.1.2 ∧
      zp[k]? = some q.2.1 ∧ hp[k]? = some q.2.2 := by
    intro k q hq
    rw [List.getElem?_zip_eq_some, List.getElem?_zip_eq_some, List.getElem?_zip_eq_some] at hq
    tauto
  refine ⟨zn, hn, zp, hp, en, ep, hql, ?_, ?_⟩
  · intro q hqm
    obtain ⟨k, hk⟩ := List.mem_iff_getElem?.1 hqm
    have hlt := (List.getElem?_eq_some_iff.1 hk).1
    obtain ⟨a, b, ha, hb⟩ := hidx k (by omega)
    obtain ⟨h1, h2, h3, h4⟩ := hq k q hk
    obtain ⟨z1, p1, e1, e2, v1, l1, -⟩ := pn k a b ha hb
    obtain ⟨z2, p2, e3, e4, v2, l2, -⟩ := pp k a b ha hb
    rw [h1] at e1; rw [h2] at e2; rw [h3] at e3; rw [h4] at e4
    cases e1; cases e2; cases e3; cases e4
    exact ⟨v1, l1, v2, l2⟩
  intro accs hacc
  have hal : accs.length = tc.length + 1 := by rw [← hacc.length_eq, hql]
  -- facts about section k of the mixture
  have sec : ∀ k x, accs[k]? = some x → ∀ a b, cuts[k]? = some a → cuts[k + 1]? = some b →
      x.2.2.Valid ∧ x.2.1.length + 1 = x.2.2.t.length ∧ x.2.2.fin = b - a ∧
      (∀ s, 0 ≤ s → s ≤ x.2.2.fin → x.2.2.stateAt s = (if x.1 then hP else hN).stateAt (a + s)) ∧
      (∀ s v, x.2.2.Has s v ↔ 0 ≤ s ∧ s ≤ x.2.2.fin ∧ (if x.1 then hP else hN).Has (a + s) v) ∧
      (k = tc.length → x.2.2.Closed) := by
    intro k x hx a b ha hb
    have hk : k < accs.length := (List.getElem?_eq_some_iff.1 hx).1
    obtain ⟨q, hqk⟩ : ∃ q, ((zn.zip hn).zip (zp.zip hp))[k]? = some q :=
      ⟨_, List.getElem?_eq_getElem (by omega)⟩
    have hrel := (List.forall₂_iff_get.1 hacc).2 k (by omega) hk
    simp only [List.get_eq_getElem] at hrel
    rw [(List.getElem?_eq_some_iff.1 hqk).2, (List.getElem?_eq_some_iff.1 hx).2] at hrel
    obtain ⟨h1, h2, h3, h4⟩ := hq k q hqk
    obtain ⟨z1, p1, e1, e2, v1, l1, f1, s1, t1, c1⟩ := pn k a b ha hb
    obtain ⟨z2, p2, e3, e4, v2, l2, f2, s2, t2, c2⟩ := pp k a b ha hb
    rw [h1] at e1; rw [h2] at e2; rw [h3] at e3; rw [h4] at e4
    cases e1; cases e2; cases e3; cases e4
    obtain ⟨hh, hz⟩ := hrel
    cases hx1 : x.1
    · simp only [hx1, Bool.false_eq_true, if_false] at hh hz ⊢
      rw [hh, hz]
      exact ⟨v1, l1, f1, s1, t1, fun h => c1 h cN⟩
    · simp only [hx1, if_true] at hh hz ⊢
      rw [hh, hz]
      exact ⟨v2, l2, f2, s2, t2, fun h => c2 h cP⟩
  have secx : ∀ x ∈ accs, x.2.2.Valid ∧ x.2.1.length + 1 = x.2.2.t.length := by
    intro x hx
    obtain ⟨k, hk⟩ := List.mem_iff_getElem?.1 hx
    have hlt := (List.getElem?_eq_some_iff.1 hk).1
    obtain ⟨a, b, ha, hb⟩ := hidx k (by omega)
    have := sec k x hk a b ha hb
    exact ⟨this.1, this.2.1⟩
  obtain ⟨x0, xs, hxs⟩ : ∃ x0 xs, accs = x0 :: xs := by
    cases accs with
    | nil => simp at hal
    | cons x0 xs => exact ⟨x0, xs, rfl⟩
  have hps : accs.map (fun a => a.2.2) = x0.2.2 :: xs.map fun a => a.2.2 := by rw [hxs]; rfl
  have hjoin : (accs.map fun a => a.2.2).IsChain Anchorage.Joins := by
    rw [List.isChain_iff_getElem]
    intro i hi
    simp only [List.length_map] at hi
    simp only [List.getElem_map]
    have hx1 : accs[i]? = some (accs[i]'(by omega)) := List.getElem?_eq_getElem (by omega)
    have hx2 : accs[i + 1]? = some accs[i + 1] := List.getElem?_eq_getElem (by omega)
    obtain ⟨a, b, ha, hb⟩ := hidx i (by omega)
    obtain ⟨b', c, hb', hc⟩ := hidx (i + 1) (by omega)
    rw [hb] at hb'; cases hb'
    have hbt : b ∈ tc := by
      rw [hcuts, List.getElem?_cons_succ, List.getElem?_append_left (by omega)] at hb
      exact List.mem_of_getElem? hb
    obtain ⟨v1, l1, f1, s1, t1, -⟩ := sec i _ hx1 a b ha hb
    obtain ⟨v2, l2, f2, s2, t2, -⟩ := sec (i + 1) _ hx2 b c hb hc
    have hany : ∀ x y : Bool, (if x then hP else hN).stateAt b = (if y then hP else hN).stateAt b := by
      intro x y; have := hst b hbt; cases x <;> cases y <;> simp [this]
    obtain ⟨v, hvN, hvP⟩ := hval b hbt
    have hanyv : ∀ x : Bool, (if x then hP else hN).Has b v := by
      intro x; cases x <;> simpa
    constructor
    · rw [← v1.stateAt_fin, ← v2.stateAt_zero, s1 _ v1.fin_pos.le le_rfl, s2 0 le_rfl v2.fin_pos.le, f1, add_zero,
        add_sub_cancel]
      exact hany _ _
    · rw [v1.has_fin ((t1 _ v).2 ⟨v1.fin_pos.le, le_rfl, by rw [f1, add_sub_cancel]; exact hanyv _⟩),
        v2.has_zero ((t2 0 v).2 ⟨le_rfl, v2.fin_pos.le, by rw [add_zero]; exact hanyv _⟩)]
  rw [hps] at hjoin
  obtain ⟨H, hH, P⟩ := pasteAll (xs.map fun a => a.2.2) x0.2.2 (by
    intro p hp
    rw [← hps] at hp
    obtain ⟨x, hx, rfl⟩ := List.mem_map.1 hp
    exact (secx x hx).1) hjoin
  have hsum : ∀ k c, cuts[k]? = some c → (((accs.map fun a => a.2.2).take k).map Anchorage.fin).sum = c := by
    intro k c hc
    have := sum_cuts (ps := accs.map fun a => a.2.2) (cuts := cuts) (c0 := 0) (by simp [hcuts]) (by
      intro k p a b hp ha hb
      rw [List.getElem?_map, Option.map_eq_some_iff] at hp
      obtain ⟨x, hx, rfl⟩ := hp
      exact (sec k x hx a b ha hb).2.2.1) (by simp [hal, hcl]) k c hc
    simpa using this
  have hAt : ∀ k x, accs[k]? = some x → ∀ a b, cuts[k]? = some a → cuts[k + 1]? = some b →
      (∀ s, a ≤ s → s ≤ b → H.stateAt s = (if x.1 then hP else hN).stateAt s) ∧
      (∀ s v, a ≤ s → s ≤ b → (if x.1 then hP else hN).Has s v → H.Has s v) := by
    intro k x hx a b ha hb
    obtain ⟨v1, l1, f1, s1, t1, -⟩ := sec k x hx a b ha hb
    have hk : (x0.2.2 :: xs.map fun a => a.2.2)[k]? = some x.2.2 := by
      rw [← hps, List.getElem?_map, hx]; rfl
    obtain ⟨A1, A2⟩ := P.at hk
    rw [← hps, hsum k a ha] at A1 A2
    constructor
    · intro s hs1 hs2
      have := A1 (s - a) (by linarith) (by rw [f1]; linarith)
      rw [add_sub_cancel, s1 _ (by linarith) (by rw [f1]; linarith), add_sub_cancel] at this
      exact this
    · intro s v hs1 hs2 hh
      have := A2 (s - a) v ((t1 _ v).2 ⟨by linarith, by rw [f1]; linarith, by rw [add_sub_cancel]; exact hh⟩)
      rwa [add_sub_cancel] at this
  have hcover : ∀ s, 0 ≤ s → s ≤ hN.fin → ∃ k x a b, accs[k]? = some x ∧ cuts[k]? = some a ∧ cuts[k + 1]? = some b ∧
      a ≤ s ∧ s ≤ b := by
    intro s h0 h1
    have : ∀ n, n ≤ tc.length + 1 → (∃ c, cuts[n]? = some c ∧ s ≤ c) → ∃ k x a b, accs[k]? = some x ∧
        cuts[k]? = some a ∧ cuts[k + 1]? = some b ∧ a ≤ s ∧ s ≤ b := by
      intro n
      induction n with
      | zero =>
        rintro - ⟨c, hc, hsc⟩
        obtain ⟨a, b, ha, hb⟩ := hidx 0 (by omega)
        rw [hc] at ha; cases ha
        have hc0 : c = 0 := by simpa [hcuts] using hc.symm
        have hx : accs[0]? = some x0 := by rw [hxs]; rfl
        refine ⟨0, x0, c, b, hx, hc, hb, by rw [hc0]; exact h0, ?_⟩
        have f1 := (sec 0 x0 hx c b hc hb).2.2.1
        have := (sec 0 x0 hx c b hc hb).1.fin_pos
        linarith
      | succ n ih =>
        rintro hn ⟨c, hc, hsc⟩
        obtain ⟨a, b, ha, hb⟩ := hidx n (by omega)
        rw [hc] at hb; cases hb
        by_cases hs : s ≤ a
        · exact ih (by omega) ⟨a, ha, hs⟩
        · exact ⟨n, accs[n]'(by omega), a, c, List.getElem?_eq_getElem (by omega), ha, hc, (not_le.1 hs).le, hsc⟩
    refine this (tc.length + 1) le_rfl ⟨hN.fin, ?_, h1⟩
    simp [hcuts]
  refine ⟨(accs.map fun a => a.2.1).flatten, H, ?_, P.valid, ?_, ?_, ?_, ?_, ?_⟩
  · rw [hps]; unfold pasteHidden
    simp only [hH, bind, Except.bind, pure, Except.pure]
  · refine P.closed ?_
    obtain ⟨last, hL⟩ : ∃ last, (x0.2.2 :: xs.map fun a => a.2.2).getLast (by simp) = last := ⟨_, rfl⟩
    have hlast : (accs.map fun a => a.2.2)[tc.length]? = some last := by
      rw [hps, ← hL, ← List.getLast?_eq_some_getLast, List.getLast?_eq_getElem?]
      congr 1
      rw [← hps]; simp [hal]
    rw [hL]
    rw [List.getElem?_map, Option.map_eq_some_iff] at hlast
    obtain ⟨x, hx, rfl⟩ := hlast
    obtain ⟨a, b, ha, hb⟩ := hidx tc.length (by omega)
    exact (sec _ x hx a b ha hb).2.2.2.2.2 rfl
  · rw [P.fin]
    have := hsum (tc.length + 1) hN.fin (by simp [hcuts])
    rw [List.take_of_length_le (by simp [hal]), hps] at this
    simpa using this
  · have hlen : ∀ l : List (Bool × List ζ × Anchorage K V), (∀ x ∈ l, x.2.1.length + 1 = x.2.2.t.length) →
        (l.map fun a => a.2.1).flatten.length = ((l.map fun a => a.2.2).map fun p => p.t.length - 1).sum := by
      intro l
      induction l with
      | nil => simp
      | cons x l ih =>
        intro hl
        have h1 := hl x (by simp)
        have h2 := ih fun y hy => hl y (List.mem_cons_of_mem _ hy)
        simp only [List.map_cons, List.flatten_cons, List.length_append, List.sum_cons, h2]
        omega
    rw [hlen accs fun x hx => (secx x hx).2, hps, P.len]
    have := (secx x0 (by rw [hxs]; simp)).1.two
    simp only [List.map_cons, List.sum_cons]
    omega
  · intro s v h1 h2
    have hb := vN.le_fin (Anchorage.Valid.mem_of_has h1)
    obtain ⟨k, x, a, b, hx, ha, hb, h3, h4⟩ := hcover s hb.1 hb.2
    refine (hAt k x hx a b ha hb).2 s v h3 h4 ?_
    cases x.1 <;> simpa
  · intro k a b acc ha hb hk s h3 h4
    rw [List.getElem?_map, Option.map_eq_some_iff] at hk
    obtain ⟨x, hx, rfl⟩ := hk
    exact (hAt k x hx a b ha hb).1 s h3 h4

end

section
variable {ζ : Type}

/-- The value satisfies `Q`, or the exception satisfies `E`. -/
def Sat {α : Type} (Q : α → Prop) (E : PyErr → Prop) : Res α → Prop
  | .ok a => Q a
  | .error e => E e

/-- Invariant rule for the two-coin search. -/
theorem twocoin_inv {σ τ : Type} {v1 prk : ℝ} {c1 c2 : Coin σ τ} {prop0 : τ} (I : σ → Prop) (Q1 Q2 : τ → Prop)
    (E : PyErr → Prop) (hE : E .budget) (h0 : Q2 prop0)
    (h1 : ∀ s r, I s → (c1 s).Out r → Sat (fun x => Q1 x.2.1 ∧ I x.2.2) E r)
    (h2 : ∀ s r, I s → (c2 s).Out r → Sat (fun x => Q2 x.2.1 ∧ I x.2.2) E r) :
    ∀ n s r, I s → (twocoinLoop v1 c1 c2 prk prop0 n s).Out r →
      Sat (fun v => if v.1.1 then Q1 v.1.2.2 else Q2 v.1.2.2) E r := by
  classical
  intro n
  induction n with
  | zero => intro s r _ h; simp only [twocoinLoop, Prog.out_err] at h; subst h; exact hE
  | succ n ih =>
    intro s r hI h
    unfold twocoinLoop at h
    simp only [Prog.out_real] at h
    obtain ⟨u, -, h⟩ := h
    split_ifs at h
    · rw [Prog.out_bind] at h
      rcases h with ⟨x, hx, h⟩ | ⟨e, he, rfl⟩
      · have := h1 s _ hI hx
        simp only [Sat] at this
        split_ifs at h
        · simp only [Prog.out_ret] at h; subst h; simpa [Sat] using this.1
        · simp only [Prog.out_real] at h
          obtain ⟨u', -, h⟩ := h
          split_ifs at h
          · simp only [Prog.out_ret] at h; subst h; simpa [Sat] using h0
          · exact ih _ _ this.2 h
      · exact h1 s _ hI he
    · rw [Prog.out_bind] at h
      rcases h with ⟨x, hx, h⟩ | ⟨e, he, rfl⟩
      · have := h2 s _ hI hx
        simp only [Sat] at this
        split_ifs at h
        · simp only [Prog.out_ret] at h; subst h; simpa [Sat] using this.1
        · simp only [Prog.out_real] at h
          obtain ⟨u', -, h⟩ := h
          split_ifs at h
          · simp only [Prog.out_ret] at h; subst h; simpa [Sat] using h0
          · exact ih _ _ this.2 h
      · exact h2 s _ hI he

theorem flipHidden_out {O : HiddenOps ζ} {h : Anchorage ℝ ℝ} (hv : h.Valid) {z : List ζ} (hz : z.length + 1 = h.t.length)
    {r : Res (Bool × List ζ)} (ho : (flipHiddenCoins O z h).Out r) :
    (∃ b z', r = .ok (b, z') ∧ z'.length = z.length) ∨ ∃ e q x, r = .error e ∧ (O.flip q x).Out (.error e) := by
  have hl : (z.zip (segments h.t h.yt (h.vt.map O.red))).length = z.length := by
    simp only [segments, List.length_zip, npDiff_len, List.length_dropLast, List.length_map, List.length_tail, hv.leny,
      hv.lenv]
    omega
  have h2 := hv.two
  have hne : (z.zip (segments h.t h.yt (h.vt.map O.red))).isEmpty = false := by
    rw [List.isEmpty_eq_false_iff, ← List.length_pos_iff, hl]; omega
  unfold flipHiddenCoins at ho
  simp only [hne, Bool.false_eq_true, if_false] at ho
  rw [Prog.out_bind] at ho
  rcases ho with ⟨l, hl', ho⟩ | ⟨e, he, rfl⟩
  · left
    simp only [Prog.out_ret] at ho
    refine ⟨_, _, ho, ?_⟩
    rw [Prog.out_mapM'_ok] at hl'
    rw [List.length_map, ← hl'.length_eq, hl]
  · right
    obtain ⟨q, -, he⟩ := mapM'_error he
    exact ⟨e, _, _, rfl, he⟩

/-- Outcome of one section: the proposal's anchorage or the old one, with as many seeds; the only exceptions are those of a
coin and the exhausted budget. -/
theorem section_out {C : McmcControls} {O : HiddenOps ζ} {zN zP : List ζ} {hN hP : Anchorage ℝ ℝ} (vN : hN.Valid)
    (vP : hP.Valid) (lN : zN.length + 1 = hN.t.length) (lP : zP.length + 1 = hP.t.length)
    {r : Res (Bool × List ζ × Anchorage ℝ ℝ)} (ho : (updateHiddenSection C O zN hN zP hP).Out r) :
    Sat (fun a => a.2.2 = (if a.1 then hP else hN) ∧ a.2.1.length = (if a.1 then zP else zN).length)
      (fun e => e = .budget ∨ ∃ q x, (O.flip q x).Out (.error e)) r := by
  set c1 : Coin (List ζ × List ζ) (List ζ) := fun s =>
    (flipHiddenCoins O s.1 hP).bind fun r => .ret (r.1, r.2, (r.2, s.2)) with hc1
  set c2 : Coin (List ζ × List ζ) (List ζ) := fun s =>
    (flipHiddenCoins O s.2 hN).bind fun r => .ret (r.1, r.2, (s.1, r.2)) with hc2
  have key : ∀ v1 n r, (twocoinLoop v1 c1 c2 C.prPortkey zN n (zP, zN)).Out r →
      Sat (fun v => if v.1.1 then v.1.2.2.length = zP.length else v.1.2.2.length = zN.length)
        (fun e => e = .budget ∨ ∃ q x, (O.flip q x).Out (.error e)) r := by
    intro v1 n r h
    refine twocoin_inv (fun s => s.1.length = zP.length ∧ s.2.length = zN.length) (fun z => z.length = zP.length)
      (fun z => z.length = zN.length) (fun e => e = .budget ∨ ∃ q x, (O.flip q x).Out (.error e)) (.inl rfl) rfl ?_ ?_ n
      (zP, zN) r ⟨rfl, rfl⟩ h
    · rintro ⟨s1, s2⟩ r ⟨i1, i2⟩ h
      simp only at i1 i2
      rw [hc1] at h
      simp only [Prog.out_bind] at h
      rcases h with ⟨x, hx, h⟩ | ⟨e, he, rfl⟩
      · simp only [Prog.out_ret] at h
        subst h
        rcases flipHidden_out vP (by omega) hx with ⟨b, z', hb, hl⟩ | ⟨e, q, y, he, -⟩
        · cases hb; simp only [Sat]; omega
        · cases he
      · rcases flipHidden_out vP (by omega) he with ⟨b, z', hb, hl⟩ | ⟨e', q, y, he', h⟩
        · cases hb
        · cases he'; exact .inr ⟨q, y, h⟩
    · rintro ⟨s1, s2⟩ r ⟨i1, i2⟩ h
      simp only at i1 i2
      rw [hc2] at h
      simp only [Prog.out_bind] at h
      rcases h with ⟨x, hx, h⟩ | ⟨e, he, rfl⟩
      · simp only [Prog.out_ret] at h
        subst h
        rcases flipHidden_out vN (by omega) hx with ⟨b, z', hb, hl⟩ | ⟨e, q, y, he, -⟩
        · cases hb; simp only [Sat]; omega
        · cases he
      · rcases flipHidden_out vN (by omega) he with ⟨b, z', hb, hl⟩ | ⟨e', q, y, he', h⟩
        · cases hb
        · cases he'; exact .inr ⟨q, y, h⟩
  have key' : ∀ w1 w2 r, ((sampleTwocoin w1 w2 c1 c2 C.prPortkey zN C.maxProps (zP, zN)).bind fun v =>
      .ret (v.1.1, v.1.2.2, if v.1.1 then hP else hN)).Out r →
      Sat (fun a => a.2.2 = (if a.1 then hP else hN) ∧ a.2.1.length = (if a.1 then zP else zN).length)
      (fun e => e = .budget ∨ ∃ q x, (O.flip q x).Out (.error e)) r := by
    intro w1 w2 r h
    rw [Prog.out_bind] at h
    rcases h with ⟨v, hv, h⟩ | ⟨e, he, rfl⟩
    · have := key _ _ _ hv
      simp only [Prog.out_ret] at h
      subst h
      refine ⟨rfl, ?_⟩
      revert this; unfold Sat
      rcases v with ⟨⟨a, b, c⟩, d⟩
      cases a <;> simp
    · exact key _ _ _ he
  unfold updateHiddenSection at ho
  simp only at ho
  split_ifs at ho
  · rw [Prog.out_bind] at ho
    rcases ho with ⟨ok, -, ho⟩ | ⟨e, he, rfl⟩
    · split_ifs at ho
      · exact key' _ _ _ ho
      · simp only [Prog.out_ret] at ho; subst ho; simp [Sat]
    · simp [flipPrecoin] at he
  · exact key' _ _ _ ho

theorem Augments.ok {y : Skel ℝ} {t vt : List ℝ} {z : List ζ} {h : Anchorage ℝ ℝ} (ha : Augments y t vt z h) :
    HiddenOk t vt y.fin z h := ⟨ha.valid, ha.closed, ha.fin, ha.seeds, ha.obs⟩

/-- Interior observation times are interior anchors. -/
theorem HiddenOk.sub {t vt : List ℝ} {F : ℝ} {z : List ζ} {h : Anchorage ℝ ℝ} (hok : HiddenOk t vt F z h)
    (hg : ObsGrid t vt F) {tc : List ℝ} (hs : tc.Sublist t.tail.dropLast) : tc.Sublist h.t.tail.dropLast := by
  have hin : ∀ {l : List ℝ}, l.Pairwise (· < ·) → (l.tail.dropLast).Pairwise (· < ·) := fun hl =>
    hl.sublist ((List.dropLast_sublist _).trans (List.tail_sublist _))
  have hti := hin hg.inc
  have hhi := hin hok.valid.inc
  refine List.sublist_of_subperm_of_pairwise (r := (· ≤ ·)) ?_ ((hti.sublist hs).imp fun h => h.le)
    (hhi.imp fun h => h.le)
  refine List.Nodup.subperm ((hti.sublist hs).imp fun h => h.ne) ?_
  intro c hc
  have hct : c ∈ t.tail.dropLast := hs.subset hc
  have hext := hg.eq_ext
  have hinc := hg.inc
  rw [hext, List.pairwise_cons, List.pairwise_append] at hinc
  have h0 : 0 < c := hinc.1 c (by simp [hct])
  have hF : c < F := hinc.2.2.2 c hct F (by simp)
  have hcm : c ∈ h.t := by
    have : c ∈ t := List.mem_of_mem_tail (List.mem_of_mem_dropLast hct)
    obtain ⟨i, hi⟩ := List.mem_iff_getElem?.1 this
    have hil := (List.getElem?_eq_some_iff.1 hi).1
    have hl := hg.len
    have hv : vt[i]? = some (vt[i]'(by omega)) := List.getElem?_eq_getElem (by omega)
    exact Anchorage.Valid.mem_of_has (hok.obs c _ (List.mem_iff_getElem?.2 ⟨i, List.getElem?_zip_eq_some.2 ⟨hi, hv⟩⟩))
  cases ht : h.t with
  | nil => rw [ht] at hcm; simp at hcm
  | cons a l =>
    have hhead := hok.valid.head
    rw [ht] at hcm hhead
    simp at hhead
    rcases List.mem_cons.1 hcm with rfl | hcl
    · exact absurd hhead h0.ne'
    · have hlast : h.fin = l.getLast (List.ne_nil_of_mem hcl) := by
        have := List.getLast_cons (a := a) (List.ne_nil_of_mem hcl)
        simp only [Anchorage.fin, ht, List.getLast?_eq_some_getLast (List.cons_ne_nil a l), Option.getD_some, this]
      simp only [List.tail_cons]
      rw [← List.dropLast_append_getLast (List.ne_nil_of_mem hcl)] at hcl
      rcases List.mem_append.1 hcl with h | h
      · exact h
      · rw [List.mem_singleton, ← hlast, hok.fin_eq] at h
        exact absurd h hF.ne

theorem stAt_self {l : List (ℝ × ℕ)} (h : l.Pairwise fun p q => p.1 < q.1) {p : ℝ × ℕ} (hp : p ∈ l) :
    stAt l p.1 = some p.2 := by
  obtain ⟨A, B, rfl⟩ := List.append_of_mem hp
  rw [List.pairwise_append, List.pairwise_cons] at h
  have : stAt B p.1 = none := (stAt_eq_none_iff _ _).2 fun q hq => h.2.1.1 q hq
  rw [stAt_append, stAt_cons, this]
  simp

theorem Skel.Valid.nonneg {sk : Skel ℝ} (hv : sk.Valid) {a : ℝ} (ha : a ∈ sk.t) : 0 ≤ a := by
  have h1 := hv.head; have h2 := hv.inc
  cases ht : sk.t with
  | nil => rw [ht] at ha; simp at ha
  | cons b l =>
    rw [ht] at ha h1 h2
    simp at h1; subst h1
    rcases List.mem_cons.1 ha with rfl | h
    · exact le_rfl
    · exact ((List.pairwise_cons.1 h2).1 a h).le

theorem statesLt_iff {sk : Skel ℝ} (hv : sk.Valid) {d : ℕ} :
    sk.StatesLt d ↔ ∀ s x, 0 ≤ s → s ≤ sk.fin → sk.stateAt s = some x → x < d := by
  constructor
  · intro h s x _ _ hx
    obtain ⟨a, ha, -⟩ := stAt_mem hx
    exact h x (List.of_mem_zip ha).2
  · intro h x hx
    rw [(Skel.t_eq_of_len hv.len).2] at hx
    obtain ⟨p, hp, rfl⟩ := List.mem_map.1 hx
    have hpt : p.1 ∈ sk.t := (List.of_mem_zip (a := p.1) (b := p.2) hp).1
    have hst : sk.stateAt p.1 = some p.2 := stAt_self hv.jumps_inc hp
    exact h p.1 p.2 (hv.nonneg hpt) (hv.lt _ hpt).le hst

theorem cover_cuts {l : List ℝ} {F s : ℝ} (hF : 0 ≤ F) (h0 : 0 ≤ s) (h1 : s ≤ F) :
    ∃ (k : ℕ) (a b : ℝ), (0 :: (l ++ [F]))[k]? = some a ∧ (0 :: (l ++ [F]))[k + 1]? = some b ∧ a ≤ s ∧ s ≤ b := by
  have : ∀ (l : List ℝ) (c : ℝ), c ≤ s →
      ∃ (k : ℕ) (a b : ℝ), (c :: (l ++ [F]))[k]? = some a ∧ (c :: (l ++ [F]))[k + 1]? = some b ∧ a ≤ s ∧ s ≤ b := by
    intro l
    induction l with
    | nil => intro c hc; exact ⟨0, c, F, rfl, rfl, hc, h1⟩
    | cons x l ih =>
      intro c hc
      by_cases hx : s ≤ x
      · exact ⟨0, c, x, rfl, rfl, hc, hx⟩
      · obtain ⟨k, a, b, h2, h3, h4, h5⟩ := ih x (not_le.1 hx).le
        exact ⟨k + 1, a, b, by simpa using h2, by simpa using h3, h4, h5⟩
  exact this l 0 h0

/-- Outcomes of the hidden-state update after a proposal. -/
theorem updateWith_out {d : ℕ} {A : AdaptPar} {C : McmcControls} {O : HiddenOps ζ} {vol : ℕ → ℝ} (hvol : ∀ y, vol y ≠ 0)
    {red dered : ℝ → ℝ} {rawSeed : ℝ → ℕ → ℝ → ℝ → Prog ζ} {t vt : List ℝ} {F : ℝ}
    (hO : ∀ y, O.aug y = sampleAug vol red dered rawSeed y t vt) (hg : ObsGrid t vt F)
    (hd : ∀ v ∈ vt, dered (dered (red v)) = v ∧ dered v = v) {s : HiddenState ζ} (hs : HiddenOk t vt F s.z s.h)
    {m k : ℕ} (hsched : SchedInv A m k s.sampler.sched)
    {y' : Skel ℝ} (hv : y'.Valid) (hr : y'.Reduced) (hf : y'.fin = F) {tc : List ℝ} (htc : tc.Sublist t.tail.dropLast)
    (hag : ∀ c ∈ tc, y'.stateAt c = s.h.stateAt c) {r : Res (HiddenState ζ)}
    (ho : (updateHiddenWith A C O s y' tc).Out r) :
    Sat (fun s' => HiddenOk t vt F s'.z s'.h ∧ pruneAnchorage s'.h = .ok s'.sampler.state ∧
        (∃ m' k', SchedInv A m' k' s'.sampler.sched) ∧
        (∃ acc, Mixes (0 :: (tc ++ [F])) acc s.h.stateAt y'.stateAt s'.sampler.state.stateAt) ∧
        ∀ d, y'.StatesLt d → (∀ s0 x, s.h.stateAt s0 = some x → x < d) → s'.sampler.state.StatesLt d)
      (fun e => e = .budget ∨ (∃ q x, (O.flip q x).Out (.error e)) ∨ ∃ dt y0 x0 x1, (rawSeed dt y0 x0 x1).Out (.error e)) r := by
  subst hf
  unfold updateHiddenWith at ho
  rw [hO, Prog.out_bind] at ho
  rcases ho with ⟨p, hp, ho⟩ | ⟨e, he, rfl⟩
  swap
  · rcases aug_out hvol hv hr hg hd he with ⟨z, h, h1, -⟩ | ⟨e', dt, y0, x0, x1, h1, h2⟩
    · cases h1
    · cases h1; exact .inr (.inr ⟨_, _, _, _, h2⟩)
  obtain ⟨z, h, h1, ha⟩ : ∃ z h, p = (z, h) ∧ Augments y' t vt z h := by
    rcases aug_out hvol hv hr hg hd hp with ⟨z, h, h1, h2⟩ | ⟨e', dt, y0, x0, x1, h1, -⟩
    · cases h1; exact ⟨z, h, rfl, h2⟩
    · cases h1
  subst h1
  have hmem : ∀ c ∈ tc, ∃ v, (c, v) ∈ t.zip vt := by
    intro c hc
    have : c ∈ t := List.mem_of_mem_tail (List.mem_of_mem_dropLast (htc.subset hc))
    obtain ⟨i, hi⟩ := List.mem_iff_getElem?.1 this
    have hil := (List.getElem?_eq_some_iff.1 hi).1
    have hl := hg.len
    have hv : vt[i]? = some (vt[i]'(by omega)) := List.getElem?_eq_getElem (by omega)
    exact ⟨_, List.mem_iff_getElem?.2 ⟨i, List.getElem?_zip_eq_some.2 ⟨hi, hv⟩⟩⟩
  obtain ⟨zn, hn, zp, hp', e1, e2, hql, hqv, hrec⟩ := recombine hs.valid ha.valid hs.closed ha.closed
    (ha.fin.trans hs.fin_eq.symm) hs.seeds ha.seeds (hs.sub hg htc) (ha.ok.sub hg htc)
    (fun c hc => by rw [ha.state]; exact hag c hc)
    (fun c hc => by obtain ⟨v, hv⟩ := hmem c hc; exact ⟨v, hs.obs c v hv, ha.obs c v hv⟩)
  simp only [e1, e2, Prog.lift, Prog.ret_bind] at ho
  rw [Prog.out_bind] at ho
  rcases ho with ⟨accs, hacc, ho⟩ | ⟨e, he, rfl⟩
  swap
  · obtain ⟨q, hq, he⟩ := mapM'_error he
    obtain ⟨v1, l1, v2, l2⟩ := hqv q hq
    rcases section_out v1 v2 l1 l2 he with h | h
    · exact .inl h
    · exact .inr (.inl h)
  rw [Prog.out_mapM'_ok] at hacc
  have hal := hacc.length_eq
  have hacc' : List.Forall₂ (fun (q : (List ζ × Anchorage ℝ ℝ) × List ζ × Anchorage ℝ ℝ) (a : Bool × List ζ × Anchorage ℝ ℝ) =>
      a.2.2 = (if a.1 then q.2.2 else q.1.2) ∧ a.2.1.length = (if a.1 then q.2.1 else q.1.1).length)
      ((zn.zip hn).zip (zp.zip hp')) accs := by
    rw [List.forall₂_iff_get] at hacc ⊢
    refine ⟨hacc.1, fun i h1 h2 => ?_⟩
    obtain ⟨v1, l1, v2, l2⟩ := hqv _ (List.get_mem _ ⟨i, h1⟩)
    exact section_out v1 v2 l1 l2 (hacc.2 i h1 h2)
  obtain ⟨znew, H, hpaste, vH, cH, fH, lH, hasH, secH⟩ := hrec accs hacc'
  rw [hql] at hal
  have hne : accs ≠ [] := by rintro rfl; simp at hal
  have hne' : accs.isEmpty = false := by simpa using hne
  obtain ⟨sk, hsk, skv, skr, skf, sks⟩ := prune_sound vH cH
  have hmean : npMean (accs.map fun a => if a.1 then (1 : ℝ) else 0) =
      .ok ((accs.map fun a => if a.1 then (1 : ℝ) else 0).sum / (accs.map fun a => if a.1 then (1 : ℝ) else 0).length) := by
    unfold npMean; rw [if_neg (by simpa using hne)]
  obtain ⟨sc, hsc, -, hinv⟩ := hsched.step false ((accs.map fun a => if a.1 then (1 : ℝ) else 0).sum /
    (accs.map fun a => if a.1 then (1 : ℝ) else 0).length)
  have hadapt : s.sampler.adapt A sk ((accs.map fun a => if a.1 then (1 : ℝ) else 0).sum /
      (accs.map fun a => if a.1 then (1 : ℝ) else 0).length) = .ok ⟨sk, sc⟩ := by
    unfold MjpAdaptive.adapt; rw [hsc]; rfl
  simp only [hne', Bool.false_eq_true, if_false, hpaste, Prog.lift, Prog.ret_bind, hsk, hmean, hadapt, Prog.out_ret] at ho
  subst ho
  have hcut : (0 :: (tc ++ [y'.fin])) = (0 :: (tc ++ [s.h.fin])) := by rw [hs.fin_eq]
  refine ⟨⟨vH, cH, fH.trans hs.fin_eq, lH, fun c v hcv => hasH c v (hs.obs c v hcv) (ha.obs c v hcv)⟩, hsk, ?_, ?_, ?_⟩
  · rcases hinv with ⟨-, hi, -⟩ | ⟨-, hi, -⟩
    · exact ⟨_, _, hi⟩
    · exact ⟨_, _, hi⟩
  · refine ⟨accs.map Prod.fst, by simp [← hal], ?_⟩
    intro k a b v hka hkb hkv s0 h1 h2
    rw [hcut] at hka hkb
    simp only [sks]
    rw [secH k a b v hka hkb hkv s0 h1 h2.le]
    cases v
    · simp
    · simp [ha.state]
  · intro d hyd hsd
    rw [statesLt_iff skv]
    intro s0 x h0 h1 hx
    rw [sks] at hx
    rw [skf, fH] at h1
    have hcov := cover_cuts (l := tc) (hs.fin_eq ▸ hs.valid.fin_pos.le) h0 h1
    obtain ⟨k, a, b, hka, hkb, hsa, hsb⟩ := hcov
    have hk : k < accs.length := by
      have := (List.getElem?_eq_some_iff.1 hkb).1
      simp at this; omega
    have := secH k a b (accs[k]).1 hka hkb (by rw [List.getElem?_map, List.getElem?_eq_getElem hk]; rfl) s0 hsa hsb
    rw [this] at hx
    cases hb : (accs[k]).1
    · simp only [hb, Bool.false_eq_true, if_false] at hx; exact hsd s0 x hx
    · simp only [hb, if_true, ha.state] at hx
      exact (statesLt_iff hv).1 hyd s0 x h0 (by rw [hs.fin_eq] at h1; exact h1) hx

/-- One `update_hidden`, for generic draws (C11): proposals agree with the current path at the cut times, so the above
applies to every one of them. -/
theorem update_gen {d : ℕ} [NeZero d] {fuel : ℕ} {A : AdaptPar} {C : McmcControls} {O : HiddenOps ζ} {vol : ℕ → ℝ}
    (hvol : ∀ y, vol y ≠ 0) {red dered : ℝ → ℝ} {rawSeed : ℝ → ℕ → ℝ → ℝ → Prog ζ} {t vt : List ℝ} {F : ℝ}
    (hO : ∀ y, O.aug y = sampleAug vol red dered rawSeed y t vt) (hg : ObsGrid t vt F)
    (hd : ∀ v ∈ vt, dered (dered (red v)) = v ∧ dered v = v) {lam : Mat} (hlam : IsGenerator d lam) {s : HiddenState ζ}
    (hs : Coherent d t vt F s) {m k : ℕ} (hsched : SchedInv A m k s.sampler.sched) {r : Res (HiddenState ζ)} {h0 h1 : List ℝ}
    (hz : 0 ∈ h0) (ho : (updateHidden fuel d A C O t lam s).Gen h0 r h1) :
    Sat (fun s' => Coherent d t vt F s' ∧ (∃ m' k', SchedInv A m' k' s'.sampler.sched) ∧
        ∃ (y' : Skel ℝ) (tc : List ℝ) (acc : List Bool), y'.Valid ∧ y'.fin = F ∧ tc.Sublist t.tail.dropLast ∧
          Mixes (0 :: (tc ++ [F])) acc s.sampler.state.stateAt y'.stateAt s'.sampler.state.stateAt)
      (fun e => (∃ sc h2, (mjpPropose fuel d sc s.sampler.state lam (pySlice t 1 (-1))).Gen h0 (.error e) h2) ∨ e = .budget ∨
        (∃ q x, (O.flip q x).Out (.error e)) ∨ ∃ dt y0 x0 x1, (rawSeed dt y0 x0 x1).Out (.error e)) r := by
  obtain ⟨sk, hsk, skv, skr, skf, sks⟩ := prune_sound hs.ok.valid hs.ok.closed
  have hst : sk = s.sampler.state := by have := hs.sync; rw [hsk] at this; exact Except.ok.inj this
  subst hst
  have hpos := hs.ok.fin_eq ▸ hs.ok.valid.fin_pos
  obtain ⟨sc, hsc⟩ : ∃ sc, lastOf s.sampler.sched.logScale = .ok sc := by
    have h1 := hsched.scale; have h2 := hsched.pos
    obtain ⟨l, a, hl⟩ := List.eq_nil_or_concat s.sampler.sched.logScale |>.resolve_left (by
      intro h; rw [h] at h1; simp at h1; omega)
    exact ⟨a, by rw [hl, List.concat_eq_append, lastOf_append]⟩
  unfold updateHidden at ho
  simp only [hsc, Prog.lift, Prog.ret_bind] at ho
  rw [Prog.gen_bind] at ho
  rcases ho with ⟨p, h2, hp, ho⟩ | ⟨e, he, rfl⟩
  swap
  · exact .inl ⟨sc, _, he⟩
  have hext := hg.eq_ext
  have hinc := hg.inc
  rw [hext, List.pairwise_cons, List.pairwise_append] at hinc
  have hint : pySlice t 1 (-1) = t.tail.dropLast := pySlice_interior t
  rw [hint] at hp
  obtain ⟨v1, r1, f1, st1, sub1, ag1⟩ := propose_gen hlam skv hinc.2.1 (fun a ha => by
    rw [skf, hs.ok.fin_eq]
    exact ⟨(hinc.1 a (by simp [ha])).le, (hinc.2.2.2 a ha F (by simp)).le⟩) (prop := p.1) (tc := p.2) hz hp
  have sub2 : p.2.Sublist t.tail.dropLast := sub1.trans ((List.dropLast_sublist _).trans (List.tail_sublist _))
  have := updateWith_out (d := d) hvol hO hg hd hs.ok hsched v1 r1 (f1.trans (skf.trans hs.ok.fin_eq)) sub2
    (fun c hc => by rw [ag1 c hc, sks]) ho.out
  cases r with
  | error e => exact .inr this
  | ok s' =>
    obtain ⟨a1, a2, a3, ⟨acc, a4⟩, a5⟩ := this
    refine ⟨⟨a1, a2, a5 d st1 ?_⟩, a3, p.1, p.2, acc, v1, f1.trans (skf.trans hs.ok.fin_eq), sub2, ?_⟩
    · intro s0 x hx
      rw [← sks] at hx
      obtain ⟨a, ha, -⟩ := stAt_mem hx
      exact hs.states x (List.of_mem_zip ha).2
    · have e : s.sampler.state.stateAt = s.h.stateAt := funext sks
      rw [e]; exact a4

end

end Ctb
