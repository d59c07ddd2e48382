import Verif.Lemmas.SwitchSplit
import Verif.Lemmas.Occupation

set_option linter.unusedSectionVars false

/-!
# `sample_aug`
-/

namespace Ctb

variable {ζ : Type}

theorem npDiff_len {K : Type} [Sub K] (l : List K) : (npDiff l).length = l.length - 1 := by
  induction l with
  | nil => rfl
  | cons a l ih =>
    cases l with
    | nil => rfl
    | cons b l => simp only [npDiff, List.length_cons, ih]; omega

theorem cumsumFrom_len (off : ℝ) (l : List ℝ) : (cumsumFrom off l).length = l.length := by
  induction l generalizing off with
  | nil => rfl
  | cons a l ih => simp [cumsumFrom, ih]

theorem cumsumFrom_inc (off : ℝ) (l : List ℝ) (h : ∀ a ∈ l, 0 < a) : (off :: cumsumFrom off l).Pairwise (· < ·) := by
  induction l generalizing off with
  | nil => simp [cumsumFrom]
  | cons a l ih =>
    have ha := h a (by simp)
    have := ih (off + a) fun b hb => h b (by simp [hb])
    simp only [cumsumFrom]
    rw [List.pairwise_cons]
    refine ⟨?_, this⟩
    intro b hb
    rcases List.mem_cons.1 hb with rfl | hb
    · linarith
    · have := (List.pairwise_cons.1 this).1 b hb; linarith

theorem npDiff_nonneg {l : List ℝ} (h : l.Pairwise (· ≤ ·)) : ∀ d ∈ npDiff l, 0 ≤ d := by
  induction l with
  | nil => simp [npDiff]
  | cons a l ih =>
    cases l with
    | nil => simp [npDiff]
    | cons b l =>
      rw [List.pairwise_cons] at h
      intro d hd
      simp only [npDiff, List.mem_cons] at hd
      rcases hd with rfl | hd
      · have := h.1 b (by simp); linarith
      · exact ih h.2 d hd

theorem npDiff_pos {l : List ℝ} (h : l.Pairwise (· < ·)) : ∀ d ∈ npDiff l, 0 < d := by
  induction l with
  | nil => simp [npDiff]
  | cons a l ih =>
    cases l with
    | nil => simp [npDiff]
    | cons b l =>
      rw [List.pairwise_cons] at h
      intro d hd
      simp only [npDiff, List.mem_cons] at hd
      rcases hd with rfl | hd
      · have := h.1 b (by simp); linarith
      · exact ih h.2 d hd

theorem npDiff_length_zipWith {t : List ℝ} : (ediffBegin t).length = t.length := by
  cases t with
  | nil => rfl
  | cons a t => simp [ediffBegin, npDiff_len]

theorem out_replicate_draw_error {n : ℕ} {d : RDist} {e : PyErr} : ¬ (Prog.replicate n (.draw d)).Out (.error e) := by
  induction n with
  | zero => simp [Prog.replicate]
  | succ n ih =>
    simp only [Prog.replicate, Prog.out_bind_error, Prog.out_draw]
    rintro (⟨x, -, h⟩ | ⟨a, -, h⟩)
    · cases h
    · rcases h with h | ⟨l, -, h⟩
      · exact ih h
      · simp at h

/-- `sample_brownbr` on sorted times inside the horizon: one value per time, no exception. -/
theorem brownbr_out {t : List ℝ} {f x0 x1 : ℝ} (hne : t ≠ []) (hs : t.Pairwise (· < ·)) (hp : ∀ a ∈ t, 0 < a ∧ a < f)
    {r : Res (List ℝ)} (h : (sampleBrownbr t f x0 x1).Out r) : ∃ l, r = .ok l ∧ l.length = t.length := by
  obtain ⟨t0, ht0⟩ := List.exists_mem_of_ne_nil t hne
  have hf : 0 < f := (hp t0 ht0).1.trans (hp t0 ht0).2
  set u := (t.map (· / f)).map fun s => s / (1 - s) with hu
  have hu0 : u ≠ [] := by simpa [hu] using hne
  have hst : ∀ a ∈ t, 0 < a / f ∧ a / f < 1 := fun a ha =>
    ⟨div_pos (hp a ha).1 hf, (div_lt_one hf).2 (hp a ha).2⟩
  have hpos : ∀ a ∈ u, 0 < a := by
    intro a ha
    simp only [hu, List.map_map, List.mem_map, Function.comp] at ha
    obtain ⟨b, hb, rfl⟩ := ha
    exact div_pos (hst b hb).1 (by linarith [(hst b hb).2])
  have hinc : u.Pairwise (· ≤ ·) := by
    simp only [hu, List.map_map, List.pairwise_map, Function.comp]
    refine hs.imp_of_mem ?_
    intro a b ha hb hab
    have h1 := hst a ha; have h2 := hst b hb
    rw [div_le_div_iff₀ (by linarith) (by linarith)]
    have : a / f < b / f := by gcongr
    nlinarith
  have hdn : ∀ d ∈ ediffBegin u, 0 ≤ d := by
    cases hu' : u with
    | nil => simp [ediffBegin]
    | cons a l =>
      intro d hd
      simp only [ediffBegin, List.mem_cons] at hd
      rcases hd with rfl | hd
      · exact (hpos _ (by rw [hu']; simp)).le
      · exact npDiff_nonneg (hu' ▸ hinc) d hd
  unfold sampleBrownbr sampleWiener at h
  rw [if_neg hne] at h
  have hA : ∀ (c : Prop) [Decidable c], c → Prog.assert c = .ret () := fun c _ hc => by simp [Prog.assert, hc]
  rw [hA _ hp] at h
  simp only [Prog.ret_bind] at h
  rw [← hu, if_neg hu0, hA _ hpos] at h
  simp only [Prog.ret_bind] at h
  rw [if_neg (by simpa using hdn)] at h
  rw [Prog.bind_assoc] at h
  simp only [Prog.ret_bind] at h
  cases r with
  | error e =>
    rw [Prog.out_bind_error] at h
    rcases h with h | ⟨_, -, h⟩
    · exact absurd h out_replicate_draw_error
    · simp at h
  | ok l =>
    rw [Prog.out_bind_ok] at h
    obtain ⟨zs, hz, h⟩ := h
    rw [Prog.out_replicate_ok] at hz
    simp only [Prog.out_ret, Except.ok.injEq] at h
    refine ⟨l, rfl, ?_⟩
    rw [h]
    simp [npCumsum, cumsumFrom_len, wienerIncs, npDiff_length_zipWith, hz.1]
    simp [hu]

/-- `sample_anchors`: starts at the initial value, one value per jump time. -/
theorem anchors_out {vol : ℕ → ℝ} (hvol : ∀ y, vol y ≠ 0) {p : Skel ℝ} (hp : p.Valid) {x0 x1 : ℝ}
    {r : Res (List ℝ)} (h : (sampleAnchors vol p x0 x1).Out r) :
    ∃ l, r = .ok l ∧ l.length = p.t.length ∧ l.head? = some x0 := by
  unfold sampleAnchors at h
  split at h
  · rename_i h1
    simp only [Prog.out_ret] at h
    exact ⟨_, h, by simp [h1], rfl⟩
  · rename_i h1
    have hlen : (npDiff (p.t ++ [p.fin])).length = p.t.length := by simp [npDiff_len]
    have hinc : (p.t ++ [p.fin]).Pairwise (· < ·) := by
      rw [List.pairwise_append]
      exact ⟨hp.inc, by simp, fun a ha b hb => by simp at hb; rw [hb]; exact hp.lt a ha⟩
    set w := List.zipWith (fun d y => d * vol y ^ 2) (npDiff (p.t ++ [p.fin])) p.xt with hw
    have hwl : w.length = p.t.length := by simp [hw, hlen, hp.len]
    have hwp : ∀ a ∈ w, 0 < a := by
      intro a ha
      rw [hw, ← List.map_uncurry_zip_eq_zipWith] at ha
      obtain ⟨q, hq, rfl⟩ := List.mem_map.1 ha
      have := npDiff_pos hinc q.1 (List.of_mem_zip (a := q.1) (b := q.2) hq).1
      exact mul_pos this (by have := hvol q.2; positivity)
    have hne : p.t ≠ [] := by intro h0; have := hp.head; simp [h0] at this
    have h2 : 2 ≤ p.t.length := by
      have : p.t.length ≠ 0 := by simpa using hne
      omega
    have hci := cumsumFrom_inc 0 w hwp
    have hcl := cumsumFrom_len 0 w
    obtain ⟨s, l, hs⟩ := List.eq_nil_or_concat (npCumsum w) |>.resolve_left (by
      intro h0; unfold npCumsum at h0; rw [h0] at hcl; simp at hcl; omega)
    rw [List.concat_eq_append] at hs
    have hcl' : s.length + 1 = p.t.length := by
      rw [← hwl, ← hcl]; unfold npCumsum at hs; rw [hs]; simp
    simp only [hs, List.getLast?_concat, List.dropLast_concat] at h
    have hci' : (0 :: (s ++ [l])).Pairwise (· < ·) := by rw [← hs]; exact hci
    rw [List.pairwise_cons, List.pairwise_append] at hci'
    have hb : ∀ a ∈ s, 0 < a ∧ a < l := fun a ha =>
      ⟨hci'.1 a (by simp [ha]), hci'.2.2.2 a ha l (by simp)⟩
    have hsne : s ≠ [] := by rintro rfl; simp at hcl'; omega
    rw [Prog.out_bind] at h
    rcases h with ⟨a, ha, hr⟩ | ⟨e, he, -⟩
    · obtain ⟨l', hl', hll⟩ := brownbr_out hsne hci'.2.1 hb ha
      cases hl'
      simp only [Prog.out_ret] at hr
      exact ⟨_, hr, by simp [hll, hcl'], rfl⟩
    · obtain ⟨l', hl', -⟩ := brownbr_out hsne hci'.2.1 hb he
      cases hl'

/-! ## the whole augmentation -/

theorem piecesOf_valid {sk : Skel ℝ} (hv : sk.Valid) : ∀ (L : List ℝ) (a : ℝ), 0 ≤ a → (a :: L).Pairwise (· < ·) →
    ∀ p ∈ piecesOf sk (a :: L), p.Valid := by
  intro L
  induction L with
  | nil => intro a _ _ p hp; simp [piecesOf] at hp
  | cons b L ih =>
    intro a ha hi p hp
    rw [List.pairwise_cons] at hi
    have hab := hi.1 b (by simp)
    simp only [piecesOf, List.mem_cons] at hp
    rcases hp with rfl | hp
    · exact pieceOf_valid hv ha hab
    · exact ih b (by linarith) hi.2 p hp

theorem aug_times {sk : Skel ℝ} (hv : sk.Valid) : ∀ (L : List ℝ) (a : ℝ), 0 ≤ a → (a :: L).Pairwise (· < ·) →
    (((a :: L).zip (piecesOf sk (a :: L))).map fun q => q.2.t.map (q.1 + ·)).flatten =
      (catJ a (piecesOf sk (a :: L))).map Prod.fst ∧
    ((piecesOf sk (a :: L)).map Skel.xt).flatten = (catJ a (piecesOf sk (a :: L))).map Prod.snd := by
  intro L
  induction L with
  | nil => intro a _ _; simp [piecesOf, catJ]
  | cons b L ih =>
    intro a ha hi
    rw [List.pairwise_cons] at hi
    have hab := hi.1 b (by simp)
    have hpv := pieceOf_valid hv ha hab
    have ht := Skel.t_eq_of_len hpv.len
    obtain ⟨i1, i2⟩ := ih b (by linarith) hi.2
    simp only [piecesOf, List.zip_cons_cons, List.map_cons, List.flatten_cons, catJ, List.map_append, pieceOf_fin,
      add_sub_cancel]
    rw [i1, i2]
    constructor
    · congr 1
      conv_lhs => rw [ht.1]
      simp [shift]
    · congr 1
      conv_lhs => rw [ht.2]
      simp [shift]

/-- Values: the first value of each piece sits at the observation time. -/
theorem aug_has (sk : Skel ℝ) (red dered : ℝ → ℝ) : ∀ (L vs : List ℝ) (a v : ℝ) (xs : List (List ℝ)),
    L.length = vs.length →
    List.Forall₂ (fun (q : Skel ℝ × ℝ × ℝ) (x : List ℝ) =>
        x.length = q.1.t.length ∧ x.head? = some (dered q.2.1) ∧ q.1.t.head? = some 0)
      ((piecesOf sk (a :: L)).zip (((v :: vs).map red).zip ((v :: vs).map red).tail)) xs →
    xs.flatten.length = (((a :: L).zip (piecesOf sk (a :: L))).map fun q => q.2.t.map (q.1 + ·)).flatten.length ∧
    ∀ c w, (c, w) ∈ ((a :: L).zip (v :: vs)).dropLast →
      (c, dered (dered (red w))) ∈ (((a :: L).zip (piecesOf sk (a :: L))).map fun q => q.2.t.map (q.1 + ·)).flatten.zip
        (xs.flatten.map dered) := by
  intro L
  induction L with
  | nil =>
    intro vs a v xs hl hf
    simp only [piecesOf, List.zip_nil_left, List.forall₂_nil_left_iff] at hf
    subst hf
    cases vs with
    | nil => simp [piecesOf]
    | cons _ _ => simp at hl
  | cons b L ih =>
    intro vs a v xs hl hf
    cases vs with
    | nil => simp at hl
    | cons v' vs =>
      simp only [piecesOf, List.map_cons, List.tail_cons, List.zip_cons_cons] at hf
      cases hf with
      | cons h1 h2 =>
        rename_i x xs
        obtain ⟨i1, i2⟩ := ih vs b v' xs (by simpa using hl) (by simpa using h2)
        obtain ⟨g1, g2, g3⟩ := h1
        simp only [piecesOf, List.zip_cons_cons, List.map_cons, List.flatten_cons, List.length_append, List.map_append]
        refine ⟨by rw [i1, g1]; simp, ?_⟩
        intro c w hcw
        rw [List.zip_append (by simp [g1])]
        rw [List.dropLast_cons_of_ne_nil (by simp)] at hcw
        rcases List.mem_cons.1 hcw with h | h
        · cases h
          refine List.mem_append_left _ ?_
          cases hx : x with
          | nil => simp [hx] at g2
          | cons x0 x' =>
            cases ht : (pieceOf sk a b).t with
            | nil => simp [ht] at g3
            | cons t0 t' =>
              rw [hx] at g2; rw [ht] at g3
              simp at g2 g3
              subst g2 g3
              simp
        · exact List.mem_append_right _ (i2 c w (by simpa using h))

theorem dedup_last (L : List (ℝ × ℕ)) (p : ℝ × ℕ) : ((p :: dedup p.2 L).getLast?.map Prod.snd) = ((p :: L).getLast?.map Prod.snd) := by
  induction L generalizing p with
  | nil => rfl
  | cons q L ih =>
    rw [List.getLast?_cons_cons, ← ih q, dedup]
    split
    · rename_i h
      rw [h]
      cases hd : dedup p.2 L with
      | nil => simp [h]
      | cons r l => simp [List.getLast?_cons_cons]
    · rw [List.getLast?_cons_cons]

theorem dedupAll_last (L : List (ℝ × ℕ)) : (dedupAll L).getLast?.map Prod.snd = L.getLast?.map Prod.snd := by
  cases L with
  | nil => rfl
  | cons p L => exact dedup_last L p

theorem ObsGrid.eq_ext {t vt : List ℝ} {f : ℝ} (h : ObsGrid t vt f) : t = 0 :: (t.tail.dropLast ++ [f]) := by
  have h1 := h.head; have h2 := h.last; have h3 := h.two
  cases t with
  | nil => simp at h1
  | cons a t =>
    simp at h1
    subst h1
    cases t with
    | nil => simp at h3
    | cons b t =>
      rw [List.getLast?_cons_cons] at h2
      obtain ⟨l, hl⟩ := List.getLast?_eq_some_iff.1 h2
      rw [hl]
      simp

/-- The paths are recovered by merging the pieces. -/
theorem catJ_dedup {y : Skel ℝ} (hv : y.Valid) (hr : y.Reduced) {t vt : List ℝ} (hg : ObsGrid t vt y.fin) :
    dedupAll (catJ 0 (piecesOf y t)) = y.jumps := by
  have hinc : (0 :: (t.tail.dropLast ++ [y.fin])).Pairwise (· < ·) := by rw [← hg.eq_ext]; exact hg.inc
  have hpv := piecesOf_valid hv (t.tail.dropLast ++ [y.fin]) 0 le_rfl hinc
  rw [← hg.eq_ext] at hpv
  have hjv : (catJ 0 (piecesOf y t)).Pairwise fun p q => p.1 < q.1 := catJ_inc 0 _ hpv
  have hsum : ((piecesOf y t).map Skel.fin).sum = y.fin := by
    have := piecesOf_sum y (t.tail.dropLast ++ [y.fin]) 0
    have e : (0 :: (t.tail.dropLast ++ [y.fin])).getLast (by simp) = y.fin := by simp
    rw [e, ← hg.eq_ext] at this
    simpa using this
  obtain ⟨x, l, hl⟩ : ∃ x l, catJ 0 (piecesOf y t) = (0, x) :: l := by
    obtain ⟨b, L, ht⟩ : ∃ b L, t = 0 :: b :: L := by
      have := hg.eq_ext
      cases h : t.tail.dropLast ++ [y.fin] with
      | nil => simp at h
      | cons b L => exact ⟨b, L, by rw [← h]; exact this⟩
    rw [ht] at hpv ⊢
    simp only [piecesOf, List.mem_cons, forall_eq_or_imp, catJ] at hpv ⊢
    obtain ⟨x, l, hx⟩ := hpv.1.jumps_head
    rw [hx, shift_zero]
    exact ⟨_, _, rfl⟩
  set sk : Skel ℝ := ⟨(dedupAll (catJ 0 (piecesOf y t))).map Prod.fst, (dedupAll (catJ 0 (piecesOf y t))).map Prod.snd, y.fin⟩
    with hsk
  have hskj : sk.jumps = dedupAll (catJ 0 (piecesOf y t)) := jumps_mk _ _
  have skv : sk.Valid := by
    refine ⟨by simp [hsk], by simp [hsk, hl, dedupAll], ?_, ?_⟩
    · simp only [hsk, List.pairwise_map]; exact hjv.sublist (dedupAll_sublist _)
    · intro a ha
      obtain ⟨p, hp, rfl⟩ := List.mem_map.1 ha
      have := catJ_lt 0 _ hpv p ((dedupAll_sublist _).subset hp)
      rw [hsum] at this
      simpa using this
  have : sk = y := by
    refine Skel.ext_of_stateAt skv hv (dedupAll_chain _) hr rfl ?_
    intro s h0 hs
    have hs' : s < y.fin := hs
    unfold Skel.stateAt
    rw [hskj, stAt_dedupAll hjv]
    obtain ⟨pre, post, a', b', e1, e2, e3, e4⟩ := piecesOf_split y (t.tail.dropLast ++ [y.fin]) 0
      (hinc.imp fun h => h.le) s h0 ⟨y.fin, by simp, hs'⟩
    rw [← hg.eq_ext] at e1
    have hmem : ∀ q ∈ pre ++ pieceOf y a' b' :: post, q.Valid := by rw [← e1]; exact hpv
    have ha0 : 0 ≤ a' := by
      rw [← e2]
      have : 0 ≤ (pre.map Skel.fin).sum := List.sum_nonneg (by
        intro c hc
        obtain ⟨q, hq, rfl⟩ := List.mem_map.1 hc
        exact (hmem q (by simp [hq])).fin_pos.le)
      linarith
    have := stAt_catJ 0 pre post (pieceOf y a' b') (fun q hq => hmem q (by simp [hq])) (hmem _ (by simp))
      (fun q hq => hmem q (by simp [hq])) (s := s - a') (by linarith) (by rw [pieceOf_fin]; linarith)
    rw [e1]
    rw [show s = 0 + (pre.map Skel.fin).sum + (s - a') by linarith]
    rw [this, pieceOf_stateAt hv ha0 (by linarith) (by linarith) (by linarith)]
    unfold Skel.stateAt
    congr 1
    linarith
  rw [← hskj, this]

theorem catJ_mem {y : Skel ℝ} (hv : y.Valid) : ∀ (L : List ℝ) (a : ℝ), 0 ≤ a → (a :: L).Pairwise (· < ·) →
    ∀ p ∈ catJ a (piecesOf y (a :: L)), p.1 ∈ a :: L ∨ p.1 ∈ y.t := by
  intro L
  induction L with
  | nil => intro a _ _ p hp; simp [piecesOf, catJ] at hp
  | cons b L ih =>
    intro a ha hi p hp
    rw [List.pairwise_cons] at hi
    have hab := hi.1 b (by simp)
    simp only [piecesOf, catJ, List.mem_append] at hp
    rcases hp with hp | hp
    · obtain ⟨x, -, -, hj⟩ := pieceOf_jumps hv ha hab.le
      rw [hj] at hp
      simp only [shift, List.map_cons, List.mem_cons, List.map_map, List.mem_map, Function.comp] at hp
      rcases hp with rfl | ⟨q, hq, rfl⟩
      · left; simp
      · right
        have := (List.mem_filter.1 hq).1
        simpa using (List.of_mem_zip (a := q.1) (b := q.2) this).1
    · rw [pieceOf_fin, add_sub_cancel] at hp
      rcases ih b (by linarith) hi.2 p hp with h | h
      · left; exact List.mem_cons_of_mem _ h
      · right; exact h

/-- Outcomes of `sample_aug`, with the anchors spelled out. -/
theorem aug_out' {vol : ℕ → ℝ} (hvol : ∀ y, vol y ≠ 0) {red dered : ℝ → ℝ} {rawSeed : ℝ → ℕ → ℝ → ℝ → Prog ζ}
    {y : Skel ℝ} (hv : y.Valid) (hr : y.Reduced) {t vt : List ℝ} (hg : ObsGrid t vt y.fin)
    (hd : ∀ v ∈ vt, dered (dered (red v)) = v ∧ dered v = v) {r : Res (List ζ × Anchorage ℝ ℝ)}
    (h : (sampleAug vol red dered rawSeed y t vt).Out r) :
    (∃ z h, r = .ok (z, h) ∧ Augments y t vt z h ∧ h.t = (catJ 0 (piecesOf y t)).map Prod.fst ++ [y.fin] ∧
        h.yt = (catJ 0 (piecesOf y t)).map Prod.snd ++ y.xt.getLast?.toList) ∨
      ∃ e dt y0 x0 x1, r = .error e ∧ (rawSeed dt y0 x0 x1).Out (.error e) := by
  have hext := hg.eq_ext
  set L := t.tail.dropLast ++ [y.fin] with hL
  have hinc : (0 :: L).Pairwise (· < ·) := by rw [← hext]; exact hg.inc
  have hpart : partitionSkeleton y (pySlice t 1 (-1)) = piecesOf y (0 :: L) := by
    rw [partitionSkeleton_eq, pySlice_interior]
  have hpv := piecesOf_valid hv L 0 le_rfl hinc
  obtain ⟨v0, vs, hvt⟩ : ∃ v0 vs, vt = v0 :: vs := by
    have h1 := hg.len; have h2 := hg.two
    cases vt with
    | nil => simp at h1; rw [h1] at h2; simp at h2
    | cons v0 vs => exact ⟨v0, vs, rfl⟩
  have hlen : L.length = vs.length := by
    have := hg.len; rw [hext, hvt] at this; simpa using this
  obtain ⟨vl, hvl⟩ : ∃ vl, vt.getLast? = some vl := ⟨_, List.getLast?_eq_some_getLast (by rw [hvt]; simp)⟩
  obtain ⟨yl, hyl⟩ : ∃ yl, y.xt.getLast? = some yl := by
    refine ⟨_, List.getLast?_eq_some_getLast ?_⟩
    intro h0; have := hv.len; have h2 := hv.head; rw [h0] at this; simp at this; simp [this] at h2
  have hLne : L ≠ [] := by simp [hL]
  obtain ⟨b, L', hb⟩ : ∃ b L', L = b :: L' := by
    cases h : L with
    | nil => exact absurd h hLne
    | cons b L' => exact ⟨b, L', rfl⟩
  have hzne : ((t.zip (piecesOf y (0 :: L))).isEmpty) = false := by
    rw [hext, hb]; rfl
  unfold sampleAug at h
  simp only [hpart, hvl, hzne, hg.last, hyl] at h
  rw [Prog.out_bind] at h
  rcases h with ⟨xs, hxs, h⟩ | ⟨e, he, -⟩
  swap
  · obtain ⟨q, hq, he⟩ := mapM'_error he
    have hqv := hpv q.1 (List.of_mem_zip (a := q.1) (b := q.2) hq).1
    rw [Prog.out_bind_error] at he
    rcases he with he | ⟨_, -, he⟩
    · obtain ⟨l, hl, -⟩ := anchors_out hvol hqv he; cases hl
    · simp at he
  rw [Prog.out_mapM'_ok] at hxs
  have hxs' : List.Forall₂ (fun (q : Skel ℝ × ℝ × ℝ) (x : List ℝ) =>
        x.length = q.1.t.length ∧ x.head? = some (dered q.2.1) ∧ q.1.t.head? = some 0)
      ((piecesOf y (0 :: L)).zip (((v0 :: vs).map red).zip ((v0 :: vs).map red).tail)) xs := by
    rw [hvt] at hxs
    rw [List.forall₂_iff_get] at hxs ⊢
    refine ⟨hxs.1, ?_⟩
    intro i h1 h2
    have := hxs.2 i h1 h2
    rw [Prog.out_bind_ok] at this
    obtain ⟨l, hl, he⟩ := this
    have hmem := List.get_mem ((piecesOf y (0 :: L)).zip (((v0 :: vs).map red).zip ((v0 :: vs).map red).tail)) ⟨i, h1⟩
    have hqv := hpv _ (List.of_mem_zip (a := (List.get _ ⟨i, h1⟩).1) (b := (List.get _ ⟨i, h1⟩).2) hmem).1
    obtain ⟨l', hl', h3, h4⟩ := anchors_out hvol hqv hl
    cases hl'
    simp only [Prog.out_ret, Except.ok.injEq] at he
    rw [he]
    exact ⟨by simp [h3], by simp [List.head?_map, h4], hqv.head⟩
  obtain ⟨xl, xh⟩ := aug_has y red dered L vs 0 v0 xs hlen hxs'
  obtain ⟨tt1, tt2⟩ := aug_times hv L 0 le_rfl hinc
  rw [← hext, ← hvt] at xh
  rw [← hext] at tt1 tt2 xl
  have hhext : (0 :: L) = t := hext.symm
  rw [hhext] at h
  rw [tt1] at h xh xl
  rw [tt2] at h
  have hdd := catJ_dedup hv hr hg
  simp only [Bool.false_eq_true, if_false] at h
  have hpv' : ∀ p ∈ piecesOf y t, p.Valid := by rw [← hhext]; exact hpv
  have hjinc : (catJ 0 (piecesOf y t)).Pairwise fun p q => p.1 < q.1 := catJ_inc 0 _ hpv'
  have hsum : ((piecesOf y t).map Skel.fin).sum = y.fin := by
    have := piecesOf_sum y L 0
    have e : (0 :: L).getLast (by simp) = y.fin := by simp [hL]
    rw [e, ← hext] at this
    simpa using this
  have hjlt : ∀ p ∈ catJ 0 (piecesOf y t), p.1 < y.fin := by
    intro p hp; have := catJ_lt 0 _ hpv' p hp; rw [hsum] at this; simpa using this
  have hjmem : ∀ p ∈ catJ 0 (piecesOf y t), p.1 ∈ t ∨ p.1 ∈ y.t := by
    have := catJ_mem hv L 0 le_rfl hinc
    rwa [← hext] at this
  set J := catJ 0 (piecesOf y t) with hJ
  have hJne : J ≠ [] := by
    intro h0; rw [h0] at hdd
    obtain ⟨x, l, hx⟩ := hv.jumps_head
    rw [hx] at hdd; simp [dedupAll] at hdd
  have hJlast : J.getLast?.map Prod.snd = some yl := by
    rw [← dedupAll_last, hdd, ← List.getLast?_map, ← (Skel.t_eq_of_len hv.len).2]
    exact hyl
  have hJhead : ∃ x l, J = (0, x) :: l := by
    obtain ⟨x, l, hx⟩ := hv.jumps_head
    cases hJ' : J with
    | nil => exact absurd hJ' hJne
    | cons p l' =>
      rw [hJ', hx] at hdd
      simp only [dedupAll, List.cons.injEq] at hdd
      exact ⟨x, l', by rw [hdd.1]⟩
  have hxlen : xs.flatten.length = J.length := by rw [xl]; simp
  rw [Prog.out_bind] at h
  rcases h with ⟨z, hz, h⟩ | ⟨e, he, hre⟩
  swap
  · obtain ⟨q, hq, he⟩ := mapM'_error he
    exact .inr ⟨e, _, _, _, _, hre, he⟩
  left
  simp only [Prog.out_ret] at h
  refine ⟨z, _, h, ?_, rfl, by rw [hyl]; rfl⟩
  rw [Prog.out_mapM'_ok] at hz
  have hvalid : Anchorage.Valid (⟨J.map Prod.fst ++ [y.fin], J.map Prod.snd ++ [yl], (xs.flatten ++ [vl]).map dered⟩ :
      Anchorage ℝ ℝ) := by
    refine ⟨by simp, by simp only [List.length_map, List.length_append, hxlen, List.length_singleton], ?_, ?_, ?_⟩
    · obtain ⟨x, l, hx⟩ := hJhead; simp [hx]
    · simp only [List.pairwise_append, List.pairwise_map]
      refine ⟨hjinc, by simp, ?_⟩
      intro a ha c hc
      obtain ⟨p, hp, rfl⟩ := List.mem_map.1 ha
      simp at hc; rw [hc]; exact hjlt p hp
    · have : J.length ≠ 0 := by simpa using hJne
      simp; omega
  have hfin : Anchorage.fin (⟨J.map Prod.fst ++ [y.fin], J.map Prod.snd ++ [yl], (xs.flatten ++ [vl]).map dered⟩ :
      Anchorage ℝ ℝ) = y.fin := by simp [Anchorage.fin]
  have hclosed : Anchorage.Closed (⟨J.map Prod.fst ++ [y.fin], J.map Prod.snd ++ [yl], (xs.flatten ++ [vl]).map dered⟩ :
      Anchorage ℝ ℝ) := by
    simp only [Anchorage.Closed, List.dropLast_concat, List.getLast?_concat, List.getLast?_map]; exact hJlast
  have hstate : ∀ s, Anchorage.stateAt (⟨J.map Prod.fst ++ [y.fin], J.map Prod.snd ++ [yl],
      (xs.flatten ++ [vl]).map dered⟩ : Anchorage ℝ ℝ) s = y.stateAt s := by
    intro s
    unfold Anchorage.stateAt Skel.stateAt
    simp only
    rw [List.zip_append (by simp), List.zip_map', ← hdd, stAt_dedupAll hjinc, stAt_append]
    simp only [Prod.mk.eta, List.map_id', List.zip_cons_cons, List.zip_nil_right]
    by_cases hs : y.fin ≤ s
    · have : stAt J s = some yl := by
        rw [← hJlast]
        unfold stAt
        rw [List.filter_eq_self.2]
        intro p hp; simpa using (hjlt p hp).le.trans hs
      rw [this]
      simp [stAt, hs]
    · simp [stAt, hs]
  refine ⟨hvalid, hclosed, hfin, hstate, ?_, ?_, ?_, ?_⟩
  · intro c v hcv
    unfold Anchorage.Has
    simp only [List.map_append, List.map_cons, List.map_nil]
    rw [List.zip_append (by simp only [List.length_map, hxlen])]
    obtain ⟨Z, q, hZ⟩ := List.eq_nil_or_concat (t.zip vt) |>.resolve_left (by rw [hext, hvt]; simp)
    rw [List.concat_eq_append] at hZ
    rw [hZ] at hcv
    rcases List.mem_append.1 hcv with hm | hm
    · refine List.mem_append_left _ ?_
      have := xh c v (by rw [hZ, List.dropLast_concat]; exact hm)
      rw [(hd v (List.of_mem_zip (l₁ := t) (l₂ := vt) (a := c) (by rw [hZ]; exact hcv)).2).1] at this
      exact this
    · refine List.mem_append_right _ ?_
      have e1 : t = (t.zip vt).map Prod.fst := (List.map_fst_zip (by rw [hg.len])).symm
      have e2 : vt = (t.zip vt).map Prod.snd := (List.map_snd_zip (by rw [hg.len])).symm
      have hq1 : q.1 = y.fin := by
        have := hg.last; rw [e1, hZ] at this; simpa using this
      have hq2 : q.2 = vl := by
        rw [e2, hZ] at hvl; simpa using hvl
      simp at hm
      rw [← hm] at hq1 hq2
      simp only at hq1 hq2
      subst hq1 hq2
      simp only [List.zip_cons_cons, List.zip_nil_right, List.mem_singleton, Prod.mk.injEq, true_and]
      exact ((hd v (List.of_mem_zip (l₁ := t) (l₂ := vt) (a := y.fin) (by rw [hZ]; exact hcv)).2).2).symm
  · intro c
    simp only [List.mem_append, List.mem_map, List.mem_singleton]
    constructor
    · rintro (⟨p, hp, rfl⟩ | rfl)
      · exact hjmem p hp
      · left; exact List.mem_of_getLast? hg.last
    · rintro (hc | hc)
      · rw [hext, hL] at hc
        by_cases hcf : c = y.fin
        · right; exact hcf
        · left
          obtain ⟨w, hw⟩ : ∃ w, (c, w) ∈ (t.zip vt).dropLast := by
            have hc' : c ∈ t := by rw [hext, hL]; exact hc
            obtain ⟨Z, q, hZ⟩ := List.eq_nil_or_concat (t.zip vt) |>.resolve_left (by rw [hext, hvt]; simp)
            rw [List.concat_eq_append] at hZ
            have e1 : t = (t.zip vt).map Prod.fst := (List.map_fst_zip (by rw [hg.len])).symm
            rw [e1, hZ, List.map_append, List.mem_append] at hc'
            rw [hZ, List.dropLast_concat]
            rcases hc' with hc' | hc'
            · obtain ⟨p, hp, rfl⟩ := List.mem_map.1 hc'
              exact ⟨p.2, hp⟩
            · have := hg.last; rw [e1, hZ] at this
              simp at this hc'
              exact absurd (hc'.trans this) hcf
          have := (List.of_mem_zip (xh c w hw)).1
          obtain ⟨p, hp, hpc⟩ := List.mem_map.1 this
          exact ⟨p, hp, hpc⟩
      · left
        rw [(Skel.t_eq_of_len hv.len).1] at hc
        obtain ⟨p, hp, rfl⟩ := List.mem_map.1 hc
        rw [← hdd] at hp
        exact ⟨p, (dedupAll_sublist _).subset hp, rfl⟩
  · have := hz.length_eq
    rw [← this]
    simp only [segments, List.length_zip, npDiff_len, List.length_append, List.length_map, List.length_dropLast,
      List.length_tail, List.length_singleton, hxlen]
    omega
  · obtain ⟨sk, h1, h2, h3, h4, h5⟩ := prune_sound hvalid hclosed
    rw [h1]
    congr 1
    refine Skel.ext_of_stateAt h2 hv h3 hr (h4.trans hfin) ?_
    intro s _ _
    rw [h5, hstate]

/-- Outcomes of `sample_aug`. -/
theorem aug_out {vol : ℕ → ℝ} (hvol : ∀ y, vol y ≠ 0) {red dered : ℝ → ℝ} {rawSeed : ℝ → ℕ → ℝ → ℝ → Prog ζ}
    {y : Skel ℝ} (hv : y.Valid) (hr : y.Reduced) {t vt : List ℝ} (hg : ObsGrid t vt y.fin)
    (hd : ∀ v ∈ vt, dered (dered (red v)) = v ∧ dered v = v) {r : Res (List ζ × Anchorage ℝ ℝ)}
    (h : (sampleAug vol red dered rawSeed y t vt).Out r) :
    (∃ z h, r = .ok (z, h) ∧ Augments y t vt z h) ∨
      ∃ e dt y0 x0 x1, r = .error e ∧ (rawSeed dt y0 x0 x1).Out (.error e) := by
  rcases aug_out' hvol hv hr hg hd h with ⟨z, h, h1, h2, -⟩ | h
  · exact .inl ⟨z, h, h1, h2⟩
  · exact .inr h

end Ctb
