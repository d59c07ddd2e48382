import Verif.Lemmas.HiddenWeight

/-! # The weight of a hidden state is the sum of the weights of its sections -/

set_option linter.unusedSectionVars false

namespace Ctb

section
variable {p : ℕ}

/-- Contribution of the observations along a list of triples, with the last observation `v0` and the variance `c` cumulated since. -/
noncomputable def obsWalk (M : SwitchFns p) (vol : ℕ → ℝ) : ℝ → ℝ → List (ℝ × ℕ × ℝ) → ℝ
  | v0, c, (a, y, _) :: (b, z, w) :: l =>
    if z = y then
      Real.log |M.dvRed w| - Real.log (2 * Real.pi * (c + (b - a) * vol y ^ 2)) / 2 - (M.red w - M.red v0) ^ 2 / (2 * (c + (b - a) * vol y ^ 2)) +
        obsWalk M vol w 0 ((b, z, w) :: l)
    else obsWalk M vol v0 (c + (b - a) * vol y ^ 2) ((b, z, w) :: l)
  | _, _, _ => 0

theorem normTerms_cons (M : SwitchFns p) (v0 v1 c0 c1 : ℝ) (V C : List ℝ) : (normTerms M (v0 :: v1 :: V) (npDiff (c0 :: c1 :: C))).sum =
    Real.log |M.dvRed v1| - Real.log (2 * Real.pi * (c1 - c0)) / 2 - (M.red v1 - M.red v0) ^ 2 / (2 * (c1 - c0)) +
      (normTerms M (v1 :: V) (npDiff (c1 :: C))).sum := by
  simp [normTerms, npDiff]

theorem normTerms_walk (M : SwitchFns p) (vol : ℕ → ℝ) : ∀ (l : List (ℝ × ℕ × ℝ)) (a v v0 c0 c : ℝ) (y : ℕ),
    (normTerms M (v0 :: select (l.map (·.2.2)) (isObs (y :: l.map (·.2.1))).tail)
      (npDiff (c0 :: select (cumsumFrom c (List.zipWith (fun d v => d * v ^ 2) (npDiff (a :: l.map (·.1))) ((y :: l.map (·.2.1)).dropLast.map vol)))
        (isObs (y :: l.map (·.2.1))).tail))).sum = obsWalk M vol v0 (c - c0) ((a, y, v) :: l)
  | [], a, v, v0, c0, c, y => by simp [isObs, select, npDiff, normTerms, obsWalk]
  | (b, z, w) :: l, a, v, v0, c0, c, y => by
    have hc : c - c0 + (b - a) * vol y ^ 2 = c + (b - a) * vol y ^ 2 - c0 := by ring
    rw [obsWalk, hc]
    have hi : (isObs (y :: z :: l.map (·.2.1))).tail = decide (z = y) :: (isObs (z :: l.map (·.2.1))).tail := rfl
    simp only [List.map_cons, hi]
    split_ifs with h
    · have ih := normTerms_walk M vol l b w w (c + (b - a) * vol y ^ 2) (c + (b - a) * vol y ^ 2) z
      rw [sub_self] at ih
      rw [← ih, ← normTerms_cons]
      simp [h, select, npDiff, cumsumFrom]
    · have ih := normTerms_walk M vol l b w v0 c0 (c + (b - a) * vol y ^ 2) z
      rw [← ih]
      simp [h, select, npDiff, cumsumFrom]

/-- Sum of both outputs, along triples. -/
noncomputable def trTotal (M : SwitchFns p) (sx : ℕ → ℝ → ℝ) (vol : ℕ → ℝ) (A : List (ℝ × ℕ × ℝ)) : ℝ :=
  driftGain sx vol (A.map fun q => (q.2.1, M.red q.2.2)) + obsWalk M vol ((A.head?.map (·.2.2)).getD 0) 0 A

theorem outputs_walk {M : SwitchFns p} {n : ℕ} {thi : Thi p} {vol : ℕ → ℝ} {sx : ℕ → ℝ → ℝ} (hM : ∀ ys, M.vol thi ys = ys.map vol)
    (hsx : ∀ ys xs, M.sx thi ys xs = List.zipWith sx ys xs) {A : List (ℝ × ℕ × ℝ)} (hv : (ofTr A).Valid) (hn : ∀ q ∈ A, q.2.1 < n)
    (hvol : ∀ q ∈ A, vol q.2.1 ≠ 0) :
    ∃ a b, evalBiasedLogLik2 M n thi (ofTr A) none = .ok (a, b) ∧ a + b = trTotal M sx vol A := by
  have h2 := hv.two
  have hy := hv.leny
  have hV := hv.lenv
  have hmem : ∀ y ∈ (ofTr A).yt.dropLast, ∃ q ∈ A, q.2.1 = y := fun y hy => by
    have := List.mem_of_mem_dropLast hy
    simpa [ofTr] using this
  have hsig : sigT M thi (ofTr A) = List.zipWith (fun d v => d * v ^ 2) (npDiff (ofTr A).t) ((ofTr A).yt.dropLast.map vol) := by rw [sigT, hM]
  have hslen : (sigT M thi (ofTr A)).length + 1 = (ofTr A).t.length := by
    rw [hsig]; simp [npDiff_len, hy]; omega
  have hpos : ∀ s ∈ sigT M thi (ofTr A), 0 < s := by
    intro s hs
    rw [hsig, ← List.map_uncurry_zip_eq_zipWith] at hs
    obtain ⟨q, hq, rfl⟩ := List.mem_map.1 hs
    have h3 := npDiff_pos hv.inc q.1 (List.of_mem_zip (a := q.1) (b := q.2) hq).1
    obtain ⟨y, hyy, hyq⟩ := List.mem_map.1 (List.of_mem_zip (a := q.1) (b := q.2) hq).2
    obtain ⟨r, hr, rfl⟩ := hmem y hyy
    have := hvol r hr
    show 0 < q.1 * q.2 ^ 2
    rw [← hyq]; positivity
  have hzlen : (pDelTerms M thi (ofTr A)).length = (normTerms M (ofTr A).vt (sigT M thi (ofTr A))).length := by
    simp only [pDelTerms, normTerms, hM, hsx, List.length_zipWith, List.length_map, List.length_dropLast, List.length_tail, npDiff_len]
    omega
  have hslen2 : (List.zipWith (· + ·) (pDelTerms M thi (ofTr A)) (normTerms M (ofTr A).vt (sigT M thi (ofTr A)))).length = (ofTr A).yt.dropLast.length := by
    rw [List.length_zipWith, hzlen, min_self]
    simp only [normTerms, List.length_zipWith, List.length_map, List.length_dropLast, List.length_tail, npDiff_len]
    omega
  have hslen3 : (normTerms M (ofTr A).vt (sigT M thi (ofTr A))).length = (ofTr A).yt.dropLast.length := by
    rw [List.length_zipWith, hzlen, min_self] at hslen2; exact hslen2
  have hlt : ∀ y ∈ (ofTr A).yt.dropLast, y < n := fun y hy => by
    obtain ⟨q, hq, rfl⟩ := hmem y hy
    exact hn q hq
  rw [evalBiasedLogLik2, if_neg (by push Not; exact hlt), if_neg (by simp [hy, hV]), if_neg (by intro h0; rw [h0] at h2; simp at h2),
    if_neg (by push Not; exact hpos)]
  refine ⟨_, _, rfl, ?_⟩
  rw [select_all _ _ hslen2, select_all _ _ hslen3, sum_zipWith_add _ _ hzlen, driftGain_eq hM hsx (ofTr A).t (ofTr A).yt (ofTr A).vt (by rw [hy, hV]),
    sigObs_eq (by rw [hy, hslen]), hsig, trTotal]
  have hzip : (ofTr A).yt.zip ((ofTr A).vt.map M.red) = A.map fun q => (q.2.1, M.red q.2.2) := by
    simp only [ofTr, List.map_map]
    rw [List.zip_map']; rfl
  rw [hzip]
  cases A with
  | nil => simp [ofTr] at h2
  | cons q A =>
    obtain ⟨a, y, v⟩ := q
    have := normTerms_walk M vol A a v v 0 0 y
    rw [sub_zero] at this
    simp only [List.head?_cons, Option.map_some, Option.getD_some]
    rw [← this]
    have hi : isObs (ofTr ((a, y, v) :: A)).yt = true :: (isObs (y :: A.map (·.2.1))).tail := rfl
    rw [hi]
    simp only [ofTr, List.map_cons, select]
    ring

theorem driftGain_split (sx : ℕ → ℝ → ℝ) (vol : ℕ → ℝ) (m : ℕ × ℝ) (C : List (ℕ × ℝ)) : ∀ B : List (ℕ × ℝ),
    driftGain sx vol (B ++ m :: C) = driftGain sx vol (B ++ [m]) + driftGain sx vol (m :: C)
  | [] => by simp [driftGain]
  | [(y, x)] => by
    obtain ⟨z, x'⟩ := m
    simp [driftGain]
  | (y, x) :: (z, x') :: B => by
    have ih := driftGain_split sx vol m C ((z, x') :: B)
    simp only [List.cons_append, driftGain] at ih ⊢
    rw [ih]; ring

theorem obsWalk_split (M : SwitchFns p) (vol : ℕ → ℝ) (m : ℝ × ℕ × ℝ) (C : List (ℝ × ℕ × ℝ)) : ∀ (B : List (ℝ × ℕ × ℝ)) (v0 c : ℝ),
    B.getLast?.map (·.2.1) = some m.2.1 → obsWalk M vol v0 c (B ++ m :: C) = obsWalk M vol v0 c (B ++ [m]) + obsWalk M vol m.2.2 0 (m :: C)
  | [], _, _, h => by simp at h
  | [(a, y, v)], v0, c, h => by
    obtain ⟨b, z, w⟩ := m
    simp only [List.getLast?_singleton, Option.map_some, Option.some.injEq] at h
    subst h
    simp [obsWalk]
  | (a, y, v) :: (b, z, w) :: B, v0, c, h => by
    have h' : ((b, z, w) :: B).getLast?.map (·.2.1) = some m.2.1 := by rw [List.getLast?_cons_cons] at h; exact h
    simp only [List.cons_append, obsWalk]
    split_ifs with hz
    · have ih := obsWalk_split M vol m C ((b, z, w) :: B) w 0 h'
      rw [List.cons_append, List.cons_append] at ih
      rw [ih]; ring
    · have ih := obsWalk_split M vol m C ((b, z, w) :: B) v0 (c + (b - a) * vol y ^ 2) h'
      rw [List.cons_append, List.cons_append] at ih
      rw [ih]

theorem trTotal_split (M : SwitchFns p) (sx : ℕ → ℝ → ℝ) (vol : ℕ → ℝ) (m : ℝ × ℕ × ℝ) (B C : List (ℝ × ℕ × ℝ)) (h : B.getLast?.map (·.2.1) = some m.2.1) :
    trTotal M sx vol (B ++ m :: C) = trTotal M sx vol (B ++ [m]) + trTotal M sx vol (m :: C) := by
  unfold trTotal
  rw [obsWalk_split M vol m C B _ _ h]
  simp only [List.map_append, List.map_cons, List.map_nil]
  rw [driftGain_split]
  have e : (B ++ m :: C).head? = (B ++ [m]).head? := by cases B <;> simp
  rw [e]
  simp only [List.head?_cons, Option.map_some, Option.getD_some]
  ring

theorem obsWalk_shift (M : SwitchFns p) (vol : ℕ → ℝ) (d : ℝ) : ∀ (A : List (ℝ × ℕ × ℝ)) (v0 c : ℝ), obsWalk M vol v0 c (shiftTr d A) = obsWalk M vol v0 c A
  | [], _, _ => rfl
  | [_], _, _ => rfl
  | (a, y, v) :: (b, z, w) :: A, v0, c => by
    have ih := obsWalk_shift M vol d ((b, z, w) :: A)
    simp only [shiftTr, List.map_cons, obsWalk, add_sub_add_right_eq_sub] at ih ⊢
    simp only [ih]

theorem trTotal_shift (M : SwitchFns p) (sx : ℕ → ℝ → ℝ) (vol : ℕ → ℝ) (d : ℝ) (A : List (ℝ × ℕ × ℝ)) :
    trTotal M sx vol (shiftTr d A) = trTotal M sx vol A := by
  unfold trTotal
  rw [obsWalk_shift]
  congr 1
  · simp [shiftTr, Function.comp_def]
  · congr 2; cases A <;> simp [shiftTr]

theorem trTotal_rows (M : SwitchFns p) (sx : ℕ → ℝ → ℝ) (vol : ℕ → ℝ) (A : List (ℝ × ℕ × ℝ)) : ∀ (R : List ℕ) (a b : ℕ), (a :: b :: R).Pairwise (· < ·) →
    (∀ r ∈ b :: R, r < A.length) → (∀ r ∈ (b :: R).dropLast, ∃ r' y, r = r' + 1 ∧ (A[r']?.map (·.2.1)) = some y ∧ (A[r]?.map (·.2.1)) = some y) →
    (onPairs (fun a b => trTotal M sx vol (trPiece A a b)) (a :: b :: R)).sum = trTotal M sx vol (sl A a ((b :: R).getLast (by simp) + 1))
  | [], a, b, _, _, _ => by simp [onPairs, trPiece, trTotal_shift]
  | c :: R, a, b, hi, hl, hc => by
    rw [List.pairwise_cons] at hi
    have ih := trTotal_rows M sx vol A R b c hi.2 (fun r hr => hl r (List.mem_cons_of_mem _ hr)) (fun r hr => hc r (by
      rw [List.dropLast_cons_cons]; exact List.mem_cons_of_mem _ hr))
    have hab := hi.1 b (by simp)
    have hbl := hl b (by simp)
    obtain ⟨r', y, hr', h1, h2⟩ := hc b (by simp)
    set k := (c :: R).getLast (by simp) with hk
    have hkm : k ∈ c :: R := List.getLast_mem _
    have hbk : b < k := (List.pairwise_cons.1 hi.2).1 k hkm
    have hkl : k < A.length := hl k (List.mem_cons_of_mem _ hkm)
    have e1 : sl A a (b + 1) = sl A a b ++ [A[b]] := sl_concat A hab.le hbl
    have e2 : sl A b (k + 1) = A[b] :: sl A (b + 1) (k + 1) := sl_cons A (by omega) (by omega)
    have e3 : sl A a (k + 1) = sl A a b ++ A[b] :: sl A (b + 1) (k + 1) := by
      rw [← e2]; exact (sl_append A hab.le (by omega) (by omega)).symm
    rw [onPairs, List.sum_cons, ih, List.getLast_cons (a := b) (l := c :: R) (by simp), ← hk, e3, trTotal_split _ _ _ _ _ _ (by
      have hlast : (sl A a b).getLast? = A[r']? := by
        rw [List.getLast?_eq_getElem?, sl_length A hbl.le, sl, List.getElem?_drop, List.getElem?_take, if_pos (by omega)]
        congr 1; omega
      rw [hlast, h1, ← h2, List.getElem?_eq_getElem hbl]; rfl), ← e1, ← e2, trPiece, trTotal_shift]

theorem sections_sum {M : SwitchFns p} {n : ℕ} {thi : Thi p} {vol : ℕ → ℝ} {sx : ℕ → ℝ → ℝ} (hM : ∀ ys, M.vol thi ys = ys.map vol)
    (hsx : ∀ ys xs, M.sx thi ys xs = List.zipWith sx ys xs) {ζ : Type} {h : Anchorage ℝ ℝ} (hv : h.Valid) (hn : ∀ y ∈ h.yt, y < n)
    (hvol : ∀ y ∈ h.yt, vol y ≠ 0) {z : List ζ} (hz : z.length + 1 = h.t.length) {tc : List ℝ}
    (htc : ∀ i a y y', h.t[i + 1]? = some a → h.yt[i]? = some y → h.yt[i + 1]? = some y' → a ∈ tc → i + 2 < h.t.length → y = y') :
    ∃ zp hp abs a b, splitHidden z h tc = .ok (zp, hp) ∧ hp.mapM (fun k => evalBiasedLogLik2 M n thi k none) = .ok abs ∧
      evalBiasedLogLik2 M n thi h none = .ok (a, b) ∧ (abs.map fun q => q.1 + q.2).sum = a + b := by
  obtain ⟨A, rfl⟩ : ∃ A, ofTr A = h := ⟨h.tr, hv.tr_eq⟩
  have h2 : 2 ≤ A.length := by have := hv.two; simpa [ofTr] using this
  have hlen : (ofTr A).t.length = A.length := by simp [ofTr]
  have hnA : ∀ q ∈ A, q.2.1 < n := fun q hq => hn _ (by simp only [ofTr]; exact List.mem_map_of_mem hq)
  have hvA : ∀ q ∈ A, vol q.2.1 ≠ 0 := fun q hq => hvol _ (by simp only [ofTr]; exact List.mem_map_of_mem hq)
  obtain ⟨a, b, hab, hsum⟩ := outputs_walk (n := n) hM hsx hv hnA hvA
  obtain ⟨hR, hRl⟩ := rowsNat_chain (t := (ofTr A).t) tc (by rw [hlen]; exact h2)
  have hpiece : ∀ i j : ℕ, i < j → j < A.length → ∃ a b, evalBiasedLogLik2 M n thi (ofTr (trPiece A i j)) none = .ok (a, b) ∧ a + b = trTotal M sx vol (trPiece A i j) := by
    intro i j hij hj
    have hm : ∀ q ∈ trPiece A i j, ∃ r ∈ A, r.2 = q.2 := by
      intro q hq
      obtain ⟨r, hr, rfl⟩ := List.mem_map.1 hq
      exact ⟨r, List.mem_of_mem_take (List.mem_of_mem_drop hr), rfl⟩
    refine outputs_walk hM hsx (trPiece_sound hv hij hj).1 ?_ ?_
    · intro q hq; obtain ⟨r, hr, e⟩ := hm q hq; rw [← e]; exact hnA r hr
    · intro q hq; obtain ⟨r, hr, e⟩ := hm q hq; rw [← e]; exact hvA r hr
  have hmap : ∀ (R : List ℕ), R.Pairwise (· < ·) → (∀ r ∈ R, r < A.length) → ∃ abs, (onPairs (fun a b => ofTr (trPiece A a b)) R).mapM
      (fun k => evalBiasedLogLik2 M n thi k none) = .ok abs ∧ abs.map (fun q => q.1 + q.2) = onPairs (fun a b => trTotal M sx vol (trPiece A a b)) R := by
    intro R
    induction R with
    | nil => intro _ _; exact ⟨[], rfl, rfl⟩
    | cons i R ih =>
      intro h1 h2
      cases R with
      | nil => exact ⟨[], rfl, rfl⟩
      | cons j R =>
        obtain ⟨abs, e1, e2⟩ := ih (List.pairwise_cons.1 h1).2 fun r hr => h2 r (List.mem_cons_of_mem _ hr)
        obtain ⟨a, b, e3, e4⟩ := hpiece i j ((List.pairwise_cons.1 h1).1 j (by simp)) (h2 j (by simp))
        refine ⟨(a, b) :: abs, ?_, ?_⟩
        · rw [onPairs, List.mapM_cons, e3, e1]; rfl
        · rw [onPairs, List.map_cons, e2, e4]
  obtain ⟨abs, e1, e2⟩ := hmap _ hR (by rw [hlen] at hRl; exact hRl)
  refine ⟨_, _, abs, a, b, splitHidden_ofTr z tc h2 (by rw [hz, hlen]), e1, hab, ?_⟩
  rw [e2, hsum]
  obtain ⟨I, hI, hI'⟩ : ∃ I, rowsNat (ofTr A).t tc = 0 :: (I ++ [(ofTr A).t.length - 1]) ∧ ∀ r ∈ I, ∃ r', r = r' + 1 ∧ r' + 2 < A.length ∧ ∃ s, (ofTr A).t[r' + 1]? = some s ∧ s ∈ tc := by
    refine ⟨_, rfl, ?_⟩
    intro r hr
    obtain ⟨q, hq, rfl⟩ := List.mem_map.1 hr
    obtain ⟨h3, h4⟩ := List.mem_filter.1 hq
    have h5 := List.mem_zipIdx_iff_getElem?.1 h3
    obtain ⟨h6, -⟩ := List.getElem?_eq_some_iff.1 h5
    simp only [List.length_dropLast, List.length_tail, hlen] at h6
    rw [List.getElem?_dropLast, if_pos (by simp; omega), List.getElem?_tail] at h5
    exact ⟨q.2, rfl, by omega, q.1, h5, by simpa using h4⟩
  rw [hI] at hR hRl ⊢
  obtain ⟨c, J, hJ⟩ : ∃ c J, I ++ [(ofTr A).t.length - 1] = c :: J := by cases I <;> simp
  rw [hJ] at hR hRl ⊢
  rw [trTotal_rows M sx vol A J 0 c hR (fun r hr => by rw [← hlen]; exact hRl r (List.mem_cons_of_mem _ hr)) (fun r hr => by
    rw [← hJ, List.dropLast_concat] at hr
    obtain ⟨r', rfl, hlt, s, hs, hst⟩ := hI' r hr
    have := htc r' s A[r'].2.1 A[r' + 1].2.1 hs (by simp only [ofTr, List.getElem?_map]; rw [List.getElem?_eq_getElem (by omega)]; rfl)
      (by simp only [ofTr, List.getElem?_map]; rw [List.getElem?_eq_getElem (by omega)]; rfl) hst (by rw [hlen]; omega)
    exact ⟨r', A[r'].2.1, rfl, by rw [List.getElem?_eq_getElem (by omega)]; rfl, by rw [this, List.getElem?_eq_getElem (by omega)]; rfl⟩)]
  have hlast : (c :: J).getLast (by simp) = A.length - 1 := by
    have : ∀ (l : List ℕ) (hl : l ≠ []), l = c :: J → l.getLast hl = (c :: J).getLast (by simp) := by rintro _ _ rfl; rfl
    rw [← this _ (by simp) hJ]; simp [hlen]
  rw [hlast, show A.length - 1 + 1 = A.length by omega, sl_full]

end

end Ctb
