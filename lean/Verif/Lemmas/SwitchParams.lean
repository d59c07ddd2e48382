import Verif.Spec.SwitchParams
import Verif.Lemmas.SwitchUpdate
import Verif.Lemmas.Bfactories

set_option linter.unusedSectionVars false

namespace Ctb

variable {ζ : Type}

/-! ## Sections -/

theorem jointLoop_inv {σ τ : Type} {v1 prk : ℝ} {c : SideCoin σ τ} (I : σ → Prop) (Q : τ → Prop)
    (h1 : ∀ s up x, I s → (c s up).Out (.ok x) → Q x.2.1 ∧ I x.2.2) :
    ∀ n s v, I s → (twocoinJointLoop v1 c prk n s).Out (.ok v) → Q v.1.2.2 := by
  classical
  intro n
  induction n with
  | zero => intro s v _ h; simp [twocoinJointLoop] at h
  | succ n ih =>
    intro s v hI h
    unfold twocoinJointLoop at h
    simp only [Prog.out_real] at h
    obtain ⟨u, -, h⟩ := h
    have key : ∀ (up b1 : Bool), ((c s up).bind fun r => if r.1 then Prog.ret ((b1, false, r.2.1), r.2.2)
      else .real (.uniform 0 1) fun u' =>
        if u' < prk then .ret ((false, true, r.2.1), r.2.2) else twocoinJointLoop v1 c prk n r.2.2).Out (.ok v) → Q v.1.2.2 := by
      intro up b1 h
      rw [Prog.out_bind_ok] at h
      obtain ⟨x, hx, h⟩ := h
      have hq := h1 s up x hI hx
      split_ifs at h
      · simp only [Prog.out_ret, Except.ok.injEq] at h; subst h; exact hq.1
      · simp only [Prog.out_real] at h
        obtain ⟨u', -, h⟩ := h
        split_ifs at h
        · simp only [Prog.out_ret, Except.ok.injEq] at h; subst h; exact hq.1
        · exact ih _ _ hq.2 h
    split_ifs at h
    · exact key true true h
    · exact key false false h

theorem decideParam_inv {τ : Type} {C : McmcControls} {wPre wFull : ℝ × ℝ} {z : τ} {c : SideCoin τ τ} (Q : τ → Prop) (h0 : Q z)
    (h1 : ∀ s up x, Q s → (c s up).Out (.ok x) → Q x.2.1 ∧ Q x.2.2) {v : Bool × τ}
    (ho : (decideParam C wPre wFull z c).Out (.ok v)) : Q v.2 := by
  have key : ∀ w1 w2 : ℝ, ((sampleTwocoinJoint w1 w2 (.ret z) c C.prPortkey C.maxProps).bind fun v =>
      Prog.ret (v.1.1, v.1.2.2)).Out (.ok v) → Q v.2 := by
    intro w1 w2 h
    rw [Prog.out_bind_ok] at h
    obtain ⟨x, hx, h⟩ := h
    simp only [Prog.out_ret, Except.ok.injEq] at h
    subst h
    exact jointLoop_inv Q Q h1 _ _ _ h0 hx
  unfold decideParam at ho
  split_ifs at ho
  · rw [Prog.out_bind_ok] at ho
    obtain ⟨b, -, ho⟩ := ho
    split_ifs at ho
    · exact key _ _ ho
    · simp only [Prog.out_ret, Except.ok.injEq] at ho; subst ho; exact h0
  · exact key _ _ ho

theorem flipParam_out {p : ℕ} {O : ParamOps p ζ} {nil prime : Thi p} {h : Anchorage ℝ ℝ} (hv : h.Valid) {i : ℕ} {z : List ζ}
    (hz : z.length + 1 = h.t.length) {up b : Bool} {z' : List ζ} (ho : (flipParamCoins O nil prime h i z up).Out (.ok (b, z'))) :
    z'.length = z.length ∧ ∀ (k : ℕ) (x x' : ζ), z[k]? = some x → z'[k]? = some x' →
      if h.yt[k]? = some i then Flips O nil prime i x x' else x' = x := by
  unfold flipParamCoins at ho
  set l := ((npDiff h.t).zip (h.yt.zip (h.vt.zip h.vt.tail))).zip z with hl
  have h2 := hv.two
  have hlen : l.length = z.length := by
    simp only [hl, List.length_zip, npDiff_len, List.length_tail, hv.leny, hv.lenv]; omega
  have hne : l.isEmpty = false := by
    rw [List.isEmpty_eq_false_iff, ← List.length_pos_iff, hlen]; omega
  simp only [hne, Bool.false_eq_true, if_false] at ho
  rw [Prog.out_bind_ok] at ho
  obtain ⟨r, hr, ho⟩ := ho
  simp only [Prog.out_ret, Except.ok.injEq, Prod.mk.injEq] at ho
  rw [Prog.out_mapM'_ok] at hr
  have hrl := hr.length_eq
  refine ⟨by rw [ho.2, List.length_map, ← hrl, hlen], ?_⟩
  intro k x x' hx hx'
  rw [ho.2, List.getElem?_map, Option.map_eq_some_iff] at hx'
  obtain ⟨q, hq, rfl⟩ := hx'
  obtain ⟨hk, rfl⟩ := List.getElem?_eq_some_iff.1 hq
  have hkl : k < l.length := by omega
  have hf := hr.get hkl hk
  simp only [List.get_eq_getElem] at hf
  have hkz : k < z.length := by omega
  have e2 : l[k].2 = x := by
    rw [List.getElem?_eq_getElem hkz, Option.some.injEq] at hx
    simp only [hl, List.getElem_zip]; exact hx
  have hky : k < h.yt.length := by rw [hv.leny]; omega
  have e1 : h.yt[k]? = some l[k].1.2.1 := by
    rw [List.getElem?_eq_getElem hky]; simp only [hl, List.getElem_zip]
  rw [e1]
  simp only [Option.some.injEq]
  split_ifs with hi
  · rw [if_pos hi, e2] at hf
    exact Relation.ReflTransGen.single ⟨_, up, (r[k]).1, hi, hf⟩
  · rw [if_neg hi, e2] at hf
    simp only [Prog.out_ret, Except.ok.injEq] at hf
    rw [hf]

theorem flipParam_error {p : ℕ} {O : ParamOps p ζ} {nil prime : Thi p} {h : Anchorage ℝ ℝ} (hv : h.Valid) {i : ℕ} {z : List ζ}
    (hz : z.length + 1 = h.t.length) {up : Bool} {e : PyErr} (ho : (flipParamCoins O nil prime h i z up).Out (.error e)) :
    ∃ seg x, (O.flip nil prime seg x up).Out (.error e) := by
  unfold flipParamCoins at ho
  set l := ((npDiff h.t).zip (h.yt.zip (h.vt.zip h.vt.tail))).zip z with hl
  have h2 := hv.two
  have hlen : l.length = z.length := by
    simp only [hl, List.length_zip, npDiff_len, List.length_tail, hv.leny, hv.lenv]; omega
  have hne : l.isEmpty = false := by
    rw [List.isEmpty_eq_false_iff, ← List.length_pos_iff, hlen]; omega
  simp only [hne, Bool.false_eq_true, if_false] at ho
  rw [Prog.out_bind] at ho
  rcases ho with ⟨r, -, ho⟩ | ⟨e', he, h'⟩
  · simp at ho
  · simp only [Except.error.injEq] at h'; subst h'
    obtain ⟨q, -, he⟩ := mapM'_error he
    split_ifs at he
    · exact ⟨_, _, he⟩
    · simp at he

theorem paramSection_out {p : ℕ} {C : McmcControls} {O : ParamOps p ζ} {nil : Thi p} {z : List ζ} {h : Anchorage ℝ ℝ} (hv : h.Valid)
    (hz : z.length + 1 = h.t.length) {prop : Prog ((Fin p → ℝ) × ℝ × ℝ)} {i : ℕ} {acc : Bool} {thi : Thi p} {z' : List ζ}
    (ho : (updateParamsSection C O nil z h prop i).Out (.ok (acc, thi, z'))) :
    ∃ q, prop.Out (.ok q) ∧ SectionResult O h nil z i q.1 acc thi z' := by
  unfold updateParamsSection at ho
  rw [Prog.out_bind_ok] at ho
  obtain ⟨q, hq, ho⟩ := ho
  refine ⟨q, hq, ?_⟩
  simp only at ho
  rw [Prog.out_bind_ok] at ho
  obtain ⟨⟨b, zz⟩, hd, ho⟩ := ho
  simp only [Prog.out_ret, Except.ok.injEq, Prod.mk.injEq] at ho
  obtain ⟨rfl, rfl, rfl⟩ := ho
  have key := decideParam_inv (Q := fun s : List ζ => s.length = z.length ∧ ∀ (k : ℕ) (x x' : ζ), z[k]? = some x → s[k]? = some x' →
      if h.yt[k]? = some i then Flips O nil (Function.update nil i q.1) i x x' else x' = x) ⟨rfl, ?_⟩ ?_ hd
  · refine ⟨?_, ?_, key.1, key.2⟩
    · split_ifs <;> simp
    · intro k hk; split_ifs <;> simp [hk]
  · intro k x x' hx hx'
    rw [hx, Option.some.injEq] at hx'
    subst hx'
    split_ifs
    · exact Relation.ReflTransGen.refl
    · rfl
  · rintro s up x ⟨hs, hsz⟩ hx
    rw [Prog.out_bind_ok] at hx
    obtain ⟨⟨b', s'⟩, hf, hx⟩ := hx
    simp only [Prog.out_ret, Except.ok.injEq] at hx
    subst hx
    obtain ⟨g1, g2⟩ := flipParam_out hv (by rw [hs]; exact hz) hf
    have : s'.length = z.length ∧ ∀ (k : ℕ) (x x' : ζ), z[k]? = some x → s'[k]? = some x' →
      if h.yt[k]? = some i then Flips O nil (Function.update nil i q.1) i x x' else x' = x := by
      refine ⟨g1.trans hs, fun k x x' hx hx' => ?_⟩
      obtain ⟨hk, -⟩ := List.getElem?_eq_some_iff.1 hx
      have hks : k < s.length := by omega
      have a1 := hsz k x s[k] hx (List.getElem?_eq_getElem hks)
      have a2 := g2 k s[k] x' (List.getElem?_eq_getElem hks) hx'
      split_ifs at a1 a2 ⊢
      · exact a1.trans a2
      · exact a2.trans a1
    exact ⟨this, this⟩

/-! ## Assembly -/

theorem pickSeeds_ok {zp : List (List ζ)} : ∀ {ys : List ℕ} {i : ℕ} {l : List ζ}, pickSeeds zp i ys = .ok l →
    l.length = ys.length ∧ ∀ k y, ys[k]? = some y → ∃ zs, zp[y]? = some zs ∧ l[k]? = zs[i + k]? := by
  intro ys
  induction ys with
  | nil => intro i l h; simp only [pickSeeds, Except.ok.injEq] at h; subst h; simp
  | cons y ys ih =>
    intro i l h
    unfold pickSeeds at h
    rcases hz : zp[y]? with _ | zs
    · simp [hz] at h
    · rcases hx : zs[i]? with _ | x
      · simp [hz, hx] at h
      · rcases hr : pickSeeds zp (i + 1) ys with e | l'
        · simp [hz, hx, hr, Except.bind] at h
        · simp only [hz, hx, hr, Except.bind, Except.ok.injEq] at h
          subst h
          obtain ⟨g1, g2⟩ := ih hr
          refine ⟨by simp [g1], ?_⟩
          intro k y' hy'
          rcases k with _ | k
          · simp only [List.getElem?_cons_zero, Option.some.injEq] at hy'
            subst hy'
            exact ⟨zs, hz, by simp [hx]⟩
          · simp only [List.getElem?_cons_succ] at hy' ⊢
            obtain ⟨zs', h1, h2⟩ := g2 k y' hy'
            exact ⟨zs', h1, by rw [h2]; congr 1; omega⟩

theorem pickSeeds_total {zp : List (List ζ)} : ∀ {ys : List ℕ} {i : ℕ}, (∀ y ∈ ys, y < zp.length) →
    (∀ zs ∈ zp, zs.length = i + ys.length) → ∃ l, pickSeeds zp i ys = .ok l := by
  intro ys
  induction ys with
  | nil => intro i _ _; exact ⟨[], rfl⟩
  | cons y ys ih =>
    intro i h1 h2
    have hy := h1 y (by simp)
    have hz := h2 zp[y] (List.getElem_mem _)
    simp only [List.length_cons] at hz
    obtain ⟨l, hl⟩ := ih (i := i + 1) (fun y hy => h1 y (by simp [hy])) (fun zs hzs => by rw [h2 zs hzs]; simp; omega)
    have hi : i < zp[y].length := by omega
    refine ⟨zp[y][i] :: l, ?_⟩
    simp [pickSeeds, List.getElem?_eq_getElem hy, List.getElem?_eq_getElem hi, hl, Except.bind]

theorem adaptAll_error {p : ℕ} {A : AdaptPar} {thi : Thi p} {acc : List Bool} : ∀ {ss : List (MvRw p)} {i : ℕ} {e : PyErr},
    i + ss.length ≤ acc.length → adaptAll A thi acc i ss = .error e → ∃ s ∈ ss, ∃ x b, s.adapt A x b = .error e := by
  intro ss
  induction ss with
  | nil => intro i e _ h; simp [adaptAll] at h
  | cons s ss ih =>
    intro i e hl h
    simp only [List.length_cons] at hl
    have hi : i < acc.length := by omega
    unfold adaptAll at h
    simp only [List.getElem?_eq_getElem hi] at h
    rcases hs : s.adapt A (thi i) (if acc[i] then 1 else 0) with e' | s'
    · rw [hs] at h; simp only [Except.bind, Except.error.injEq] at h; subst h
      exact ⟨s, by simp, _, _, hs⟩
    · rw [hs] at h
      rcases hr : adaptAll A thi acc (i + 1) ss with e' | l
      · rw [hr] at h; simp only [Except.bind, Except.error.injEq] at h; subst h
        obtain ⟨t, ht, x, b, hx⟩ := ih (by omega) hr
        exact ⟨t, by simp [ht], x, b, hx⟩
      · rw [hr] at h; simp [Except.bind] at h

theorem adaptAll_ok {p : ℕ} {A : AdaptPar} {thi : Thi p} {acc : List Bool} : ∀ {ss ss' : List (MvRw p)} {i : ℕ},
    adaptAll A thi acc i ss = .ok ss' → ss'.length = ss.length ∧ ∀ k s, ss[k]? = some s → ∃ a s', acc[i + k]? = some a ∧
      ss'[k]? = some s' ∧ s.adapt A (thi (i + k)) (if a then 1 else 0) = .ok s' := by
  intro ss
  induction ss with
  | nil => intro ss' i h; simp only [adaptAll, Except.ok.injEq] at h; subst h; simp
  | cons s ss ih =>
    intro ss' i h
    unfold adaptAll at h
    rcases ha : acc[i]? with _ | a
    · simp [ha] at h
    · rcases hs : s.adapt A (thi i) (if a then 1 else 0) with e' | s'
      · simp [ha, hs, Except.bind] at h
      · rcases hr : adaptAll A thi acc (i + 1) ss with e' | l
        · simp [ha, hs, hr, Except.bind] at h
        · simp only [ha, hs, hr, Except.bind, Except.ok.injEq] at h
          subst h
          obtain ⟨g1, g2⟩ := ih hr
          refine ⟨by simp [g1], ?_⟩
          intro k t ht
          rcases k with _ | k
          · simp only [List.getElem?_cons_zero, Option.some.injEq] at ht
            subst ht
            exact ⟨a, s', ha, by simp, hs⟩
          · simp only [List.getElem?_cons_succ] at ht ⊢
            obtain ⟨a', s'', h1, h2, h3⟩ := g2 k t ht
            have : i + 1 + k = i + (k + 1) := by omega
            rw [this] at h1 h3
            exact ⟨a', s'', h1, h2, h3⟩

/-! ## Weights -/

theorem npDiff_getElem {l : List ℝ} {k : ℕ} (hk : k < (npDiff l).length) :
    (npDiff l)[k] = l[k + 1]'(by rw [npDiff_len] at hk; omega) - l[k]'(by rw [npDiff_len] at hk; omega) := by
  induction l generalizing k with
  | nil => simp [npDiff] at hk
  | cons a l ih =>
    rcases l with _ | ⟨b, l⟩
    · simp [npDiff] at hk
    · rcases k with _ | k
      · simp [npDiff]
      · simp only [npDiff, List.getElem_cons_succ]
        exact ih _

theorem select_map_sum {α : Type} (f : α → ℝ) (q : α → Bool) (l : List α) :
    (select (l.map f) (l.map q)).sum = (l.map fun a => if q a then f a else 0).sum := by
  induction l with
  | nil => simp [select]
  | cons a l ih =>
    simp only [List.map_cons, List.sum_cons]
    cases h : q a
    · simp [select, ih]
    · simp [select, ih]

/-- A model whose functions look up one row per segment. -/
structure RowFns (M : SwitchFns 2) where
  vol : (Fin 2 → ℝ) → ℝ
  sx : (Fin 2 → ℝ) → ℝ → ℝ
  hvol : ∀ thi ys, M.vol thi ys = ys.map fun y => vol (thi y)
  hsx : ∀ thi ys xs, M.sx thi ys xs = List.zipWith (fun y x => sx (thi y) x) ys xs
  vol_ne : ∀ r : Fin 2 → ℝ, (∀ j, 0 < r j) → vol r ≠ 0

/-- One segment's contribution. -/
noncomputable def segTerm {M : SwitchFns 2} (R : RowFns M) (r : Fin 2 → ℝ) (q : ℝ × ℕ × ℝ × ℝ) : ℝ :=
  (R.sx r (M.red q.2.2.2) - R.sx r (M.red q.2.2.1)) / R.vol r ^ 2 +
    (Real.log |M.dvRed q.2.2.2| - Real.log (2 * Real.pi * (q.1 * R.vol r ^ 2)) / 2 -
      (M.red q.2.2.2 - M.red q.2.2.1) ^ 2 / (2 * (q.1 * R.vol r ^ 2)))

theorem likTerms_row {M : SwitchFns 2} (R : RowFns M) {h : Anchorage ℝ ℝ} (hv : h.Valid) (thi : Thi 2) :
    likTerms M thi h = (segments h.t h.yt h.vt).map fun q => segTerm R (thi q.2.1) q := by
  have h2 := hv.two
  have hy := hv.leny
  have hV := hv.lenv
  unfold likTerms segments
  simp only [R.hvol, R.hsx]
  apply List.ext_getElem
  · simp only [List.length_zipWith, List.length_map, List.length_dropLast, List.length_tail, List.length_zip, npDiff_len]
    omega
  · intro k h1 h2
    simp only [List.getElem_zipWith, List.getElem_map, List.getElem_zip, List.getElem_tail, List.getElem_dropLast, npDiff_getElem,
      segTerm]

theorem segments_yt {h : Anchorage ℝ ℝ} (hv : h.Valid) : (segments h.t h.yt h.vt).map (fun q => q.2.1) = h.yt.dropLast := by
  have h2 := hv.two
  have hy := hv.leny
  have hV := hv.lenv
  unfold segments
  apply List.ext_getElem
  · simp only [List.length_map, List.length_dropLast, List.length_tail, List.length_zip, npDiff_len]
    omega
  · intro k h1 h2
    simp only [List.getElem_map, List.getElem_zip, List.getElem_dropLast]

/-- Regime `i`'s part of the log-likelihood, as a function of its row. -/
noncomputable def ownLik {M : SwitchFns 2} (R : RowFns M) (h : Anchorage ℝ ℝ) (i : ℕ) (r : Fin 2 → ℝ) : ℝ :=
  ((segments h.t h.yt h.vt).map fun q => if decide (q.2.1 = i) = true then segTerm R r q else 0).sum

theorem biasedLogLik_row {M : SwitchFns 2} (R : RowFns M) {n : ℕ} {h : Anchorage ℝ ℝ} (hv : h.Valid) (hn : ∀ y ∈ h.yt.dropLast, y < n)
    {thi : Thi 2} (hp : PosRows n thi) (i : ℕ) : evalBiasedLogLik M n thi h i = .ok (ownLik R h i (thi i)) := by
  unfold evalBiasedLogLik
  rw [if_neg (by push Not; exact hn), if_neg (by simp [hv.leny, hv.lenv]), if_neg (by intro h0; have := hv.two; rw [h0] at this; simp at this), if_neg]
  · congr 1
    rw [likTerms_row R hv, ← segments_yt hv, List.map_map]
    rw [show ((fun y => decide (y = i)) ∘ fun q : ℝ × ℕ × ℝ × ℝ => q.2.1) = fun q => decide (q.2.1 = i) from rfl]
    rw [select_map_sum]
    unfold ownLik
    congr 1
    apply List.map_congr_left
    intro q _
    split_ifs with hq
    · rw [of_decide_eq_true hq]
    · rfl
  · push Not
    intro s hs
    rw [R.hvol, List.mem_iff_getElem] at hs
    obtain ⟨k, hk, rfl⟩ := hs
    simp only [List.length_zipWith, List.length_map] at hk
    simp only [List.getElem_zipWith, List.getElem_map]
    have h1 := npDiff_pos hv.inc (npDiff h.t)[k] (List.getElem_mem _)
    have h2 := R.vol_ne (thi (h.yt.dropLast[k])) (hp _ (hn _ (List.getElem_mem _)))
    positivity

/-- One row's contribution to the log-prior. -/
noncomputable def rowPrior (r : Fin 2 → ℝ) : ℝ :=
  Real.log (r 0) + Real.log (r 1) + Real.log (r 0) ^ 2 / 2 + Real.log (r 1 ^ 2) ^ 2 / 2

theorem logPrior_pos {n : ℕ} {thi : Thi 2} (hp : PosRows n thi) :
    evalLogPrior n thi = .ok (some (-∑ i ∈ Finset.range n, rowPrior (thi i))) := by
  unfold evalLogPrior
  rw [if_neg, if_neg]
  · simp only [Finset.sum, Finset.range_val, Multiset.range, Multiset.map_coe, Multiset.sum_coe]; rfl
  · rintro ⟨i, hi, j, h⟩; exact (hp i hi j).ne' h
  · rintro ⟨i, hi, j, h⟩; exact absurd (hp i hi j) (not_lt.2 h.le)

theorem weightLocal_row {M : SwitchFns 2} (R : RowFns M) {n : ℕ} {h : Anchorage ℝ ℝ} (hv : h.Valid) (hn : ∀ y ∈ h.yt.dropLast, y < n)
    {i : ℕ} (hi : i < n) : WeightLocal M n h i := by
  refine ⟨fun r r' => ownLik R h i r' - ownLik R h i r - (rowPrior r' - rowPrior r), ?_⟩
  intro thi row hp hr
  have hp' : PosRows n (Function.update thi i row) := by
    intro k hk j
    by_cases hki : k = i
    · subst hki; simpa using hr j
    · simpa [Function.update_of_ne hki] using hp k hk j
  refine ⟨_, by rw [evalParamWeight, biasedLogLik_row R hv hn hp, logPrior_pos hp]; rfl, ?_⟩
  rw [evalParamWeight, biasedLogLik_row R hv hn hp', logPrior_pos hp']
  simp only [Except.bind, Option.map_some, Function.update_self, Except.ok.injEq, Option.some.injEq]
  have : ∑ k ∈ Finset.range n, rowPrior (Function.update thi i row k) =
      ∑ k ∈ Finset.range n, rowPrior (thi k) + (rowPrior row - rowPrior (thi i)) := by
    have hm : i ∈ Finset.range n := Finset.mem_range.2 hi
    rw [← Finset.add_sum_erase _ _ hm, ← Finset.add_sum_erase _ (fun k => rowPrior (thi k)) hm, Function.update_self]
    rw [Finset.sum_congr rfl (g := fun k => rowPrior (thi k))]
    · ring
    · intro k hk; rw [Function.update_of_ne (Finset.ne_of_mem_erase hk)]
  rw [this]; ring

noncomputable def ouRow : RowFns ouFns where
  vol r := 1 / r 1
  sx r x := -r 0 * x ^ 2 / 2
  hvol _ _ := rfl
  hsx _ _ _ := rfl
  vol_ne r h := by have := h 1; positivity

noncomputable def ou2Row : RowFns ou2Fns where
  vol r := r 0 / r 1
  sx r x := -r 0 * x ^ 2 / 2
  hvol _ _ := rfl
  hsx _ _ _ := rfl
  vol_ne r h := by have := h 1; have := h 0; positivity

end Ctb
