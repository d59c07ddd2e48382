import Verif.Model.HiddenWeight
import Verif.Spec.HiddenWeight
import Verif.Lemmas.SwitchAug
import Verif.Lemmas.SwitchUpdate
import Verif.Lemmas.PathDensity
import Mathlib.Analysis.SpecialFunctions.Log.Basic
import Mathlib.MeasureTheory.Integral.IntervalIntegral.Basic

/-!
# Lemmas on the weight of a hidden state
-/

set_option linter.unusedSectionVars false

namespace Ctb

open MeasureTheory

/-! ## selecting and splitting -/

theorem select_range' {α : Type} (f : ℕ → α) : ∀ (m : List Bool) (k : ℕ), select ((List.range' k m.length).map f) m = (whereFrom k m).map f
  | [], _ => by simp [select, whereFrom]
  | true :: m, k => by simp [List.range'_succ, select, whereFrom, select_range' f m (k + 1)]
  | false :: m, k => by simp [List.range'_succ, select, whereFrom, select_range' f m (k + 1)]

theorem whereFrom_ge : ∀ (m : List Bool) (k : ℕ), ∀ i ∈ whereFrom k m, k ≤ i
  | [], _, i, hi => by simp [whereFrom] at hi
  | true :: m, k, i, hi => by
    simp only [whereFrom, List.mem_cons] at hi
    rcases hi with rfl | hi
    · exact le_rfl
    · have := whereFrom_ge m (k + 1) i hi; omega
  | false :: m, k, i, hi => by
    have := whereFrom_ge m (k + 1) i hi; omega

theorem whereFrom_sorted : ∀ (m : List Bool) (k : ℕ), (whereFrom k m).Pairwise (· ≤ ·)
  | [], _ => by simp [whereFrom]
  | true :: m, k => by
    rw [whereFrom, List.pairwise_cons]
    exact ⟨fun i hi => by have := whereFrom_ge m (k + 1) i hi; omega, whereFrom_sorted m (k + 1)⟩
  | false :: m, k => whereFrom_sorted m (k + 1)

theorem sum_slice (l : List ℝ) {a b : ℕ} (h : a ≤ b) : ((l.take b).drop a).sum = (l.take b).sum - (l.take a).sum := by
  have := congrArg List.sum (List.take_append_drop a (l.take b))
  rw [List.sum_append, List.take_take, min_eq_left h] at this
  linarith

theorem npSplit_inner {α : Type} (l : List α) {idx : List ℕ} (h : idx ≠ []) :
    (npSplit l idx).tail.dropLast = List.zipWith (fun a b => (l.take b).drop a) idx idx.tail := by
  obtain ⟨i, idx', rfl⟩ : ∃ i r, idx = i :: r := by
    cases idx with
    | nil => exact absurd rfl h
    | cons i r => exact ⟨i, r, rfl⟩
  unfold npSplit
  simp only [List.cons_append, List.tail_cons, List.zipWith_cons_cons]
  rw [← List.cons_append]
  apply List.ext_getElem
  · simp
  · intro k h1 h2
    simp only [List.length_zipWith, List.length_cons] at h2
    have hk : k < idx'.length := by omega
    rw [List.getElem_dropLast, List.getElem_zipWith, List.getElem_zipWith, List.getElem_append_left (by simp; omega), List.getElem_append_left hk]

theorem zipWith_slice_sum (l : List ℝ) : ∀ idx : List ℕ, idx.Pairwise (· ≤ ·) →
    (List.zipWith (fun a b => (l.take b).drop a) idx idx.tail).map List.sum = npDiff (idx.map fun i => (l.take i).sum)
  | [], _ => rfl
  | [_], _ => rfl
  | a :: b :: idx, h => by
    have ih := zipWith_slice_sum l (b :: idx) (List.pairwise_cons.1 h).2
    simp only [List.tail_cons, List.zipWith_cons_cons, List.map_cons, npDiff] at ih ⊢
    rw [ih, sum_slice l ((List.pairwise_cons.1 h).1 b (by simp))]

theorem cumsumFrom_range (l : List ℝ) : ∀ (a : ℝ), a :: cumsumFrom a l = (List.range' 0 (l.length + 1)).map fun i => a + (l.take i).sum := by
  induction l with
  | nil => intro a; simp [cumsumFrom]
  | cons b l ih =>
    intro a
    have := ih (a + b)
    rw [cumsumFrom, this, List.length_cons, List.range'_succ (n := l.length + 1), List.map_cons]
    congr 1
    · simp
    · have hr : List.range' (0 + 1) (l.length + 1) = (List.range' 0 (l.length + 1)).map (1 + ·) := by rw [List.map_add_range']
      rw [hr, List.map_map]
      apply List.map_congr_left
      intro i _
      simp [Function.comp, add_comm 1 i, add_assoc]

theorem isObs_length {yt : List ℕ} (h : yt ≠ []) : (isObs yt).length = yt.length := by
  have : yt.length ≠ 0 := by simpa using h
  simp [isObs]; omega

/-- The variances between observations are differences of the cumulated variance at the observations. -/
theorem sigObs_eq {sig : List ℝ} {yt : List ℕ} (h : yt.length = sig.length + 1) :
    sigObs sig yt = npDiff (select (0 :: cumsumFrom 0 sig) (isObs yt)) := by
  have hl : (isObs yt).length = sig.length + 1 := by rw [isObs_length (by rintro rfl; simp at h), h]
  rw [sigObs, npSplit_inner _ (by simp [isObs, whereFrom]), zipWith_slice_sum _ _ (whereFrom_sorted _ _), cumsumFrom_range, ← hl, select_range']
  simp

theorem select_map_keys {α β : Type} (q : β → Bool) : ∀ (L : List α) (ks : List β), L.length = ks.length →
    select L (ks.map q) = ((ks.zip L).filter fun p => q p.1).map Prod.snd
  | [], [], _ => rfl
  | a :: L, k :: ks, h => by
    have ih := select_map_keys q L ks (by simpa using h)
    cases hq : q k <;> simp [select, hq, ih]
  | [], _ :: _, h => by simp at h
  | _ :: _, [], h => by simp at h

/-- Two lists with strictly increasing keys and the same elements are equal. -/
theorem keyed_ext {β : Type} : ∀ {A B : List (ℝ × β)}, A.Pairwise (fun p q => p.1 < q.1) → B.Pairwise (fun p q => p.1 < q.1) →
    (∀ p, p ∈ A ↔ p ∈ B) → A = B
  | [], [], _, _, _ => rfl
  | [], b :: B, _, _, h => absurd ((h b).2 (by simp)) (by simp)
  | a :: A, [], _, _, h => absurd ((h a).1 (by simp)) (by simp)
  | a :: A, b :: B, hA, hB, h => by
    rw [List.pairwise_cons] at hA hB
    have hab : a = b := by
      rcases List.mem_cons.1 ((h a).1 (by simp)) with e | e
      · exact e
      · rcases List.mem_cons.1 ((h b).2 (by simp)) with e' | e'
        · exact e'.symm
        · have h1 := hB.1 a e
          have h2 := hA.1 b e'
          exact absurd (h1.trans h2) (lt_irrefl _)
    subst hab
    rw [keyed_ext hA.2 hB.2 fun p => ?_]
    constructor
    · intro hp
      rcases List.mem_cons.1 ((h p).1 (by simp [hp])) with e | e
      · subst e; exact absurd (hA.1 p hp) (lt_irrefl _)
      · exact e
    · intro hp
      rcases List.mem_cons.1 ((h p).2 (by simp [hp])) with e | e
      · subst e; exact absurd (hB.1 p hp) (lt_irrefl _)
      · exact e

/-! ## integrated squared volatility -/

/-- On each gap of the list the function is the square of the regime's volatility. -/
def StepFn (vol : ℕ → ℝ) (f : ℝ → ℝ) : List (ℝ × ℕ) → Prop
  | (a, y) :: (b, z) :: l => (∀ s, a ≤ s → s < b → f s = vol y ^ 2) ∧ StepFn vol f ((b, z) :: l)
  | _ => True

theorem integral_step {f : ℝ → ℝ} {a b c : ℝ} (hab : a < b) (hf : ∀ s, a ≤ s → s < b → f s = c) :
    IntervalIntegrable f volume a b ∧ ∫ s in a..b, f s = (b - a) * c := by
  have he : ∀ᵐ s ∂volume, s ∈ Set.uIoc a b → f s = c := by
    have : ∀ᵐ s ∂(volume : Measure ℝ), s ≠ b := by simp [ae_iff]
    filter_upwards [this] with s hs hm
    rw [Set.uIoc_of_le hab.le] at hm
    exact hf s hm.1.le (lt_of_le_of_ne hm.2 hs)
  constructor
  · refine (intervalIntegrable_const (c := c)).congr_ae ?_
    rw [Filter.EventuallyEq, ae_restrict_iff' measurableSet_uIoc]
    filter_upwards [he] with s hs hm using (hs hm).symm
  · rw [intervalIntegral.integral_congr_ae he, intervalIntegral.integral_const, smul_eq_mul]

theorem cumVar_eq (vol : ℕ → ℝ) (f : ℝ → ℝ) : ∀ (l : List (ℝ × ℕ)) (a0 a : ℝ) (y : ℕ), IntervalIntegrable f volume a0 a →
    ((a, y) :: l).Pairwise (fun p q => p.1 < q.1) → StepFn vol f ((a, y) :: l) →
    cumsumFrom (∫ s in a0..a, f s) (List.zipWith (fun d v => d * v ^ 2) (npDiff (((a, y) :: l).map Prod.fst)) ((((a, y) :: l).map Prod.snd).dropLast.map vol)) =
      l.map (fun p => ∫ s in a0..p.1, f s) ∧ ∀ p ∈ l, IntervalIntegrable f volume a0 p.1
  | [], _, _, _, _, _, _ => by simp [npDiff, cumsumFrom]
  | (b, z) :: l, a0, a, y, hi, hp, hs => by
    have hab : a < b := (List.pairwise_cons.1 hp).1 (b, z) (by simp)
    obtain ⟨h1, h2⟩ := integral_step hab hs.1
    have hi' := hi.trans h1
    have hsum : (∫ s in a0..a, f s) + (b - a) * vol y ^ 2 = ∫ s in a0..b, f s := by
      rw [← h2, intervalIntegral.integral_add_adjacent_intervals hi h1]
    obtain ⟨e1, e2⟩ := cumVar_eq vol f l a0 b z hi' (List.pairwise_cons.1 hp).2 hs.2
    simp only [List.map_cons, npDiff, List.dropLast_cons_cons, List.zipWith_cons_cons, cumsumFrom, List.mem_cons, forall_eq_or_imp] at e1 ⊢
    rw [hsum]
    exact ⟨by rw [e1], hi', e2⟩

theorem stepFn_stAt (vol : ℕ → ℝ) {F : Option ℕ → ℝ} (hF : ∀ y, F (some y) = vol y ^ 2) : ∀ (l A : List (ℝ × ℕ)), (A ++ l).Pairwise (fun p q => p.1 < q.1) →
    StepFn vol (fun s => F (stAt (A ++ l) s)) l
  | [], _, _ => trivial
  | [_], _, _ => trivial
  | (a, y) :: (b, z) :: l, A, hp => by
    refine ⟨fun s h1 h2 => ?_, ?_⟩
    · have hz : stAt ((b, z) :: l) s = none := by
        rw [stAt_eq_none_iff]
        intro p hp'
        rw [List.pairwise_append, List.pairwise_cons, List.pairwise_cons] at hp
        rcases List.mem_cons.1 hp' with rfl | hp'
        · exact h2
        · exact h2.trans (hp.2.1.2.1 p hp')
      beta_reduce
      rw [stAt_append, stAt_cons, hz]
      simp [h1, hF]
    · have := stepFn_stAt vol hF ((b, z) :: l) (A ++ [(a, y)]) (by simpa using hp)
      simpa using this

/-! ## the two outputs -/

theorem sum_zipWith_add : ∀ (A B : List ℝ), A.length = B.length → (List.zipWith (· + ·) A B).sum = A.sum + B.sum
  | [], [], _ => by simp
  | a :: A, b :: B, h => by
    simp only [List.zipWith_cons_cons, List.sum_cons, sum_zipWith_add A B (by simpa using h)]; ring
  | [], _ :: _, h => by simp at h
  | _ :: _, [], h => by simp at h

theorem select_all {α : Type} {β : Type} : ∀ (L : List α) (ys : List β), L.length = ys.length → select L (ys.map fun _ => true) = L
  | [], [], _ => rfl
  | a :: L, b :: ys, h => by rw [List.map_cons, select, select_all L ys (by simpa using h)]
  | [], _ :: _, h => by simp at h
  | _ :: _, [], h => by simp at h

theorem log_normDensR {v : ℝ} (hv : 0 < v) (x : ℝ) : Real.log (normDensR v x) = -(Real.log (2 * Real.pi * v) / 2) - x ^ 2 / (2 * v) := by
  have : 0 < 2 * Real.pi * v := by positivity
  rw [normDensR, Real.log_div (Real.exp_pos _).ne' (Real.sqrt_pos.2 this).ne', Real.log_exp, Real.log_sqrt this.le]
  ring

theorem normTerms_obs {p : ℕ} (M : SwitchFns p) (vol : ℕ → ℝ) (st : ℝ → Option ℕ) (Q : ℝ → ℝ) : ∀ (L : List (ℝ × ℝ)),
    (∀ p ∈ L.zip L.tail, quadVar vol st p.1.1 p.2.1 = Q p.2.1 - Q p.1.1 ∧ 0 < Q p.2.1 - Q p.1.1) →
    (normTerms M (L.map Prod.snd) (npDiff (L.map fun p => Q p.1))).sum = obsLogLik M.red M.dvRed vol st L
  | [], _ => by simp [normTerms, obsLogLik]
  | [_], _ => by simp [normTerms, obsLogLik]
  | (a, v) :: (b, w) :: L, h => by
    have ih := normTerms_obs M vol st Q ((b, w) :: L) fun p hp => h p (by simp only [List.tail_cons, List.zip_cons_cons, List.mem_cons] at hp ⊢; exact .inr hp)
    obtain ⟨h1, h2⟩ := h ((a, v), (b, w)) (by simp)
    simp only [normTerms, List.map_cons, List.tail_cons, npDiff, List.zipWith_cons_cons, List.sum_cons, obsLogLik] at ih h1 h2 ⊢
    rw [ih, h1, log_normDensR h2]
    ring

theorem driftGain_eq {p : ℕ} {M : SwitchFns p} {thi : Thi p} {vol : ℕ → ℝ} {sx : ℕ → ℝ → ℝ} (hM : ∀ ys, M.vol thi ys = ys.map vol)
    (hsx : ∀ ys xs, M.sx thi ys xs = List.zipWith sx ys xs) : ∀ (t : List ℝ) (yt : List ℕ) (vt : List ℝ), yt.length = vt.length →
    (pDelTerms M thi ⟨t, yt, vt⟩).sum = driftGain sx vol (yt.zip (vt.map M.red))
  | _, [], [], _ => by simp [pDelTerms, driftGain, hM, hsx]
  | _, [_], [_], _ => by simp [pDelTerms, driftGain, hM, hsx]
  | t, y :: z :: yt, v :: w :: vt, h => by
    have ih := driftGain_eq hM hsx t (z :: yt) (w :: vt) (by simpa using h)
    simp only [pDelTerms, hM, hsx, List.map_cons, List.tail_cons, List.dropLast_cons_cons, List.zipWith_cons_cons, List.sum_cons, List.zip_cons_cons,
      driftGain] at ih ⊢
    rw [← ih]
  | _, [], _ :: _, h => by simp at h
  | _, _ :: _, [], h => by simp at h
  | _, [_], _ :: _ :: _, h => by simp at h
  | _, _ :: _ :: _, [_], h => by simp at h

theorem Anchorage.Valid.jinc {h : Anchorage ℝ ℝ} (hv : h.Valid) : (h.t.zip h.yt).Pairwise fun p q => p.1 < q.1 := by
  have := hv.inc
  rw [← List.map_fst_zip (l₁ := h.t) (l₂ := h.yt) (by rw [hv.leny]), List.pairwise_map] at this
  exact this

/-- Cumulated variance at the anchors. -/
theorem cumVar_anch {h : Anchorage ℝ ℝ} (hv : h.Valid) (vol : ℕ → ℝ) :
    0 :: cumsumFrom 0 (List.zipWith (fun d v => d * v ^ 2) (npDiff h.t) (h.yt.dropLast.map vol)) = h.t.map (quadVar vol h.stateAt 0) ∧
      ∀ a ∈ h.t, IntervalIntegrable (fun s => (h.stateAt s).elim 0 fun y => vol y ^ 2) volume 0 a := by
  obtain ⟨y, l, hl⟩ : ∃ y l, h.t.zip h.yt = (0, y) :: l := by
    have h1 := hv.head; have h2 := hv.leny
    cases ht : h.t with
    | nil => rw [ht] at h1; simp at h1
    | cons a t' =>
      cases hy : h.yt with
      | nil => rw [ht, hy] at h2; simp at h2
      | cons y yt' => rw [ht] at h1; simp at h1; exact ⟨y, _, by rw [h1]; rfl⟩
  have e1 : h.t = ((0, y) :: l).map Prod.fst := by rw [← hl, List.map_fst_zip (by rw [hv.leny])]
  have e2 : h.yt = ((0, y) :: l).map Prod.snd := by rw [← hl, List.map_snd_zip (by rw [hv.leny])]
  have hst := stepFn_stAt vol (F := fun o => o.elim 0 fun y => vol y ^ 2) (fun y => rfl) ((0, y) :: l) [] (by rw [List.nil_append, ← hl]; exact hv.jinc)
  rw [List.nil_append, ← hl] at hst
  have := cumVar_eq vol (fun s => (h.stateAt s).elim 0 fun y => vol y ^ 2) l 0 0 y IntervalIntegrable.refl (by rw [← hl]; exact hv.jinc)
    (by rw [← hl]; exact hst)
  rw [intervalIntegral.integral_same] at this
  constructor
  · rw [e1, e2, this.1]
    simp [quadVar]
  · rw [e1]
    intro a ha
    rcases List.mem_cons.1 ha with rfl | ha
    · exact IntervalIntegrable.refl
    · obtain ⟨p, hp, rfl⟩ := List.mem_map.1 ha
      exact this.2 p hp

/-- Flags of the observations. -/
theorem isObs_keys {h : Anchorage ℝ ℝ} (hv : h.Valid) {t : List ℝ} (h0 : 0 ∈ t) (hj : h.JumpsOffObs t) : isObs h.yt = h.t.map fun a => decide (a ∈ t) := by
  have hy := hv.leny
  have h2 := hv.two
  have hne : h.yt ≠ [] := by intro h0; rw [h0] at hy; simp at hy; omega
  apply List.ext_getElem
  · rw [isObs_length hne, List.length_map, hy]
  · intro k h1 h3
    rw [List.length_map] at h3
    rw [List.getElem_map]
    cases k with
    | zero =>
      have : h.t[0] = 0 := by have := hv.head; rw [List.head?_eq_getElem?, List.getElem?_eq_getElem h3] at this; simpa using this
      simp [isObs, this, h0]
    | succ k =>
      have := hj k h.t[k + 1] h.yt[k] h.yt[k + 1] (List.getElem?_eq_getElem h3) (List.getElem?_eq_getElem (by omega)) (List.getElem?_eq_getElem (by omega))
      simp only [isObs, List.getElem_cons_succ, List.getElem_zipWith, List.getElem_tail]
      rw [decide_eq_decide, this, eq_comm]

/-- The anchors at observation times. -/
theorem obs_anchors {h : Anchorage ℝ ℝ} (hv : h.Valid) {t vt : List ℝ} {f : ℝ} (hg : ObsGrid t vt f) (ho : ∀ c v, (c, v) ∈ t.zip vt → h.Has c v) :
    ((h.t.zip h.vt).filter fun p => decide (p.1 ∈ t)) = t.zip vt := by
  have hi : (h.t.zip h.vt).Pairwise fun p q => p.1 < q.1 := by
    have := hv.inc
    rw [← List.map_fst_zip (l₁ := h.t) (l₂ := h.vt) (by rw [hv.lenv]), List.pairwise_map] at this
    exact this
  have hi' : (t.zip vt).Pairwise fun p q => p.1 < q.1 := by
    have := hg.inc
    rw [← List.map_fst_zip (l₁ := t) (l₂ := vt) (by rw [hg.len]), List.pairwise_map] at this
    exact this
  refine keyed_ext (hi.filter _) hi' fun p => ?_
  rw [List.mem_filter, decide_eq_true_iff]
  constructor
  · rintro ⟨h1, h2⟩
    rw [← List.map_fst_zip (l₁ := t) (l₂ := vt) (by rw [hg.len])] at h2
    obtain ⟨q, hq, hqp⟩ := List.mem_map.1 h2
    have h3 : q ∈ h.t.zip h.vt := ho q.1 q.2 hq
    have : p = q := by
      by_contra hne
      rcases List.mem_iff_getElem.1 h1 with ⟨i, hi1, rfl⟩
      rcases List.mem_iff_getElem.1 h3 with ⟨j, hj1, rfl⟩
      rw [List.pairwise_iff_getElem] at hi
      rcases lt_trichotomy i j with hij | rfl | hij
      · exact absurd hqp (hi i j hi1 hj1 hij).ne'
      · exact hne rfl
      · exact absurd hqp (hi j i hj1 hi1 hij).ne
    rw [this]; exact hq
  · intro hp
    exact ⟨ho p.1 p.2 hp, (List.of_mem_zip (a := p.1) (b := p.2) hp).1⟩

/-- Both outputs of `eval_biased_log_lik` together. -/
theorem outputs_sum {p : ℕ} {M : SwitchFns p} {n : ℕ} {thi : Thi p} {vol : ℕ → ℝ} {sx : ℕ → ℝ → ℝ} (hM : ∀ ys, M.vol thi ys = ys.map vol)
    (hsx : ∀ ys xs, M.sx thi ys xs = List.zipWith sx ys xs) {h : Anchorage ℝ ℝ} (hv : h.Valid) (hn : ∀ y ∈ h.yt.dropLast, y < n)
    (hvol : ∀ y ∈ h.yt.dropLast, vol y ≠ 0) {t vt : List ℝ} {f : ℝ} (hg : ObsGrid t vt f) (ho : ∀ c v, (c, v) ∈ t.zip vt → h.Has c v)
    (hj : h.JumpsOffObs t) :
    ∃ a b, evalBiasedLogLik2 M n thi h none = .ok (a, b) ∧
      a + b = driftGain sx vol (h.yt.zip (h.vt.map M.red)) + obsLogLik M.red M.dvRed vol h.stateAt (t.zip vt) := by
  have h2 := hv.two
  have hy := hv.leny
  have hV := hv.lenv
  have hsig : sigT M thi h = List.zipWith (fun d v => d * v ^ 2) (npDiff h.t) (h.yt.dropLast.map vol) := by rw [sigT, hM]
  have hslen : (sigT M thi h).length + 1 = h.t.length := by
    rw [hsig]; simp [npDiff_len, hy]; omega
  have hpos : ∀ s ∈ sigT M thi h, 0 < s := by
    intro s hs
    rw [hsig, ← List.map_uncurry_zip_eq_zipWith] at hs
    obtain ⟨q, hq, rfl⟩ := List.mem_map.1 hs
    have h3 := npDiff_pos hv.inc q.1 (List.of_mem_zip (a := q.1) (b := q.2) hq).1
    obtain ⟨y, hyy, hyq⟩ := List.mem_map.1 (List.of_mem_zip (a := q.1) (b := q.2) hq).2
    have := hvol y hyy
    show 0 < q.1 * q.2 ^ 2
    rw [← hyq]; positivity
  have h0t : (0 : ℝ) ∈ t := List.mem_of_head? hg.head
  obtain ⟨hcum, hint⟩ := cumVar_anch hv vol
  have hfl := isObs_keys hv h0t hj
  have hobs := obs_anchors hv hg ho
  have hzlen : (pDelTerms M thi h).length = (normTerms M h.vt (sigT M thi h)).length := by
    simp only [pDelTerms, normTerms, hM, hsx, List.length_zipWith, List.length_map, List.length_dropLast, List.length_tail, npDiff_len]
    omega
  have hslen2 : (List.zipWith (· + ·) (pDelTerms M thi h) (normTerms M h.vt (sigT M thi h))).length = h.yt.dropLast.length := by
    rw [List.length_zipWith, hzlen, min_self]
    simp only [normTerms, List.length_zipWith, List.length_map, List.length_dropLast, List.length_tail, npDiff_len]
    omega
  have hslen3 : (normTerms M h.vt (sigT M thi h)).length = h.yt.dropLast.length := by
    rw [List.length_zipWith, hzlen, min_self] at hslen2; exact hslen2
  have hsel : select h.vt (isObs h.yt) = vt := by
    rw [hfl, select_map_keys _ _ _ (by rw [hV]), hobs, List.map_snd_zip (by rw [hg.len])]
  have htf : h.t.filter (fun a => decide (a ∈ t)) = t := by
    have := congrArg (List.map Prod.fst) hobs
    rw [List.map_fst_zip (by rw [hg.len])] at this
    conv_rhs => rw [← this]
    conv_lhs => rw [← List.map_fst_zip (l₁ := h.t) (l₂ := h.vt) (by rw [hV])]
    rw [List.filter_map]; rfl
  have hso : sigObs (sigT M thi h) h.yt = npDiff (t.map (quadVar vol h.stateAt 0)) := by
    rw [sigObs_eq (by rw [hy, hslen]), hsig, hcum, hfl, select_map_keys _ _ _ (by simp), ← List.map_id h.t, List.map_map, List.zip_map', List.filter_map, List.map_map]
    have : (Prod.snd ∘ fun x : ℝ => (id x, (quadVar vol h.stateAt 0 ∘ id) x)) = quadVar vol h.stateAt 0 := rfl
    rw [this]
    congr 1
    conv_rhs => rw [← htf]
    rfl
  rw [evalBiasedLogLik2, if_neg (by push Not; exact hn), if_neg (by simp [hy, hV]), if_neg (by intro h0; rw [h0] at h2; simp at h2),
    if_neg (by push Not; exact hpos)]
  refine ⟨_, _, rfl, ?_⟩
  · rw [select_all _ _ hslen2, select_all _ _ hslen3, sum_zipWith_add _ _ hzlen, hsel, hso]
    have hL : t.map (quadVar vol h.stateAt 0) = (t.zip vt).map fun p => quadVar vol h.stateAt 0 p.1 := by
      conv_lhs => rw [← List.map_fst_zip (l₁ := t) (l₂ := vt) (by rw [hg.len])]
      rw [List.map_map]; rfl
    have hvt : vt = (t.zip vt).map Prod.snd := (List.map_snd_zip (by rw [hg.len])).symm
    have hQ : (normTerms M ((t.zip vt).map Prod.snd) (npDiff ((t.zip vt).map fun p => quadVar vol h.stateAt 0 p.1))).sum =
        obsLogLik M.red M.dvRed vol h.stateAt (t.zip vt) := by
      refine normTerms_obs M vol h.stateAt _ _ fun q hq => ?_
      have htt : ∀ c ∈ t, c ∈ h.t := fun c hc => by rw [← htf] at hc; exact (List.mem_filter.1 hc).1
      obtain ⟨i, hi, rfl⟩ := List.mem_iff_getElem.1 hq
      simp only [List.length_zip, List.length_tail] at hi
      simp only [List.getElem_zip, List.getElem_tail]
      have hm1 : t[i] ∈ h.t := htt _ (List.getElem_mem _)
      have hm2 : t[i + 1] ∈ h.t := htt _ (List.getElem_mem _)
      have hlt : t[i] < t[i + 1] := List.pairwise_iff_getElem.1 hg.inc i (i + 1) (by omega) (by omega) (by omega)
      have hd : quadVar vol h.stateAt t[i] t[i + 1] = quadVar vol h.stateAt 0 t[i + 1] - quadVar vol h.stateAt 0 t[i] := by
        unfold quadVar
        rw [intervalIntegral.integral_interval_sub_left (hint _ hm2) (hint _ hm1)]
      refine ⟨hd, ?_⟩
      have hinc : (h.t.map (quadVar vol h.stateAt 0)).Pairwise (· < ·) := by
        rw [← hcum]
        refine cumsumFrom_inc 0 _ ?_
        rw [← hsig]; exact hpos
      rw [List.pairwise_map] at hinc
      obtain ⟨j, hj1, hj2⟩ := List.mem_iff_getElem.1 hm1
      obtain ⟨k, hk1, hk2⟩ := List.mem_iff_getElem.1 hm2
      have hjk : j < k := by
        by_contra hle
        rcases (not_lt.1 hle).lt_or_eq with hlt' | heq
        · have := List.pairwise_iff_getElem.1 hv.inc k j hk1 hj1 hlt'
          rw [hj2, hk2] at this; exact absurd hlt (not_lt.2 this.le)
        · subst heq; rw [← hj2, ← hk2] at hlt; exact absurd hlt (lt_irrefl _)
      have := List.pairwise_iff_getElem.1 hinc j k hj1 hk1 hjk
      rw [hj2, hk2] at this
      exact sub_pos.2 this
    rw [hL]
    rw [← hvt] at hQ
    rw [hQ, driftGain_eq hM hsx h.t h.yt h.vt (by rw [hy, hV])]
    ring

/-! ## where the regimes change -/

theorem stAt_congr_gap {l : List (ℝ × ℕ)} {a b : ℝ} (hab : a ≤ b) (h : ∀ p ∈ l, p.1 ≤ b → p.1 ≤ a) : stAt l a = stAt l b := by
  unfold stAt
  congr 2
  refine List.filter_congr fun p hp => ?_
  rw [decide_eq_decide]
  exact ⟨fun h1 => h1.trans hab, h p hp⟩

/-- In an augmentation whose jumps avoid the observation times, regimes change exactly at the other anchors. -/
theorem Augments.jumpsOffObs {ζ : Type} {y : Skel ℝ} (hv : y.Valid) (hr : y.Reduced) {t vt : List ℝ} {z : List ζ} {h : Anchorage ℝ ℝ}
    (ha : Augments y t vt z h) (hoff : ∀ s ∈ y.t, s ≠ 0 → s ∉ t) : h.JumpsOffObs t := by
  intro i a x x' h1 h2 h3
  have hyl := ha.valid.leny
  obtain ⟨hi1, e1⟩ := List.getElem?_eq_some_iff.1 h1
  obtain ⟨hi2, e2⟩ := List.getElem?_eq_some_iff.1 h2
  obtain ⟨hi3, e3⟩ := List.getElem?_eq_some_iff.1 h3
  have hi0 : i < h.t.length := by omega
  have hlt : h.t[i] < a := by rw [← e1]; exact List.pairwise_iff_getElem.1 ha.valid.inc i (i + 1) hi0 hi1 (by omega)
  have hmem0 : (h.t[i], x) ∈ h.t.zip h.yt := List.mem_iff_getElem.2 ⟨i, by simp; omega, by simp [e2]⟩
  have hmem1 : (a, x') ∈ h.t.zip h.yt := List.mem_iff_getElem.2 ⟨i + 1, by simp; omega, by simp [e1, e3]⟩
  have hs0 : y.stateAt h.t[i] = some x := by rw [← ha.state]; exact stAt_self ha.valid.jinc hmem0
  have hs1 : y.stateAt a = some x' := by rw [← ha.state]; exact stAt_self ha.valid.jinc hmem1
  have hgap : ∀ c ∈ h.t, c < a → c ≤ h.t[i] := by
    intro c hc hca
    obtain ⟨j, hj, rfl⟩ := List.mem_iff_getElem.1 hc
    by_contra hcon
    rw [not_le] at hcon
    have hij : i < j := by
      by_contra hle
      rcases (not_lt.1 hle).lt_or_eq with hlt' | heq
      · exact absurd (List.pairwise_iff_getElem.1 ha.valid.inc j i hj hi0 hlt') (not_lt.2 hcon.le)
      · subst heq; exact absurd hcon (lt_irrefl _)
    rcases (show j = i + 1 ∨ i + 1 < j by omega) with rfl | hj'
    · rw [e1] at hca; exact absurd hca (lt_irrefl _)
    · have := List.pairwise_iff_getElem.1 ha.valid.inc (i + 1) j hi1 hj hj'
      rw [e1] at this; exact absurd hca (not_lt.2 this.le)
  have h0le : 0 ≤ h.t[i] := by
    have hh := ha.valid.head
    rw [List.head?_eq_getElem?] at hh
    obtain ⟨hz, ez⟩ := List.getElem?_eq_some_iff.1 hh
    rcases Nat.eq_zero_or_pos i with rfl | hpos
    · rw [ez]
    · have := List.pairwise_iff_getElem.1 ha.valid.inc 0 i hz hi0 hpos
      rw [ez] at this; exact this.le
  have hjt : ∀ p ∈ y.jumps, p.1 ∈ y.t := fun p hp => (List.of_mem_zip (a := p.1) (b := p.2) hp).1
  constructor
  · intro hat
    have hay : a ∉ y.t := fun hc => hoff a hc (h0le.trans_lt hlt).ne' hat
    have : y.stateAt h.t[i] = y.stateAt a := stAt_congr_gap hlt.le fun p hp hpa =>
      hgap p.1 ((ha.anchors p.1).2 (.inr (hjt p hp))) (lt_of_le_of_ne hpa fun e => hay (e ▸ hjt p hp))
    rw [hs0, hs1] at this
    simpa using this
  · intro hxx
    by_contra hat
    have hay : a ∈ y.t := ((ha.anchors a).1 (by rw [← e1]; exact List.getElem_mem _)).resolve_left hat
    obtain ⟨k, hk, ek⟩ := List.mem_iff_getElem.1 hay
    have hkx : k < y.xt.length := by rw [← hv.len]; exact hk
    have hk0 : k ≠ 0 := by
      rintro rfl
      have hh := hv.head
      rw [List.head?_eq_getElem?, List.getElem?_eq_getElem hk, ek] at hh
      simp at hh
      linarith
    obtain ⟨k', rfl⟩ : ∃ k', k = k' + 1 := ⟨k - 1, by omega⟩
    have hm1 : (a, y.xt[k' + 1]) ∈ y.jumps := List.mem_iff_getElem.2 ⟨k' + 1, by simp [Skel.jumps]; omega, by simp [Skel.jumps, ek]⟩
    have hm0 : (y.t[k'], y.xt[k']) ∈ y.jumps := List.mem_iff_getElem.2 ⟨k', by simp [Skel.jumps]; omega, by simp [Skel.jumps]⟩
    have hlt' : y.t[k'] < a := by rw [← ek]; exact List.pairwise_iff_getElem.1 hv.inc k' (k' + 1) (by omega) hk (by omega)
    have g1 : y.stateAt a = some y.xt[k' + 1] := stAt_self hv.jumps_inc hm1
    have g0 : y.stateAt y.t[k'] = some y.xt[k'] := stAt_self hv.jumps_inc hm0
    have hle : y.t[k'] ≤ h.t[i] := hgap _ ((ha.anchors _).2 (.inr (List.getElem_mem _))) hlt'
    have g2 : y.stateAt y.t[k'] = y.stateAt h.t[i] := by
      refine stAt_congr_gap hle fun p hp hpa => ?_
      obtain ⟨j, hj, ej⟩ := List.mem_iff_getElem.1 (hjt p hp)
      have hja : y.t[j] < a := by rw [ej]; exact hpa.trans_lt hlt
      have hjk : j < k' + 1 := by
        by_contra hle'
        rcases (not_lt.1 hle').lt_or_eq with hl | he
        · have := List.pairwise_iff_getElem.1 hv.inc (k' + 1) j hk hj hl
          rw [ek] at this; exact absurd hja (not_lt.2 this.le)
        · subst he; rw [ek] at hja; exact absurd hja (lt_irrefl _)
      rw [← ej]
      rcases (show j = k' ∨ j < k' by omega) with rfl | hl
      · exact le_rfl
      · exact (List.pairwise_iff_getElem.1 hv.inc j k' hj (by omega) hl).le
    have hne : y.xt[k'] ≠ y.xt[k' + 1] := List.isChain_iff_getElem.1 hr k' (by omega)
    rw [g0, hs0] at g2
    rw [g1] at hs1
    simp only [Option.some.injEq] at g2 hs1
    exact hne (by rw [g2, hs1]; exact hxx)

end Ctb
