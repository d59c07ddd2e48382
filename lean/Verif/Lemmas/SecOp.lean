import Verif.Lemmas.EdgeKer
import Verif.Lemmas.GapOp

set_option linter.unusedSectionVars false

/-! # The sectors of a skeleton as operators -/

namespace Ctb

open Classical MeasureTheory Set
open scoped ENNReal

variable {U m : ℝ} {n k : ℕ} {newT : List ℝ}

/-- Durations between consecutive times. -/
def durs : ℝ → List ℝ → List ℝ
  | _, [] => []
  | s, r :: l => (r - s) :: durs r l

theorem durs_length : ∀ (l : List ℝ) (s : ℝ), (durs s l).length = l.length
  | [], _ => rfl
  | r :: l, s => by simp [durs, durs_length l]

theorem durs_append : ∀ (l l' : List ℝ) (s : ℝ), durs s (l ++ l') = durs s l ++ durs (l.getLastD s) l'
  | [], l', s => rfl
  | r :: l, l', s => by
    rw [List.cons_append, durs, durs, durs_append l l' r, List.getLastD_cons]
    rfl

theorem durs_sum : ∀ (l : List ℝ) (s t : ℝ), (durs s (l ++ [t])).sum = t - s
  | [], s, t => by simp [durs]
  | r :: l, s, t => by simp [durs, durs_sum l r t]

theorem durs_pos : ∀ {l : List ℝ} {s : ℝ}, (s :: l).Pairwise (· < ·) → ∀ v ∈ durs s l, 0 < v
  | [], _, _ => by simp [durs]
  | r :: l, s, h => by
    rw [List.pairwise_cons] at h
    intro v hv
    rcases List.mem_cons.1 hv with rfl | hv
    · exact sub_pos.2 (h.1 r List.mem_cons_self)
    · exact durs_pos h.2 v hv

theorem cumsumFrom_durs : ∀ (l : List ℝ) (s c : ℝ), cumsumFrom c (durs s l) = l.map (fun r => r - s + c)
  | [], _, _ => rfl
  | r :: l, s, c => by
    simp only [durs, cumsumFrom, List.map_cons, cumsumFrom_durs l r]
    congr 1
    · ring
    · refine List.map_congr_left fun q _ => by ring

theorem npCumsum_durs (l : List ℝ) (s : ℝ) : npCumsum (durs s l) = l.map (· - s) := by
  rw [npCumsum, cumsumFrom_durs]
  simp

/-- Durations in the gap from `s` to `t` that is cut at the new times. -/
noncomputable def stepsIn (newT : List ℝ) (s t : ℝ) : List ℝ := durs s (between newT s t ++ [t])

theorem stepsIn_length (s t : ℝ) : (stepsIn newT s t).length - 1 = (between newT s t).length := by simp [stepsIn, durs_length]

theorem stepsIn_ne (s t : ℝ) : stepsIn newT s t ≠ [] := by
  rw [← List.length_pos_iff, stepsIn, durs_length]
  simp

theorem stepsIn_sum (s t : ℝ) : (stepsIn newT s t).sum = t - s := durs_sum _ _ _

theorem between_mem {s t r : ℝ} (h : r ∈ between newT s t) : r ∈ newT ∧ s < r ∧ r < t := by simpa [between] using h

theorem between_sorted (hN : newT.Pairwise (· < ·)) {s t : ℝ} (h : s < t) : (s :: (between newT s t ++ [t])).Pairwise (· < ·) := by
  rw [List.pairwise_cons, List.pairwise_append]
  refine ⟨fun r hr => ?_, hN.filter _, by simp, fun a ha b hb => ?_⟩
  · rcases List.mem_append.1 hr with hr | hr
    · exact (between_mem hr).2.1
    · rw [List.mem_singleton.1 hr]
      exact h
  · rw [List.mem_singleton.1 hb]
    exact (between_mem ha).2.2

theorem stepsIn_pos (hN : newT.Pairwise (· < ·)) {s t : ℝ} (h : s < t) : ∀ v ∈ stepsIn newT s t, 0 < v := durs_pos (between_sorted hN h)

theorem stepsIn_grid (s t : ℝ) : (npCumsum (stepsIn newT s t)).dropLast = (between newT s t).map (· - s) := by
  rw [stepsIn, npCumsum_durs]
  simp

/-! ## monotone in the function -/

theorem kerInt_monoL {k : ℝ → ℝ → ℝ → ℝ≥0∞} (x1 : ℝ) : ∀ (vs : List ℝ) (x : ℝ) {F G : List ℝ → ℝ≥0∞}, (∀ l, l.length = vs.length - 1 → F l ≤ G l) → kerInt k x1 vs x F ≤ kerInt k x1 vs x G
  | [], _, _, _, _ => le_rfl
  | [v], _, F, G, h => by simp only [kerInt]; gcongr; exact h _ rfl
  | v :: w :: vs, x, F, G, h => by
    simp only [kerInt]
    exact lintegral_mono fun y => mul_le_mul' le_rfl (kerInt_monoL x1 (w :: vs) y fun l hl => h (y :: l) (by simpa using hl))

theorem startInt_monoL {e : ℝ → ℝ → ℝ≥0∞} {k : ℝ → ℝ → ℝ → ℝ≥0∞} (x1 : ℝ) (vs : List ℝ) {F G : List ℝ → ℝ≥0∞} (h : ∀ l, l.length = vs.length - 1 → F l ≤ G l) :
    startInt e k x1 vs F ≤ startInt e k x1 vs G := by
  match vs, h with
  | [], _ => exact le_rfl
  | [v], h => simp only [startInt]; gcongr; exact h _ rfl
  | v :: w :: vs, h =>
    simp only [startInt]
    exact lintegral_mono fun y => mul_le_mul' le_rfl (kerInt_monoL x1 (w :: vs) y fun l hl => h (y :: l) (by simpa using hl))

theorem splitInt_monoL {E : ℝ → ℝ → ℝ → ℝ≥0∞} {K : ℝ → ℝ → ℝ → ℝ → ℝ≥0∞} (m b : ℝ) : ∀ (vs : List ℝ) (x s : ℝ) {F G : List ℝ → ℝ≥0∞}, (∀ l, l.length = vs.length - 1 → F l ≤ G l) →
    splitInt E K m b vs x s F ≤ splitInt E K m b vs x s G
  | [], _, _, _, _, _ => le_rfl
  | [v], _, _, F, G, h => by simp only [splitInt]; gcongr; exact h _ rfl
  | v :: w :: vs, x, s, F, G, h => by
    simp only [splitInt]
    split_ifs
    · exact mul_le_mul' le_rfl (lintegral_mono fun y => mul_le_mul' le_rfl (kerInt_monoL b (w :: vs) y fun l hl => h (y :: l) (by simpa using hl)))
    · exact lintegral_mono fun y => mul_le_mul' le_rfl (splitInt_monoL m b (w :: vs) y (s - v) fun l hl => h (y :: l) (by simpa using hl))

theorem secInt_monoL (vs : List ℝ) (x y : ℝ) {F G : List ℝ → ℝ≥0∞} (h : ∀ l, l.length = vs.length - 1 → F l ≤ G l) : secInt U m n vs x y F ≤ secInt U m n vs x y G := by
  unfold secInt
  split_ifs with h1
  · exact mul_le_mul' le_rfl (h [] (by simp [h1]))
  · exact mul_le_mul' le_rfl (startInt_monoL _ _ h)
  · exact mul_le_mul' le_rfl (startInt_monoL _ _ fun l hl => h _ (by simpa using hl))
  · refine mul_le_mul' le_rfl (lintegral_mono fun m' => lintegral_mono fun s => ?_)
    split_ifs
    · exact mul_le_mul' le_rfl (mul_le_mul' le_rfl (splitInt_monoL _ _ _ _ _ h))
    · exact le_rfl

theorem kerInt_iSup {k : ℝ → ℝ → ℝ → ℝ≥0∞} (hk : MeasK fun _ : Unit => k) (x1 : ℝ) : ∀ (vs : List ℝ) (x : ℝ) {F : ℕ → List ℝ → ℝ≥0∞}, (∀ n, MeasL (vs.length - 1) fun _ : Unit => F n) →
    (∀ l, Monotone fun n => F n l) → kerInt k x1 vs x (fun l => ⨆ n, F n l) = ⨆ n, kerInt k x1 vs x (F n)
  | [], _, _, _, _ => by simp [kerInt]
  | [v], x, F, _, hm => by simp only [kerInt]; rw [ENNReal.mul_iSup]
  | v :: w :: vs, x, F, hF, hm => by
    have hF' : ∀ n, MeasL ((w :: vs).length - 1) fun (y : ℝ) l => F n (y :: l) := fun n =>
      (MeasL.cons (hF n)).comp (φ := fun y : ℝ => ((), y)) (measurable_const.prodMk measurable_id)
    simp only [kerInt]
    rw [← lintegral_iSup]
    · refine lintegral_congr fun y => ?_
      rw [kerInt_iSup hk x1 (w :: vs) y (F := fun n l => F n (y :: l)) (fun n => (hF' n).const y) fun l => hm _, ENNReal.mul_iSup]
    · exact fun n => (hk.apply v (Y := ℝ) (p := fun _ => ()) measurable_const measurable_const measurable_id).mul (kerInt_measurable' x1 (w :: vs) hk (hF' n) measurable_id)
    · exact fun i j hij y => mul_le_mul' le_rfl (kerInt_mono x1 (w :: vs) y fun l => hm _ hij)

/-! ## the operators -/

/-- The law of the new values in a gap at a finite budget. -/
noncomputable def secOp (U m : ℝ) (newT : List ℝ) (n : ℕ) : GapOp := fun s t x y F =>
  if s < t ∧ Good U m x y then secInt U m n (stepsIn newT s t) x y F / edgeKer U m (t - s) x y else 0

/-- The law of the new values in a gap. -/
noncomputable def limOp (U m : ℝ) (newT : List ℝ) : GapOp := fun s t x y F =>
  if s < t ∧ Good U m x y then kerInt (edgeKer U m) y (stepsIn newT s t) x F / edgeKer U m (t - s) x y else 0

theorem gapLim_sec (U m : ℝ) (hN : newT.Pairwise (· < ·)) : GapLim (fun s t => (between newT s t).length) (secOp U m newT) (limOp U m newT) where
  lin n := by
    refine ⟨fun s t X _ F x y hF hx hy => ?_, fun s t x y F G h => ?_⟩
    · unfold secOp
      by_cases h : s < t
      · simp only [h, true_and]
        refine Measurable.ite (measurableSet_Good U m hx hy) (Measurable.div (secInt_measurable n _ ?_ hx hy) ((measK_edge U m).apply _ (p := fun _ => ()) measurable_const hx hy)) measurable_const
        rwa [stepsIn_length]
      · simp [h]
    · unfold secOp
      split_ifs
      · refine ENNReal.div_le_div_right (secInt_monoL _ x y fun l hl => h l ?_) _
        rwa [stepsIn_length] at hl
      · exact le_rfl
  lim := by
    refine ⟨fun s t X _ F x y hF hx hy => ?_, fun s t x y F G h => ?_⟩
    · unfold limOp
      by_cases h : s < t
      · simp only [h, true_and]
        refine Measurable.ite (measurableSet_Good U m hx hy) (Measurable.div (kerInt_measurable_end _ ((measK_edge U m).comp (φ := fun _ : X => ()) measurable_const) ?_ hx hy)
          ((measK_edge U m).apply _ (p := fun _ => ()) measurable_const hx hy)) measurable_const
        rwa [stepsIn_length]
      · simp [h]
    · unfold limOp
      split_ifs
      · refine ENNReal.div_le_div_right (kerInt_monoL _ _ x fun l hl => h l ?_) _
        rwa [stepsIn_length] at hl
      · exact le_rfl
  mono s t x y F _ i j hij := by
    unfold secOp
    simp only
    split_ifs
    · exact ENNReal.div_le_div_right (secInt_mono _ x y F hij) _
    · exact le_rfl
  sup s t x y F hF := by
    unfold secOp limOp
    split_ifs with h
    · rw [← ENNReal.iSup_div]
      congr 1
      have hF' : MeasL ((stepsIn newT s t).length - 1) fun _ : Unit => F := by rwa [stepsIn_length]
      rw [← kerInt_ofLen, ← secInt_sup h.2 (stepsIn_ne s t) (stepsIn_pos hN h.1) (measAll_ofLen hF')]
      refine iSup_congr fun n => le_antisymm (secInt_monoL _ x y fun l hl => ?_) (secInt_monoL _ x y fun l hl => ?_)
      · simp [ofLen, hl]
      · simp [ofLen, hl]
    · simp
  cont s t x y F hF hm := by
    unfold limOp
    split_ifs
    · rw [kerInt_iSup (measK_edge U m) y _ x (by rwa [stepsIn_length]) hm, ENNReal.iSup_div]
    · simp

/-- The sampler of a gap. -/
theorem secBr_op {s t x y : ℝ} {F : List ℝ → ℝ≥0∞} (hk : 0 < k) (hN : newT.Pairwise (· < ·)) (hst : s < t) (h : Good U m x y) (hF : MeasL (between newT s t).length fun _ : Unit => F) :
    (secBr n k ((between newT s t).map (· - s)) (t - s) x y m (some U)).lexp (onOk fun q => F q.1) = secOp U m newT n s t x y F := by
  have hF' : MeasL ((stepsIn newT s t).length - 1) fun _ : Unit => F := by rwa [stepsIn_length]
  have e := secBr_law (n := n) hk h (stepsIn_ne (newT := newT) s t) (stepsIn_pos hN hst) (measAll_ofLen hF')
  rw [stepsIn_grid, stepsIn_sum] at e
  obtain ⟨h1, h2⟩ := edgeKer_pos (sub_pos.2 hst) h
  have e1 : (secBr n k ((between newT s t).map (· - s)) (t - s) x y m (some U)).lexp (onOk fun q => ofLen ((stepsIn newT s t).length - 1) F q.1) =
      (secBr n k ((between newT s t).map (· - s)) (t - s) x y m (some U)).lexp (onOk fun q => F q.1) := by
    refine Prog.lexp_congr ?_
    rintro (e | q) hq
    · rfl
    · simp only [onOk, ofLen]
      rw [if_pos]
      rw [stepsIn_length]
      unfold secBr at hq
      split_ifs at hq with h0
      · rw [Prog.out_ret] at hq
        cases hq
        rw [List.map_eq_nil_iff] at h0
        simp [h0]
      · obtain ⟨j, hp, -⟩ := sampleLayerbr_out hq
        rw [hp.len, List.length_map]
  have e2 : secInt U m n (stepsIn newT s t) x y (ofLen ((stepsIn newT s t).length - 1) F) = secInt U m n (stepsIn newT s t) x y F :=
    le_antisymm (secInt_monoL _ x y fun l hl => by simp [ofLen, hl]) (secInt_monoL _ x y fun l hl => by simp [ofLen, hl])
  rw [e1, e2] at e
  rw [secOp, if_pos ⟨hst, h⟩, ← e, mul_comm, ENNReal.mul_div_cancel_right h1 h2]

end Ctb
