import Verif.Model.McemEst
import Verif.Spec.McemObjective
import Verif.Spec.Value
import Verif.Props.PoissonEst
import Verif.Props.McemObjective

set_option linter.unusedSectionVars false

/-! # Lemmas on the estimate of the augmented likelihood -/

namespace Ctb

open Classical MeasureTheory
open scoped ENNReal

/-- The weight of one segment. -/
noncomputable def estWeight {σ : Type} (r : Option ℝ × ℝ × σ) : ℝ≥0∞ := expWeight (r.1.map fun v => v + r.2.1)

theorem estWeight_ne_top {σ : Type} (r : Option ℝ × ℝ × σ) : estWeight r ≠ ∞ := by
  unfold estWeight expWeight
  rcases r.1.map fun v => v + r.2.1 with _ | v <;> simp

theorem augSum_weight {σ : Type} (l : ℝ) (r : List (Option ℝ × ℝ × σ)) :
    expWeight (augSum l r) = ENNReal.ofReal (Real.exp l) * (r.map estWeight).prod := by
  induction r generalizing l with
  | nil => simp [augSum, expWeight]
  | cons q r ih =>
    rw [List.map_cons, List.prod_cons]
    obtain ⟨v, b, s⟩ := q
    rcases v with _ | v
    · simp [augSum, estWeight, expWeight]
    · have h : augSum l ((some v, b, s) :: r) = augSum (l + (v + b)) r := by
        simp only [augSum, List.mapM_cons]
        rcases (r.mapM (m := Option) fun (q : Option ℝ × ℝ × σ) => q.1) with _ | e
        · rfl
        · simp
          ring
      rw [h, ih, Real.exp_add, ENNReal.ofReal_mul (by positivity), mul_assoc]
      rfl

theorem mapM'_weight {α β : Type} {f : α → Prog β} {w : β → ℝ≥0∞} {c : α → ℝ≥0∞} (hw : ∀ b, w b ≠ ∞) (hc : ∀ a, c a ≠ ∞) (l : List α)
    (h : ∀ a ∈ l, (f a).lexp (onOk w) = c a) : (Prog.mapM' f l).lexp (onOk fun bs => (bs.map w).prod) = (l.map c).prod := by
  induction l with
  | nil => simp [Prog.mapM', onOk]
  | cons a l ih =>
    have hP : (l.map c).prod ≠ ∞ := by
      clear ih h
      induction l with
      | nil => simp
      | cons a l ih => rw [List.map_cons, List.prod_cons]; exact ENNReal.mul_ne_top (hc a) ih
    rw [Prog.mapM', Prog.lexp_bind, List.map_cons, List.prod_cons, ← h a (by simp), mul_comm, ← Prog.lexp_const_mul _ _ hP]
    refine Prog.lexp_congr fun r _ => ?_
    rcases r with e | b
    · simp [onOk]
    · rw [Prog.cont_ok, Prog.lexp_bind, ← ih fun b hb => h b (by simp [hb])]
      simp only [onOk]
      rw [mul_comm, ← Prog.lexp_const_mul _ _ (hw b)]
      refine Prog.lexp_congr fun r _ => ?_
      rcases r with e | bs
      · simp [onOk]
      · simp [onOk]

theorem seedEst_exp {interp : NormOp → EaSkel → List ℝ → Prog (EaSkel × List ℝ)} {x : EaSkel → ℝ → ℝ} (hi : FixedPaths interp x) {disc : ℝ → ℝ}
    {ebd : ℝ → ℝ → Res DiscBounds} {op : NormOp} {s : EaSkel} (hT : 0 < op.finT) (hsc : 0 < op.scale) (hb : SoundBounds disc ebd)
    (hf : ∀ lo hi, lo < hi → ∃ c l u, ebd lo hi = .ok (c, l, ((u : ℝ) : WithTop ℝ)) ∧ l < u) (hne : s.tight ≠ s.loose)
    (hx : ∀ r, 0 ≤ r → r < 1 → x s r ∈ Set.uIcc s.tight s.loose)
    (hint : IntervalIntegrable (fun t => disc (bridgeAt op.finT op.scale op.x0 op.x1 (x s) t)) volume 0 op.finT) :
    (seedEst (interp op) disc op (boundDiscPath ebd op s (.pieces 1)) s).lexp (onOk estWeight) =
      ENNReal.ofReal (Real.exp (-∫ t in (0 : ℝ)..op.finT, disc (bridgeAt op.finT op.scale op.x0 op.x1 (x s) t))) := by
  obtain ⟨l, u, hlu, hbd⟩ : ∃ l u, l < u ∧ boundDiscPath ebd op s (.pieces 1) = .ok ([0, op.finT], [l], [((u : ℝ) : WithTop ℝ)]) := by
    set lo := if s.tight < s.loose then s.tight else s.loose with hlo
    set up := if s.tight < s.loose then s.loose else s.tight with hup
    have hlt : lo < up := by
      rw [hlo, hup]
      split_ifs with h
      · exact h
      · exact lt_of_le_of_ne (not_lt.1 h) hne.symm
    have hlt' : lo * op.scale < up * op.scale := mul_lt_mul_of_pos_right hlt hsc
    obtain ⟨c, l, u, he, hlu⟩ := hf (min (lo * op.scale + op.x1) (lo * op.scale + op.x0)) (max (up * op.scale + op.x1) (up * op.scale + op.x0))
      (lt_of_le_of_lt (min_le_left _ _) (lt_of_lt_of_le (by linarith) (le_max_left _ _)))
    refine ⟨l, u, hlu, ?_⟩
    have r2 : List.range (1 + 1) = [0, 1] := rfl
    unfold boundDiscPath
    have e1 : (if s.tight < s.loose then (s.tight, s.loose) else (s.loose, s.tight)) = (lo, up) := by
      rw [hlo, hup]; split_ifs <;> rfl
    simp only [e1, Grid.normed, r2, List.map_cons, List.map_nil, List.tail_cons, List.dropLast, List.zipWith_cons_cons, List.zipWith_nil_left]
    simp [NormOp.denorm, listOk, he, Except.bind]
  have hu : ∀ t, 0 ≤ t → t < op.finT → disc (bridgeAt op.finT op.scale op.x0 op.x1 (x s) t) ≤ u := by
    intro t h0 h1
    have := (C53_brackets hT hsc.le hb hbd).2.2 0 0 op.finT l u rfl rfl rfl rfl t h0 h1.le (x s (t / op.finT)) (hx _ (by positivity) ((div_lt_one hT).2 h1))
    have := WithTop.coe_le_coe.1 this.2
    rwa [show pathVal op t (x s (t / op.finT)) = bridgeAt op.finT op.scale op.x0 op.x1 (x s) t by unfold pathVal bridgeAt; ring] at this
  have hm : maxGap [l] [(u : WithTop ℝ)] = .ok ((u - l : ℝ) : WithTop ℝ) := rfl
  have hf' : (op.denorm 1 none).1 = op.finT := by simp [NormOp.denorm]
  have key := est_tail (σ := EaSkel) (X := bridgeAt op.finT op.scale op.x0 op.x1 (x s)) (k := 0) (s := s) (sub_pos.2 hlu) hT hu hint
    (fun s => (stLbDisc [0, op.finT] [l], s)) rfl
  have hst : stLbDisc [0, op.finT] [l] = -(op.finT * l) := by simp [stLbDisc, npDiff]
  rw [hbd]
  unfold seedEst
  simp only [Prog.lift, Prog.ret_bind, hm, hf', hi _ _ _]
  simp only [add_zero, Prog.lift] at key
  simp only [List.map_map, List.length_map, Function.comp_def, hst] at key ⊢
  have e : -∫ t in (0 : ℝ)..op.finT, disc (bridgeAt op.finT op.scale op.x0 op.x1 (x s) t) =
      -(op.finT * l) + (u * op.finT - (∫ t in (0 : ℝ)..op.finT, disc (bridgeAt op.finT op.scale op.x0 op.x1 (x s) t)) - (u - l) * op.finT) := by ring
  rw [e, Real.exp_add, ENNReal.ofReal_mul (by positivity), ← key, ← Prog.lexp_const_mul _ _ ENNReal.ofReal_ne_top]
  refine Prog.lexp_congr fun r hr => ?_
  rcases r with er | ⟨v, b, s'⟩
  · simp [onOk, expFirst]
  · have hbv : b = -(op.finT * l) := by
      rw [Prog.out_bind_ok] at hr
      obtain ⟨rows, -, hr⟩ := hr
      by_cases h0 : rows = []
      · rw [if_pos h0, Prog.out_ret] at hr
        cases hr
        rfl
      · rw [if_neg h0, Prog.out_bind_ok] at hr
        obtain ⟨_, -, hr⟩ := hr
        rw [Prog.out_ret] at hr
        cases hr
        rfl
    subst hbv
    rcases v with _ | v
    · simp [onOk, estWeight, expFirst, expWeight]
    · simp only [onOk, estWeight, expFirst, expWeight, Option.map_some]
      rw [← ENNReal.ofReal_mul (by positivity), ← Real.exp_add, add_comm]

theorem ito_zip_segs {σ : Type} {p : ℕ} (M : ItoFns p) (thi : Fin p → ℝ) (t vt : List ℝ) (z : List σ) :
    z.zip (itoNormops M thi t vt) = (emSegs (M.reduce thi) t vt z).map fun q => (q.2.2.2, (⟨q.1, Real.sqrt q.1, q.2.1, q.2.2.1⟩ : NormOp)) := by
  apply List.ext_getElem
  · simp only [itoNormops, emSegs, List.length_zip, List.length_map, List.length_tail]
    omega
  · intro i h1 h2
    simp [itoNormops, emSegs]

theorem sw_zip_segs {σ : Type} {p : ℕ} (M : RegimeFns p) (thi : Thi p) {h : Anchorage ℝ ℝ} (hL : h.LenOk) (z : List σ) :
    z.zip (h.yt.zip (swNormops M thi h.t h.yt h.vt)) = (emSegsSw M.reduce h.t h.yt h.vt z).map fun q =>
      (q.2.2.2.2, q.2.1, (⟨q.1, Real.sqrt q.1 * M.vol thi q.2.1, q.2.2.1, q.2.2.2.1⟩ : NormOp)) := by
  have l1 := hL.yt
  have l2 := hL.vt
  apply List.ext_getElem
  · simp only [swNormops, emSegsSw, List.length_zip, List.length_map, List.length_tail, List.length_dropLast, npDiff_len]
    omega
  · intro i h1 h2
    simp [swNormops, emSegsSw]

theorem prod_exp_sum {α : Type} (l : List α) (f : α → ℝ) :
    (l.map fun a => ENNReal.ofReal (Real.exp (-f a))).prod = ENNReal.ofReal (Real.exp (-(l.map f).sum)) := by
  induction l with
  | nil => simp
  | cons a l ih =>
    rw [List.map_cons, List.prod_cons, ih, List.map_cons, List.sum_cons, neg_add, Real.exp_add, ENNReal.ofReal_mul (by positivity)]

end Ctb
