import Verif.Lemmas.PathWeights

/-! # The edge and the minimum of a bridge in a layer -/

set_option linter.unusedSectionVars false

namespace Ctb

open MeasureTheory Set Filter Topology
open scoped ENNReal

variable {U K m v x : ℝ}

theorem npDiff_cumsumFrom : ∀ (vs : List ℝ) (c : ℝ), npDiff (c :: cumsumFrom c vs) = vs
  | [], _ => rfl
  | v :: vs, c => by
    have ih := npDiff_cumsumFrom vs (c + v)
    simp only [cumsumFrom]
    rw [npDiff, ih]
    congr 1
    ring

theorem npDiff_grid {vs : List ℝ} (hne : vs ≠ []) : npDiff (0 :: (npCumsum vs).dropLast ++ [vs.sum]) = vs := by
  have h := cumsumFrom_last vs hne 0
  rw [zero_add] at h
  rw [List.cons_append]
  unfold npCumsum
  rw [← h, npDiff_cumsumFrom]

/-- The gaps of a path from `x` to `x1`. -/
def gapL (x1 : ℝ) (vs : List ℝ) (x : ℝ) (l : List ℝ) : List (ℝ × ℝ × ℝ) := vs.zip ((x :: l ++ [x1]).dropLast.zip (x :: l ++ [x1]).tail)

theorem gapL_one (x1 v x : ℝ) : gapL x1 [v] x [] = [(v, x, x1)] := rfl

theorem gapL_cons (x1 v w : ℝ) (vs : List ℝ) (x y : ℝ) (l : List ℝ) : gapL x1 (v :: w :: vs) x (y :: l) = (v, x, y) :: gapL x1 (w :: vs) y l := by
  simp [gapL]

theorem any_chain (K x1 : ℝ) : ∀ (vs : List ℝ) (x : ℝ) (l : List ℝ), vs ≠ [] → (∀ v ∈ vs, 0 < v) → 0 < x → l.length = vs.length - 1 →
    ∃ W, pathW (escK K) x1 vs x l + W = pathW okK x1 vs x l ∧ ∀ f : Bool → ℝ≥0∞,
      (Prog.mapM' (fun g => besEsc g.1 g.2.1 g.2.2 K none none) (gapL x1 vs x l)).lexp (onOk fun es => f (es.any id)) =
        pathW (escK K) x1 vs x l * f false + W * f true
  | [], _, _, h, _, _, _ => absurd rfl h
  | [v], x, [], _, hp, hx, _ => by
    obtain ⟨r, hr, h⟩ := gap_K (hp v (by simp)) hx x1 K
    refine ⟨r, hr, fun f => ?_⟩
    rw [gapL_one, Prog.mapM', Prog.lexp_bind, pathW, ← h f]
    refine Prog.lexp_congr fun e _ => ?_
    rcases e with e | e <;> simp [Prog.mapM', onOk, Prog.cont]
  | [v], x, y :: l, _, _, _, hl => by simp at hl
  | v :: w :: vs, x, [], _, _, _, hl => by simp at hl
  | v :: w :: vs, x, y :: l, _, hp, hx, hl => by
    obtain ⟨r, hr, h⟩ := gap_K (hp v (by simp)) hx y K
    by_cases hy : 0 < y
    · obtain ⟨W, hW, ih⟩ := any_chain K x1 (w :: vs) y l (by simp) (fun u hu => hp u (List.mem_cons_of_mem _ hu)) hy (by simpa using hl)
      refine ⟨escK K v x y * W + r * pathW okK x1 (w :: vs) y l, ?_, fun f => ?_⟩
      · rw [pathW, pathW, ← hr, ← hW]; ring
      · have hin : ∀ b : Bool, (Prog.mapM' (fun g => besEsc g.1 g.2.1 g.2.2 K none none) (gapL x1 (w :: vs) y l)).lexp (onOk fun es => f ((b :: es).any id)) =
            pathW (escK K) x1 (w :: vs) y l * f b + W * f true := by
          intro b
          have := ih fun c => f (b || c)
          simpa using this
        have hcont : (Prog.mapM' (fun g => besEsc g.1 g.2.1 g.2.2 K none none) (gapL x1 (v :: w :: vs) x (y :: l))).lexp (onOk fun es => f (es.any id)) =
            (besEsc v x y K none none).lexp (onOk fun b => pathW (escK K) x1 (w :: vs) y l * f b + W * f true) := by
          rw [gapL_cons, Prog.mapM', Prog.lexp_bind]
          refine Prog.lexp_congr fun e _ => ?_
          rcases e with e | b
          · rfl
          · rw [Prog.cont_ok, Prog.lexp_bind, onOk, ← hin b]
            refine Prog.lexp_congr fun e _ => ?_
            rcases e with e | es <;> rfl
        rw [hcont, h, pathW, ← hW]
        ring
    · have hz : okK v x y = 0 := if_neg fun h => hy h.2
      have hq : escK K v x y = 0 := by
        rw [hz] at hr; exact (add_eq_zero.1 hr).1
      refine ⟨0, ?_, fun f => ?_⟩
      · rw [pathW, pathW, hz, hq]; simp
      · rw [pathW, hq, gapL_cons, Prog.mapM', Prog.lexp_bind]
        have : (besEsc v x y K none none).lexp (onOk fun _ : Bool => (∞ : ℝ≥0∞)) = 0 := besEsc_bad (not_lt.1 hy) _
        simp only [zero_mul, add_zero]
        refine le_antisymm ((Prog.lexp_mono _ fun e => ?_).trans_eq this) zero_le
        rcases e with e | b
        · simp [Prog.cont, onOk]
        · simp [onOk]

theorem any_start {K x1 : ℝ} {vs l : List ℝ} (hK : 0 < K) (hne : vs ≠ []) (hp : ∀ v ∈ vs, 0 < v) (hl : l.length = vs.length - 1) :
    ∃ W, startW (escE K) (escK K) x1 vs l + W = startW okE okK x1 vs l ∧ ∀ f : Bool → ℝ≥0∞,
      (Prog.mapM' (fun g => besEsc g.1 g.2.1 g.2.2 K none none) (gapL x1 vs 0 l)).lexp (onOk fun es => f (es.any id)) =
        startW (escE K) (escK K) x1 vs l * f false + W * f true := by
  match vs, l, hne with
  | [v], [], _ =>
    obtain ⟨r, hr, h⟩ := gap_E (hp v (by simp)) x1 K hK
    refine ⟨r, hr, fun f => ?_⟩
    rw [gapL_one, Prog.mapM', Prog.lexp_bind, startW, ← h f]
    refine Prog.lexp_congr fun e _ => ?_
    rcases e with e | e <;> simp [Prog.mapM', onOk, Prog.cont]
  | [v], y :: l, _ => simp at hl
  | v :: w :: vs, [], _ => simp at hl
  | v :: w :: vs, y :: l, _ =>
    obtain ⟨r, hr, h⟩ := gap_E (hp v (by simp)) y K hK
    by_cases hy : 0 < y
    · obtain ⟨W, hW, ih⟩ := any_chain K x1 (w :: vs) y l (by simp) (fun u hu => hp u (List.mem_cons_of_mem _ hu)) hy (by simpa using hl)
      refine ⟨escE K v y * W + r * pathW okK x1 (w :: vs) y l, ?_, fun f => ?_⟩
      · rw [startW, startW, ← hr, ← hW]; ring
      · have hin : ∀ b : Bool, (Prog.mapM' (fun g => besEsc g.1 g.2.1 g.2.2 K none none) (gapL x1 (w :: vs) y l)).lexp (onOk fun es => f ((b :: es).any id)) =
            pathW (escK K) x1 (w :: vs) y l * f b + W * f true := by
          intro b
          have := ih fun c => f (b || c)
          simpa using this
        have hcont : (Prog.mapM' (fun g => besEsc g.1 g.2.1 g.2.2 K none none) (gapL x1 (v :: w :: vs) 0 (y :: l))).lexp (onOk fun es => f (es.any id)) =
            (besEsc v 0 y K none none).lexp (onOk fun b => pathW (escK K) x1 (w :: vs) y l * f b + W * f true) := by
          rw [gapL_cons, Prog.mapM', Prog.lexp_bind]
          refine Prog.lexp_congr fun e _ => ?_
          rcases e with e | b
          · rfl
          · rw [Prog.cont_ok, Prog.lexp_bind, onOk, ← hin b]
            refine Prog.lexp_congr fun e _ => ?_
            rcases e with e | es <;> rfl
        rw [hcont, h, startW, ← hW]
        ring
    · have hz : okE v y = 0 := if_neg hy
      have hq : escE K v y = 0 := by
        rw [hz] at hr; exact (add_eq_zero.1 hr).1
      refine ⟨0, ?_, fun f => ?_⟩
      · rw [startW, startW, hz, hq]; simp
      · rw [startW, hq, gapL_cons, Prog.mapM', Prog.lexp_bind]
        have : (besEsc v 0 y K none none).lexp (onOk fun _ : Bool => (∞ : ℝ≥0∞)) = 0 := besEsc_bad (not_lt.1 hy) _
        simp only [zero_mul, add_zero]
        refine le_antisymm ((Prog.lexp_mono _ fun e => ?_).trans_eq this) zero_le
        rcases e with e | b
        · simp [Prog.cont, onOk]
        · simp [onOk]

/-- Chance of success of `n` independent trials. -/
noncomputable def trials (n : ℕ) (α : ℝ≥0∞) : ℝ≥0∞ := 1 - (1 - α) ^ n

theorem trials_succ (n : ℕ) {α : ℝ≥0∞} (hα : α ≤ 1) : trials (n + 1) α = α + (1 - α) * trials n α := by
  unfold trials
  have h1 : (1 - α) ≤ 1 := tsub_le_self
  have hf : (1 - α) ≠ ∞ := (h1.trans_lt ENNReal.one_lt_top).ne
  have hle : (1 - α) ^ (n + 1) ≤ 1 - α := by
    rw [pow_succ']
    exact mul_le_of_le_one_right zero_le (pow_le_one₀ zero_le h1)
  rw [ENNReal.mul_sub fun _ _ => hf, mul_one, ← pow_succ', ← (ENNReal.cancel_of_ne (ENNReal.pow_ne_top hf)).add_tsub_assoc_of_le hle, add_tsub_cancel_of_le hα]

/-- Repeat until success. -/
theorem loop_solve {κ σ W S : ℝ≥0∞} {M : ℕ → ℝ≥0∞} (h0 : κ ≠ 0) (ht : κ ≠ ∞) (hW : σ + W = κ) (hM0 : M 0 = 0) (hM : ∀ n, κ * M (n + 1) = S + W * M n) (n : ℕ) :
    σ * M n = trials n (σ / κ) * S := by
  have hσ : σ ≠ ∞ := ne_top_of_le_ne_top ht (hW ▸ le_self_add)
  have hα : σ / κ ≤ 1 := ENNReal.div_le_of_le_mul (by rw [one_mul, ← hW]; exact le_self_add)
  have e1 : σ / κ * κ = σ := ENNReal.div_mul_cancel h0 ht
  have e2 : (1 - σ / κ) * κ = W := by
    rw [ENNReal.sub_mul fun _ _ => ht, one_mul, e1, ← hW, ENNReal.add_sub_cancel_left hσ]
  induction n with
  | zero => rw [hM0, mul_zero]; simp [trials]
  | succ n ih =>
    calc σ * M (n + 1) = σ / κ * (κ * M (n + 1)) := by rw [← mul_assoc, e1]
      _ = σ / κ * S + (1 - σ / κ) * (σ / κ * κ) * M n := by rw [hM, ← e2]; ring
      _ = σ / κ * S + (1 - σ / κ) * (σ * M n) := by rw [e1]; ring
      _ = _ := by rw [ih, trials_succ n hα]; ring

theorem trials_le (n : ℕ) (α : ℝ≥0∞) : trials n α ≤ 1 := tsub_le_self

theorem measurable_trials (n : ℕ) : Measurable (trials n) := by
  unfold trials
  fun_prop

/-- The part of the proposals that is rejected. -/
theorem escE_mul (K v b : ℝ) : entrDens 0 v b * escE K v b = stripEntr K 0 v b := by
  by_cases h : 0 < v ∧ 0 < b
  · have := entrDens_pos h.1 h.2
    rw [escE, ENNReal.mul_div_cancel this.1 this.2]
  · have : stripEntr K 0 v b = 0 := by
      rcases not_and_or.1 h with h | h
      · exact stripEntr_nonpos (not_lt.1 h)
      · exact stripEntr_low (not_lt.1 h)
    rw [escE, this, ENNReal.zero_div, mul_zero]

theorem escK_mul (K v a b : ℝ) : killDens 0 v a b * escK K v a b = stripDens K 0 v a b := by
  by_cases h : 0 < v ∧ 0 < a ∧ 0 < b
  · have := killDens_pos h.1 (lt_min h.2.1 h.2.2)
    rw [escK, ENNReal.mul_div_cancel this.1 this.2]
  · have : stripDens K 0 v a b = 0 := by
      by_cases hv : 0 < v
      · exact if_neg fun h' => h ⟨hv, h'.1, h'.2.2.1⟩
      · exact stripDens_nonpos (not_lt.1 hv)
    rw [escK, this, ENNReal.zero_div, mul_zero]

theorem okE_mul (v b : ℝ) : entrDens 0 v b * okE v b = entrDens 0 v b := by
  unfold entrDens okE
  split_ifs <;> simp

theorem okK_mul (v a b : ℝ) : killDens 0 v a b * okK v a b = killDens 0 v a b := by
  unfold killDens okK
  split_ifs <;> simp

theorem measK_escK (K : ℝ) : MeasK fun _ : Unit => escK K := fun v =>
  ((measK_strip K v).comp (by fun_prop : Measurable fun p : Unit × ℝ × ℝ => ((0 : ℝ), p.2))).div ((measK_kill v).comp (by fun_prop : Measurable fun p : Unit × ℝ × ℝ => ((0 : ℝ), p.2)))

theorem measK_okK : MeasK fun _ : Unit => okK := fun v => by
  unfold okK
  refine Measurable.ite ?_ measurable_const measurable_const
  exact (measurableSet_lt measurable_const (by fun_prop : Measurable fun p : Unit × ℝ × ℝ => p.2.1)).inter (measurableSet_lt measurable_const (by fun_prop : Measurable fun p : Unit × ℝ × ℝ => p.2.2))

theorem measurable_escE (K v : ℝ) : Measurable (escE K v) :=
  ((measurable_stripEntr K).comp (by fun_prop : Measurable fun y : ℝ => ((0 : ℝ), v, y))).div ((measurable_entrDens v).comp (by fun_prop : Measurable fun y : ℝ => ((0 : ℝ), y)))

theorem measurable_okE (v : ℝ) : Measurable (okE v) := by
  unfold okE
  exact Measurable.ite (measurableSet_lt measurable_const measurable_id) measurable_const measurable_const

theorem trial_law {β : Type} {x : ℝ} {vs : List ℝ} {G : List ℝ → ℝ≥0∞} {body : List ℝ → Prog β} {g : Res β → ℝ≥0∞} (hx : 0 < x) (hne : vs ≠ []) (hp : ∀ v ∈ vs, 0 < v)
    (hG : MeasL (vs.length - 1) fun _ : Unit => G) (h : ∀ l, l.length = vs.length - 1 → (body l).lexp g = G l) :
    entrDens 0 vs.sum x * ((if (npCumsum vs).dropLast = [] then Prog.ret [] else sampleBesselbr (npCumsum vs).dropLast vs.sum x 3).bind body).lexp g =
      startInt (entrDens 0) (killDens 0) x vs G := by
  match vs, hne with
  | [v], _ =>
    rw [if_pos (grid_one v), Prog.ret_bind, h [] rfl]
    simp [startInt]
  | v :: w :: vs, _ =>
    rw [if_neg (by rw [grid_cons]; simp), Prog.lexp_bind, startInt_congr x (v :: w :: vs) fun l hl => (h l hl).symm]
    exact besselbr_law hx (by simp) hp (MeasL.congr hG fun _ l hl => h l hl) fun l => rfl

theorem edge_strip_zero {n : ℕ} {x K : ℝ} {vs : List ℝ} {F : List ℝ → ℝ≥0∞} (hx : 0 < x) (hxK : x < K) (hne : vs ≠ []) (hp : ∀ v ∈ vs, 0 < v)
    (hF : MeasL (vs.length - 1) fun _ : Unit => F) :
    stripEntr K 0 vs.sum x * (proposeEdge n (npCumsum vs).dropLast vs.sum x (some K) none).lexp (onOk fun q => F q.1) =
      trials n (stripEntr K 0 vs.sum x / entrDens 0 vs.sum x) * startInt (stripEntr K 0) (stripDens K 0) x vs F := by
  have hT : 0 < vs.sum := List.sum_pos _ hp hne
  have hK : 0 < K := hx.trans hxK
  rw [proposeEdge, Prog.assert, if_pos (grid_mem hp), Prog.ret_bind, Prog.assert, if_pos (by rintro U' ⟨⟩; exact hxK), Prog.ret_bind]
  set E := entrDens 0 with hE
  set Kr := killDens 0 with hKr
  have hEm : ∀ v, Measurable (E v) := fun v => (measurable_entrDens v).comp (by fun_prop : Measurable fun y : ℝ => ((0 : ℝ), y))
  have hKm : MeasK fun _ : Unit => Kr := measK_kill' 0
  set Q : List ℝ → ℝ≥0∞ := startW (escE K) (escK K) x vs with hQ
  set Tt : List ℝ → ℝ≥0∞ := startW okE okK x vs with hTt
  have hQm : MeasL (vs.length - 1) fun _ : Unit => Q := measL_startW (measK_escK K) (measurable_escE K) x vs
  have hTm : MeasL (vs.length - 1) fun _ : Unit => Tt := measL_startW measK_okK measurable_okE x vs
  have hWm : MeasL (vs.length - 1) fun _ : Unit => fun l => Tt l - Q l := Measurable.sub hTm hQm
  have hTle : ∀ l, Tt l ≠ ∞ := by
    have h1 : ∀ v b, okE v b ≤ 1 := fun v b => by unfold okE; split_ifs <;> simp
    have h2 : ∀ v a b, okK v a b ≤ 1 := fun v a b => by unfold okK; split_ifs <;> simp
    have h3 : ∀ us y l, pathW okK x us y l ≤ 1 := by
      intro us y l
      fun_induction pathW okK x us y l with
      | case1 => exact h2 _ _ _
      | case2 _ _ _ _ _ _ ih => exact mul_le_one' (h2 _ _ _) ih
      | case3 => simp
    intro l
    refine (lt_of_le_of_lt (b := 1) ?_ ENNReal.one_lt_top).ne
    rw [hTt]
    unfold startW
    split
    · exact h1 _ _
    · exact mul_le_one' (h1 _ _) (h3 _ _ _)
    · simp
  refine loop_solve (M := fun n => (edgeLoop (npCumsum vs).dropLast vs.sum x (some K) none n).lexp (onOk fun q => F q.1)) (W := startInt E Kr x vs fun l => Tt l - Q l)
    (entrDens_pos hT hx).1 (entrDens_pos hT hx).2 ?_ rfl (fun n => ?_) n
  · have hsum : ∀ l, l.length = vs.length - 1 → Q l * 1 + (Tt l - Q l) = Tt l * 1 := by
      intro l hl
      obtain ⟨W, hW, -⟩ := any_start (x1 := x) hK hne hp hl
      rw [mul_one, mul_one]
      exact add_tsub_cancel_of_le (by rw [hQ, hTt, ← hW]; exact le_self_add)
    have h1 : startInt E Kr x vs (fun l => Q l * 1) = stripEntr K 0 vs.sum x := by
      rw [hQ, startInt_startW hKm (measK_escK K) x vs (measL_one _), ← strip_mass_zero hx hxK hne hp]
      simp only [hE, hKr, escE_mul, escK_mul]
    have h2 : startInt E Kr x vs (fun l => Tt l * 1) = entrDens 0 vs.sum x := by
      rw [hTt, startInt_startW hKm measK_okK x vs (measL_one _), ← start_mass_zero hx hne hp]
      simp only [hE, hKr, okE_mul, okK_mul]
    rw [← h1, ← h2, ← startInt_add hKm hEm x vs (by simpa using hQm)]
    exact startInt_congr x vs hsum
  · set R := (edgeLoop (npCumsum vs).dropLast vs.sum x (some K) none n).lexp (onOk fun q => F q.1) with hR
    simp only [edgeLoop]
    have hin : ∀ l, l.length = vs.length - 1 →
        ((escAny (0 :: (npCumsum vs).dropLast ++ [vs.sum]) (0 :: l ++ [x]) (some K)).bind fun esc =>
          if esc then edgeLoop (npCumsum vs).dropLast vs.sum x (some K) none n
          else (hitFlags (0 :: (npCumsum vs).dropLast ++ [vs.sum]) (0 :: l ++ [x]) (some K) none).bind fun hit => Prog.ret (l, hit)).lexp (onOk fun q => F q.1) =
        Q l * F l + R * (Tt l - Q l) := by
      intro l hl
      obtain ⟨W, hW, h⟩ := any_start (x1 := x) hK hne hp hl
      have hW' : Tt l - Q l = W := by
        rw [hQ, hTt, ← hW]
        refine ENNReal.add_sub_cancel_left ?_
        exact ne_top_of_le_ne_top (hTle l) (by rw [hTt, ← hW]; exact le_self_add)
      rw [hW', hQ]
      have := h fun b => if b then R else F l
      simp only [if_true, Bool.false_eq_true, if_false] at this
      rw [mul_comm R, ← this, escAny, escGaps, gapsOf, npDiff_grid hne, Prog.bind_assoc, Prog.lexp_bind]
      refine Prog.lexp_congr fun e _ => ?_
      rcases e with e | es
      · rfl
      · simp only [Prog.cont_ok, Prog.ret_bind, hitFlags, onOk]
        cases hb : es.any id <;> simp [onOk, hR]
    have hM : MeasL (vs.length - 1) fun _ : Unit => fun l => Q l * F l + R * (Tt l - Q l) :=
      (hQm.mul hF).add ((MeasL.of_fst (f := fun _ : Unit => R) measurable_const).mul hWm)
    have htrial : entrDens 0 vs.sum x * ((if (npCumsum vs).dropLast = [] then Prog.ret [] else sampleBesselbr (npCumsum vs).dropLast vs.sum x 3).bind fun xt =>
        (escAny (0 :: (npCumsum vs).dropLast ++ [vs.sum]) (0 :: xt ++ [x]) (some K)).bind fun esc =>
          if esc then edgeLoop (npCumsum vs).dropLast vs.sum x (some K) none n
          else (hitFlags (0 :: (npCumsum vs).dropLast ++ [vs.sum]) (0 :: xt ++ [x]) (some K) none).bind fun hit => Prog.ret (xt, hit)).lexp (onOk fun q => F q.1) =
        startInt E Kr x vs fun l => Q l * F l + R * (Tt l - Q l) := by
      exact trial_law hx hne hp hM hin
    rw [htrial, startInt_add hKm hEm x vs (hQm.mul hF), startInt_const_mul hKm hEm x R vs hWm, mul_comm R, hQ, startInt_startW hKm (measK_escK K) x vs hF]
    simp only [hE, hKr, escE_mul, escK_mul]

end Ctb
