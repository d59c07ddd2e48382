import Verif.Spec.PoissonEst
import Verif.Lemmas.PoissonLaw
import Verif.Props.Coin
import Mathlib.MeasureTheory.Integral.IntervalIntegral.FundThmCalculus
import Mathlib.Analysis.SpecialFunctions.Integrals.Basic

set_option linter.unusedSectionVars false

/-! # C56: the Poisson estimator is unbiased -/

namespace Ctb

open Classical MeasureTheory
open scoped ENNReal

theorem exp_sum_log {l : List ℝ} (h : ∀ a ∈ l, 0 < a) : Real.exp (l.map Real.log).sum = l.prod := by
  induction l with
  | nil => simp
  | cons a l ih =>
    simp only [List.map_cons, List.sum_cons, List.prod_cons, Real.exp_add]
    rw [Real.exp_log (h a (by simp)), ih fun b hb => h b (by simp [hb])]

theorem prod_ofReal_div {l : List ℝ} {h : ℝ} (hh : 0 < h) (hl : ∀ a ∈ l, 0 ≤ a) :
    (l.map fun a => ENNReal.ofReal (a / h)).prod = ENNReal.ofReal (l.prod / h ^ l.length) := by
  induction l with
  | nil => simp
  | cons a l ih =>
    have ha : 0 ≤ a := hl a (by simp)
    simp only [List.map_cons, List.prod_cons, List.length_cons]
    rw [ih fun b hb => hl b (by simp [hb]), ← ENNReal.ofReal_mul (by positivity)]
    congr 1
    rw [pow_succ]
    field_simp

/-- What the sum of logarithms of the estimator is worth: the product of the ratios. -/
theorem sumLog_exp {l : List ℝ} {h k : ℝ} (hh : 0 < h) (hl : ∀ a ∈ l, 0 ≤ a) :
    ∃ v, sumLog l = .ok v ∧ expWeight (v.map fun v => v - l.length * Real.log h + k) =
      (l.map fun a => ENNReal.ofReal (a / h)).prod * ENNReal.ofReal (Real.exp k) := by
  rw [prod_ofReal_div hh hl]
  unfold sumLog
  rw [if_neg (by push Not; exact hl)]
  by_cases h0 : (0 : ℝ) ∈ l
  · refine ⟨none, by rw [if_pos h0], ?_⟩
    rw [List.prod_eq_zero h0]
    simp [expWeight]
  · refine ⟨some (l.map Real.log).sum, by rw [if_neg h0], ?_⟩
    have hp : ∀ a ∈ l, 0 < a := fun a ha => lt_of_le_of_ne (hl a ha) fun h => h0 (h ▸ ha)
    have hpr : 0 ≤ l.prod := List.prod_nonneg hl
    simp only [Option.map_some, expWeight]
    rw [← ENNReal.ofReal_mul (by positivity), Real.exp_add, Real.exp_sub, exp_sum_log hp, ← Real.log_pow, Real.exp_log (by positivity)]

theorem samplePpp_one {h T : ℝ} {rows : List (List ℝ)} (hr : (samplePpp h [T]).Out (.ok rows)) : ∀ row ∈ rows, 0 ≤ firstCoord row ∧ firstCoord row < T := by
  unfold samplePpp at hr
  rw [Prog.out_bind_ok] at hr
  obtain ⟨_, -, hr⟩ := hr
  rw [if_neg (by simp), Prog.out_bind_ok] at hr
  obtain ⟨_, hT, hr⟩ := hr
  rw [Prog.out_assert_ok] at hT
  rw [Prog.out_nat] at hr
  obtain ⟨n, -, hr⟩ := hr
  rw [Prog.out_bind_ok] at hr
  obtain ⟨l, hl, hr⟩ := hr
  rw [Prog.out_ret] at hr
  simp only [Except.ok.injEq] at hr
  rw [Prog.out_replicate_ok] at hl
  intro row hrow
  rw [hr] at hrow
  have := drawRow_ok hT (hl.2 row ((sort_rows l).1.mem_iff.1 hrow))
  obtain ⟨x, l', h1, h2, rfl⟩ := List.forall₂_cons_left_iff.1 this
  simpa [firstCoord] using h1

/-- The tail of both estimators, given the points. -/
theorem est_tail {σ : Type} {disc X : ℝ → ℝ} {T h u k : ℝ} (hh : 0 < h) (hT : 0 < T) (hu : ∀ t, 0 ≤ t → t < T → disc (X t) ≤ u)
    (hi : IntervalIntegrable (fun t => disc (X t)) volume 0 T) {β : Type} (F : σ → β)
    {p : Prog (Option ℝ × β)} {s : σ}
    (hp : p = (samplePpp h [T]).bind fun rows =>
      if rows = [] then .ret (some k, F s) else
      (Prog.lift (sumLog ((rows.map firstCoord).map fun t => u - disc (X t)))).bind fun v =>
      .ret (v.map fun v => v - rows.length * Real.log h + k, F s)) :
    p.lexp expFirst = ENNReal.ofReal (Real.exp (u * T - (∫ t in (0 : ℝ)..T, disc (X t)) - h * T + k)) := by
  have hg0 : ∀ t, 0 ≤ t → t < T → 0 ≤ (u - disc (X t)) / h := fun t h0 h1 => div_nonneg (sub_nonneg.2 (hu t h0 h1)) hh.le
  have hgi : IntervalIntegrable (fun t => (u - disc (X t)) / h) volume 0 T := (intervalIntegrable_const.sub hi).div_const _
  have key := lexp_samplePpp hh hT hg0 hgi
  have hint : (∫ t in (0 : ℝ)..T, (u - disc (X t)) / h) = (u * T - ∫ t in (0 : ℝ)..T, disc (X t)) / h := by
    rw [intervalIntegral.integral_div, intervalIntegral.integral_sub intervalIntegrable_const hi, intervalIntegral.integral_const]
    simp [mul_comm]
  rw [hint] at key
  have e1 : h * ((u * T - ∫ t in (0 : ℝ)..T, disc (X t)) / h - T) = u * T - (∫ t in (0 : ℝ)..T, disc (X t)) - h * T := by
    field_simp
  rw [e1] at key
  rw [Real.exp_add, ENNReal.ofReal_mul (by positivity), ← key, hp, Prog.lexp_bind, mul_comm, ← Prog.lexp_const_mul _ _ ENNReal.ofReal_ne_top]
  refine Prog.lexp_congr fun r hr => ?_
  rcases r with e | rows
  · simp [atRows, expFirst]
  · simp only [Prog.cont_ok, atRows]
    by_cases hne : rows = []
    · rw [if_pos hne, hne]
      simp [expFirst, expWeight]
    · rw [if_neg hne]
      have hrows : ∀ t ∈ rows.map firstCoord, 0 ≤ t ∧ t < T := by
        intro t ht
        obtain ⟨row, hrow, rfl⟩ := List.mem_map.1 ht
        exact samplePpp_one hr row hrow
      have hl : ∀ a ∈ (rows.map firstCoord).map (fun t => u - disc (X t)), 0 ≤ a := by
        intro a ha
        obtain ⟨t, ht, rfl⟩ := List.mem_map.1 ha
        exact sub_nonneg.2 (hu t (hrows t ht).1 (hrows t ht).2)
      obtain ⟨v, hv, he⟩ := sumLog_exp (k := k) hh hl
      rw [hv]
      simp only [Prog.lift, Prog.ret_bind, Prog.lexp_ret, expFirst]
      simp only [List.length_map, List.map_map] at he
      rw [he, mul_comm]
      rfl

/-- C56 for seeds: `E[exp(est)] = exp(-∫ (φ(X_t) - l) dt)` for a path fixed in advance whose discriminant lies below the upper bound `u`, the
lower bound being smaller than the upper one.  Missing: a lower bound equal to the upper one (see `C56_violated`) and an infinite upper
bound (see `C56_infinite`). -/
theorem C56_seed_partial {σ : Type} {disc X : ℝ → ℝ} {T l u : ℝ} (s : σ) (hT : 0 < T) (hlu : l < u) (hu : ∀ t, 0 ≤ t → t < T → disc (X t) ≤ u)
    (hi : IntervalIntegrable (fun t => disc (X t)) volume 0 T) :
    (seedEst (fun s ts => .ret (s, ts.map X)) disc ⟨T, 1, 0, 0⟩ (.ok ([0, T], [l], [((u : ℝ) : WithTop ℝ)])) s).lexp expFirst =
      ENNReal.ofReal (Real.exp (-∫ t in (0 : ℝ)..T, (disc (X t) - l))) := by
  have hm : maxGap [l] [(u : WithTop ℝ)] = .ok ((u - l : ℝ) : WithTop ℝ) := rfl
  have hf : ((⟨T, 1, 0, 0⟩ : NormOp).denorm 1 none).1 = T := by simp [NormOp.denorm]
  have := est_tail (σ := σ) (X := X) (k := 0) (s := s) (sub_pos.2 hlu) hT hu hi (fun s => (stLbDisc [0, T] [l], s)) rfl
  unfold seedEst
  simp only [Prog.lift, Prog.ret_bind, hm, hf]
  simp only [add_zero, Prog.lift] at this
  simp only [List.map_map, List.length_map, Function.comp_def] at this ⊢
  rw [this]
  congr 2
  rw [intervalIntegral.integral_sub hi intervalIntegrable_const, intervalIntegral.integral_const]
  simp
  ring

/-- C56 for skeletons: `E[exp(est)] = exp(-∫ (φ(X_t) - cent) dt)`. -/
theorem C56_skeleton_partial {σ : Type} {disc X : ℝ → ℝ} {T c l u : ℝ} (s : σ) (hT : 0 < T) (hlu : l < u)
    (hu : ∀ t, 0 ≤ t → t < T → disc (X t) ≤ u) (hi : IntervalIntegrable (fun t => disc (X t)) volume 0 T) :
    (skelEst (fun s ts => .ret (s, ts.map X)) disc (some c, l, ((u : ℝ) : WithTop ℝ)) T s).lexp expFirst =
      ENNReal.ofReal (Real.exp (-∫ t in (0 : ℝ)..T, (disc (X t) - c))) := by
  have := est_tail (σ := σ) (X := X) (k := (u - l - u + c) * T) (s := s) (sub_pos.2 hlu) hT hu hi (fun s => s) rfl
  unfold skelEst
  simp only [Prog.ret_bind]
  simp only [List.map_map, Function.comp_def] at this ⊢
  rw [this]
  congr 2
  rw [intervalIntegral.integral_sub hi intervalIntegrable_const, intervalIntegral.integral_const]
  simp
  ring

/-- A linear discriminant along the path `t ↦ t` on `[0, 2]`: the estimator has expectation `exp(-2)`. -/
example : (seedEst (fun s ts => .ret (s, ts.map id)) (fun x => x) ⟨2, 1, 0, 0⟩ (.ok ([0, 2], [0], [((2 : ℝ) : WithTop ℝ)])) ()).lexp expFirst =
    ENNReal.ofReal (Real.exp (-2)) := by
  rw [C56_seed_partial () (by norm_num) (by norm_num) (fun t _ h => h.le) (by simp)]
  congr 2
  simp
  norm_num

example : (skelEst (fun s ts => .ret (s, ts.map id)) (fun x => x) (some (-1), 0, ((2 : ℝ) : WithTop ℝ)) 2 ()).lexp expFirst =
    ENNReal.ofReal (Real.exp (-4)) := by
  rw [C56_skeleton_partial () (by norm_num) (by norm_num) (fun t _ h => h.le) (by simp)]
  congr 2
  simp
  norm_num

/-- C56 fails for a discriminant which is constant on the range of the path: the integral to estimate is zero, but both estimators raise
AssertionError whatever is drawn. -/
theorem C56_violated {σ : Type} {X : ℝ → ℝ} {T c : ℝ} (s : σ) :
    (-∫ t in (0 : ℝ)..T, ((fun _ : ℝ => c) (X t) - c)) = 0 ∧
    (seedEst (fun s ts => .ret (s, ts.map X)) (fun _ => c) ⟨T, 1, 0, 0⟩ (.ok ([0, T], [c], [((c : ℝ) : WithTop ℝ)])) s).lexp expFirst = 0 ∧
    (∀ r, (seedEst (fun s ts => .ret (s, ts.map X)) (fun _ => c) ⟨T, 1, 0, 0⟩ (.ok ([0, T], [c], [((c : ℝ) : WithTop ℝ)])) s).Out r ↔
      r = .error .assertion) ∧
    (∀ r, (skelEst (fun s ts => .ret (s, ts.map X)) (fun _ => c) (some c, c, ((c : ℝ) : WithTop ℝ)) T s).Out r ↔ r = .error .assertion) := by
  have hm : maxGap [c] [(c : WithTop ℝ)] = .ok ((c - c : ℝ) : WithTop ℝ) := rfl
  have hs : ∀ T, samplePpp (c - c) [T] = .err .assertion := by
    intro T
    unfold samplePpp Prog.assert
    rw [if_neg (by simp), Prog.err_bind]
  refine ⟨by simp, ?_, fun r => ?_, fun r => ?_⟩
  · unfold seedEst
    simp only [Prog.lift, Prog.ret_bind, hm, hs, Prog.err_bind, Prog.lexp_err, expFirst]
  · unfold seedEst
    simp only [Prog.lift, Prog.ret_bind, hm, hs, Prog.err_bind, Prog.out_err]
  · unfold skelEst
    simp only [hs, Prog.err_bind, Prog.out_err]

/-- With an infinite upper bound the seed estimator is `-inf` for sure, so it is biased for every bounded path; the one for skeletons
raises. -/
theorem C56_infinite {σ : Type} {disc : ℝ → ℝ} {op : NormOp} {t : List ℝ} {l T : ℝ} (interp : σ → List ℝ → Prog (σ × List ℝ)) (s : σ) (c : Option ℝ) :
    seedEst interp disc op (.ok (t, [l], [⊤])) s = .ret (none, stLbDisc t [l], s) ∧
    ∀ r, (skelEst interp disc (c, l, ⊤) T s).Out r → ∃ e, r = .error e := by
  refine ⟨rfl, fun r h => ?_⟩
  unfold skelEst at h
  by_cases hT : 0 < T
  · simp only [if_pos hT, Prog.out_err] at h; exact ⟨_, h⟩
  · simp only [if_neg hT, Prog.out_err] at h; exact ⟨_, h⟩

end Ctb
