import Verif.Lemmas.ArsIid
import Verif.Basic.Generic

set_option linter.unusedSectionVars false

/-! # C68-C71, C75, C76: adaptive rejection sampling -/

namespace Ctb

open Set MeasureTheory
open scoped ENNReal

variable {f df : ℝ → ℝ} {H : Hull} {lb ub : EReal}

/-! ## An instance: standard normal log-density with hull points -1 and 2 -/

theorem gauss_strict (S : Set ℝ) (hS : Convex ℝ S) : StrictDiff (fun t : ℝ => -t ^ 2 / 2) (fun t => -t) S := by
  refine ⟨⟨hS, ?_⟩, fun a _ => ?_⟩
  · intro x _ y _ hxy a b ha hb hab
    simp only [smul_eq_mul]
    have hb' : b = 1 - a := by linarith
    subst hb'
    have : 0 < a * (1 - a) * (x - y) ^ 2 := by
      have : 0 < (x - y) ^ 2 := by have := sub_ne_zero.2 hxy; positivity
      positivity
    nlinarith
  · have := ((hasDerivAt_pow 2 a).neg).div_const 2
    refine this.congr_deriv ?_
    simp; ring

theorem supp_line : supp ⊥ ⊤ = univ := by
  ext t; simp [supp, EReal.bot_lt_coe, EReal.coe_lt_top]

theorem gauss_line : StrictDiff (fun t : ℝ => -t ^ 2 / 2) (fun t => -t) (supp ⊥ ⊤) :=
  gauss_strict _ (by rw [supp_line]; exact convex_univ)

/-- Hull with points -1 and 2. -/
noncomputable def gaussHull : Hull := ⟨[-1, 2], [-1 / 2, -2], [1, -2]⟩

theorem gaussHull_good : gaussHull.Good (fun t : ℝ => -t ^ 2 / 2) (fun t => -t) ⊥ ⊤ := by
  refine ⟨⟨by simp [gaussHull], ?_, ?_, ?_, ?_⟩, ?_, ?_, ?_, ?_⟩
  · simp only [gaussHull, List.pairwise_cons, List.mem_singleton, forall_eq]; norm_num
  · intro a _; rw [supp_line]; trivial
  · simp [gaussHull]; norm_num
  · simp [gaussHull]
  · simp [gaussHull]
  · intro _; exact ⟨-1, by simp [gaussHull], by norm_num⟩
  · intro _; exact ⟨2, by simp [gaussHull], by norm_num⟩
  · left; simp [gaussHull]

/-! ## C68 -/

/-- Both hull evaluations succeed at every point of the support, and sandwich `f`; `none` is `-inf`. -/
theorem C68_sandwich (hf : ConcaveDiff f df (supp lb ub)) (hH : H.Ok f df (supp lb ub)) {y : List EReal}
    (hy : hullBreaks lb ub H.x H.fx H.dfx = .ok y) {t : ℝ} (ht : t ∈ supp lb ub) :
    ∃ lo up, evalLower H.x H.fx t = .ok lo ∧ evalUpper H.x H.fx H.dfx y t = .ok up ∧ f t ≤ up ∧ ∀ l, lo = some l → l ≤ f t := by
  obtain ⟨lo, h1, -, h2⟩ := evalLower_spec hf.conc hH t
  obtain ⟨u, h3, h4⟩ := evalUpper_spec hf hH (hullBreaks_ok hH hy) (v := t) ⟨ht.1, ht.2.le⟩
  exact ⟨lo, u, h1, h3, hull_le hf hH.mem ht h4, fun l hl => (h2 l hl).1⟩

/-- The upper hull is the lowest tangent, the lower hull the chord through the neighbouring hull points, `-inf` outside them. -/
theorem C68_values (hf : ConcaveDiff f df (supp lb ub)) (hH : H.Ok f df (supp lb ub)) {y : List EReal}
    (hy : hullBreaks lb ub H.x H.fx H.dfx = .ok y) {t : ℝ} (ht : t ∈ supp lb ub) :
    ∃ lo up, evalLower H.x H.fx t = .ok lo ∧ evalUpper H.x H.fx H.dfx y t = .ok up ∧ IsUpperHull f df H.x t up ∧
      (lo = none ↔ (∀ a ∈ H.x, t ≤ a) ∨ ∀ a ∈ H.x, a < t) ∧
      ∀ l, lo = some l → ∃ (i : ℕ) (h : i + 1 < H.x.length), H.x[i] < t ∧ t ≤ H.x[i + 1] ∧
        l = ((H.x[i + 1] - t) * f H.x[i] + (t - H.x[i]) * f H.x[i + 1]) / (H.x[i + 1] - H.x[i]) := by
  obtain ⟨lo, h1, h5, h2⟩ := evalLower_spec hf.conc hH t
  obtain ⟨u, h3, h4⟩ := evalUpper_spec hf hH (hullBreaks_ok hH hy) (v := t) ⟨ht.1, ht.2.le⟩
  exact ⟨lo, u, h1, h3, h4, h5, fun l hl => (h2 l hl).2⟩

/-- For strictly concave `f` the breakpoints are always well defined. -/
theorem C68_breaks (hf : StrictDiff f df (supp lb ub)) (hH : H.Ok f df (supp lb ub)) :
    ∃ y, hullBreaks lb ub H.x H.fx H.dfx = .ok y := by
  obtain ⟨c, hc⟩ := genUpper_total hH fun a ha b hb hab => df_strict hf.conc hf.der ha hb hab
  exact ⟨_, by simp only [hullBreaks, hc, Except.bind]; rfl⟩

/-- The instance meets the hypotheses at the point 1. -/
example : ∃ y, hullBreaks ⊥ ⊤ gaussHull.x gaussHull.fx gaussHull.dfx = .ok y ∧
    ∃ lo up, evalLower gaussHull.x gaussHull.fx 1 = .ok lo ∧ evalUpper gaussHull.x gaussHull.fx gaussHull.dfx y 1 = .ok up ∧
      -(1 : ℝ) ^ 2 / 2 ≤ up ∧ ∀ l, lo = some l → l ≤ -(1 : ℝ) ^ 2 / 2 := by
  obtain ⟨y, hy⟩ := C68_breaks gauss_line gaussHull_good.ok
  exact ⟨y, hy, C68_sandwich gauss_line.concave gaussHull_good.ok hy (by rw [supp_line]; trivial)⟩

/-! ## C69 -/

/-- Passing the squeeze test implies passing the exact test. -/
theorem C69_squeeze (hf : ConcaveOn ℝ (supp lb ub) f) (hH : H.Ok f df (supp lb ub)) {t l up u : ℝ}
    (hlo : evalLower H.x H.fx t = .ok (some l)) (h : u < Real.exp (l - up)) : u < Real.exp (f t - up) := by
  obtain ⟨lo', h1, -, h2⟩ := evalLower_spec hf hH t
  rw [hlo] at h1
  simp only [Except.ok.injEq] at h1
  exact h.trans_le (Real.exp_le_exp.2 (by linarith [(h2 l h1.symm).1]))

/-- The decision and the hull after it are those of the exact test alone (`none`: no squeeze). -/
theorem C69_decision (maxPts : ℕ) (hf : ConcaveOn ℝ (supp lb ub) f) (hH : H.Ok f df (supp lb ub)) {t : ℝ} (ht : t ∈ supp lb ub)
    {lo : Option ℝ} (hlo : evalLower H.x H.fx t = .ok lo) (up u : ℝ) :
    arsDecide f df maxPts H t lo up u = arsDecide f df maxPts H t none up u :=
  decide_exact maxPts hf hH ht hlo up

/-- A point is accepted exactly if the uniform draw is below the ratio of density and envelope; then the hull stays, and a rejected point enters it as long as there is room. -/
theorem C69_accept (maxPts : ℕ) (hf : ConcaveOn ℝ (supp lb ub) f) (hH : H.Ok f df (supp lb ub)) {t : ℝ} (ht : t ∈ supp lb ub)
    {lo : Option ℝ} (hlo : evalLower H.x H.fx t = .ok lo) (up : ℝ) {u : ℝ} (hu : 0 ≤ u) :
    ((arsDecide f df maxPts H t lo up u).1 = true ↔ u < Real.exp (f t - up)) ∧
      (arsDecide f df maxPts H t lo up u).2 = if Real.exp (f t - up) ≤ u ∧ H.x.length < maxPts then H.insert t (f t) (df t) else H := by
  classical
  rw [decide_exact maxPts hf hH ht hlo up]
  unfold arsDecide
  rw [if_neg (by simp), npLogLt_iff hu]
  by_cases h : u < Real.exp (f t - up)
  · rw [if_pos h]
    simp [h]
  · rw [if_neg h]
    have h' := not_lt.1 h
    by_cases h2 : H.x.length < maxPts
    · rw [if_pos h2]
      simp [h, h', h2]
    · rw [if_neg h2]
      simp [h, h2]

/-- With and without the squeeze, a pass has the same distribution. -/
theorem C69_same_law (hf : StrictDiff f df (supp lb ub)) (hH : H.Good f df lb ub) (maxPts : ℕ) (g : Res (ℝ × Bool × Hull) → ℝ≥0∞) :
    (arsStep f df lb ub maxPts H).lexp g = (exactStep f df lb ub maxPts H).lexp g := by
  classical
  obtain ⟨y, v, Z, he⟩ := hH.env hf
  unfold arsStep exactStep
  rw [he.breaks]
  simp only [Prog.lift, Prog.ret_bind, Prog.lexp_real]
  rw [lintegral_uniform01, lintegral_uniform01]
  refine setLIntegral_congr_fun measurableSet_Ioo fun z hz => ?_
  obtain ⟨h1, h2⟩ := he.draw z hz
  obtain ⟨⟨lo, h3⟩, h4, h5⟩ := he.evals hf hH h2
  simp only [h1, Prog.lift, Prog.ret_bind, h3, h4, Prog.lexp_real, Prog.lexp_ret]
  refine lintegral_congr fun u => ?_
  rw [decide_exact maxPts hf.concave.conc hH.ok h2 h3]
  congr 2
  unfold arsDecide
  simp only [reduceCtorEq, false_and, exists_false, if_false]
  split_ifs <;> rfl

/-- In the instance the chord at 1 is `-3/2`, so the squeeze can accept. -/
example : evalLower gaussHull.x gaussHull.fx 1 = .ok (some (-3 / 2)) := by
  have e : searchLeft gaussHull.x 1 = 1 := by
    simp only [gaussHull, searchLeft_cons]
    norm_num
  unfold evalLower
  simp only [e]
  norm_num [gaussHull, pyGet]

/-! ## C70 -/

theorem book_init (f df : ℝ → ℝ) (init : List ℝ) (m : ℕ) : (Hull.init f df init).Book f df (max init.length m) := by
  refine ⟨?_, rfl, rfl, ?_⟩
  · exact List.pairwise_insertionSort _ _
  · simp [Hull.init, npSort]

theorem book_insert {b : ℕ} (hH : H.Book f df b) (hb : H.x.length < b) (v : ℝ) : (H.insert v (f v) (df v)).Book f df b := by
  classical
  refine ⟨?_, ?_, ?_, ?_⟩
  · exact insert_pairwise (R := (· ≤ ·)) (fun a b c => le_trans) hH.sorted (fun a _ h => h.le) fun a _ h => not_lt.1 h
  · simp only [Hull.insert, hH.fx, List.map_insertIdx]
  · simp only [Hull.insert, hH.dfx, List.map_insertIdx]
  · rw [Hull.insert_len]; omega

theorem decide_cases (maxPts : ℕ) (v : ℝ) (lo : Option ℝ) (up u : ℝ) :
    (arsDecide f df maxPts H v lo up u).2 = H ∨
      (arsDecide f df maxPts H v lo up u = (false, H.insert v (f v) (df v)) ∧ H.x.length < maxPts ∧ ¬ npLogLt u (f v - up)) := by
  classical
  unfold arsDecide
  split_ifs with h1 h2 h3
  · exact .inl rfl
  · exact .inl rfl
  · exact .inr ⟨rfl, h3, h2⟩
  · exact .inl rfl

/-- One pass keeps the invariant, whatever the draws; an accepted value leaves the hull as it is. -/
theorem C70_step {maxPts b : ℕ} (hb : maxPts ≤ b) (hH : H.Book f df b) {v : ℝ} {acc : Bool} {H' : Hull}
    (h : (arsStep f df lb ub maxPts H).Out (.ok (v, acc, H'))) :
    H'.Book f df b ∧ (H' = H ∨ acc = false ∧ H' = H.insert v (f v) (df v)) := by
  unfold arsStep at h
  simp only [Prog.out_bind_ok, Prog.out_lift, Prog.out_real, Prog.out_ret, Except.ok.injEq] at h
  obtain ⟨y, -, z, -, v', -, lo, -, up, -, u, -, h⟩ := h
  simp only [Prod.mk.injEq] at h
  obtain ⟨rfl, rfl, rfl⟩ := h
  rcases decide_cases (f := f) (df := df) (H := H) maxPts v lo up u with h | ⟨h, h', -⟩
  · rw [h]; exact ⟨hH, .inl rfl⟩
  · rw [h]; exact ⟨book_insert hH (by omega) v, .inr ⟨rfl, rfl⟩⟩

/-- The loop keeps the invariant and produces exactly `n` values, whatever the draws and the number of passes. -/
theorem C70_loop {maxPts b : ℕ} (hb : maxPts ≤ b) (fuel n : ℕ) (hH : H.Book f df b) {l : List ℝ} {H' : Hull}
    (h : (arsLoop f df lb ub maxPts fuel n H).Out (.ok (l, H'))) :
    H'.Book f df b ∧ l.length = n ∧ ∀ a ∈ H.x, a ∈ H'.x := by
  induction fuel generalizing n H l with
  | zero =>
    cases n with
    | zero => simp [arsLoop] at h; obtain ⟨rfl, rfl⟩ := h; exact ⟨hH, rfl, fun a ha => ha⟩
    | succ n => simp [arsLoop] at h
  | succ fuel ih =>
    cases n with
    | zero => simp [arsLoop] at h; obtain ⟨rfl, rfl⟩ := h; exact ⟨hH, rfl, fun a ha => ha⟩
    | succ n =>
      unfold arsLoop at h
      rw [Prog.out_bind_ok] at h
      obtain ⟨⟨v, acc, H1⟩, h1, h2⟩ := h
      obtain ⟨g1, g2⟩ := C70_step hb hH h1
      have hsub : ∀ a ∈ H.x, a ∈ H1.x := by
        rcases g2 with rfl | ⟨-, rfl⟩
        · exact fun a ha => ha
        · exact fun a ha => Hull.mem_insert_x.2 (.inr ha)
      cases acc with
      | true =>
        simp only [if_true, Prog.out_bind_ok, Prog.out_ret, Except.ok.injEq] at h2
        obtain ⟨⟨l1, H2⟩, h3, h4⟩ := h2
        simp only [Prod.mk.injEq] at h4
        obtain ⟨rfl, rfl⟩ := h4
        obtain ⟨k1, k2, k3⟩ := ih n g1 h3
        exact ⟨k1, by simp [k2], fun a ha => k3 a (hsub a ha)⟩
      | false =>
        simp only [Bool.false_eq_true, if_false] at h2
        obtain ⟨k1, k2, k3⟩ := ih (n + 1) g1 h2
        exact ⟨k1, k2, fun a ha => k3 a (hsub a ha)⟩

/-- `sample`: `max_draws` values, and a sorted hull of at most `max(len(init), max_points)` points that still holds the starting
points. -/
theorem C70_sample {maxPts fuel n : ℕ} {init : List ℝ} {l : List ℝ} {H' : Hull}
    (h : (arsSample f df lb ub init maxPts fuel n).Out (.ok (l, H'))) :
    l.length = n ∧ H'.x.Pairwise (· ≤ ·) ∧ H'.fx = H'.x.map f ∧ H'.dfx = H'.x.map df ∧
      H'.x.length ≤ max init.length maxPts ∧ ∀ a ∈ init, a ∈ H'.x := by
  obtain ⟨g1, g2, g3⟩ := C70_loop (le_max_right _ _) fuel n (book_init f df init maxPts) h
  exact ⟨g2, g1.sorted, g1.fx, g1.dfx, g1.size, fun a ha => g3 a (by simpa [Hull.init, npSort] using ha)⟩

theorem envelope_parts {x fx dfx : List ℝ} {y : List EReal} {z r : ℝ} (h : sampleEnvelope x fx dfx y z = .ok r) :
    ∃ off hi lo, envOffset (hullRows x fx dfx) y = .ok off ∧
      listOk (((hullRows x fx dfx).zip y.tail).map fun q => envVol off q.1.1 q.1.2.1 q.1.2.2 q.2) = .ok hi ∧
      listOk (((hullRows x fx dfx).zip y.dropLast).map fun q => envVol off q.1.1 q.1.2.1 q.1.2.2 q.2) = .ok lo := by
  unfold sampleEnvelope at h
  simp only [bind, Except.bind] at h
  rcases h1 : envOffset (hullRows x fx dfx) y with e | off
  · rw [h1] at h; simp at h
  rw [h1] at h
  simp only at h
  rcases h2 : listOk (((hullRows x fx dfx).zip y.tail).map fun q => envVol off q.1.1 q.1.2.1 q.1.2.2 q.2) with e | hi
  · rw [h2] at h; simp at h
  rw [h2] at h
  simp only at h
  rcases h3 : listOk (((hullRows x fx dfx).zip y.dropLast).map fun q => envVol off q.1.1 q.1.2.1 q.1.2.2 q.2) with e | lo
  · rw [h3] at h; simp at h
  exact ⟨off, hi, lo, rfl, h2, h3⟩

/-- As long as no uniform draw is exactly zero, the proposed points lie in the support and the hull points stay strictly
increasing: a point that is already in the hull is never inserted again. -/
theorem C70_strict_step {maxPts : ℕ} (hf : ConcaveDiff f df (supp lb ub)) (hH : H.Ok f df (supp lb ub)) {h h' : List ℝ} (h0 : 0 ∈ h)
    {v : ℝ} {acc : Bool} {H' : Hull} (hg : (arsStep f df lb ub maxPts H).Gen h (.ok (v, acc, H')) h') :
    v ∈ supp lb ub ∧ H'.Ok f df (supp lb ub) := by
  unfold arsStep at hg
  have lift_gen : ∀ {α : Type} {r : Res α} {a : α} {h h' : List ℝ}, (Prog.lift r).Gen h (.ok a) h' → r = .ok a ∧ h' = h := by
    intro α r a h h' hg
    cases r with
    | error e => simp [Prog.lift] at hg
    | ok b => simp only [Prog.lift, Prog.gen_ret, Except.ok.injEq] at hg; exact ⟨by rw [hg.1], hg.2⟩
  rw [Prog.gen_bind_ok] at hg
  obtain ⟨y, _, hy', hg⟩ := hg
  obtain ⟨hy, rfl⟩ := lift_gen hy'
  rw [Prog.gen_real] at hg
  obtain ⟨z, hz, hzn, hg⟩ := hg
  rw [Prog.gen_bind_ok] at hg
  obtain ⟨v', _, hv', hg⟩ := hg
  obtain ⟨hv, rfl⟩ := lift_gen hv'
  rw [Prog.gen_bind_ok] at hg
  obtain ⟨lo, _, hlo', hg⟩ := hg
  obtain ⟨hlo, rfl⟩ := lift_gen hlo'
  rw [Prog.gen_bind_ok] at hg
  obtain ⟨up, _, hup', hg⟩ := hg
  obtain ⟨hup, rfl⟩ := lift_gen hup'
  rw [Prog.gen_real] at hg
  obtain ⟨u, hu, hun, hg⟩ := hg
  simp only [Prog.gen_ret, Except.ok.injEq, Prod.mk.injEq] at hg
  obtain ⟨⟨rfl, rfl, rfl⟩, rfl⟩ := hg
  rw [mem_uniform01] at hz hu
  have hz0 : 0 < z := lt_of_le_of_ne hz.1 fun e => hzn (e ▸ h0)
  obtain ⟨off, hi, lo', o1, o2, o3⟩ := envelope_parts hv
  obtain ⟨r, r1, r2, -⟩ := envelope_draw hf hH (hullBreaks_ok hH hy) (U := hullFn f df H.x hH.ne) (fun t _ => hullFn_spec _ _ _)
    o1 o2 o3 hz0 hz.2
  rw [hv] at r1
  simp only [Except.ok.injEq] at r1
  subst r1
  refine ⟨r2, ?_⟩
  rcases decide_cases (f := f) (df := df) (H := H) maxPts v lo up u with h | ⟨h, -, h'⟩
  · rw [h]; exact hH
  · rw [h]
    refine Hull.insert_ok hH r2 fun hmem => h' ?_
    obtain ⟨u', e1, e2⟩ := evalUpper_spec hf hH (hullBreaks_ok hH hy) (v := v) ⟨r2.1, r2.2.le⟩
    rw [hup] at e1
    simp only [Except.ok.injEq] at e1
    subst e1
    have : up ≤ f v := e2.2 ⟨v, hmem, by simp [tangent]⟩
    rw [npLogLt_iff hu.1]
    exact hu.2.trans_le (by rw [← Real.exp_zero]; exact Real.exp_le_exp.2 (by linarith))

/-- The same along a whole run; every yielded value lies in the support. -/
theorem C70_strict {maxPts fuel n : ℕ} (hf : ConcaveDiff f df (supp lb ub)) (hH : H.Ok f df (supp lb ub)) {h h' : List ℝ} (h0 : 0 ∈ h)
    {l : List ℝ} {H' : Hull} (hg : (arsLoop f df lb ub maxPts fuel n H).Gen h (.ok (l, H')) h') :
    (∀ t ∈ l, t ∈ supp lb ub) ∧ H'.Ok f df (supp lb ub) := by
  induction fuel generalizing n H l h with
  | zero =>
    cases n with
    | zero => simp [arsLoop] at hg; obtain ⟨⟨rfl, rfl⟩, -⟩ := hg; exact ⟨by simp, hH⟩
    | succ n => simp [arsLoop] at hg
  | succ fuel ih =>
    cases n with
    | zero => simp [arsLoop] at hg; obtain ⟨⟨rfl, rfl⟩, -⟩ := hg; exact ⟨by simp, hH⟩
    | succ n =>
      unfold arsLoop at hg
      rw [Prog.gen_bind_ok] at hg
      obtain ⟨⟨v, acc, H1⟩, h1, g1, g2⟩ := hg
      obtain ⟨s1, s2⟩ := C70_strict_step hf hH h0 g1
      have h01 := g1.mono 0 h0
      cases acc with
      | true =>
        simp only [if_true, Prog.gen_bind_ok, Prog.gen_ret, Except.ok.injEq] at g2
        obtain ⟨⟨l1, H2⟩, h2, g3, g4, rfl⟩ := g2
        simp only [Prod.mk.injEq] at g4
        obtain ⟨rfl, rfl⟩ := g4
        obtain ⟨k1, k2⟩ := ih s2 h01 g3
        refine ⟨?_, k2⟩
        intro t ht
        rcases List.mem_cons.1 ht with rfl | ht
        · exact s1
        · exact k1 t ht
      | false =>
        simp only [Bool.false_eq_true, if_false] at g2
        exact ih s2 h01 g2

/-- The starting hull of the instance meets the hypotheses. -/
example : (Hull.init (fun t : ℝ => -t ^ 2 / 2) (fun t => -t) [2, -1]).Book (fun t : ℝ => -t ^ 2 / 2) (fun t => -t) 100 := by
  have := book_init (fun t : ℝ => -t ^ 2 / 2) (fun t => -t) [2, -1] 100
  simpa using this

/-! ## C71 -/

/-- For `0 < z < 1` the draw succeeds, lies in the support, and the envelope `exp U` has the fraction `z` of its (finite) mass at or
below it. -/
theorem C71_draw (hf : ConcaveDiff f df (supp lb ub)) (hH : H.Ok f df (supp lb ub)) {y : List EReal}
    (hy : hullBreaks lb ub H.x H.fx H.dfx = .ok y) (h0 : ∀ a ∈ H.x, df a ≠ 0) (hl : lb = ⊥ → 0 < df (H.x.head hH.ne))
    (hu : ub = ⊤ → df (H.x.getLast hH.ne) < 0) (h2 : 2 ≤ H.x.length ∨ ub ≠ ⊤)
    {U : ℝ → ℝ} (hU : ∀ t ∈ suppC lb ub, IsUpperHull f df H.x t (U t)) {z : ℝ} (hz0 : 0 < z) (hz1 : z < 1) :
    ∃ r, sampleEnvelope H.x H.fx H.dfx y z = .ok r ∧ r ∈ supp lb ub ∧
      IntegrableOn (fun t => Real.exp (U t)) (suppC lb ub) ∧
      ∫ t in suppC lb (r : EReal), Real.exp (U t) = z * ∫ t in suppC lb ub, Real.exp (U t) := by
  obtain ⟨off, hi, lo, o1, o2, o3⟩ := envelope_total hH (hullBreaks_ok hH hy) h0 hl hu h2
  exact envelope_draw hf hH (hullBreaks_ok hH hy) hU o1 o2 o3 hz0 hz1

/-- With a uniform draw, the point has density `exp U` over its integral. -/
theorem C71_law (hf : StrictDiff f df (supp lb ub)) (hH : H.Good f df lb ub) :
    ∃ (y : List EReal) (U v : ℝ → ℝ) (Z : ℝ), hullBreaks lb ub H.x H.fx H.dfx = .ok y ∧ (∀ t ∈ suppC lb ub, IsUpperHull f df H.x t (U t)) ∧
      (∀ z ∈ Ioo (0 : ℝ) 1, sampleEnvelope H.x H.fx H.dfx y z = .ok (v z)) ∧ 0 < Z ∧
      (volume.restrict (Ioo (0 : ℝ) 1)).map v =
        (volume.restrict (suppC lb ub)).withDensity fun t => ENNReal.ofReal (Real.exp (U t) / Z) := by
  obtain ⟨y, v, Z, he⟩ := hH.env hf
  exact ⟨y, _, v, Z, he.breaks, he.hull, fun z hz => (he.draw z hz).1, he.pos, he.law⟩

/-- The instance. -/
example : ∃ y r, sampleEnvelope gaussHull.x gaussHull.fx gaussHull.dfx y (1 / 3) = .ok r := by
  obtain ⟨y, U, v, Z, -, -, h, -⟩ := C71_law gauss_line gaussHull_good
  exact ⟨y, _, h (1 / 3) ⟨by norm_num, by norm_num⟩⟩

/-! ## C75 -/

/-- Probability that `n` values are returned, the `i`-th in `A_i`: the product of the target probabilities of the `A_i`, times the
probability of returning at all within the allowed number of passes.  So the values are independent with density proportional to
`exp f`, for every starting hull, hull size limit and number of values, despite the adaptation. -/
theorem C75_iid (hf : StrictDiff f df (supp lb ub)) (hH : H.Good f df lb ub) (maxPts fuel : ℕ) {As : List (Set ℝ)}
    (hA : ∀ A ∈ As, MeasurableSet A) :
    (arsLoop f df lb ub maxPts fuel As.length H).lexp (drawsIn As) =
      (As.map fun A => expMass f (supp lb ub) A / expMass f (supp lb ub) univ).prod *
        (arsLoop f df lb ub maxPts fuel As.length H).lexp (drawsIn (As.map fun _ => univ)) ∧
    expMass f (supp lb ub) univ ≠ 0 ∧ expMass f (supp lb ub) univ ≠ ∞ := by
  obtain ⟨y, v, Z, he⟩ := hH.env hf
  obtain ⟨m1, m2, -⟩ := he.mass hf hH
  exact ⟨loop_iid hf maxPts fuel hH hA, m1, m2⟩

/-- The sampler returns: the probability of an exception or of needing more than `fuel` passes decays geometrically. -/
theorem C75_returns (hf : StrictDiff f df (supp lb ub)) (hH : H.Good f df lb ub) (maxPts n : ℕ) :
    ∃ ρ : ℝ≥0∞, ρ < 1 ∧ ∀ fuel, (arsLoop f df lb ub maxPts fuel n H).lexp failInd ≤ 2 ^ n * ρ ^ fuel := by
  obtain ⟨y, v, Z, he⟩ := hH.env hf
  obtain ⟨m1, m2, -⟩ := he.mass hf hH
  refine ⟨_, ?_, fun fuel => loop_fail hf maxPts fuel n hH he le_rfl⟩
  refine ENNReal.sub_lt_self ENNReal.one_ne_top one_ne_zero ?_
  exact (ENNReal.div_pos (ENNReal.div_pos m1 ENNReal.ofReal_ne_top).ne' ENNReal.ofNat_ne_top).ne'

/-- The instance: two standard normal draws, the first positive, the second below 1. -/
example : (arsLoop (fun t : ℝ => -t ^ 2 / 2) (fun t => -t) ⊥ ⊤ 100 50 2 gaussHull).lexp (drawsIn [Ioi 0, Iio 1]) =
    (expMass (fun t : ℝ => -t ^ 2 / 2) (supp ⊥ ⊤) (Ioi 0) / expMass (fun t : ℝ => -t ^ 2 / 2) (supp ⊥ ⊤) univ) *
    ((expMass (fun t : ℝ => -t ^ 2 / 2) (supp ⊥ ⊤) (Iio 1) / expMass (fun t : ℝ => -t ^ 2 / 2) (supp ⊥ ⊤) univ) * 1) *
    (arsLoop (fun t : ℝ => -t ^ 2 / 2) (fun t => -t) ⊥ ⊤ 100 50 2 gaussHull).lexp (drawsIn [univ, univ]) :=
  (C75_iid gauss_line gaussHull_good 100 50 (As := [Ioi 0, Iio 1]) (by
    intro A hA
    simp only [List.mem_cons, List.not_mem_nil, or_false] at hA
    rcases hA with rfl | rfl
    · exact measurableSet_Ioi
    · exact measurableSet_Iio)).1

/-! ## C76 -/

/-- If the optimiser returned the mode, and it is an interior point with zero slope, the default starting points lie in the support
on either side of it and give a hull on which the sampler works. -/
theorem C76_partial (hf : StrictDiff f df (supp lb ub)) {mode : ℝ} (hm : mode ∈ supp lb ub) (hd : df mode = 0) :
    (brace lb ub mode).1 < mode ∧ mode < (brace lb ub mode).2 ∧
      (Hull.init f df [(brace lb ub mode).1, (brace lb ub mode).2]).Good f df lb ub := by
  obtain ⟨m1, m2⟩ := hm
  have hlt : lb ≠ ⊤ := fun h => by rw [h] at m1; exact not_top_lt m1
  have hub : ub ≠ ⊥ := fun h => by rw [h] at m2; exact not_lt_bot m2
  have h1 : (brace lb ub mode).1 < mode ∧ lb < ((brace lb ub mode).1 : EReal) := by
    unfold brace
    simp only [hlt, or_false]
    split_ifs with h
    · rw [h]; exact ⟨by linarith, EReal.bot_lt_coe _⟩
    · lift lb to ℝ using ⟨hlt, h⟩
      simp only [EReal.toReal_coe]
      rw [EReal.coe_lt_coe_iff] at m1 ⊢
      constructor <;> linarith
  have h2 : mode < (brace lb ub mode).2 ∧ ((brace lb ub mode).2 : EReal) < ub := by
    unfold brace
    simp only [hub, false_or]
    split_ifs with h
    · rw [h]; exact ⟨by linarith, EReal.coe_lt_top _⟩
    · lift ub to ℝ using ⟨h, hub⟩
      simp only [EReal.toReal_coe]
      rw [EReal.coe_lt_coe_iff] at m2 ⊢
      constructor <;> linarith
  set a := (brace lb ub mode).1
  set b := (brace lb ub mode).2
  have hab : a < b := h1.1.trans h2.1
  have ha : a ∈ supp lb ub := ⟨h1.2, (EReal.coe_lt_coe_iff.2 h1.1).trans m2⟩
  have hb : b ∈ supp lb ub := ⟨m1.trans (EReal.coe_lt_coe_iff.2 h2.1), h2.2⟩
  have da : 0 < df a := by rw [← hd]; exact df_strict hf.conc hf.der ha ⟨m1, m2⟩ h1.1
  have db : df b < 0 := by rw [← hd]; exact df_strict hf.conc hf.der ⟨m1, m2⟩ hb h2.1
  have hx : (Hull.init f df [a, b]).x = [a, b] := by
    exact List.Pairwise.insertionSort_eq (by simp [hab.le])
  refine ⟨h1.1, h2.1, ⟨by rw [hx]; simp, by rw [hx]; simpa using hab, ?_, rfl, rfl⟩, ?_, ?_, ?_, .inl (by rw [hx]; simp)⟩
  · intro c hc; rw [hx] at hc; simp only [List.mem_cons, List.not_mem_nil, or_false] at hc
    rcases hc with rfl | rfl
    · exact ha
    · exact hb
  · intro c hc; rw [hx] at hc; simp only [List.mem_cons, List.not_mem_nil, or_false] at hc
    rcases hc with rfl | rfl
    · exact da.ne'
    · exact db.ne
  · intro _; exact ⟨a, by rw [hx]; simp, da⟩
  · intro _; exact ⟨b, by rw [hx]; simp, db⟩

/-- A mode on the boundary defeats the default starting points: for the exponential log-density `-t` on `(0, ∞)` the mode is 0, the
first starting point is the bound itself, and the sampler cannot make a single pass. -/
theorem C76_violated : (∀ t ∈ supp 0 ⊤, -t < -(0 : ℝ)) ∧ (brace 0 ⊤ 0).1 = 0 ∧ ¬ ((brace 0 ⊤ 0).1 ∈ supp 0 ⊤) ∧
    ∀ maxPts fuel n, 0 < n → ∀ r, (arsSample (fun t => -t) (fun _ => -1) 0 ⊤ [(brace 0 ⊤ 0).1, (brace 0 ⊤ 0).2] maxPts (fuel + 1) n).Out r →
      r = .error .nan := by
  have hb : brace 0 ⊤ 0 = (0, 1) := by
    unfold brace
    simp
  refine ⟨fun t ht => neg_lt_neg (EReal.coe_lt_coe_iff.1 ht.1), by rw [hb], by rw [hb]; simp [supp], ?_⟩
  intro maxPts fuel n hn r hr
  rw [hb] at hr
  obtain ⟨n, rfl⟩ : ∃ m, n = m + 1 := ⟨n - 1, by omega⟩
  have hx : npSort [(0 : ℝ), 1] = [0, 1] := by
    exact List.Pairwise.insertionSort_eq (by simp)
  have hy : hullBreaks 0 ⊤ (Hull.init (fun t : ℝ => -t) (fun _ => -1) [0, 1]).x (Hull.init (fun t : ℝ => -t) (fun _ => -1) [0, 1]).fx
      (Hull.init (fun t : ℝ => -t) (fun _ => -1) [0, 1]).dfx = .error .nan := by
    simp [Hull.init, hx, hullBreaks, genUpper, Except.bind]
  unfold arsSample arsLoop arsStep at hr
  simp only [hy, Prog.lift, Prog.err_bind, Prog.out_err] at hr
  exact hr

/-- The standard normal on the line: mode 0, starting points -1 and 1. -/
example : brace ⊥ ⊤ 0 = (-1, 1) ∧ (Hull.init (fun t : ℝ => -t ^ 2 / 2) (fun t => -t) [-1, 1]).Good (fun t : ℝ => -t ^ 2 / 2) (fun t => -t) ⊥ ⊤ := by
  have e : brace ⊥ ⊤ 0 = (-1, 1) := by unfold brace; simp
  have := (C76_partial gauss_line (mode := 0) (by rw [supp_line]; trivial) (by simp)).2.2
  rw [e] at this
  exact ⟨e, this⟩

end Ctb
