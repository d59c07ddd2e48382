import Verif.Lemmas.Adapt
import Mathlib.Analysis.SpecialFunctions.Log.Deriv
import Mathlib.Analysis.SpecialFunctions.ExpDeriv
import Mathlib.Analysis.SpecialFunctions.Pow.Asymptotics

/-! # C32-C37, C74: constraint transforms and adaptive random-walk samplers -/

set_option linter.unusedSectionVars false

namespace Ctb

/-! ## C32 -/

/-- Constrained to real and back, with the same Jacobian term reported on the way out and back. -/
theorem C32_const_of_reals {x : ℝ} {lb ub : Option ℝ} (h : Inside x lb ub) :
    ∃ y j, transformToReals x lb ub = .ok (y, j) ∧ transformToConst y lb ub = (x, j) :=
  toReals_inside h

/-- Real to constrained and back: no NaN, and the original value and Jacobian term are recovered exactly. -/
theorem C32_reals_of_const (y : ℝ) (lb ub : Option ℝ) :
    transformToReals (transformToConst y lb ub).1 lb ub = .ok (y, (transformToConst y lb ub).2) := by
  rcases lb with _ | l <;> rcases ub with _ | u <;>
    simp [transformToConst, transformToReals, npLog, Real.exp_pos, bind, Except.bind, pure, Except.pure]

/-- The second component is minus the log absolute derivative of the constrained value in the real value. -/
theorem C32_jacobian (y : ℝ) (lb ub : Option ℝ) :
    ∃ d, HasDerivAt (fun y => (transformToConst y lb ub).1) d y ∧ d ≠ 0 ∧ (transformToConst y lb ub).2 = -Real.log |d| := by
  rcases lb with _ | l <;> rcases ub with _ | u
  · exact ⟨1, hasDerivAt_id y, one_ne_zero, by simp [transformToConst]⟩
  · exact ⟨-Real.exp y, by simpa [transformToConst] using (Real.hasDerivAt_exp y).const_sub u, by simp [Real.exp_ne_zero],
      by simp [transformToConst]⟩
  · exact ⟨Real.exp y, by simpa [transformToConst] using (Real.hasDerivAt_exp y).const_add l, Real.exp_ne_zero y,
      by simp [transformToConst]⟩
  · exact ⟨1, hasDerivAt_id y, one_ne_zero, by simp [transformToConst]⟩

/-- Values outside a single finite bound give NaN, so the round trip cannot be extended. -/
theorem C32_outside {x : ℝ} {lb ub : Option ℝ} (h1 : lb = none ∨ ub = none) (h : ¬ Inside x lb ub) :
    transformToReals x lb ub = .error .nan := by
  rcases lb with _ | l <;> rcases ub with _ | u
  · exact absurd ⟨by simp, by simp⟩ h
  · have : ¬ x < u := fun h' => h ⟨by simp, by simpa using h'⟩
    simp [transformToReals, npLog, this, bind, Except.bind]
  · have : ¬ l < x := fun h' => h ⟨by simpa using h', by simp⟩
    simp [transformToReals, npLog, this, bind, Except.bind]
  · simp at h1

example : Inside 3 (some 2) none ∧ Inside (-1) none (some 0) ∧ ¬ Inside 2 (some 2) none := by
  refine ⟨⟨?_, ?_⟩, ⟨?_, ?_⟩, ?_⟩ <;> simp [Inside] <;> norm_num
example : transformToReals 3 (some 2) none = .ok (0, 0) := by
  simp [transformToReals, npLog, bind, Except.bind, pure, Except.pure]; norm_num

/-! ## C33 -/

/-- Whatever the draws, proposals respect every coordinate's bounds unless that coordinate has two finite bounds.
Missing: coordinates with two finite bounds (`C33_violated`). -/
theorem C33_partial {n : ℕ} (root : Matrix (Fin n) (Fin n) ℝ → Matrix (Fin n) (Fin n) ℝ) (s : MvRw n) {x : Fin n → ℝ} {f b : ℝ}
    (h : (s.propose root).Out (.ok (x, f, b))) (i : Fin n) (hi : s.lb i = none ∨ s.ub i = none) :
    Inside (x i) (s.lb i) (s.ub i) := by
  unfold MvRw.propose at h
  obtain ⟨r, -, h⟩ := Prog.out_bind_ok.1 h
  obtain ⟨sc, -, h⟩ := Prog.out_bind_ok.1 h
  obtain ⟨z, -, h⟩ := Prog.out_bind_ok.1 h
  simp only [Prog.out_ret, Except.ok.injEq, Prod.mk.injEq] at h
  rw [h.1]
  exact toConst_inside _ hi

/-- With two finite bounds the walk is not transformed: from every state and for every invertible factor some draw
leaves the bounds. -/
theorem C33_violated {n : ℕ} (root : Matrix (Fin n) (Fin n) ℝ → Matrix (Fin n) (Fin n) ℝ) (P : AdaptPar) (x0 : Fin n → ℝ)
    (lb ub : Fin n → ℝ) (i : Fin n) (hroot : IsUnit (root (Real.exp (-1) • 1)).det) :
    ∃ x f b, ((MvRw.init P x0 (fun i => some (lb i)) (fun i => some (ub i))).propose root).Out (.ok (x, f, b)) ∧ ub i < x i := by
  set R := root (Real.exp (-1) • 1) with hR
  set z := R⁻¹.mulVec (fun j => ub j + 1 - x0 j) with hz
  have hRz : R.mulVec z = fun j => ub j + 1 - x0 j := by
    rw [hz, Matrix.mulVec_mulVec, Matrix.mul_nonsing_inv _ hroot, Matrix.one_mulVec]
  refine ⟨fun j => ub j + 1, 0, 0, ?_, by linarith⟩
  unfold MvRw.propose
  refine Prog.out_bind_ok.2 ⟨fun j => (x0 j, 0), ?_, Prog.out_bind_ok.2 ⟨-1, ?_, Prog.out_bind_ok.2 ⟨z, ?_, ?_⟩⟩⟩
  · rw [Prog.out_lift, Eq.comm, allOk_ok]; intro j; rfl
  · rw [Prog.out_lift]; exact (lastOf_append [] (-1)).symm
  · exact drawNormals_out.2 ⟨z, rfl⟩
  · simp only [Prog.out_ret, Except.ok.injEq, Prod.mk.injEq]
    simp only [MvRw.init, ← hR, hRz, transformToConst, Finset.sum_const_zero, and_self, and_true]
    ext j; ring

/-- The hypothesis of `C33_violated` holds for the scalar factor `√c · 1`. -/
example : IsUnit ((fun C : Matrix (Fin 2) (Fin 2) ℝ => (Real.sqrt (C 0 0)) • (1 : Matrix (Fin 2) (Fin 2) ℝ)) (Real.exp (-1) • 1)).det := by
  simp [Matrix.det_smul, Real.sqrt_eq_zero', Real.exp_pos, Real.exp_ne_zero]

/-! ## C34 -/

open scoped Classical

theorem count_changes {air m k : ℕ} (hm : 1 ≤ m) (h1 : changeTime air (m - 1) ≤ k) (h2 : k < changeTime air m) :
    ((Finset.Icc 1 k).filter fun k => ∃ m, 1 ≤ m ∧ k = changeTime air m).card = m - 1 := by
  have hmono := changeTime_strictMono air
  have e : ((Finset.Icc 1 k).filter fun k => ∃ m, 1 ≤ m ∧ k = changeTime air m) = (Finset.Icc 1 (m - 1)).image (changeTime air) := by
    ext j
    simp only [Finset.mem_filter, Finset.mem_Icc, Finset.mem_image]
    constructor
    · rintro ⟨⟨-, hj⟩, m', hm', rfl⟩
      refine ⟨m', ⟨hm', ?_⟩, rfl⟩
      have := hmono.lt_iff_lt.1 (lt_of_le_of_lt hj h2)
      omega
    · rintro ⟨m', ⟨hm', hm''⟩, rfl⟩
      refine ⟨⟨?_, ?_⟩, m', hm', rfl⟩
      · have : changeTime air 0 < changeTime air m' := hmono (by omega)
        have h0 : changeTime air 0 = 0 := rfl
        omega
      · exact le_trans (hmono.monotone hm'') h1
  rw [e, Finset.card_image_of_injective _ hmono.injective, Nat.card_Icc]
  omega

theorem SchedInv.count {P : AdaptPar} {m k : ℕ} {s : Schedule} (h : SchedInv P m k s) :
    s.logScale.length = 1 + ((Finset.Icc 1 k).filter fun k => ∃ m, 1 ≤ m ∧ k = changeTime P.air m).card := by
  rw [count_changes h.pos h.lower h.upper, h.scale]
  have := h.pos
  omega

/-- Change times for `air = 1` are the triangular numbers. -/
theorem C34_triangular (k : ℕ) : (∃ m, 1 ≤ m ∧ k = changeTime 1 m) ↔ ∃ m, 1 ≤ m ∧ k = m * (m + 1) / 2 := by
  have : ∀ m, changeTime 1 m = m * (m + 1) / 2 := fun m => by have := changeTime_one m; omega
  simp only [this]

/-- Multivariate sampler: no history raises, and the number of scales is one plus the number of triangular call numbers. -/
theorem C34_mv {n : ℕ} (P : AdaptPar) (hP : P.air = 1) (x0 : Fin n → ℝ) (lb ub : Fin n → Option ℝ) (h : List ((Fin n → ℝ) × ℝ))
    (hadm : ∀ q ∈ h, ∀ i, Admissible (q.1 i) (lb i) (ub i)) :
    ∃ s, runAdapt (MvRw.adapt P) (.init P x0 lb ub) h = .ok s ∧
      s.sched.logScale.length = 1 + ((Finset.Icc 1 h.length).filter fun k => ∃ m, 1 ≤ m ∧ k = m * (m + 1) / 2).card := by
  obtain ⟨s, ys, hr, -, -, -, ⟨m, hinv⟩, -⟩ := mv_run P x0 lb ub h hadm
  refine ⟨s, hr, ?_⟩
  rw [hinv.count, hP]
  simp only [C34_triangular]

theorem sched_run_lift {S σ : Type} {step : S → σ → ℝ → Res S} {sched : S → Schedule} {useMean : Bool} {P : AdaptPar}
    (hstep : ∀ s x p sc, (sched s).adapt useMean P p = .ok sc → ∃ s', step s x p = .ok s' ∧ sched s' = sc)
    {s0 : S} {h : List (σ × ℝ)} {sc : Schedule}
    (hr : runAdapt (fun s (_ : Unit) p => s.adapt useMean P p) (sched s0) ((h.map Prod.snd).map fun p => ((), p)) = .ok sc) :
    ∃ s, runAdapt step s0 h = .ok s ∧ sched s = sc := by
  induction h generalizing s0 with
  | nil => simp only [List.map_nil, runAdapt, Except.ok.injEq] at hr; exact ⟨s0, rfl, hr⟩
  | cons x h ih =>
    simp only [List.map_cons, runAdapt] at hr ⊢
    cases hs : (sched s0).adapt useMean P x.2 with
    | error e => rw [hs] at hr; simp at hr
    | ok s1 =>
      rw [hs] at hr
      obtain ⟨s', h1, h2⟩ := hstep s0 x.1 x.2 s1 hs
      rw [h1]
      exact ih (by rw [h2]; exact hr)

theorem rw_step (P : AdaptPar) (s : Rw) (x p : ℝ) (sc : Schedule) (h : s.sched.adapt true P p = .ok sc) :
    ∃ s', s.adapt P x p = .ok s' ∧ s'.sched = sc := by
  refine ⟨{ s with state := x, sched := sc }, ?_, rfl⟩
  unfold Rw.adapt; simp only [h, bind, Except.bind, pure, Except.pure]

theorem mjp_step {σ : Type} (P : AdaptPar) (s : MjpAdaptive σ) (x : σ) (p : ℝ) (sc : Schedule) (h : s.sched.adapt false P p = .ok sc) :
    ∃ s', s.adapt P x p = .ok s' ∧ s'.sched = sc := by
  refine ⟨⟨x, sc⟩, ?_, rfl⟩
  unfold MjpAdaptive.adapt; simp only [h, bind, Except.bind, pure, Except.pure]

/-- Scalar sampler. -/
theorem C34_rw (P : AdaptPar) (hP : P.air = 1) (x0 : ℝ) (lb ub : Option ℝ) (h : List (ℝ × ℝ)) :
    ∃ s, runAdapt (Rw.adapt P) (.init P x0 lb ub) h = .ok s ∧
      s.sched.logScale.length = 1 + ((Finset.Icc 1 h.length).filter fun k => ∃ m, 1 ≤ m ∧ k = m * (m + 1) / 2).card := by
  obtain ⟨sc, m, hr, hinv, -⟩ := sched_run true (-1) P (h.map Prod.snd)
  obtain ⟨s, h1, h2⟩ := sched_run_lift (step := Rw.adapt P) (sched := Rw.sched) (s0 := .init P x0 lb ub) (rw_step P) hr
  refine ⟨s, h1, ?_⟩
  rw [h2, hinv.count, hP]
  simp only [C34_triangular, List.length_map]

/-- Jump-process sampler. -/
theorem C34_mjp {σ : Type} (P : AdaptPar) (hP : P.air = 1) (x0 : σ) (h : List (σ × ℝ)) :
    ∃ s, runAdapt (MjpAdaptive.adapt P) (.init P x0) h = .ok s ∧
      s.sched.logScale.length = 1 + ((Finset.Icc 1 h.length).filter fun k => ∃ m, 1 ≤ m ∧ k = m * (m + 1) / 2).card := by
  obtain ⟨sc, m, hr, hinv, -⟩ := sched_run false 0 P (h.map Prod.snd)
  obtain ⟨s, h1, h2⟩ := sched_run_lift (step := MjpAdaptive.adapt P) (sched := MjpAdaptive.sched) (s0 := .init P x0) (mjp_step P) hr
  refine ⟨s, h1, ?_⟩
  rw [h2, hinv.count, hP]
  simp only [C34_triangular, List.length_map]

/-- One more call changes the scale list iff the number of the call is triangular, and a change only appends. -/
theorem C34_changes {σ : Type} (P : AdaptPar) (hP : P.air = 1) (x0 : σ) (h : List (σ × ℝ)) (q : σ × ℝ) :
    ∃ s s', runAdapt (MjpAdaptive.adapt P) (.init P x0) h = .ok s ∧ runAdapt (MjpAdaptive.adapt P) (.init P x0) (h ++ [q]) = .ok s' ∧
      s.sched.logScale <+: s'.sched.logScale ∧
      (s'.sched.logScale ≠ s.sched.logScale ↔ ∃ m, 1 ≤ m ∧ h.length + 1 = m * (m + 1) / 2) := by
  obtain ⟨sc, m, hr, hinv, -⟩ := sched_run false 0 P (h.map Prod.snd)
  obtain ⟨s, h1, h2⟩ := sched_run_lift (step := MjpAdaptive.adapt P) (sched := MjpAdaptive.sched) (s0 := .init P x0) (mjp_step P) hr
  obtain ⟨sc', h3, -, h4⟩ := hinv.step false q.2
  obtain ⟨s', h5, h6⟩ := mjp_step P s q.1 q.2 sc' (by rw [h2]; exact h3)
  refine ⟨s, s', h1, by rw [runAdapt_append, h1]; simp only [runAdapt, h5], ?_⟩
  rw [h2, h6, ← C34_triangular, show (∃ m, 1 ≤ m ∧ h.length + 1 = changeTime 1 m) ↔ ∃ m, 1 ≤ m ∧ h.length + 1 = changeTime P.air m by rw [hP]]
  rw [List.length_map] at h4
  rcases h4 with ⟨hk, -, he⟩ | ⟨hk, -, c, mp, -, he, -⟩
  · rw [he]
    refine ⟨List.prefix_refl _, ⟨fun h => absurd rfl h, ?_⟩⟩
    rintro ⟨m', hm', he'⟩
    have hl := hinv.lower
    have hu := hinv.upper
    rw [List.length_map] at hl hu
    have hmono := changeTime_strictMono P.air
    have a1 : m - 1 < m' := hmono.lt_iff_lt.1 (by omega)
    have a2 : m' ≤ m := hmono.le_iff_le.1 (by omega)
    have : m' = m := by omega
    subst this
    exact absurd he' hk
  · rw [he]
    refine ⟨List.prefix_append _ _, ⟨fun _ => ⟨m, hinv.pos, hk⟩, fun _ h => ?_⟩⟩
    have := congrArg List.length h
    simp at this

/-- Calls 1, 3, 6, 10 are the first four changes. -/
example : (List.range 11).map (fun m => m * (m + 1) / 2) = [0, 1, 3, 6, 10, 15, 21, 28, 36, 45, 55] := by decide
example : ((Finset.Icc 1 6).filter fun k => ∃ m, 1 ≤ m ∧ k = changeTime 1 m).card = 3 :=
  count_changes (m := 4) (by norm_num) (by decide) (by decide)

/-! ## C35 -/

/-- Multivariate sampler: the `j`-th change is at most `1 / (j+1)^decay` (the schedule then has `j + 1` periods). -/
theorem C35_mv {n : ℕ} (P : AdaptPar) (hP : 0 ≤ P.optProb ∧ P.optProb ≤ 1) (x0 : Fin n → ℝ) (lb ub : Fin n → Option ℝ)
    (h : List ((Fin n → ℝ) × ℝ)) (hadm : ∀ q ∈ h, ∀ i, Admissible (q.1 i) (lb i) (ub i)) (hp : ∀ q ∈ h, 0 ≤ q.2 ∧ q.2 ≤ 1) :
    ∃ s, runAdapt (MvRw.adapt P) (.init P x0 lb ub) h = .ok s ∧
      ∀ j a b, s.sched.logScale[j]? = some a → s.sched.logScale[j + 1]? = some b → |b - a| ≤ 1 / ((j + 2 : ℕ) : ℝ) ^ P.decay := by
  obtain ⟨s, ys, hr, -, -, -, -, hs, -⟩ := mv_run P x0 lb ub h hadm
  obtain ⟨sc, m, hr', -, -, hb⟩ := sched_run true (-1) P (h.map Prod.snd)
  rw [hs] at hr'
  simp only [Except.ok.injEq] at hr'
  refine ⟨s, hr, ?_⟩
  rw [hr']
  apply hb
  intro p hp'
  rcases List.mem_cons.1 hp' with rfl | hp'
  · exact hP
  · obtain ⟨q, hq, rfl⟩ := List.mem_map.1 hp'
    exact hp q hq

/-- Scalar sampler. -/
theorem C35_rw (P : AdaptPar) (hP : 0 ≤ P.optProb ∧ P.optProb ≤ 1) (x0 : ℝ) (lb ub : Option ℝ)
    (h : List (ℝ × ℝ)) (hp : ∀ q ∈ h, 0 ≤ q.2 ∧ q.2 ≤ 1) :
    ∃ s, runAdapt (Rw.adapt P) (.init P x0 lb ub) h = .ok s ∧
      ∀ j a b, s.sched.logScale[j]? = some a → s.sched.logScale[j + 1]? = some b → |b - a| ≤ 1 / ((j + 2 : ℕ) : ℝ) ^ P.decay := by
  obtain ⟨sc, m, hr, -, -, hb⟩ := sched_run true (-1) P (h.map Prod.snd)
  obtain ⟨s, h1, h2⟩ := sched_run_lift (step := Rw.adapt P) (sched := Rw.sched) (s0 := .init P x0 lb ub) (rw_step P) hr
  refine ⟨s, h1, ?_⟩
  rw [h2]
  apply hb
  intro p hp'
  rcases List.mem_cons.1 hp' with rfl | hp'
  · exact hP
  · obtain ⟨q, hq, rfl⟩ := List.mem_map.1 hp'
    exact hp q hq

/-- Jump-process sampler. -/
theorem C35_mjp {σ : Type} (P : AdaptPar) (hP : 0 ≤ P.optProb ∧ P.optProb ≤ 1) (x0 : σ)
    (h : List (σ × ℝ)) (hp : ∀ q ∈ h, 0 ≤ q.2 ∧ q.2 ≤ 1) :
    ∃ s, runAdapt (MjpAdaptive.adapt P) (.init P x0) h = .ok s ∧
      ∀ j a b, s.sched.logScale[j]? = some a → s.sched.logScale[j + 1]? = some b → |b - a| ≤ 1 / ((j + 2 : ℕ) : ℝ) ^ P.decay := by
  obtain ⟨sc, m, hr, -, -, hb⟩ := sched_run false 0 P (h.map Prod.snd)
  obtain ⟨s, h1, h2⟩ := sched_run_lift (step := MjpAdaptive.adapt P) (sched := MjpAdaptive.sched) (s0 := .init P x0) (mjp_step P) hr
  refine ⟨s, h1, ?_⟩
  rw [h2]
  apply hb
  intro p hp'
  rcases List.mem_cons.1 hp' with rfl | hp'
  · exact hP
  · obtain ⟨q, hq, rfl⟩ := List.mem_map.1 hp'
    exact hp q hq

/-- The bounds on the changes tend to zero. -/
theorem C35_tendsto {decay : ℝ} (hd : 0 < decay) :
    Filter.Tendsto (fun j : ℕ => 1 / ((j + 2 : ℕ) : ℝ) ^ decay) Filter.atTop (nhds 0) := by
  have h1 : Filter.Tendsto (fun j : ℕ => ((j + 2 : ℕ) : ℝ)) Filter.atTop Filter.atTop :=
    tendsto_natCast_atTop_atTop.comp (Filter.tendsto_add_atTop_nat 2)
  simp only [one_div]
  exact ((tendsto_rpow_atTop hd).comp h1).inv_tendsto_atTop

/-- Along an infinite history the scale changes vanish: for every `ε` there is a number of changes after which every
further change, at any length of the history, is below `ε`. -/
theorem C35_diminishing {σ : Type} (P : AdaptPar) (hP : 0 ≤ P.optProb ∧ P.optProb ≤ 1) (hd : 0 < P.decay) (x0 : σ)
    (q : ℕ → σ × ℝ) (hq : ∀ k, 0 ≤ (q k).2 ∧ (q k).2 ≤ 1) {ε : ℝ} (hε : 0 < ε) :
    ∃ J, ∀ k, ∃ s, runAdapt (MjpAdaptive.adapt P) (.init P x0) ((List.range k).map q) = .ok s ∧
      ∀ j a b, J ≤ j → s.sched.logScale[j]? = some a → s.sched.logScale[j + 1]? = some b → |b - a| < ε := by
  have := (C35_tendsto hd).eventually (gt_mem_nhds hε)
  obtain ⟨J, hJ⟩ := Filter.eventually_atTop.1 this
  refine ⟨J, fun k => ?_⟩
  obtain ⟨s, h1, h2⟩ := C35_mjp P hP x0 ((List.range k).map q) (by
    intro r hr; obtain ⟨i, -, rfl⟩ := List.mem_map.1 hr; exact hq i)
  exact ⟨s, h1, fun j a b hj ha hb => lt_of_le_of_lt (h2 j a b ha hb) (hJ j hj)⟩

/-- The bound is attained: the first reported probability being 1 with target 0 raises the scale by `1/2^decay`. -/
example : ∃ s, runAdapt (MjpAdaptive.adapt ⟨0, 1, 1⟩) (.init ⟨0, 1, 1⟩ ()) [((), 1)] = .ok s ∧ s.sched.logScale = [0, 1 / 2] := by
  refine ⟨⟨(), [0, 1 / 2], [0, 1], [0, 1, 3]⟩, ?_, rfl⟩
  simp [runAdapt, MjpAdaptive.adapt, MjpAdaptive.init, Schedule.init, Schedule.adapt, lastOf, secondLastOf, pyGet, bind, Except.bind,
    pure, Except.pure]

/-! ## C36 -/

/-- Every history: the mean is the average of the zero start and the transformed samples (`ys`), both covariances stay
positive definite, and the proposal covariance passed to the normal draw is positive definite. -/
theorem C36_running_moments {n : ℕ} (P : AdaptPar) (x0 : Fin n → ℝ) (lb ub : Fin n → Option ℝ) (h : List ((Fin n → ℝ) × ℝ))
    (hadm : ∀ q ∈ h, ∀ i, Admissible (q.1 i) (lb i) (ub i)) :
    ∃ (s : MvRw n) (ys : List (Fin n → ℝ)), runAdapt (MvRw.adapt P) (.init P x0 lb ub) h = .ok s ∧
      List.Forall₂ (fun q y => ∀ i, (transformToConst (y i) (lb i) (ub i)).1 = q.1 i) h ys ∧
      (∀ i, s.mean i = (0 + (ys.map fun y => y i).sum) / (h.length + 1)) ∧
      s.cov.PosDef ∧ s.propCov.PosDef ∧ ∀ sc : ℝ, (Real.exp sc • s.propCov).PosDef := by
  obtain ⟨s, ys, hr, -, -, -, -, -, hys, hmean, hc, hp, -⟩ := mv_run P x0 lb ub h hadm
  refine ⟨s, ys, hr, ?_, ?_, hc, hp, fun sc => hp.smul (Real.exp_pos sc)⟩
  · clear hmean hr
    induction hys with
    | nil => exact .nil
    | @cons q y h ys h1 _ ih =>
      refine .cons (fun i => ?_) (ih fun q hq => hadm q (by simp [hq]))
      obtain ⟨y', j', e1, e2⟩ := toReals_ok (hadm q (by simp) i)
      obtain ⟨j, e3⟩ := h1 i
      rw [e1] at e3
      simp only [Except.ok.injEq, Prod.mk.injEq] at e3
      rw [← e3.1, e2]
  · intro i
    rw [zero_add, eq_div_iff (by positivity)]
    exact hmean i

/-- After every history the sampler can propose: no outcome of `propose` is an error. -/
theorem C36_propose_defined {n : ℕ} (root : Matrix (Fin n) (Fin n) ℝ → Matrix (Fin n) (Fin n) ℝ) (P : AdaptPar) (x0 : Fin n → ℝ)
    (lb ub : Fin n → Option ℝ) (h0 : ∀ i, Admissible (x0 i) (lb i) (ub i)) (h : List ((Fin n → ℝ) × ℝ))
    (hadm : ∀ q ∈ h, ∀ i, Admissible (q.1 i) (lb i) (ub i)) :
    ∃ s, runAdapt (MvRw.adapt P) (.init P x0 lb ub) h = .ok s ∧ ∀ e, ¬ (s.propose root).Out (.error e) := by
  obtain ⟨s, ys, hr, hlb, hub, -, ⟨m, hinv⟩, -, -, -, -, -, hst⟩ := mv_run P x0 lb ub h hadm
  refine ⟨s, hr, fun e he => ?_⟩
  have hs : ∀ i, Admissible (s.state i) (lb i) (ub i) := by
    have : s.state ∈ x0 :: h.map Prod.fst := by rw [hst]; exact List.getLast_mem _
    rcases List.mem_cons.1 this with e | e
    · rw [e]; exact h0
    · obtain ⟨q, hq, e⟩ := List.mem_map.1 e
      rw [← e]; exact hadm q hq
  choose y j hy _ using fun i => toReals_ok (hs i)
  have h1 : (allOk fun i => transformToReals (s.state i) (s.lb i) (s.ub i)) = .ok fun i => (y i, j i) :=
    allOk_ok.2 (by rw [hlb, hub]; exact hy)
  obtain ⟨L, sc, hL⟩ : ∃ L sc, s.sched.logScale = L ++ [sc] := by
    have hne : s.sched.logScale ≠ [] := by
      intro e; have h1 := hinv.scale; have h2 := hinv.pos; rw [e] at h1; simp at h1; omega
    exact ⟨_, _, (List.dropLast_append_getLast hne).symm⟩
  have h2 : lastOf s.sched.logScale = .ok sc := by rw [hL]; exact lastOf_append _ _
  unfold MvRw.propose at he
  rw [h1, h2] at he
  simp only [Prog.lift, Prog.bind] at he
  rcases Prog.out_bind.1 he with ⟨z, -, h3⟩ | ⟨e', h3, -⟩
  · simp at h3
  · obtain ⟨z, h4⟩ := drawNormals_out.1 h3
    simp at h4

example : Admissible 3 (some 2) none ∧ Admissible 7 (some 2) (some 5) := by
  refine ⟨fun _ => ⟨?_, ?_⟩, fun h => ?_⟩ <;> simp at * ; norm_num

/-! ## C37 -/

/-- The scalar sampler's `propose` never returns: for every state strictly inside the bounds every outcome is a TypeError. -/
theorem C37_violated (s : Rw) (h : Inside s.state s.lb s.ub) (hs : s.sched.logScale ≠ []) (r : Res (ℝ × ℝ × ℝ)) :
    s.propose.Out r ↔ r = .error .type := by
  obtain ⟨y, j, h1, -⟩ := toReals_inside h
  obtain ⟨L, sc, hL⟩ : ∃ L sc, s.sched.logScale = L ++ [sc] := ⟨_, _, (List.dropLast_append_getLast hs).symm⟩
  have h2 : lastOf s.sched.logScale = .ok sc := by rw [hL]; exact lastOf_append _ _
  unfold Rw.propose
  rw [h1, h2]
  simp only [Prog.lift, Prog.bind, pySumFloat, Prog.out_real, Prog.out_err]
  constructor
  · rintro ⟨z, -, rfl⟩; rfl
  · rintro rfl; exact ⟨0, by simp [RDist.support], rfl⟩

/-- What does hold of the scalar sampler: for every draw `z`, up to the two `sum` calls of line 108, there is a
proposal inside the bounds unless both are finite, with forward and backward terms the log-Jacobians at proposal and state.
Missing: the code itself raises, see `C37_violated`. -/
theorem C37_partial (s : Rw) (h : Inside s.state s.lb s.ub) (z : ℝ) :
    ∃ y j, transformToReals s.state s.lb s.ub = .ok (y, j) ∧
      transformToReals (transformToConst z s.lb s.ub).1 s.lb s.ub = .ok (z, (transformToConst z s.lb s.ub).2) ∧
      (s.lb = none ∨ s.ub = none → Inside (transformToConst z s.lb s.ub).1 s.lb s.ub) := by
  obtain ⟨y, j, h1, -⟩ := toReals_inside h
  exact ⟨y, j, h1, C32_reals_of_const z s.lb s.ub, toConst_inside z⟩

example : Inside (Rw.init ⟨0.234, 0.66, 1⟩ 3 (some 2) none).state (some 2) none ∧
    (Rw.init ⟨0.234, 0.66, 1⟩ 3 (some 2) none).sched.logScale ≠ [] := by
  refine ⟨⟨?_, ?_⟩, ?_⟩ <;> simp [Rw.init, Schedule.init]; norm_num

/-! ## C74 -/

/-- Repeated `seq_update_normal` calls as in the doctest (adapt.py:17): the observation with index `i` (the `i+1`-st) is
passed with `n = i`. -/
noncomputable def doctestRun (y : ℕ → Fin 1 → ℝ) (m : Fin 1 → ℝ) (c : Matrix (Fin 1) (Fin 1) ℝ) : ℕ → (Fin 1 → ℝ) × Matrix (Fin 1) (Fin 1) ℝ
  | 0 => (m, c)
  | k + 1 => seqUpdateNormal (y (k + 2)) ((k + 2 : ℕ) : ℝ) (doctestRun y m c k).1 (doctestRun y m c k).2

/-- The doctest's claim fails: three observations 0, 0, 1 give mean 1/2 instead of 1/3. -/
theorem C74_violated : ∃ y : ℕ → Fin 1 → ℝ,
    (doctestRun y (fun _ => (y 0 0 + y 1 0) / 2) 0 1).1 0 ≠ (y 0 0 + y 1 0 + y 2 0) / 3 := by
  refine ⟨fun i _ => if i = 2 then 1 else 0, ?_⟩
  norm_num [doctestRun, seqUpdateNormal]

/-- With `n` the number of observations including the new one, the mean update is the average, for every dimension and
every `n`.  Missing: the covariance, which is not the sample covariance under any choice of `n` (`C74_cov_violated`; the right recursion is
`C74_recursion`). -/
theorem C74_partial {d : ℕ} (y : ℕ → Fin d → ℝ) (n : ℕ) (c : Matrix (Fin d) (Fin d) ℝ) (i : Fin d) :
    (seqUpdateNormal (y n) ((n + 1 : ℕ) : ℝ) (fun i => (∑ k ∈ Finset.range n, y k i) / n) c).1 i =
      (∑ k ∈ Finset.range (n + 1), y k i) / ((n + 1 : ℕ) : ℝ) := by
  rw [Finset.sum_range_succ]
  simp only [seqUpdateNormal]
  rcases Nat.eq_zero_or_pos n with rfl | hn
  · simp
  · have : (0 : ℝ) < n := by exact_mod_cast hn
    push_cast
    field_simp
    ring

/-- Mean of the first `k` of the numbers `y`. -/
noncomputable def firstMean (y : ℕ → ℝ) (k : ℕ) : ℝ := (∑ i ∈ Finset.range k, y i) / k

/-- Sample variance of the first `k` of the numbers `y`, what `np.cov` returns for one variable. -/
noncomputable def firstVar (y : ℕ → ℝ) (k : ℕ) : ℝ := (∑ i ∈ Finset.range k, (y i - firstMean y k) ^ 2) / (k - 1)

theorem firstVar_eq (y : ℕ → ℝ) {k : ℕ} (hk : 0 < k) :
    firstVar y k = (∑ i ∈ Finset.range k, y i ^ 2 - (∑ i ∈ Finset.range k, y i) ^ 2 / k) / (k - 1) := by
  have hk' : (k : ℝ) ≠ 0 := by positivity
  unfold firstVar
  congr 1
  have : ∀ i, (y i - firstMean y k) ^ 2 = y i ^ 2 - 2 * firstMean y k * y i + firstMean y k ^ 2 := fun i => by ring
  simp only [this, Finset.sum_add_distrib, Finset.sum_sub_distrib, ← Finset.mul_sum, Finset.sum_const, Finset.card_range,
    nsmul_eq_mul]
  unfold firstMean
  field_simp
  ring

/-- How the sample variance really grows by one observation. -/
theorem C74_recursion (y : ℕ → ℝ) {k : ℕ} (hk : 2 ≤ k) :
    firstVar y (k + 1) = firstVar y k * ((k - 1) / k) + (y k - firstMean y k) ^ 2 / (k + 1) := by
  have hk' : (0 : ℝ) < k := by have : 0 < k := by omega
                               positivity
  have hk1 : (k : ℝ) - 1 ≠ 0 := by
    have : (2 : ℝ) ≤ k := by exact_mod_cast hk
    intro h; linarith
  rw [firstVar_eq y (by omega), firstVar_eq y (by omega), Finset.sum_range_succ, Finset.sum_range_succ]
  unfold firstMean
  generalize ∑ i ∈ Finset.range k, y i = s
  generalize ∑ i ∈ Finset.range k, y i ^ 2 = q
  push_cast
  rw [show (k : ℝ) + 1 - 1 = k by ring]
  field_simp
  ring

/-- The covariance claim of the doctest fails whatever is passed as `n`: for every number `k` of observations so far and every `n`
there are numbers for which the updated variance is not the sample variance of the `k + 1` observations. -/
theorem C74_cov_violated {k : ℕ} (hk : 2 ≤ k) {n : ℝ} (hn : n ≠ 0) : ∃ y : ℕ → ℝ,
    (seqUpdateNormal (fun _ : Fin 1 => y k) n (fun _ => firstMean y k) (fun _ _ => firstVar y k)).2 0 0 ≠ firstVar y (k + 1) := by
  have hk2 : (2 : ℝ) ≤ k := by exact_mod_cast hk
  have hk1 : (k : ℝ) - 1 ≠ 0 := by intro h; linarith
  simp only [C74_recursion _ hk, seqUpdateNormal]
  by_cases h : n = k + 1
  · refine ⟨fun i => if i = 0 then 1 else if i = 1 then -1 else 0, ?_⟩
    set y : ℕ → ℝ := fun i => if i = 0 then 1 else if i = 1 then -1 else 0 with hy
    obtain ⟨j, rfl⟩ : ∃ j, k = j + 2 := ⟨k - 2, by omega⟩
    have h1 : ∑ i ∈ Finset.range (j + 2), y i = 0 := by
      rw [Finset.sum_range_succ', Finset.sum_range_succ']; simp [hy]
    have h2 : ∑ i ∈ Finset.range (j + 2), y i ^ 2 = 2 := by
      rw [Finset.sum_range_succ', Finset.sum_range_succ']; simp [hy]; norm_num
    have h3 : y (j + 2) = 0 := by simp [hy]
    have h4 : firstMean y (j + 2) = 0 := by simp [firstMean, h1]
    rw [firstVar_eq y (by omega), h1, h2, h3, h4, h]
    generalize ((j + 2 : ℕ) : ℝ) = K at *
    have hK : K ≠ 0 := by intro h; linarith
    have hK' : K + 1 ≠ 0 := by intro h; linarith
    intro e
    field_simp at e
    ring_nf at e
    linarith
  · refine ⟨fun i => if i = k then 1 else 0, ?_⟩
    have h1 : ∑ i ∈ Finset.range k, (if i = k then (1 : ℝ) else 0) = 0 :=
      Finset.sum_eq_zero fun i hi => if_neg (by have := Finset.mem_range.mp hi; omega)
    have h2 : ∑ i ∈ Finset.range k, (if i = k then (1 : ℝ) else 0) ^ 2 = 0 :=
      Finset.sum_eq_zero fun i hi => by rw [if_neg (by have := Finset.mem_range.mp hi; omega)]; norm_num
    rw [firstVar_eq _ (by omega), h1, h2]
    simp only [firstMean, h1, if_true]
    intro e
    apply h
    simpa using e

example : firstVar (fun i => if i = 2 then 1 else 0) 3 = 1 / 3 := by
  rw [firstVar_eq _ (by omega)]; norm_num [Finset.sum_range_succ]

end Ctb
