import Verif.Spec.Adapt
import Mathlib.Algebra.BigOperators.Fin
import Mathlib.LinearAlgebra.Matrix.PosDef
import Mathlib.Data.Real.StarOrdered

/-! # Lemmas about the adaptive samplers -/

set_option linter.unusedSectionVars false

namespace Ctb

theorem runAdapt_append {S σ : Type} {step : S → σ → ℝ → Res S} {s : S} {h h' : List (σ × ℝ)} :
    runAdapt step s (h ++ h') = match runAdapt step s h with
      | .ok s' => runAdapt step s' h'
      | .error e => .error e := by
  induction h generalizing s with
  | nil => rfl
  | cons x h ih =>
    simp only [List.cons_append, runAdapt]
    cases step s x.1 x.2 with
    | ok s' => exact ih
    | error e => rfl

theorem changeTime_succ (air m : ℕ) : changeTime air (m + 1) = changeTime air m + (m + 1) ^ air := by
  rw [changeTime, Finset.sum_range_succ]; rfl

theorem changeTime_strictMono (air : ℕ) : StrictMono (changeTime air) := by
  apply strictMono_nat_of_lt_succ
  intro m
  rw [changeTime_succ]
  have : 0 < (m + 1) ^ air := Nat.pow_pos (Nat.succ_pos m)
  omega

theorem changeTime_one (m : ℕ) : 2 * changeTime 1 m = m * (m + 1) := by
  induction m with
  | zero => rfl
  | succ m ih => rw [changeTime_succ, mul_add, ih]; ring

theorem lastOf_append {α : Type} (l : List α) (a : α) : lastOf (l ++ [a]) = .ok a := by
  have : pyGet (l ++ [a]) (-1) = some a := by
    unfold pyGet
    have e : (-1 + ((l ++ [a]).length : ℤ)).toNat = l.length := by simp
    rw [if_neg (by norm_num), if_pos (by simp), e]
    simp
  simp only [lastOf, this]

theorem secondLastOf_append {α : Type} (l : List α) (a b : α) : secondLastOf (l ++ [a, b]) = .ok a := by
  have : pyGet (l ++ [a, b]) (-2) = some a := by
    unfold pyGet
    have e : (-2 + ((l ++ [a, b]).length : ℤ)).toNat = l.length := by simp
    rw [if_neg (by norm_num), if_pos (by simp), e]
    simp
  simp only [secondLastOf, this]

/-- State of the schedule after `k` calls, `m - 1` of which changed the scale. -/
structure SchedInv (P : AdaptPar) (m k : ℕ) (s : Schedule) : Prop where
  pos : 1 ≤ m
  periods : s.periods = (List.range (m + 1)).map (changeTime P.air)
  lower : changeTime P.air (m - 1) ≤ k
  upper : k < changeTime P.air m
  emp : s.empProb.length = k + 1
  scale : s.logScale.length = m

theorem SchedInv.init (scale0 : ℝ) (P : AdaptPar) : SchedInv P 1 0 (.init scale0 P) := by
  refine ⟨le_rfl, ?_, by simp [changeTime], by simp [changeTime], rfl, rfl⟩
  simp [Schedule.init, List.range_succ, changeTime]

/-- One call. -/
theorem SchedInv.step {P : AdaptPar} {m k : ℕ} {s : Schedule} (h : SchedInv P m k s) (useMean : Bool) (p : ℝ) :
    ∃ s', s.adapt useMean P p = .ok s' ∧ s'.empProb = s.empProb ++ [p] ∧
      ((k + 1 ≠ changeTime P.air m ∧ SchedInv P m (k + 1) s' ∧ s'.logScale = s.logScale) ∨
       (k + 1 = changeTime P.air m ∧ SchedInv P (m + 1) (k + 1) s' ∧
        ∃ sc mp, lastOf s.logScale = .ok sc ∧ s'.logScale = s.logScale ++ [sc + 1 / ((m + 1 : ℕ) : ℝ) ^ P.decay * (mp - P.optProb)] ∧
          (mp = p ∨ ∃ l, l ≠ [] ∧ l.Sublist (s.empProb ++ [p]) ∧ mp = l.sum / l.length))) := by
  obtain ⟨m, rfl⟩ : ∃ j, m = j + 1 := ⟨m - 1, by have := h.pos; omega⟩
  have hp : s.periods = (List.range m).map (changeTime P.air) ++ [changeTime P.air m, changeTime P.air (m + 1)] := by
    rw [h.periods, List.range_succ, List.range_succ]; simp
  have hlast : lastOf s.periods = .ok (changeTime P.air (m + 1)) := by
    rw [hp, show ((List.range m).map (changeTime P.air) ++ [changeTime P.air m, changeTime P.air (m + 1)]) =
      ((List.range m).map (changeTime P.air) ++ [changeTime P.air m]) ++ [changeTime P.air (m + 1)] by simp]
    exact lastOf_append _ _
  have hprev : secondLastOf s.periods = .ok (changeTime P.air m) := by rw [hp]; exact secondLastOf_append _ _ _
  have hlen : s.periods.length = m + 2 := by rw [h.periods]; simp
  obtain ⟨L, sc, hL⟩ : ∃ L sc, s.logScale = L ++ [sc] := by
    have hne : s.logScale ≠ [] := by intro e; have := h.scale; rw [e] at this; simp at this
    exact ⟨_, _, (List.dropLast_append_getLast hne).symm⟩
  have hsc : lastOf s.logScale = .ok sc := by rw [hL]; exact lastOf_append _ _
  have hE : (s.empProb ++ [p]).length = k + 2 := by simp [h.emp]
  by_cases hk : k + 1 = changeTime P.air (m + 1)
  · have hdrop : (s.empProb ++ [p]).drop (changeTime P.air m) ≠ [] := by
      intro e
      have := congrArg List.length e
      rw [List.length_drop, hE] at this
      have h1 := h.lower
      simp at this h1
      omega
    set mp : ℝ := if useMean then ((s.empProb ++ [p]).drop (changeTime P.air m)).sum /
      ((s.empProb ++ [p]).drop (changeTime P.air m)).length else p with hmp
    have hval : s.adapt useMean P p = .ok ⟨s.logScale ++ [sc + 1 / ((m + 1 + 1 : ℕ) : ℝ) ^ P.decay * (mp - P.optProb)],
        s.empProb ++ [p], s.periods ++ [changeTime P.air (m + 1) + (m + 2) ^ P.air]⟩ := by
      unfold Schedule.adapt
      simp only [hlast, hprev, hsc, hlen, hE, hk, bind, Except.bind, pure, Except.pure]
      rw [if_pos (by omega)]
      cases useMean
      · simp only [hmp, Bool.false_eq_true, if_false]
      · simp only [hmp, npMean, if_neg hdrop, if_true]
    refine ⟨_, hval, rfl, .inr ⟨hk, ⟨by omega, ?_, ?_, ?_, by simp [h.emp], by simp [h.scale]⟩, sc, mp, hsc, rfl, ?_⟩⟩
    · rw [h.periods, List.range_succ (n := m + 1 + 1), List.map_append, List.map_singleton, ← changeTime_succ]
    · simp; omega
    · have : changeTime P.air (m + 1) < changeTime P.air (m + 1 + 1) := changeTime_strictMono P.air (Nat.lt_succ_self (m + 1))
      omega
    · cases useMean
      · left; simp [hmp]
      · right; exact ⟨_, hdrop, List.drop_sublist _ _, by simp [hmp]⟩
  · have hval : s.adapt useMean P p = .ok ⟨s.logScale, s.empProb ++ [p], s.periods⟩ := by
      unfold Schedule.adapt
      simp only [hlast, hE, bind, Except.bind, pure, Except.pure]
      rw [if_neg (by omega)]
    refine ⟨_, hval, rfl, .inl ⟨hk, ⟨h.pos, h.periods, ?_, ?_, by simp [h.emp], h.scale⟩, rfl⟩⟩
    · have := h.lower; omega
    · have := h.upper; omega

/-- Step bounds of the scale list. -/
def StepBound (decay : ℝ) (l : List ℝ) : Prop :=
  ∀ j a b, l[j]? = some a → l[j + 1]? = some b → |b - a| ≤ 1 / ((j + 2 : ℕ) : ℝ) ^ decay

theorem mean_mem {l : List ℝ} (hne : l ≠ []) (h : ∀ x ∈ l, 0 ≤ x ∧ x ≤ 1) : 0 ≤ l.sum / l.length ∧ l.sum / l.length ≤ 1 := by
  have hpos : (0 : ℝ) < l.length := by exact_mod_cast List.length_pos_iff.2 hne
  constructor
  · exact div_nonneg (List.sum_nonneg fun x hx => (h x hx).1) hpos.le
  · rw [div_le_one hpos]
    have : ∀ l : List ℝ, (∀ x ∈ l, 0 ≤ x ∧ x ≤ 1) → l.sum ≤ l.length := by
      intro l
      induction l with
      | nil => simp
      | cons a l ih =>
        intro h
        have h1 := ih fun x hx => h x (by simp [hx])
        have h2 := (h a (by simp)).2
        simp; linarith
    exact this l h

/-- Schedule after a whole history of probabilities. -/
theorem sched_run (useMean : Bool) (scale0 : ℝ) (P : AdaptPar) (ps : List ℝ) :
    ∃ s m, runAdapt (fun s (_ : Unit) p => s.adapt useMean P p) (.init scale0 P) (ps.map fun p => ((), p)) = .ok s ∧
      SchedInv P m ps.length s ∧ s.empProb = P.optProb :: ps ∧
      ((∀ p ∈ P.optProb :: ps, 0 ≤ p ∧ p ≤ 1) → StepBound P.decay s.logScale) := by
  induction ps using List.reverseRecOn with
  | nil =>
    refine ⟨_, 1, rfl, SchedInv.init _ _, rfl, ?_⟩
    intro _ j a b ha hb
    simp [Schedule.init] at hb
  | append_singleton ps p ih =>
    obtain ⟨s, m, hr, hinv, hemp, hb⟩ := ih
    rw [List.map_append, List.map_singleton, runAdapt_append, hr]
    obtain ⟨s', h1, h2, h3⟩ := hinv.step useMean p
    simp only [runAdapt, h1, List.length_append, List.length_singleton]
    rcases h3 with ⟨-, h4, h5⟩ | ⟨-, h4, sc, mp, hsc, h5, h6⟩
    · refine ⟨s', m, rfl, h4, by rw [h2, hemp]; simp, ?_⟩
      intro hp
      rw [h5]; exact hb fun q hq => hp q (by simp only [List.mem_cons, List.mem_append] at hq ⊢; tauto)
    · refine ⟨s', m + 1, rfl, h4, by rw [h2, hemp]; simp, ?_⟩
      intro hp
      have hb' := hb fun q hq => hp q (by simp only [List.mem_cons, List.mem_append] at hq ⊢; tauto)
      have hmp : 0 ≤ mp ∧ mp ≤ 1 := by
        rcases h6 with rfl | ⟨l, hne, hsub, rfl⟩
        · exact hp mp (by simp)
        · apply mean_mem hne
          intro x hx
          have := hsub.subset hx
          rw [hemp] at this
          exact hp x (by simpa using this)
      have hopt := hp P.optProb (by simp)
      intro j a b ha hb''
      rw [h5] at ha hb''
      have hsl := hinv.scale
      have hjl : j + 1 < m + 1 := by
        have := (List.getElem?_eq_some_iff.1 hb'').1
        simpa [hsl] using this
      rw [List.getElem?_append_left (by omega)] at ha
      by_cases hj : j + 1 < m
      · rw [List.getElem?_append_left (by omega)] at hb''
        exact hb' j a b ha hb''
      · have hjm : j + 1 = m := by omega
        rw [List.getElem?_append_right (by omega)] at hb''
        simp only [hsl, hjm, Nat.sub_self, List.getElem?_cons_zero, Option.some.injEq] at hb''
        have hla : lastOf s.logScale = .ok a := by
          have hne : s.logScale ≠ [] := by intro e; rw [e] at ha; simp at ha
          have e := List.dropLast_append_getLast hne
          have : s.logScale.getLast hne = a := by
            rw [List.getLast_eq_getElem]
            rw [List.getElem?_eq_getElem (by omega)] at ha
            simp only [Option.some.injEq] at ha
            rw [← ha]; congr 1; omega
          rw [← this]; conv_lhs => rw [← e]
          exact lastOf_append _ _
        rw [hsc] at hla
        simp only [Except.ok.injEq] at hla
        subst hla
        rw [← hb'', show j + 2 = m + 1 by omega, add_sub_cancel_left, abs_mul]
        have hr : (0 : ℝ) ≤ 1 / ((m + 1 : ℕ) : ℝ) ^ P.decay := by positivity
        rw [abs_of_nonneg hr]
        have : |mp - P.optProb| ≤ 1 := by rw [abs_le]; constructor <;> linarith [hmp.1, hmp.2, hopt.1, hopt.2]
        nlinarith

/-- Projection of a sampler run to its schedule. -/
theorem run_sched {S σ : Type} {step : S → σ → ℝ → Res S} {sched : S → Schedule} {useMean : Bool} {P : AdaptPar}
    (hstep : ∀ s x p s', step s x p = .ok s' → (sched s).adapt useMean P p = .ok (sched s')) {s0 : S} {h : List (σ × ℝ)} {s : S}
    (hr : runAdapt step s0 h = .ok s) :
    runAdapt (fun s (_ : Unit) p => s.adapt useMean P p) (sched s0) ((h.map Prod.snd).map fun p => ((), p)) = .ok (sched s) := by
  induction h generalizing s0 with
  | nil => simp [runAdapt] at hr ⊢; rw [hr]
  | cons x h ih =>
    simp only [runAdapt, List.map_cons] at hr ⊢
    cases hs : step s0 x.1 x.2 with
    | error e => rw [hs] at hr; simp at hr
    | ok s1 =>
      rw [hs] at hr
      rw [hstep _ _ _ _ hs]
      exact ih hr

/-! ## coordinates -/

theorem allOk_ok {α : Type} {n : ℕ} {f : Fin n → Res α} {r : Fin n → α} : allOk f = .ok r ↔ ∀ i, f i = .ok (r i) := by
  induction n with
  | zero => simp only [allOk, Except.ok.injEq, IsEmpty.forall_iff, iff_true]; ext i; exact i.elim0
  | succ n ih =>
    unfold allOk
    rw [Fin.forall_fin_succ]
    constructor
    · intro h
      cases h0 : f 0 with
      | error e => simp [h0, bind, Except.bind] at h
      | ok a =>
        cases h1 : allOk fun i : Fin n => f i.succ with
        | error e => simp [h0, h1, bind, Except.bind] at h
        | ok l =>
          simp only [h0, h1, bind, Except.bind, pure, Except.pure, Except.ok.injEq] at h
          subst h
          exact ⟨rfl, ih.1 h1⟩
    · rintro ⟨h0, h1⟩
      have h2 : (allOk fun i : Fin n => f i.succ) = .ok fun i => r i.succ := ih.2 h1
      simp only [h0, h2, bind, Except.bind, pure, Except.pure, Except.ok.injEq]
      ext i; refine Fin.cases ?_ (fun j => ?_) i <;> simp

theorem drawNormals_out {n : ℕ} {r : Res (Fin n → ℝ)} : (drawNormals n).Out r ↔ ∃ z, r = .ok z := by
  induction n with
  | zero =>
    simp only [drawNormals, Prog.out_ret]
    constructor
    · rintro rfl; exact ⟨_, rfl⟩
    · rintro ⟨z, rfl⟩; congr 1; ext i; exact i.elim0
  | succ n ih =>
    simp only [drawNormals, Prog.out_real, Prog.out_bind, ih]
    constructor
    · rintro ⟨x, -, ⟨a, -, h⟩ | ⟨e, ⟨z, h⟩, -⟩⟩
      · exact ⟨_, h⟩
      · simp at h
    · rintro ⟨z, rfl⟩
      refine ⟨z 0, by simp [RDist.support], .inl ⟨fun i => z i.succ, ⟨_, rfl⟩, ?_⟩⟩
      simp only [Prog.out_ret, Except.ok.injEq]
      ext i; refine Fin.cases ?_ (fun j => ?_) i <;> simp

/-! ## transforms -/

theorem toReals_inside {x : ℝ} {lb ub : Option ℝ} (h : Inside x lb ub) : ∃ y j, transformToReals x lb ub = .ok (y, j) ∧
    transformToConst y lb ub = (x, j) := by
  rcases lb with _ | l <;> rcases ub with _ | u
  · exact ⟨x, 0, rfl, rfl⟩
  · have : 0 < u - x := sub_pos.2 (h.2 u rfl)
    refine ⟨Real.log (u - x), -Real.log (u - x), by simp [transformToReals, npLog, h.2 u rfl, bind, Except.bind, pure, Except.pure], ?_⟩
    simp [transformToConst, Real.exp_log this]
  · have : 0 < x - l := sub_pos.2 (h.1 l rfl)
    refine ⟨Real.log (x - l), -Real.log (x - l), by simp [transformToReals, npLog, h.1 l rfl, bind, Except.bind, pure, Except.pure], ?_⟩
    simp [transformToConst, Real.exp_log this]
  · exact ⟨x, 0, rfl, rfl⟩

theorem toReals_ok {x : ℝ} {lb ub : Option ℝ} (h : Admissible x lb ub) : ∃ y j, transformToReals x lb ub = .ok (y, j) ∧
    transformToConst y lb ub = (x, j) := by
  rcases lb with _ | l <;> rcases ub with _ | u
  · exact toReals_inside (h (.inl rfl))
  · exact toReals_inside (h (.inl rfl))
  · exact toReals_inside (h (.inr rfl))
  · exact ⟨x, 0, rfl, rfl⟩

theorem toConst_inside (z : ℝ) {lb ub : Option ℝ} (hi : lb = none ∨ ub = none) : Inside (transformToConst z lb ub).1 lb ub := by
  rcases lb with _ | l <;> rcases ub with _ | u
  · exact ⟨by simp, by simp⟩
  · exact ⟨by simp, by simp [transformToConst, Real.exp_pos]⟩
  · exact ⟨by simp [transformToConst, Real.exp_pos], by simp⟩
  · simp at hi

/-! ## covariance -/

theorem seqUpdate_posDef {n : ℕ} {obs mean : Fin n → ℝ} {cov : Matrix (Fin n) (Fin n) ℝ} (hc : cov.PosDef) {k : ℝ} (hk : 1 < k) :
    (seqUpdateNormal obs k mean cov).2.PosDef := by
  set dev : Fin n → ℝ := fun i => obs i - mean i with hdev
  have e : (seqUpdateNormal obs k mean cov).2 = (1 - 1 / k) • cov + (1 / k) • Matrix.vecMulVec dev (star dev) := by
    ext i j
    simp only [seqUpdateNormal, Matrix.add_apply, Matrix.smul_apply, smul_eq_mul, Matrix.vecMulVec_apply, hdev, Pi.star_apply, star_trivial]
    field_simp; ring
  have hk0 : 0 < k := by linarith
  have h1 : 0 < 1 - 1 / k := by rw [sub_pos, div_lt_one hk0]; exact hk
  rw [e]
  exact (hc.smul h1).add_posSemidef ((Matrix.posSemidef_vecMulVec_self_star dev).smul (by positivity))

/-! ## whole runs of the multivariate sampler -/

theorem mvAdapt_eq {n : ℕ} {P : AdaptPar} {s : MvRw n} {x : Fin n → ℝ} (p : ℝ) {y j : Fin n → ℝ}
    (hx : ∀ i, transformToReals (x i) (s.lb i) (s.ub i) = .ok (y i, j i)) {sc : Schedule} (hs : s.sched.adapt true P p = .ok sc) :
    ∃ C, s.adapt P x p = .ok { s with
        state := x
        sched := sc
        mean := (seqUpdateNormal y (1 + s.sched.empProb.length) s.mean s.cov).1
        cov := (seqUpdateNormal y (1 + s.sched.empProb.length) s.mean s.cov).2
        propCov := C } ∧
      C = if sc.logScale.length ≠ s.sched.logScale.length then (seqUpdateNormal y (1 + s.sched.empProb.length) s.mean s.cov).2
        else s.propCov := by
  have h1 : (allOk fun i => transformToReals (x i) (s.lb i) (s.ub i)) = .ok fun i => (y i, j i) := allOk_ok.2 hx
  refine ⟨_, ?_, rfl⟩
  unfold MvRw.adapt
  simp only [h1, hs, bind, Except.bind, pure, Except.pure, decide_eq_true_eq]

theorem mv_run {n : ℕ} (P : AdaptPar) (x0 : Fin n → ℝ) (lb ub : Fin n → Option ℝ) (h : List ((Fin n → ℝ) × ℝ))
    (hadm : ∀ q ∈ h, ∀ i, Admissible (q.1 i) (lb i) (ub i)) :
    ∃ (s : MvRw n) (ys : List (Fin n → ℝ)), runAdapt (MvRw.adapt P) (.init P x0 lb ub) h = .ok s ∧ s.lb = lb ∧ s.ub = ub ∧
      s.sched.empProb.length = h.length + 1 ∧ (∃ m, SchedInv P m h.length s.sched) ∧
      runAdapt (fun s (_ : Unit) p => s.adapt true P p) (.init (-1) P) ((h.map Prod.snd).map fun p => ((), p)) = .ok s.sched ∧
      List.Forall₂ (fun q y => ∀ i, ∃ j, transformToReals (q.1 i) (lb i) (ub i) = .ok (y i, j)) h ys ∧
      (∀ i, s.mean i * (h.length + 1) = (ys.map fun y => y i).sum) ∧ s.cov.PosDef ∧ s.propCov.PosDef ∧
      s.state = ((x0 :: h.map Prod.fst).getLast (by simp)) := by
  induction h using List.reverseRecOn with
  | nil =>
    refine ⟨_, [], rfl, rfl, rfl, rfl, ⟨1, SchedInv.init _ _⟩, rfl, .nil, ?_, Matrix.PosDef.one, Matrix.PosDef.one, rfl⟩
    intro i; simp [MvRw.init]
  | append_singleton h q ih =>
    obtain ⟨s, ys, hr, hlb, hub, hemp, ⟨m, hinv⟩, hsr, hys, hmean, hcov, hprop, -⟩ := ih fun q hq => hadm q (by simp [hq])
    have hq := hadm q (by simp)
    choose y j hy _ using fun i => toReals_ok (hq i)
    have hy' : ∀ i, transformToReals (q.1 i) (s.lb i) (s.ub i) = .ok (y i, j i) := by rw [hlb, hub]; exact hy
    obtain ⟨sc, h1, h2, h3⟩ := hinv.step true q.2
    obtain ⟨C, hC, hC'⟩ := mvAdapt_eq (P := P) q.2 hy' h1
    have hpd : (seqUpdateNormal y (1 + s.sched.empProb.length) s.mean s.cov).2.PosDef := by
      apply seqUpdate_posDef hcov
      rw [hemp]; push_cast
      have : (0 : ℝ) ≤ h.length := Nat.cast_nonneg _
      linarith
    rw [runAdapt_append, hr]
    simp only [runAdapt, hC]
    refine ⟨_, ys ++ [y], rfl, hlb, hub, by simp [h2, hemp], ?_, ?_, ?_, ?_, hpd, ?_, ?_⟩
    · rcases h3 with ⟨-, h4, -⟩ | ⟨-, h4, -⟩
      · exact ⟨_, by simpa using h4⟩
      · exact ⟨_, by simpa using h4⟩
    · rw [List.map_append, List.map_append, runAdapt_append, hsr]
      simp only [List.map_cons, List.map_nil, runAdapt, h1]
    · exact List.rel_append hys (.cons (fun i => ⟨j i, hy i⟩) .nil)
    · intro i
      have h5 := hmean i
      have h6 : (0 : ℝ) < h.length + 1 + 1 := by positivity
      simp only [seqUpdateNormal, hemp, List.map_append, List.map_cons, List.map_nil, List.sum_append, List.sum_cons, List.sum_nil, ← h5,
        List.length_append, List.length_cons, List.length_nil]
      push_cast
      field_simp
      ring
    · show C.PosDef
      rw [hC']; split
      · exact hpd
      · exact hprop
    · simp

end Ctb
