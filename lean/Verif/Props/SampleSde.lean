import Verif.Model.SampleSde
import Verif.Spec.Rejection
import Verif.Props.RawSkel
import Verif.Props.Coin
import Verif.Props.SdeModels
import Verif.Lemmas.Proper
import Verif.Lemmas.RegSde
import Verif.Lemmas.RegLaw

/-! # C97: paths of diffusions are simulated by rejection -/

set_option linter.unusedSectionVars false

namespace Ctb

open Set MeasureTheory
open scoped ENNReal

variable {σ β : Type} {next : σ → Prog (ℝ × σ)} {raw : ℝ → Prog EaSkel} {flip : EaSkel → Prog (Bool × EaSkel)} {post : EaSkel → Prog β}

/-- One round with its end point: the verdict, the skeleton and the state of the iterator. -/
noncomputable def trialStep (next : σ → Prog (ℝ × σ)) (raw : ℝ → Prog EaSkel) (flip : EaSkel → Prog (Bool × EaSkel)) (s : σ) :
    Prog ((Bool × EaSkel) × σ) :=
  (next s).bind fun e => (raw e.1).bind fun sk => (flip sk).bind fun r => .ret (r, e.2)

theorem skelTry_succ (k : ℕ) (s : σ) : skelTry next raw flip (k + 1) s =
    (trialStep next raw flip s).bind fun r => if r.1.1 then .ret (r.1.2, r.2) else skelTry next raw flip k r.2 := by
  rw [skelTry, trialStep, Prog.bind_assoc]
  congr 1
  funext e
  rw [skelRound, Prog.bind_assoc, Prog.bind_assoc]
  congr 1
  funext sk
  rw [Prog.bind_assoc]
  congr 1

theorem try_lexp {I : Set σ} {μ : Measure EaSkel} {w : ℝ≥0∞} (h : IsTrial I (trialStep next raw flip) μ w)
    {G : EaSkel × σ → ℝ≥0∞} {F : EaSkel → ℝ≥0∞} (hF : Measurable F) (hG : ∀ x, ∀ s ∈ I, G (x, s) = F x) (k : ℕ) {s : σ} (hs : s ∈ I) :
    (skelTry next raw flip k s).lexp (onOk G) = (∫⁻ x, F x ∂μ) * ∑ j ∈ Finset.range k, w ^ j := by
  induction k generalizing s with
  | zero => simp [skelTry, onOk]
  | succ k ih =>
    rw [skelTry_succ, Prog.lexp_bind]
    have e : (trialStep next raw flip s).lexp
        (Prog.cont (fun r => if r.1.1 then .ret (r.1.2, r.2) else skelTry next raw flip k r.2) (onOk G) Prog.lexp) =
        (trialStep next raw flip s).lexp (trialVal F ((∫⁻ x, F x ∂μ) * ∑ j ∈ Finset.range k, w ^ j)) := by
      refine Prog.lexp_congr fun r hr => ?_
      match r, hr with
      | .error e, _ => rfl
      | .ok ((true, x), s'), hr => simp [trialVal, onOk, hG x s' ((h s hs).2 _ hr)]
      | .ok ((false, x), s'), hr => simp [trialVal, ih ((h s hs).2 _ hr)]
    rw [e, (h s hs).1 F _ hF, geom_sum_succ]
    ring

theorem list_prod_ne_top {l : List ℝ≥0∞} (h : ∀ x ∈ l, x ≠ ∞) : l.prod ≠ ∞ := by
  induction l with
  | nil => simp
  | cons a l ih =>
    rw [List.prod_cons]
    exact ENNReal.mul_ne_top (h a (by simp)) (ih fun x hx => h x (List.mem_cons_of_mem _ hx))

/-- The skeleton returned has the law of an accepted proposal, whatever the budget: expectations over the returned skeleton are those over an
accepted proposal, times the expected number of rounds. -/
theorem C97_law {I : Set σ} {μ : Measure EaSkel} {w : ℝ≥0∞} (h : IsTrial I (trialStep next raw flip) μ w) {F : EaSkel → ℝ≥0∞}
    (hF : Measurable F) (k : ℕ) {s : σ} (hs : s ∈ I) :
    (skelTry next raw flip k s).lexp (onOk fun r => F r.1) = (∫⁻ x, F x ∂μ) * ∑ j ∈ Finset.range k, w ^ j ∧
    (skelTry next raw flip k s).lexp (onOk fun r => F r.1) * μ univ =
      (∫⁻ x, F x ∂μ) * (skelTry next raw flip k s).prob (fun r => ∃ q, r = .ok q) := by
  have h1 := try_lexp h (G := fun r => F r.1) hF (fun _ _ _ => rfl) k hs
  have h2 := try_lexp h (G := fun _ => 1) (F := fun _ => 1) measurable_const (fun _ _ _ => rfl) k hs
  rw [lintegral_one] at h2
  refine ⟨h1, ?_⟩
  have e : (skelTry next raw flip k s).prob (fun r => ∃ q, r = .ok q) = (skelTry next raw flip k s).lexp (onOk fun _ => 1) := by
    refine Prog.lexp_congr fun r _ => ?_
    cases r <;> simp [onOk]
  rw [h1, e, h2]
  ring

/-- The budget error is raised with probability `w^k`. -/
theorem C97_budget {I : Set σ} {μ : Measure EaSkel} {w : ℝ≥0∞} (h : IsTrial I (trialStep next raw flip) μ w)
    (hb : ∀ s ∈ I, ¬ (trialStep next raw flip s).Out (.error .budget)) (k : ℕ) {s : σ} (hs : s ∈ I) :
    (skelTry next raw flip k s).prob (fun r => r = .error .budget) = w ^ k := by
  induction k generalizing s with
  | zero => simp [skelTry, Prog.prob]
  | succ k ih =>
    rw [Prog.prob, skelTry_succ, Prog.lexp_bind]
    calc _ = (trialStep next raw flip s).lexp (trialVal (fun _ => 0) (w ^ k)) := by
          refine Prog.lexp_congr fun r hr => ?_
          match r, hr with
          | .error e, hr =>
            have : e ≠ .budget := by rintro rfl; exact hb s hs hr
            simp [trialVal, this]
          | .ok ((true, x), s'), hr => simp [trialVal]
          | .ok ((false, x), s'), hr =>
            simp only [Prog.cont_ok, Bool.false_eq_true, if_false, trialVal]
            exact ih ((h s hs).2 _ hr)
      _ = _ := by
          rw [(h s hs).1 _ _ measurable_const, pow_succ']
          simp

/-- Successive paths are independent with the same law. -/
theorem C97_iid {I : Set σ} {μ : Measure EaSkel} {w : ℝ≥0∞} (h : IsTrial I (trialStep next raw flip) μ w) (hw : w ≠ ∞)
    (maxProps : ℕ) (Fs : List (β → ℝ≥0∞)) (hM : ∀ F ∈ Fs, Measurable fun x => (post x).lexp (onOk F))
    (hF : ∀ F ∈ Fs, ∫⁻ x, (post x).lexp (onOk F) ∂μ ≠ ∞) (hfin : ∀ F ∈ Fs, ∀ b, F b ≠ ∞) {s : σ} (hs : s ∈ I) :
    (skelStream next raw flip post maxProps Fs.length s).lexp (onOk (prodVal Fs)) =
      (Fs.map fun F => (∫⁻ x, (post x).lexp (onOk F) ∂μ) * ∑ j ∈ Finset.range maxProps, w ^ j).prod := by
  induction Fs generalizing s with
  | nil => simp [skelStream, onOk, prodVal]
  | cons F Fs ih =>
    have ih := fun s hs => ih (fun F hF' => hM F (List.mem_cons_of_mem _ hF')) (fun F hF' => hF F (List.mem_cons_of_mem _ hF')) (fun F hF' => hfin F (List.mem_cons_of_mem _ hF')) (s := s) hs
    set R := (Fs.map fun F => (∫⁻ x, (post x).lexp (onOk F) ∂μ) * ∑ j ∈ Finset.range maxProps, w ^ j).prod with hR
    have hsum : ∑ j ∈ Finset.range maxProps, w ^ j ≠ ∞ := ENNReal.sum_ne_top.2 fun j _ => ENNReal.pow_ne_top hw
    have hRf : R ≠ ∞ := by
      rw [hR]
      refine list_prod_ne_top fun x hx => ?_
      obtain ⟨G, hG, rfl⟩ := List.mem_map.1 hx
      exact ENNReal.mul_ne_top (hF G (List.mem_cons_of_mem _ hG)) hsum
    rw [List.length_cons, skelStream, Prog.lexp_bind, List.map_cons, List.prod_cons]
    have e : (skelTry next raw flip maxProps s).lexp (Prog.cont (fun r => (post r.1).bind fun b =>
          (skelStream next raw flip post maxProps Fs.length r.2).bind fun l => .ret (b :: l)) (onOk (prodVal (F :: Fs))) Prog.lexp) =
        (skelTry next raw flip maxProps s).lexp (onOk fun r => ((post r.1).bind fun b =>
          (skelStream next raw flip post maxProps Fs.length r.2).bind fun l => .ret (b :: l)).lexp (onOk (prodVal (F :: Fs)))) := by
      refine Prog.lexp_congr fun r _ => ?_
      cases r <;> rfl
    rw [e, try_lexp h (F := fun x => (post x).lexp (onOk F) * R) ((hM F (by simp)).mul_const R) ?_ maxProps hs, lintegral_mul_const _ (hM F (by simp))]
    · ring
    · intro x s' hs'
      rw [Prog.lexp_bind, mul_comm, ← Prog.lexp_const_mul _ _ hRf]
      refine Prog.lexp_congr fun r _ => ?_
      cases r with
      | error e => simp [onOk]
      | ok b =>
        simp only [Prog.cont_ok, Prog.lexp_bind]
        have e2 : (skelStream next raw flip post maxProps Fs.length s').lexp (Prog.cont (fun l => .ret (b :: l)) (onOk (prodVal (F :: Fs))) Prog.lexp) =
            (skelStream next raw flip post maxProps Fs.length s').lexp (fun r => F b * onOk (prodVal Fs) r) := by
          refine Prog.lexp_congr fun r _ => ?_
          cases r <;> simp [onOk, prodVal]
        rw [e2, Prog.lexp_const_mul _ _ (hfin F (by simp) b), ih s' hs']
        simp [onOk, mul_comm]

/-! ## The instance: a proposal that is accepted when a uniform draw is below 1/4 -/

/-- A proposal without randomness. -/
def demoRaw (x : ℝ) : Prog EaSkel := .ret ⟨[0, 1, 2], [0, 1, x], 0, 3, 2, none⟩

/-- A coin with probability 1/4. -/
noncomputable def demoFlip (s : EaSkel) : Prog (Bool × EaSkel) := .real (.uniform 0 1) fun u => open Classical in .ret (decide (u < 1 / 4), s)

theorem demo_trial : IsTrial univ (trialStep (repeatNext 1) demoRaw demoFlip)
    ((1 / 4 : ℝ≥0∞) • Measure.dirac ⟨[0, 1, 2], [0, 1, 1], 0, 3, 2, none⟩) (3 / 4) := by
  classical
  intro s _
  refine ⟨fun F c hF => ?_, fun _ _ => mem_univ _⟩
  rw [lintegral_smul_measure, lintegral_dirac' _ hF, smul_eq_mul]
  simp only [trialStep, repeatNext, demoRaw, demoFlip, Prog.ret_bind, Prog.real_bind, Prog.lexp_real, Prog.lexp_ret]
  set x : EaSkel := ⟨[0, 1, 2], [0, 1, 1], 0, 3, 2, none⟩
  have e : ∀ u : ℝ, trialVal F c (.ok ((decide (u < 1 / 4), x), ())) = (Iio (1 / 4)).indicator (fun _ => F x) u + (Ici (1 / 4)).indicator (fun _ => c) u := by
    intro u
    by_cases hu : u < 1 / 4
    · rw [indicator_of_mem (by exact hu), indicator_of_notMem (by simpa using hu), add_zero, decide_eq_true hu]; rfl
    · rw [indicator_of_notMem (by exact hu), indicator_of_mem (by exact not_lt.1 hu), zero_add, decide_eq_false hu]; rfl
  simp only [e]
  have hl : RDist.law (.uniform 0 1) = volume.restrict (Ico (0 : ℝ) 1) := by simp [RDist.law]
  rw [hl, lintegral_add_left (measurable_const.indicator measurableSet_Iio), lintegral_indicator_const measurableSet_Iio,
    lintegral_indicator_const measurableSet_Ici, Measure.restrict_apply measurableSet_Iio, Measure.restrict_apply measurableSet_Ici]
  have h1 : Iio (1 / 4 : ℝ) ∩ Ico 0 1 = Ico 0 (1 / 4) := by ext t; simp; constructor <;> rintro ⟨a, b⟩ <;> refine ⟨?_, ?_⟩ <;> grind
  have h2 : Ici (1 / 4 : ℝ) ∩ Ico 0 1 = Ico (1 / 4) 1 := by ext t; simp; grind
  rw [h1, h2, Real.volume_Ico, Real.volume_Ico]
  have e1 : ENNReal.ofReal (1 / 4 - 0) = 1 / 4 := by
    rw [sub_zero, ENNReal.ofReal_div_of_pos (by norm_num)]; simp
  have e2 : ENNReal.ofReal (1 - 1 / 4) = 3 / 4 := by
    rw [show (1 : ℝ) - 1 / 4 = 3 / 4 by norm_num, ENNReal.ofReal_div_of_pos (by norm_num)]; simp
  rw [e1, e2]
  ring

/-- Two tries return with probability `1/4 (1 + 3/4)`. -/
example : (skelTry (repeatNext 1) demoRaw demoFlip 2 ()).lexp (onOk fun _ => 1) = 1 / 4 * ∑ j ∈ Finset.range 2, (3 / 4 : ℝ≥0∞) ^ j := by
  rw [(C97_law demo_trial (F := fun _ => 1) measurable_const 2 (mem_univ ())).1]
  simp

/-! ## The sampler of the library

With a given end the rounds of `sample_sde` are trials, whatever the model, the parameters and the budgets. -/

/-- Rounds with a fixed end point are trials: an accepted proposal has its law, and a rejection its probability. -/
theorem trial_fixed {x1 : ℝ} (h : Reg fun _ : Unit => skelRound raw flip x1) :
    IsTrial univ (trialStep (repeatNext x1) raw flip) (h.acc ()) ((skelRound raw flip x1).prob fun r => ∃ y, r = .ok (false, y)) := by
  intro s _
  refine ⟨fun F c hF => ?_, fun _ _ => mem_univ _⟩
  rw [← h.verdict () hF c]
  have e : trialStep (repeatNext x1) raw flip s = (skelRound raw flip x1).bind fun r => .ret (r, ()) := by
    simp only [trialStep, repeatNext, Prog.ret_bind, skelRound, Prog.bind_assoc]
  rw [e, Prog.lexp_bind]
  refine Prog.lexp_congr fun r _ => ?_
  match r with
  | .error e => rfl
  | .ok (true, y) => rfl
  | .ok (false, y) => rfl

variable {p : ℕ} {M : ItoFns p} {ebd : (Fin p → ℝ) → ℝ → ℝ → Res DiscBounds} {lb ub : EReal}

/-- A round of `sample_skeleton` as called by `sample_sde`: a proposal from `x0` to `x1` and the verdict of its coin. -/
noncomputable def sdeRound (M : ItoFns p) (ebd : (Fin p → ℝ) → ℝ → ℝ → Res DiscBounds) (lb ub : EReal) (B : SdeBudget) (thi : Fin p → ℝ) (finT x0 x1 : ℝ) : Prog (Bool × EaSkel) :=
  (sampleRawSkel B.n B.F finT x0 x1 (optBound lb) (optBound ub)).bind (flipSkelCoin B.n B.k (M.disc thi) (ebd thi) 2)

theorem reg_sdeRound (hM : MeasModel M ebd) (lb ub : EReal) (B : SdeBudget) (thi : Fin p → ℝ) (finT x0 x1 : ℝ) :
    Reg fun _ : Unit => sdeRound M ebd lb ub B thi finT x0 x1 := by
  unfold sdeRound
  refine Reg.bind (reg_sampleRawSkel _ _ (by fun_prop) (by fun_prop) (by fun_prop) (by fun_prop) (by fun_prop)) ?_
  refine reg_flipSkelCoin (X := Unit × EaSkel) _ _ (disc := fun _ => M.disc thi) (ebd := fun _ => ebd thi) ?_ ?_ _ (by fun_prop)
  · exact hM.disc.comp (by fun_prop : Measurable fun q : (Unit × EaSkel) × ℝ => (thi, q.2))
  · exact hM.bounds.comp (by fun_prop : Measurable fun q : (Unit × EaSkel) × ℝ × ℝ => (thi, q.2))

theorem mass_sdeRound (lb ub : EReal) (B : SdeBudget) (thi : Fin p → ℝ) (finT x0 x1 : ℝ) : Mass1 (sdeRound M ebd lb ub B thi finT x0 x1) :=
  (mass_rawSkel ..).bind fun _ _ => mass_flipSkelCoin ..

/-- The skeleton that the loop returns has the law of an accepted proposal, times the expected number of rounds. -/
theorem C97_sde_law (hM : MeasModel M ebd) (B : SdeBudget) (thi : Fin p → ℝ) (finT x0 x1 : ℝ) {F : EaSkel → ℝ≥0∞} (hF : Measurable F) (k : ℕ) :
    (skelTry (repeatNext x1) (fun x1 => sampleRawSkel B.n B.F finT x0 x1 (optBound lb) (optBound ub)) (flipSkelCoin B.n B.k (M.disc thi) (ebd thi) 2) k ()).lexp (onOk fun r => F r.1) =
      (sdeRound M ebd lb ub B thi finT x0 x1).lexp (onOk fun r => if r.1 then F r.2 else 0) *
        ∑ j ∈ Finset.range k, (sdeRound M ebd lb ub B thi finT x0 x1).prob (fun r => ∃ y, r = .ok (false, y)) ^ j := by
  have h := reg_sdeRound hM lb ub B thi finT x0 x1
  rw [← h.acc_lintegral () hF]
  exact (C97_law (trial_fixed (raw := fun x1 => sampleRawSkel B.n B.F finT x0 x1 (optBound lb) (optBound ub)) (flip := flipSkelCoin B.n B.k (M.disc thi) (ebd thi) 2) h) hF k (mem_univ ())).1

/-- The paths that `sample_sde` yields between given ends are independent, each distributed as the values of an accepted proposal. -/
theorem C97_sde_iid (hM : MeasModel M ebd) (B : SdeBudget) (mode : ℝ) (thi : Fin p → ℝ) (t : List ℝ) (finT v0 v1 : ℝ) (Fs : List (List ℝ → ℝ≥0∞))
    (hF : ∀ F ∈ Fs, Measurable F) (hb : ∀ F ∈ Fs, ∃ c : NNReal, ∀ b, F b ≤ c) :
    (sampleSde M ebd lb ub B mode thi t finT v0 (some v1) Fs.length).lexp (onOk (prodVal Fs)) =
      (Fs.map fun F => (sdeRound M ebd lb ub B thi finT (M.reduce thi v0) (M.reduce thi v1)).lexp (onOk fun r => if r.1 then (sdeValues M B thi t r.2).lexp (onOk F) else 0) *
        ∑ j ∈ Finset.range B.props, (sdeRound M ebd lb ub B thi finT (M.reduce thi v0) (M.reduce thi v1)).prob (fun r => ∃ y, r = .ok (false, y)) ^ j).prod := by
  have h := reg_sdeRound hM lb ub B thi finT (M.reduce thi v0) (M.reduce thi v1)
  have hm := h.verdict_mass () (mass_sdeRound ..)
  have hv : ∀ F ∈ Fs, Measurable fun x => (sdeValues M B thi t x).lexp (onOk F) := by
    intro F h1
    exact (reg_sdeValues hM B (thi := fun _ : EaSkel => thi) (t := fun _ => t) (by fun_prop) (by fun_prop) (s := fun x => x) measurable_id).meas' (hF F h1)
  have hle : h.acc () univ ≤ 1 := by rw [← hm, add_assoc]; exact le_self_add
  have hwle : (sdeRound M ebd lb ub B thi finT (M.reduce thi v0) (M.reduce thi v1)).prob (fun r => ∃ y, r = .ok (false, y)) ≤ 1 := by
    rw [← hm, add_right_comm]; exact le_add_self
  rw [List.map_congr_left fun F h1 => by rw [← h.acc_lintegral () (hv F h1)]]
  refine C97_iid (trial_fixed (raw := fun x1 => sampleRawSkel B.n B.F finT (M.reduce thi v0) x1 (optBound lb) (optBound ub)) (flip := flipSkelCoin B.n B.k (M.disc thi) (ebd thi) 2) h)
    (ne_top_of_le_ne_top ENNReal.one_ne_top hwle) B.props Fs hv ?_ ?_ (mem_univ ())
  · intro F h1
    obtain ⟨c, hc⟩ := hb F h1
    refine ne_top_of_le_ne_top (b := (c : ℝ≥0∞) * 1) (by simp) ?_
    calc ∫⁻ x, (sdeValues M B thi t x).lexp (onOk F) ∂h.acc () ≤ ∫⁻ _, c ∂h.acc () := by
          refine lintegral_mono fun x => ?_
          have m1 : Mass1 (sdeValues M B thi t x) := (mass_interpolateSkel ..).bind fun _ _ => .ret _
          rw [← m1.lexp_const c]
          refine Prog.lexp_mono _ fun r => ?_
          cases r with
          | error e => exact zero_le
          | ok b => exact hc b
      _ ≤ c * 1 := by rw [lintegral_const]; gcongr
  · intro F h1 b
    obtain ⟨c, hc⟩ := hb F h1
    exact ne_top_of_le_ne_top ENNReal.coe_ne_top (hc b)

/-- A round accepts, rejects or raises an exception. -/
theorem C97_sde_mass (hM : MeasModel M ebd) (B : SdeBudget) (thi : Fin p → ℝ) (finT x0 x1 : ℝ) :
    (sdeRound M ebd lb ub B thi finT x0 x1).prob (fun r => ∃ y, r = .ok (true, y)) + (sdeRound M ebd lb ub B thi finT x0 x1).prob (fun r => ∃ y, r = .ok (false, y)) +
      (sdeRound M ebd lb ub B thi finT x0 x1).prob (fun r => ∃ e, r = .error e) = 1 := by
  have h := reg_sdeRound hM lb ub B thi finT x0 x1
  rw [← h.verdict_mass () (mass_sdeRound ..), ← lintegral_one, h.acc_lintegral () measurable_const]
  congr 2
  refine Prog.lexp_congr fun r _ => ?_
  match r with
  | .error e => simp [onOk]
  | .ok (true, y) => simp [onOk]
  | .ok (false, y) => simp [onOk]

/-- The models of the library, and the probability that both of two paths exceed one at the first time. -/
example : MeasModel itoOu (fun thi le ue => .ok (itoOuBounds thi le ue)) ∧ MeasModel itoCir itoCirBounds := ⟨measModel_ou, measModel_cir⟩
example (B : SdeBudget) (a b : ℝ≥0∞) (h : (sdeRound itoOu (fun thi le ue => .ok (itoOuBounds thi le ue)) ⊥ ⊤ B ![1, 1] 1 0 0).lexp (onOk fun r => if r.1 then (sdeValues itoOu B ![1, 1] [1 / 2] r.2).lexp (onOk fun l =>
        if 1 < l.headD 0 then 1 else 0) else 0) = a) (hr : (sdeRound itoOu (fun thi le ue => .ok (itoOuBounds thi le ue)) ⊥ ⊤ B ![1, 1] 1 0 0).prob (fun r => ∃ y, r = .ok (false, y)) = b) (hB : B.props = 2) :
    (sampleSde itoOu (fun thi le ue => .ok (itoOuBounds thi le ue)) ⊥ ⊤ B 0 ![1, 1] [1 / 2] 1 0 (some 0) 2).lexp
      (onOk (prodVal [fun l => if 1 < l.headD 0 then 1 else 0, fun l => if 1 < l.headD 0 then 1 else 0])) = (a * (1 + b)) ^ 2 := by
  have hd : Measurable fun l : List ℝ => if 1 < l.headD 0 then (1 : ℝ≥0∞) else 0 := Measurable.ite' (by fun_prop) measurable_const measurable_const
  have h0 : itoOu.reduce ![1, 1] 0 = 0 := by simp [itoOu]
  have := C97_sde_iid (lb := ⊥) (ub := ⊤) measModel_ou B 0 ![1, 1] [1 / 2] 1 0 0 [fun l => if 1 < l.headD 0 then 1 else 0, fun l => if 1 < l.headD 0 then 1 else 0]
    (by intro F hF; simp only [List.mem_cons, List.not_mem_nil, or_false, or_self] at hF; rw [hF]; exact hd)
    (by intro F hF; simp only [List.mem_cons, List.not_mem_nil, or_false, or_self] at hF; rw [hF]; exact ⟨1, fun b => by dsimp only; split_ifs <;> simp⟩)
  simp only [h0, List.map_cons, List.map_nil, List.prod_cons, List.prod_nil, h, hr, hB, Finset.sum_range_succ, Finset.sum_range_zero, pow_zero, zero_add, pow_one, mul_one] at this
  rw [sq]
  exact this

/-! ## What the paths look like -/

/-- Distinct draws remain distinct when fewer values are excluded. -/
theorem Prog.Gen.weaken {α : Type} {p : Prog α} {h g : List ℝ} {r : Res α} {h' : List ℝ} (hp : p.Gen h r h') (hg : ∀ x ∈ g, x ∈ h) :
    ∃ g', p.Gen g r g' := by
  induction p generalizing h g with
  | ret a => exact ⟨g, hp.1, rfl⟩
  | err e => exact ⟨g, hp.1, rfl⟩
  | real d k ih =>
    obtain ⟨x, hx, hn, h1⟩ := hp
    obtain ⟨g', h2⟩ := ih x h1 (g := x :: g) (by
      intro y hy
      rcases List.mem_cons.1 hy with rfl | hy
      · simp
      · exact List.mem_cons_of_mem _ (hg y hy))
    exact ⟨g', x, hx, fun hm => hn (hg x hm), h2⟩
  | nat d k ih =>
    obtain ⟨x, hx, h1⟩ := hp
    obtain ⟨g', h2⟩ := ih x h1 hg
    exact ⟨g', x, hx, h2⟩

/-- A flip keeps the stored values. -/
theorem skelCoin_keeps {n k : ℕ} {disc : ℝ → ℝ} {ebd : ℝ → ℝ → Res DiscBounds} {size : ℤ} {z z' : EaSkel} {v : Bool} {H H' : List ℝ}
    (hv : z.Valid) (h : (flipSkelCoin n k disc ebd size z).Gen H (.ok (v, z')) H') : z'.Valid ∧ ∀ p ∈ z.t.zip z.x, p ∈ z'.t.zip z'.x := by
  unfold flipSkelCoin at h
  rw [Prog.gen_bind_ok] at h
  obtain ⟨⟨c, l, u⟩, H1, hb, h⟩ := h
  split at h
  · simp at h
  · rename_i T hT
    unfold skelCoin at h
    dsimp only at h
    split at h
    · rename_i c u _
      obtain ⟨-, -, -, bs, j, q1, q2, q3, q4⟩ := batchCoin_gen h
      obtain ⟨c4, c5, -, -⟩ := searched_known (disc := disc) (l := _) (key := id) (val := fun _ w => w) (R := BatchStep _ _) (fun _ _ _ _ hv h => skel_step hv h) hv q4
      exact ⟨c4, c5⟩
    · simp at h
    · split_ifs at h <;> simp at h

/-- What a path has to satisfy: one value per time, the given value at time zero and, if an end is given, at `T`. -/
structure SdePathOk (t : List ℝ) (T v0 : ℝ) (v1 : Option ℝ) (vs : List ℝ) : Prop where
  len : vs.length = t.length
  first : ∀ i (h : i < t.length), t[i] = 0 → vs[i]? = some v0
  last : ∀ v ∈ v1, ∀ i (h : i < t.length), t[i] = T → vs[i]? = some v

theorem try_out {Q : EaSkel → Prop} (hQ : ∀ s e sk b sk' H1 H2 H3 H4 H5 H6, (next s).Gen H1 (.ok e) H2 → (raw e.1).Gen H3 (.ok sk) H4 →
      (flip sk).Gen H5 (.ok (b, sk')) H6 → Q sk') (k : ℕ) {s s' : σ} {sk : EaSkel} {H H' : List ℝ}
    (h : (skelTry next raw flip k s).Gen H (.ok (sk, s')) H') : Q sk := by
  induction k generalizing s H with
  | zero => simp [skelTry] at h
  | succ k ih =>
    simp only [skelTry, skelRound, Prog.gen_bind_ok] at h
    obtain ⟨e, H1, h1, ⟨b, sk'⟩, H2, ⟨sk0, H3, h3, h4⟩, h5⟩ := h
    cases b with
    | true =>
      simp only [if_true, Prog.gen_ret, Except.ok.injEq, Prod.mk.injEq] at h5
      rw [h5.1.1]
      exact hQ _ _ _ _ _ _ _ _ _ _ _ h1 h3 h4
    | false => exact ih h5

theorem stream_out {P : β → Prop} {Q : EaSkel → Prop} (hT : ∀ k s sk s' H H', (skelTry next raw flip k s).Gen H (.ok (sk, s')) H' → Q sk)
    (hP : ∀ sk b H H', Q sk → (post sk).Gen H (.ok b) H' → P b) (maxProps m : ℕ) {s : σ} {l : List β} {H H' : List ℝ}
    (h : (skelStream next raw flip post maxProps m s).Gen H (.ok l) H') : l.length = m ∧ ∀ b ∈ l, P b := by
  induction m generalizing s l H H' with
  | zero => simp [skelStream] at h; simp [h.1]
  | succ m ih =>
    simp only [skelStream, Prog.gen_bind_ok, Prog.gen_ret, Except.ok.injEq] at h
    obtain ⟨r, H1, h1, b, H2, h2, l', H3, h3, rfl, -⟩ := h
    obtain ⟨a1, a2⟩ := ih h3
    refine ⟨by simp [a1], fun c hc => ?_⟩
    rcases List.mem_cons.1 hc with rfl | hc
    · exact hP _ _ _ _ (hT _ _ _ _ _ _ h1) h2
    · exact a2 c hc

/-- Two pairs with the same time in a skeleton have the same value. -/
theorem value_unique {s : EaSkel} (hv : s.Valid) {r a b : ℝ} (ha : (r, a) ∈ s.t.zip s.x) (hb : (r, b) ∈ s.t.zip s.x) : a = b := by
  obtain ⟨i, hi, e1⟩ := List.getElem_of_mem ha
  obtain ⟨j, hj, e2⟩ := List.getElem_of_mem hb
  simp only [List.getElem_zip, Prod.mk.injEq] at e1 e2
  simp only [List.length_zip, hv.len, min_self] at hi hj
  have hij : i = j := by
    rcases lt_trichotomy i j with h | h | h
    · have := List.pairwise_iff_getElem.1 hv.sorted i j hi hj h
      rw [e1.1, e2.1] at this; exact absurd this (lt_irrefl _)
    · exact h
    · have := List.pairwise_iff_getElem.1 hv.sorted j i hj hi h
      rw [e1.1, e2.1] at this; exact absurd this (lt_irrefl _)
  subst hij
  rw [← e1.2, ← e2.2]

/-- A stream of proposals from `x0`, to `x` if an end is given, whose coin keeps the stored values: every path has one value per requested time,
the start at time zero and the end at `T`. -/
theorem C97_stream_paths {p : ℕ} {M : ItoFns p} {B : SdeBudget} {thi : Fin p → ℝ} {t : List ℝ} (ht : t.Pairwise (· < ·)) {finT x0 : ℝ}
    {x1 : Option ℝ} (hx1 : ∀ x ∈ x1, ∀ s e H H', (next s).Gen H (.ok e) H' → e.1 = x)
    (hraw : ∀ x sk, (raw x).Out (.ok sk) → sk.Valid ∧ (0, x0) ∈ sk.t.zip sk.x ∧ (finT, x) ∈ sk.t.zip sk.x)
    (hflip : ∀ sk v sk' H H', sk.Valid → (flip sk).Gen H (.ok (v, sk')) H' → sk'.Valid ∧ ∀ p ∈ sk.t.zip sk.x, p ∈ sk'.t.zip sk'.x)
    {maxProps m : ℕ} {s : σ} {l : List (List ℝ)} {H H' : List ℝ}
    (h : (skelStream next raw flip (sdeValues M B thi t) maxProps m s).Gen H (.ok l) H') :
    l.length = m ∧ ∀ vs ∈ l, SdePathOk t finT (M.dereduce thi x0) (x1.map (M.dereduce thi)) vs := by
  refine stream_out (Q := fun sk => sk.Valid ∧ (0, x0) ∈ sk.t.zip sk.x ∧ ∀ x ∈ x1, (finT, x) ∈ sk.t.zip sk.x) ?_ ?_ maxProps m h
  · intro k s sk s' H H' hk
    refine try_out (Q := fun sk => sk.Valid ∧ (0, x0) ∈ sk.t.zip sk.x ∧ ∀ x ∈ x1, (finT, x) ∈ sk.t.zip sk.x) ?_ k hk
    intro s e sk0 b sk' H1 H2 H3 H4 H5 H6 g1 g2 g3
    obtain ⟨w1, w2, w3⟩ := hraw _ _ g2.out
    obtain ⟨k1, k2⟩ := hflip _ _ _ _ _ w1 g3
    refine ⟨k1, k2 _ w2, fun x hx => k2 _ ?_⟩
    rw [← hx1 x hx _ _ _ _ g1]; exact w3
  · rintro sk vs H H' ⟨q1, q2, q3⟩ hp
    simp only [sdeValues, Prog.gen_bind_ok, Prog.gen_ret, Except.ok.injEq] at hp
    obtain ⟨⟨s', vals⟩, H1, hi, rfl, -⟩ := hp
    obtain ⟨hr, hv', -⟩ := C45_refines q1 ht hi.out
    have hl := hr.new.length_eq
    refine ⟨by simp [hl], ?_, ?_⟩
    · intro i hi h0
      have := hr.new.get (i := i) hi (by omega)
      rw [List.get_eq_getElem, List.get_eq_getElem, h0] at this
      rw [List.getElem?_map, List.getElem?_eq_getElem (by simp only; omega), Option.map_some, value_unique hv' this (hr.old _ q2)]
    · intro v hv i hi h0
      obtain ⟨x, hx, rfl⟩ : ∃ x ∈ x1, M.dereduce thi x = v := by simpa using hv
      have := hr.new.get (i := i) hi (by omega)
      rw [List.get_eq_getElem, List.get_eq_getElem, h0] at this
      rw [List.getElem?_map, List.getElem?_eq_getElem (by simp only; omega), Option.map_some, value_unique hv' this (hr.old _ (q3 x hx))]

/-- The skeleton of the example of C46 as a proposal that is always accepted. -/
theorem demo_run : (skelStream (repeatNext 1) (fun x => .ret ⟨[0, 1], [0, x], 0, 3, 1, some [true]⟩) (fun s => .ret (true, s)) (sdeValues itoOu ⟨1, 1, 1, 1, 1⟩ ![1, 2] [1]) 1 1 ()).Gen []
    (.ok [[2]]) [] := by
  have h : (interpolateSkel 1 1 exSkel [1]).Gen [] (.ok (⟨[0, 1], [0, 1], 0, 3, 1, none⟩, [1])) [] := by
    simp only [interpolateSkel]
    rw [if_neg (by simp), if_pos (by norm_num [exSkel]), Prog.gen_bind_ok]
    refine ⟨([0, 1], [0, 1], [1], none), [], ?_, by simp [exSkel]⟩
    show (fillOuter 1 1 [0, 1] [0, 1] [1] 0 (some 3) (some 1) (some [true])).Gen [] _ []
    simp only [fillOuter, Prog.assert]
    rw [if_neg (by simp), if_pos (by norm_num), Prog.ret_bind, if_neg (by simp), if_pos (by norm_num), Prog.ret_bind, if_pos (by norm_num), Prog.ret_bind,
      if_pos (by norm_num), Prog.ret_bind, Prog.gen_bind_ok]
    refine ⟨([0, 1], [0, 1], [], none), [], ?_, ?_⟩
    · have : ([1] : List ℝ).filter (fun r => decide (r ∉ ([0, 1] : List ℝ))) = [] := by norm_num [List.filter]
      rw [this]
      simp only [fillInner]
      rw [if_pos trivial]
      exact ⟨rfl, rfl⟩
    · norm_num [whereIn, List.range_succ, List.filter]
  simp only [skelStream, skelTry, skelRound, repeatNext, Prog.ret_bind, if_true, sdeValues, Prog.gen_bind_ok, Prog.gen_ret]
  exact ⟨[2], [], ⟨_, [], h, by norm_num [itoOu], rfl⟩, rfl, rfl⟩

example : SdePathOk [1] 1 0 (some 2) [2] := by
  have := (C97_stream_paths (M := itoOu) (thi := ![1, 2]) (next := repeatNext 1) (raw := fun x => .ret ⟨[0, 1], [0, x], 0, 3, 1, some [true]⟩) (x0 := 0) (finT := 1) (x1 := some 1)
    (by simp) (by rintro x hx s e H H' he; simp only [Option.mem_some_iff] at hx; simp only [repeatNext, Prog.gen_ret, Except.ok.injEq] at he; rw [he.1, hx])
    ?_ ?_ demo_run).2 [2] (by simp)
  · simpa [itoOu] using this
  · rintro x sk h
    simp only [Prog.out_ret, Except.ok.injEq] at h
    subst h
    exact ⟨⟨by simp, rfl, rfl, by rintro hs h; simp at h; simp [← h]⟩, by simp, by simp⟩
  · rintro sk v sk' H H' hv h
    simp only [Prog.gen_ret, Except.ok.injEq, Prod.mk.injEq] at h
    rw [h.1.2]
    exact ⟨hv, fun _ h => h⟩

theorem raw_ends {n F : ℕ} {T x0 : ℝ} {lb ub : Option ℝ} (x : ℝ) (sk : EaSkel) (h : (sampleRawSkel n F T x0 x lb ub).Out (.ok sk)) :
    sk.Valid ∧ (0, x0) ∈ sk.t.zip sk.x ∧ (T, x) ∈ sk.t.zip sk.x := by
  obtain ⟨w1, -, -, ⟨τ, v, -, -, w4, w5, -⟩, -⟩ := C49_wellformed h
  exact ⟨w1, by rw [w4, w5]; simp, by rw [w4, w5]; simp⟩

/-- Every simulated path has one value per requested time, starts in `init_v` and ends in `fin_v` if one is given, for distinct draws. -/
theorem C97_paths {p : ℕ} {M : ItoFns p} {ebd : (Fin p → ℝ) → ℝ → ℝ → Res DiscBounds} {lb ub : EReal} {B : SdeBudget} {mode : ℝ} {thi : Fin p → ℝ}
    {t : List ℝ} (ht : t.Pairwise (· < ·)) {finT v0 : ℝ} {v1 : Option ℝ} (h0 : M.dereduce thi (M.reduce thi v0) = v0)
    (h1 : ∀ v ∈ v1, M.dereduce thi (M.reduce thi v) = v) {m : ℕ} {l : List (List ℝ)} {H H' : List ℝ}
    (h : (sampleSde M ebd lb ub B mode thi t finT v0 v1 m).Gen H (.ok l) H') : l.length = m ∧ ∀ vs ∈ l, SdePathOk t finT v0 v1 vs := by
  cases v1 with
  | none =>
    have := C97_stream_paths (x1 := none) ht (by simp) (raw_ends (T := finT)) (fun _ _ _ _ _ => skelCoin_keeps) h
    rwa [h0] at this
  | some v1 =>
    have := C97_stream_paths (x1 := some (M.reduce thi v1)) ht (by
      intro x hx s e H H' he
      simp only [Option.mem_some_iff] at hx
      simp only [repeatNext, Prog.gen_ret, Except.ok.injEq] at he
      rw [he.1, hx]) (raw_ends (T := finT)) (fun _ _ _ _ _ => skelCoin_keeps) h
    rwa [h0, Option.map_some, h1 v1 rfl] at this

/-- Both models satisfy the conditions on the transformation: everywhere, and at positive values. -/
example {thi : Fin 2 → ℝ} (h1 : thi 1 ≠ 0) (v : ℝ) : itoOu.dereduce thi (itoOu.reduce thi v) = v := (C61_ito_ou h1 0 v).2.1.2
example {thi : Fin 3 → ℝ} (h2 : 0 < thi 2) {v : ℝ} (hv : 0 < v) : itoCir.dereduce thi (itoCir.reduce thi v) = v := (C61_ito_cir h2 one_pos hv).2.1.2

/-! ### parameters without paths -/

theorem cir_coin_none {thi : Fin 3 → ℝ} (h : 4 * thi 0 * thi 1 < 3 * thi 2 ^ 2) (n k : ℕ) (size : ℤ) (sk : EaSkel) (r : Bool × EaSkel) :
    ¬ (flipSkelCoin n k (itoCir.disc thi) (itoCirBounds thi) size sk).Out (.ok r) := by
  intro hr
  simp only [flipSkelCoin, Prog.out_bind_ok, Prog.out_lift] at hr
  obtain ⟨b, hb, hr⟩ := hr
  have hb1 : b.1 = none := by
    unfold itoCirBounds at hb
    split_ifs at hb
    · simp only [Except.ok.injEq] at hb; rw [hb]
  split at hr
  · simp at hr
  · simp only [skelCoin, hb1] at hr
    simp at hr

theorem try_none {next : σ → Prog (ℝ × σ)} {raw : ℝ → Prog EaSkel} {flip : EaSkel → Prog (Bool × EaSkel)} (h : ∀ sk r, ¬ (flip sk).Out (.ok r))
    (k : ℕ) (s : σ) (r : EaSkel × σ) : ¬ (skelTry next raw flip k s).Out (.ok r) := by
  cases k with
  | zero => simp [skelTry]
  | succ k =>
    simp only [skelTry, skelRound, Prog.out_bind_ok]
    rintro ⟨e, -, q, ⟨sk, -, hq⟩, -⟩
    exact h _ _ hq

/-- **Violation.**  For the Cox-Ingersoll-Ross model with `4 κ μ < 3 σ²`, which the bounds of the parameters admit, `eval_bounds_disc` returns no
centre, the coin of every proposal fails its assertion, and `sample_sde` simulates no path, for no budget and no draws. -/
theorem C97_violated {thi : Fin 3 → ℝ} (h : 4 * thi 0 * thi 1 < 3 * thi 2 ^ 2) (lb ub : EReal) (B : SdeBudget) (mode : ℝ) (t : List ℝ) (finT v0 : ℝ)
    (v1 : Option ℝ) (m : ℕ) (l : List (List ℝ)) : ¬ (sampleSde itoCir itoCirBounds lb ub B mode thi t finT v0 v1 (m + 1)).Out (.ok l) := by
  unfold sampleSde
  cases v1 with
  | none =>
    simp only [sdeStream, skelStream, Prog.out_bind_ok]
    rintro ⟨r, hr, -⟩
    exact try_none (cir_coin_none h _ _ _) _ _ _ hr
  | some v1 =>
    simp only [sdeStream, skelStream, Prog.out_bind_ok]
    rintro ⟨r, hr, -⟩
    exact try_none (cir_coin_none h _ _ _) _ _ _ hr

example : (4 * (![1 / 2, 1, 1] : Fin 3 → ℝ) 0 * (![1 / 2, 1, 1] : Fin 3 → ℝ) 1 < 3 * (![1 / 2, 1, 1] : Fin 3 → ℝ) 2 ^ 2) := by
  have e2 : (![1 / 2, 1, 1] : Fin 3 → ℝ) 2 = 1 := rfl
  rw [e2]
  norm_num

end Ctb
