import Verif.Spec.Value
import Verif.Lemmas.RwLaw
import Verif.Props.CoinProd
import Verif.Props.Adapt

/-!
# C85: the random-walk proposal reports its density ratio, and the parameter update is reversible

For proposals: integrating over current values `x` and over the proposal `x'`, reweighting by `exp(log_p_backw - log_p_forw)` is the same as exchanging
`x` and `x'`.  For the update of one regime's row: the row's target density is reversible, whatever the budget, the portkey probability and the precoin.
-/

set_option linter.unusedSectionVars false

namespace Ctb

open MeasureTheory
open scoped ENNReal

variable {ζ : Type}

theorem lastOf_ne_nil {α : Type} : ∀ {l : List α}, l ≠ [] → ∃ a, lastOf l = .ok a := by
  intro l hl
  obtain ⟨l', a, rfl⟩ := List.eq_nil_or_concat l |>.resolve_left hl
  exact ⟨a, by rw [List.concat_eq_append, lastOf_append]⟩

theorem joint_measurable {n : ℕ} {lb ub : Fin n → Option ℝ} {H : (Fin n → ℝ) → (Fin n → ℝ) → ℝ≥0∞}
    (hH : Measurable fun p : (Fin n → ℝ) × (Fin n → ℝ) => H p.1 p.2) :
    Measurable fun p : (Fin n → ℝ) × (Fin n → ℝ) => H (toConstVec lb ub p.1) (toConstVec lb ub p.2) :=
  hH.comp (((toConstVec_measurable lb ub).comp measurable_fst).prodMk ((toConstVec_measurable lb ub).comp measurable_snd))

theorem exp_mul_exp_neg (a : ℝ) : ENNReal.ofReal (Real.exp (-a)) * ENNReal.ofReal (Real.exp a) = 1 := by
  rw [← ENNReal.ofReal_mul (Real.exp_pos _).le, ← Real.exp_add]; simp

/-- The two log terms returned by `propose` are the log densities of the forward and backward moves up to a common constant: reweighting by
`exp(backward - forward)` exchanges the current value and the proposal.  Any factorisation `root`, any scale, any bounds. -/
theorem C85_density_ratio {n : ℕ} (root : Matrix (Fin n) (Fin n) ℝ → Matrix (Fin n) (Fin n) ℝ) (s : MvRw n)
    (hs : s.sched.logScale ≠ []) (G : (Fin n → ℝ) → (Fin n → ℝ) → ℝ≥0∞)
    (hG : Measurable fun p : (Fin n → ℝ) × (Fin n → ℝ) => G p.1 p.2) :
    ∫⁻ x in {x | ∀ i, Admissible (x i) (s.lb i) (s.ub i)},
        (({ s with state := x } : MvRw n).propose root).lexp (onOk fun q => G x q.1 * ENNReal.ofReal (Real.exp (q.2.2 - q.2.1))) =
      ∫⁻ x in {x | ∀ i, Admissible (x i) (s.lb i) (s.ub i)},
        (({ s with state := x } : MvRw n).propose root).lexp (onOk fun q => G q.1 x) := by
  obtain ⟨sc, hsc⟩ := lastOf_ne_nil hs
  change ∫⁻ x in admVec s.lb s.ub, _ = ∫⁻ x in admVec s.lb s.ub, _
  rw [lintegral_admVec, lintegral_admVec]
  set R := root (Real.exp sc • s.propCov) with hR
  have e1 : ∀ y, (({ s with state := toConstVec s.lb s.ub y } : MvRw n).propose root).lexp
      (onOk fun q => G (toConstVec s.lb s.ub y) q.1 * ENNReal.ofReal (Real.exp (q.2.2 - q.2.1))) =
      ∫⁻ z, G (toConstVec s.lb s.ub y) (toConstVec s.lb s.ub (y + R.mulVec z)) *
        ENNReal.ofReal (Real.exp (jacVec s.lb s.ub y - jacVec s.lb s.ub (y + R.mulVec z))) ∂stdGauss n := by
    intro y
    rw [propose_exp root ({ s with state := toConstVec s.lb s.ub y } : MvRw n) hsc rfl]
    · rfl
    · simp only [onOk]
      exact (hG.comp (measurable_const.prodMk measurable_fst)).mul (ENNReal.measurable_ofReal.comp (Real.measurable_exp.comp
        ((measurable_snd.comp measurable_snd).sub (measurable_fst.comp measurable_snd))))
  have e2 : ∀ y, (({ s with state := toConstVec s.lb s.ub y } : MvRw n).propose root).lexp
      (onOk fun q => G q.1 (toConstVec s.lb s.ub y)) =
      ∫⁻ z, G (toConstVec s.lb s.ub (y + R.mulVec z)) (toConstVec s.lb s.ub y) ∂stdGauss n := by
    intro y
    rw [propose_exp root ({ s with state := toConstVec s.lb s.ub y } : MvRw n) hsc rfl]
    · rfl
    · simp only [onOk]
      exact hG.comp (measurable_fst.prodMk measurable_const)
  simp only [e1, e2]
  have hJ : Measurable fun y => ENNReal.ofReal (Real.exp (-jacVec s.lb s.ub y)) :=
    ENNReal.measurable_ofReal.comp (Real.measurable_exp.comp (jacVec_measurable s.lb s.ub).neg)
  have hmR : Measurable fun z : Fin n → ℝ => R.mulVec z := by
    rw [measurable_pi_iff]; intro i
    simp only [Matrix.mulVec, dotProduct]
    fun_prop
  have h3 := walk_swap R (fun y y' => ENNReal.ofReal (Real.exp (-jacVec s.lb s.ub y')) * G (toConstVec s.lb s.ub y) (toConstVec s.lb s.ub y'))
    ((hJ.comp measurable_snd).mul (joint_measurable hG))
  have h4 : ∀ y z, ENNReal.ofReal (Real.exp (-jacVec s.lb s.ub y)) * (G (toConstVec s.lb s.ub y) (toConstVec s.lb s.ub (y + R.mulVec z)) *
      ENNReal.ofReal (Real.exp (jacVec s.lb s.ub y - jacVec s.lb s.ub (y + R.mulVec z)))) =
      ENNReal.ofReal (Real.exp (-jacVec s.lb s.ub (y + R.mulVec z))) * G (toConstVec s.lb s.ub y) (toConstVec s.lb s.ub (y + R.mulVec z)) := by
    intro y z
    have : ENNReal.ofReal (Real.exp (jacVec s.lb s.ub y - jacVec s.lb s.ub (y + R.mulVec z))) =
        ENNReal.ofReal (Real.exp (jacVec s.lb s.ub y)) * ENNReal.ofReal (Real.exp (-jacVec s.lb s.ub (y + R.mulVec z))) := by
      rw [← ENNReal.ofReal_mul (Real.exp_pos _).le, ← Real.exp_add]; congr 2
    rw [this]
    calc _ = (ENNReal.ofReal (Real.exp (-jacVec s.lb s.ub y)) * ENNReal.ofReal (Real.exp (jacVec s.lb s.ub y))) *
          (ENNReal.ofReal (Real.exp (-jacVec s.lb s.ub (y + R.mulVec z))) *
            G (toConstVec s.lb s.ub y) (toConstVec s.lb s.ub (y + R.mulVec z))) := by ring
      _ = _ := by rw [exp_mul_exp_neg, one_mul]
  have h5 : ∀ y, ENNReal.ofReal (Real.exp (-jacVec s.lb s.ub y)) * ∫⁻ z, G (toConstVec s.lb s.ub y) (toConstVec s.lb s.ub (y + R.mulVec z)) *
        ENNReal.ofReal (Real.exp (jacVec s.lb s.ub y - jacVec s.lb s.ub (y + R.mulVec z))) ∂stdGauss n =
      ∫⁻ z, ENNReal.ofReal (Real.exp (-jacVec s.lb s.ub (y + R.mulVec z))) *
        G (toConstVec s.lb s.ub y) (toConstVec s.lb s.ub (y + R.mulVec z)) ∂stdGauss n := by
    intro y
    rw [← lintegral_const_mul' _ _ ENNReal.ofReal_ne_top]
    exact lintegral_congr (h4 y)
  have h6 : ∀ y, ENNReal.ofReal (Real.exp (-jacVec s.lb s.ub y)) *
      ∫⁻ z, G (toConstVec s.lb s.ub (y + R.mulVec z)) (toConstVec s.lb s.ub y) ∂stdGauss n =
      ∫⁻ z, ENNReal.ofReal (Real.exp (-jacVec s.lb s.ub y)) * G (toConstVec s.lb s.ub (y + R.mulVec z)) (toConstVec s.lb s.ub y) ∂stdGauss n :=
    fun y => (lintegral_const_mul' _ _ ENNReal.ofReal_ne_top).symm
  simp only [h5, h6]
  exact h3

/-! ## the decision -/

/-- Acceptance probability of the decision, from the log weights and coin probabilities. -/
noncomputable def accF (C : McmcControls) (w' w : ℝ) (p1 p2 : ℝ≥0∞) : ℝ≥0∞ :=
  if C.precoin then ENNReal.ofReal (sideProb w' w) * (ENNReal.ofReal (1 / 2) * p1 *
    ∑ k ∈ Finset.range C.maxProps, failProb (1 / 2) p1 p2 C.prPortkey ^ k)
  else ENNReal.ofReal (sideProb w' w) * p1 * ∑ k ∈ Finset.range C.maxProps, failProb (sideProb w' w) p1 p2 C.prPortkey ^ k

/-- Probability of returning without acceptance in the coin factory. -/
noncomputable def rejQ (C : McmcControls) (q : ℝ) (p1 p2 : ℝ≥0∞) : ℝ≥0∞ :=
  (ENNReal.ofReal (1 - q) * p2 + (ENNReal.ofReal q * (1 - p1) + ENNReal.ofReal (1 - q) * (1 - p2)) * ENNReal.ofReal C.prPortkey) *
    ∑ k ∈ Finset.range C.maxProps, failProb q p1 p2 C.prPortkey ^ k

/-- Probability of returning without acceptance. -/
noncomputable def rejF (C : McmcControls) (w' w : ℝ) (p1 p2 : ℝ≥0∞) : ℝ≥0∞ :=
  if C.precoin then ENNReal.ofReal (sideProb w' w) * rejQ C (1 / 2) p1 p2 + ENNReal.ofReal (1 - sideProb w' w)
  else rejQ C (sideProb w' w) p1 p2

theorem sideProb_measurable : Measurable fun q : ℝ × ℝ => sideProb q.1 q.2 := by
  unfold sideProb
  exact (Real.measurable_exp.comp measurable_fst).div ((Real.measurable_exp.comp measurable_fst).add (Real.measurable_exp.comp measurable_snd))

theorem failProb_measurable (prk : ℝ) : Measurable fun q : ℝ × ℝ≥0∞ × ℝ≥0∞ => failProb q.1 q.2.1 q.2.2 prk := by
  unfold failProb
  fun_prop

theorem rejQ_measurable (C : McmcControls) : Measurable fun q : ℝ × ℝ≥0∞ × ℝ≥0∞ => rejQ C q.1 q.2.1 q.2.2 := by
  unfold rejQ
  have := failProb_measurable C.prPortkey
  fun_prop

theorem accF_measurable (C : McmcControls) : Measurable fun q : ℝ × ℝ × ℝ≥0∞ × ℝ≥0∞ => accF C q.1 q.2.1 q.2.2.1 q.2.2.2 := by
  have hs : Measurable fun q : ℝ × ℝ × ℝ≥0∞ × ℝ≥0∞ => sideProb q.1 q.2.1 :=
    sideProb_measurable.comp (measurable_fst.prodMk (measurable_fst.comp measurable_snd))
  have h1 : Measurable fun q : ℝ × ℝ × ℝ≥0∞ × ℝ≥0∞ => failProb (1 / 2) q.2.2.1 q.2.2.2 C.prPortkey :=
    (failProb_measurable C.prPortkey).comp (g := fun q : ℝ × ℝ≥0∞ × ℝ≥0∞ => failProb q.1 q.2.1 q.2.2 C.prPortkey)
      (f := fun q : ℝ × ℝ × ℝ≥0∞ × ℝ≥0∞ => ((1 / 2 : ℝ), q.2.2.1, q.2.2.2)) (by fun_prop)
  have h2 : Measurable fun q : ℝ × ℝ × ℝ≥0∞ × ℝ≥0∞ => failProb (sideProb q.1 q.2.1) q.2.2.1 q.2.2.2 C.prPortkey :=
    (failProb_measurable C.prPortkey).comp (hs.prodMk (measurable_snd.comp measurable_snd))
  unfold accF
  split_ifs
  · fun_prop
  · fun_prop

theorem rejF_measurable (C : McmcControls) : Measurable fun q : ℝ × ℝ × ℝ≥0∞ × ℝ≥0∞ => rejF C q.1 q.2.1 q.2.2.1 q.2.2.2 := by
  have hs : Measurable fun q : ℝ × ℝ × ℝ≥0∞ × ℝ≥0∞ => sideProb q.1 q.2.1 :=
    sideProb_measurable.comp (measurable_fst.prodMk (measurable_fst.comp measurable_snd))
  have hp : Measurable fun q : ℝ × ℝ × ℝ≥0∞ × ℝ≥0∞ => q.2.2 := measurable_snd.comp measurable_snd
  have h1 := (rejQ_measurable C).comp ((measurable_const (a := (1 / 2 : ℝ))).prodMk hp)
  have h2 := (rejQ_measurable C).comp (hs.prodMk hp)
  by_cases hc : C.precoin
  · have e : (fun q : ℝ × ℝ × ℝ≥0∞ × ℝ≥0∞ => rejF C q.1 q.2.1 q.2.2.1 q.2.2.2) = fun q =>
        ENNReal.ofReal (sideProb q.1 q.2.1) * rejQ C (1 / 2) q.2.2.1 q.2.2.2 + ENNReal.ofReal (1 - sideProb q.1 q.2.1) := by
      funext q; rw [rejF, if_pos hc]
    rw [e]
    exact ((ENNReal.measurable_ofReal.comp hs).mul h1).add (ENNReal.measurable_ofReal.comp (hs.const_sub 1))
  · have e : (fun q : ℝ × ℝ × ℝ≥0∞ × ℝ≥0∞ => rejF C q.1 q.2.1 q.2.2.1 q.2.2.2) = fun q => rejQ C (sideProb q.1 q.2.1) q.2.2.1 q.2.2.2 := by
      funext q; rw [rejF, if_neg hc]
    rw [e]
    exact h2

theorem accF_measurable' (C : McmcControls) {X : Type} [MeasurableSpace X] {f g : X → ℝ} {p q : X → ℝ≥0∞} (hf : Measurable f) (hg : Measurable g)
    (hp : Measurable p) (hq : Measurable q) : Measurable fun x => accF C (f x) (g x) (p x) (q x) :=
  (accF_measurable C).comp (hf.prodMk (hg.prodMk (hp.prodMk hq)))

theorem rejF_measurable' (C : McmcControls) {X : Type} [MeasurableSpace X] {f g : X → ℝ} {p q : X → ℝ≥0∞} (hf : Measurable f) (hg : Measurable g)
    (hp : Measurable p) (hq : Measurable q) : Measurable fun x => rejF C (f x) (g x) (p x) (q x) :=
  Measurable.comp (g := fun q : ℝ × ℝ × ℝ≥0∞ × ℝ≥0∞ => rejF C q.1 q.2.1 q.2.2.1 q.2.2.2) (f := fun x => (f x, g x, p x, q x))
    (rejF_measurable C) (hf.prodMk (hg.prodMk (hp.prodMk hq)))

theorem accF_balance (C : McmcControls) (w' w : ℝ) (p1 p2 : ℝ≥0∞) :
    accF C w' w p1 p2 * (ENNReal.ofReal (Real.exp w) * p2) = accF C w w' p2 p1 * (ENNReal.ofReal (Real.exp w') * p1) := by
  have hf : failProb (1 / 2) p2 p1 C.prPortkey = failProb (1 / 2) p1 p2 C.prPortkey := by
    have hq : sideProb 0 0 = 1 / 2 := by unfold sideProb; norm_num
    have := failProb_swap 0 0 p1 p2 C.prPortkey
    rwa [hq] at this
  unfold accF
  have e1 := sideWeight w' w 1
  have e2 := sideWeight' w' w 1
  simp only [mul_one] at e1 e2
  split_ifs
  · rw [hf, sideProb_swap w' w, ← e1, ← e2]; ring
  · rw [failProb_swap w' w, sideProb_swap w' w, ← e1, ← e2]; ring

/-- Value `A` on acceptance, `B` on rejection. -/
def takenVal {τ : Type} (A B : ℝ≥0∞) : Res (Bool × τ) → ℝ≥0∞ := onOk fun v => if v.1 then A else B

theorem joint_exp {τ : Type} {C : McmcControls} (hk : 0 ≤ C.prPortkey ∧ C.prPortkey ≤ 1) (w' w : ℝ) {I : Set τ} {z : τ} (hz : z ∈ I)
    {c : SideCoin τ τ} {p1 p2 : ℝ≥0∞} (h1 : IsCoin I (fun s => c s true) p1) (h2 : IsCoin I (fun s => c s false) p2) (A B : ℝ≥0∞) :
    ((sampleTwocoinJoint w' w (.ret z) c C.prPortkey C.maxProps).bind fun v => Prog.ret (v.1.1, v.1.2.2)).lexp (takenVal A B) =
      ENNReal.ofReal (sideProb w' w) * p1 * (∑ k ∈ Finset.range C.maxProps, failProb (sideProb w' w) p1 p2 C.prPortkey ^ k) * A +
        rejQ C (sideProb w' w) p1 p2 * B := by
  have e : ∀ r : Res (Verdict τ τ), Prog.cont (fun v : Verdict τ τ => Prog.ret (v.1.1, v.1.2.2)) (takenVal A B) Prog.lexp r = verdictVal A B B 0 r := by
    intro r
    rcases r with e | ⟨⟨a, b, x⟩, s⟩
    · rfl
    · cases a <;> cases b <;> simp [Prog.cont_ok, Prog.lexp_ret, takenVal, onOk, verdictVal]
  rw [Prog.lexp_bind, funext e, sampleTwocoinJoint, Prog.ret_bind, twocoinJointLoop_eq,
    genLoop_lexp (by rw [exp_v1]; exact (sideProb_lt_one _ _).le) h1 h2 hk _ _ _ _ _ _ hz, exp_v1]
  unfold rejQ
  ring

theorem decide_exp {τ : Type} {C : McmcControls} (hk : 0 ≤ C.prPortkey ∧ C.prPortkey ≤ 1) (w' w : ℝ) {I : Set τ} {z : τ} (hz : z ∈ I)
    {c : SideCoin τ τ} {p1 p2 : ℝ≥0∞} (h1 : IsCoin I (fun s => c s true) p1) (h2 : IsCoin I (fun s => c s false) p2) (A B : ℝ≥0∞) :
    (decideParam C (w', w) (w', w) z c).lexp (takenVal A B) = accF C w' w p1 p2 * A + rejF C w' w p1 p2 * B := by
  have hq : sideProb 0 0 = 1 / 2 := by unfold sideProb; norm_num
  unfold decideParam accF rejF
  split_ifs with hp
  · rw [Prog.lexp_bind, flipPrecoin_lexp]
    simp only [Prog.cont_ok, if_true, Bool.false_eq_true, if_false, Prog.lexp_ret]
    rw [joint_exp hk 0 0 hz h1 h2 A B, hq]
    simp only [takenVal, onOk, Bool.false_eq_true, if_false]
    ring
  · exact joint_exp hk w' w hz h1 h2 A B

/-! ## reversibility of one regime's update -/

/-- Rows of the parameter matrix the update of a regime works on. -/
def admRows {p : ℕ} (s : MvRw p) : Set (Fin p → ℝ) := {x | ∀ i, Admissible (x i) (s.lb i) (s.ub i)}

/-- The coins the update of regime `i` flips, at current row `x` and proposed row `x'`. -/
noncomputable def rowCoin {p : ℕ} (O : ParamOps p ζ) (nil : Thi p) (h : Anchorage ℝ ℝ) (i : ℕ) (x x' : Fin p → ℝ) : SideCoin (List ζ) (List ζ) :=
  fun s up => (flipParamCoins O (Function.update nil i x) (Function.update nil i x') h i s up).bind fun r => .ret (r.1, r.2, r.2)

/-- One update of row `i` from value `x`, with the sampler's state at `x`. -/
noncomputable def rowUpdate {p : ℕ} (root : Matrix (Fin p) (Fin p) ℝ → Matrix (Fin p) (Fin p) ℝ) (C : McmcControls) (O : ParamOps p ζ) (nil : Thi p)
    (z : List ζ) (h : Anchorage ℝ ℝ) (s : MvRw p) (i : ℕ) (x : Fin p → ℝ) : Prog (Bool × Thi p × List ζ) :=
  updateParamsSection C O (Function.update nil i x) z h (({ s with state := x } : MvRw p).propose root) i

theorem rowUpdate_exp {p : ℕ} {root : Matrix (Fin p) (Fin p) ℝ → Matrix (Fin p) (Fin p) ℝ} {C : McmcControls}
    (hk : 0 ≤ C.prPortkey ∧ C.prPortkey ≤ 1) {O : ParamOps p ζ} {nil : Thi p} {I : Set (List ζ)} {z : List ζ} (hz : z ∈ I) {h : Anchorage ℝ ℝ} {s : MvRw p} {i : ℕ}
    {sc : ℝ} (hsc : lastOf s.sched.logScale = .ok sc) {P : (Fin p → ℝ) → (Fin p → ℝ) → ℝ≥0∞}
    (hP : Measurable fun q : (Fin p → ℝ) × (Fin p → ℝ) => P q.1 q.2)
    (hw : Measurable fun x => O.weight (Function.update nil i x) i)
    (hc1 : ∀ x ∈ admRows s, ∀ x' ∈ admRows s, IsCoin I (fun t => rowCoin O nil h i x x' t true) (P x x'))
    (hc2 : ∀ x ∈ admRows s, ∀ x' ∈ admRows s, IsCoin I (fun t => rowCoin O nil h i x x' t false) (P x' x))
    {F : (Fin p → ℝ) → ℝ≥0∞} (hF : Measurable F) (y : Fin p → ℝ) :
    (rowUpdate root C O nil z h s i (toConstVec s.lb s.ub y)).lexp (onOk fun v => F (v.2.1 i)) =
      ∫⁻ u, (fun y' => accF C (O.weight (Function.update nil i (toConstVec s.lb s.ub y')) i + jacVec s.lb s.ub y)
          (O.weight (Function.update nil i (toConstVec s.lb s.ub y)) i + jacVec s.lb s.ub y')
          (P (toConstVec s.lb s.ub y) (toConstVec s.lb s.ub y')) (P (toConstVec s.lb s.ub y') (toConstVec s.lb s.ub y)) *
            F (toConstVec s.lb s.ub y') +
        rejF C (O.weight (Function.update nil i (toConstVec s.lb s.ub y')) i + jacVec s.lb s.ub y)
          (O.weight (Function.update nil i (toConstVec s.lb s.ub y)) i + jacVec s.lb s.ub y')
          (P (toConstVec s.lb s.ub y) (toConstVec s.lb s.ub y')) (P (toConstVec s.lb s.ub y') (toConstVec s.lb s.ub y)) *
            F (toConstVec s.lb s.ub y)) (y + (root (Real.exp sc • s.propCov)).mulVec u) ∂stdGauss p := by
  set x := toConstVec s.lb s.ub y with hx
  have hxm : x ∈ admRows s := by
    have : x ∈ admVec s.lb s.ub := by rw [← toConstVec_image]; exact ⟨y, trivial, rfl⟩
    exact this
  -- value after a proposal
  set g : (Fin p → ℝ) × ℝ × ℝ → ℝ≥0∞ := fun q =>
    accF C (O.weight (Function.update nil i q.1) i + q.2.2) (O.weight (Function.update nil i x) i + q.2.1) (P x q.1) (P q.1 x) * F q.1 +
    rejF C (O.weight (Function.update nil i q.1) i + q.2.2) (O.weight (Function.update nil i x) i + q.2.1) (P x q.1) (P q.1 x) * F x with hgdef
  have hmg : Measurable g := by
    have a1 : Measurable fun q : (Fin p → ℝ) × ℝ × ℝ => (O.weight (Function.update nil i q.1) i + q.2.2, O.weight (Function.update nil i x) i + q.2.1,
        P x q.1, P q.1 x) :=
      ((hw.comp measurable_fst).add (measurable_snd.comp measurable_snd)).prodMk
        ((measurable_const.add (measurable_fst.comp measurable_snd)).prodMk
          ((hP.comp (measurable_const.prodMk measurable_fst)).prodMk (hP.comp (measurable_fst.prodMk measurable_const))))
    exact (((accF_measurable C).comp a1).mul (hF.comp measurable_fst)).add (((rejF_measurable C).comp a1).mul measurable_const)
  have hsec : ∀ q : (Fin p → ℝ) × ℝ × ℝ, q.1 ∈ admRows s →
      ((decideParam C (O.weight (Function.update (Function.update nil i x) i q.1) i + q.2.2, O.weight (Function.update nil i x) i + q.2.1)
        (O.weight (Function.update (Function.update nil i x) i q.1) i + q.2.2, O.weight (Function.update nil i x) i + q.2.1) z
        fun s up => (flipParamCoins O (Function.update nil i x) (Function.update (Function.update nil i x) i q.1) h i s up).bind fun r =>
          .ret (r.1, r.2, r.2)).bind fun v =>
        Prog.ret (v.1, if v.1 then Function.update (Function.update nil i x) i q.1 else Function.update nil i x, v.2)).lexp
        (onOk fun v : Bool × Thi p × List ζ => F (v.2.1 i)) = g q := by
    intro q hq
    rw [Prog.lexp_bind]
    have e : ∀ r : Res (Bool × List ζ), Prog.cont (fun v : Bool × List ζ =>
        Prog.ret (v.1, if v.1 then Function.update (Function.update nil i x) i q.1 else Function.update nil i x, v.2))
        (onOk fun v : Bool × Thi p × List ζ => F (v.2.1 i)) Prog.lexp r = takenVal (F q.1) (F x) r := by
      intro r
      rcases r with e | ⟨b, l⟩
      · rfl
      · cases b <;> simp [Prog.cont_ok, Prog.lexp_ret, takenVal, onOk]
    rw [funext e, Function.update_idem]
    exact decide_exp hk _ _ hz (hc1 x hxm q.1 hq) (hc2 x hxm q.1 hq) _ _
  unfold rowUpdate updateParamsSection
  rw [Prog.lexp_bind]
  refine (Prog.lexp_congr (h := onOk g) ?_).trans ?_
  · intro r hr
    rcases r with e | q
    · rfl
    · rw [Prog.cont_ok]
      refine hsec q ?_
      intro k hk'
      exact C33_partial root _ hr k hk'
  · rw [propose_exp root ({ s with state := x } : MvRw p) hsc (y := y) rfl (onOk g) hmg]
    rfl

/-- Reversibility on the real scale, for any accept weights in detailed balance. -/
theorem walk_mh {p : ℕ} (R : Matrix (Fin p) (Fin p) ℝ) {T : (Fin p → ℝ) → Fin p → ℝ} (hTm : Measurable T) {D : (Fin p → ℝ) → ℝ≥0∞}
    (hDm : Measurable D) {a b : (Fin p → ℝ) → (Fin p → ℝ) → ℝ≥0∞} (ham : Measurable fun q : (Fin p → ℝ) × (Fin p → ℝ) => a q.1 q.2)
    (hbm : Measurable fun q : (Fin p → ℝ) × (Fin p → ℝ) => b q.1 q.2) (key : ∀ y y', D y * a y y' = D y' * a y' y)
    {G : (Fin p → ℝ) → (Fin p → ℝ) → ℝ≥0∞} (hG : Measurable fun q : (Fin p → ℝ) × (Fin p → ℝ) => G q.1 q.2) :
    ∫⁻ y, D y * ∫⁻ u, (fun y' => a y y' * G (T y) (T y') + b y y' * G (T y) (T y)) (y + R.mulVec u) ∂stdGauss p =
      ∫⁻ y, D y * ∫⁻ u, (fun y' => a y y' * G (T y') (T y) + b y y' * G (T y) (T y)) (y + R.mulVec u) ∂stdGauss p := by
  have hTT : Measurable fun q : (Fin p → ℝ) × (Fin p → ℝ) => (T q.1, T q.2) := (hTm.comp measurable_fst).prodMk (hTm.comp measurable_snd)
  have hTT' : Measurable fun q : (Fin p → ℝ) × (Fin p → ℝ) => (T q.2, T q.1) := (hTm.comp measurable_snd).prodMk (hTm.comp measurable_fst)
  have hmR : Measurable fun z : Fin p → ℝ => R.mulVec z := by
    rw [measurable_pi_iff]; intro i
    simp only [Matrix.mulVec, dotProduct]
    fun_prop
  have hstep : Measurable fun q : (Fin p → ℝ) × (Fin p → ℝ) => (q.1, q.1 + R.mulVec q.2) :=
    measurable_fst.prodMk (measurable_fst.add (hmR.comp measurable_snd))
  have hside : ∀ K : (Fin p → ℝ) → (Fin p → ℝ) → ℝ≥0∞, Measurable (fun q : (Fin p → ℝ) × (Fin p → ℝ) => K q.1 q.2) →
      ∫⁻ y, D y * ∫⁻ u, (a y (y + R.mulVec u) * K (T y) (T (y + R.mulVec u)) + b y (y + R.mulVec u) * G (T y) (T y)) ∂stdGauss p =
      (∫⁻ y, ∫⁻ u, D y * (a y (y + R.mulVec u) * K (T y) (T (y + R.mulVec u))) ∂stdGauss p) +
        ∫⁻ y, ∫⁻ u, D y * (b y (y + R.mulVec u) * G (T y) (T y)) ∂stdGauss p := by
    intro K hK
    have m1 : Measurable fun q : (Fin p → ℝ) × (Fin p → ℝ) => D q.1 * (a q.1 q.2 * K (T q.1) (T q.2)) :=
      (hDm.comp measurable_fst).mul (ham.mul (hK.comp hTT))
    have m2 : Measurable fun q : (Fin p → ℝ) × (Fin p → ℝ) => D q.1 * (a q.1 (q.1 + R.mulVec q.2) * K (T q.1) (T (q.1 + R.mulVec q.2))) :=
      m1.comp hstep
    rw [← lintegral_add_left m2.lintegral_prod_right']
    refine lintegral_congr fun y => ?_
    have m3 : Measurable fun u => a y (y + R.mulVec u) * K (T y) (T (y + R.mulVec u)) :=
      (ham.mul (hK.comp hTT)).comp (hstep.comp (measurable_const.prodMk measurable_id))
    have m4 : Measurable fun u => b y (y + R.mulVec u) * G (T y) (T y) :=
      (hbm.comp (hstep.comp (measurable_const.prodMk measurable_id))).mul measurable_const
    rw [lintegral_add_left m3, mul_add, lintegral_const_mul _ m4]
    congr 1
    exact (lintegral_const_mul _ m3).symm
  refine (hside G hG).trans (Eq.trans ?_ (hside (fun x y => G y x) (hG.comp (measurable_snd.prodMk measurable_fst))).symm)
  congr 1
  have m5 : Measurable fun q : (Fin p → ℝ) × (Fin p → ℝ) => D q.1 * (a q.1 q.2 * G (T q.2) (T q.1)) :=
    (hDm.comp measurable_fst).mul (ham.mul (hG.comp hTT'))
  refine Eq.trans ?_ (walk_swap R (fun y y' => D y * (a y y' * G (T y') (T y))) m5).symm
  refine lintegral_congr fun y => lintegral_congr fun u => ?_
  rw [← mul_assoc, key, mul_assoc]

/-- Density of the target on the real scale. -/
noncomputable def rwDens {n : ℕ} (J W : (Fin n → ℝ) → ℝ) (T : (Fin n → ℝ) → Fin n → ℝ) (rho : (Fin n → ℝ) → ℝ≥0∞) (y : Fin n → ℝ) : ℝ≥0∞ :=
  ENNReal.ofReal (Real.exp (-J y)) * (ENNReal.ofReal (Real.exp (W (T y))) * rho (T y))

theorem rwDens_balance {n : ℕ} (C : McmcControls) {J W : (Fin n → ℝ) → ℝ} {T : (Fin n → ℝ) → Fin n → ℝ} {rho : (Fin n → ℝ) → ℝ≥0∞}
    {P : (Fin n → ℝ) → (Fin n → ℝ) → ℝ≥0∞} (y y' : Fin n → ℝ) (hp2 : 0 < P (T y') (T y) ∧ P (T y') (T y) ≤ 1)
    (hr : rho (T y) * P (T y) (T y') = rho (T y') * P (T y') (T y)) :
    rwDens J W T rho y * accF C (W (T y') + J y) (W (T y) + J y') (P (T y) (T y')) (P (T y') (T y)) =
      rwDens J W T rho y' * accF C (W (T y) + J y') (W (T y') + J y) (P (T y') (T y)) (P (T y) (T y')) := by
  have hbalance := accF_balance C (W (T y') + J y) (W (T y) + J y') (P (T y) (T y')) (P (T y') (T y))
  have hexp : ∀ v w : ℝ, ENNReal.ofReal (Real.exp (v + w)) = ENNReal.ofReal (Real.exp v) * ENNReal.ofReal (Real.exp w) := fun v w => by
    rw [Real.exp_add, ENNReal.ofReal_mul (Real.exp_pos _).le]
  rw [hexp, hexp] at hbalance
  generalize accF C (W (T y') + J y) (W (T y) + J y') (P (T y) (T y')) (P (T y') (T y)) = a at *
  generalize accF C (W (T y) + J y') (W (T y') + J y) (P (T y') (T y)) (P (T y) (T y')) = a' at *
  have hne : P (T y') (T y) ≠ 0 := hp2.1.ne'
  have hnt : P (T y') (T y) ≠ ∞ := ne_top_of_le_ne_top ENNReal.one_ne_top hp2.2
  generalize P (T y') (T y) = q at *
  generalize P (T y) (T y') = q' at *
  have e1 := exp_mul_exp_neg (J y)
  have e2 := exp_mul_exp_neg (J y')
  unfold rwDens
  generalize ENNReal.ofReal (Real.exp (W (T y))) = w at *
  generalize ENNReal.ofReal (Real.exp (W (T y'))) = w' at *
  generalize ENNReal.ofReal (Real.exp (J y)) = j at *
  generalize ENNReal.ofReal (Real.exp (J y')) = j' at *
  generalize ENNReal.ofReal (Real.exp (-J y)) = k at *
  generalize ENNReal.ofReal (Real.exp (-J y')) = k' at *
  generalize rho (T y) = r at *
  generalize rho (T y') = r' at *
  have c1 : q * (w * j' * r * a) = q * (w' * j * r' * a') := by
    calc q * (w * j' * r * a) = r * (a * (w * j' * q)) := by ring
      _ = r * (a' * (w' * j * q')) := by rw [hbalance]
      _ = (r * q') * (w' * j * a') := by ring
      _ = q * (w' * j * r' * a') := by rw [hr]; ring
  have c2 := (ENNReal.mul_right_inj hne hnt).1 c1
  calc k * (w * r) * a = (k' * j') * (k * (w * r) * a) := by rw [e2, one_mul]
    _ = k * k' * (w * j' * r * a) := by ring
    _ = k * k' * (w' * j * r' * a') := by rw [c2]
    _ = (k * j) * (k' * (w' * r') * a') := by ring
    _ = k' * (w' * r') * a' := by rw [e1, one_mul]

/-- **Detailed balance of the update of one regime's row.**  The coins show heads with probability `P x x'` for the proposed row and `P x' x` for the
current one, and `rho` is the part of the target density they stand for.  Then the target density `e^weight · rho` is reversible for the whole
update: proposal, Jacobian terms, precoin, two-coin search with portkey, budget. -/
theorem C85_update_reversible {p : ℕ} (root : Matrix (Fin p) (Fin p) ℝ → Matrix (Fin p) (Fin p) ℝ) {C : McmcControls}
    (hk : 0 ≤ C.prPortkey ∧ C.prPortkey ≤ 1) (O : ParamOps p ζ) (nil : Thi p) {I : Set (List ζ)} {z : List ζ} (hz : z ∈ I)
    (h : Anchorage ℝ ℝ) (s : MvRw p) (i : ℕ) (hs : s.sched.logScale ≠ []) {P : (Fin p → ℝ) → (Fin p → ℝ) → ℝ≥0∞} {rho : (Fin p → ℝ) → ℝ≥0∞}
    (hP : Measurable fun q : (Fin p → ℝ) × (Fin p → ℝ) => P q.1 q.2) (hrho : Measurable rho)
    (hw : Measurable fun x => O.weight (Function.update nil i x) i)
    (hP0 : ∀ x ∈ admRows s, ∀ x' ∈ admRows s, 0 < P x x' ∧ P x x' ≤ 1)
    (hbal : ∀ x ∈ admRows s, ∀ x' ∈ admRows s, rho x * P x x' = rho x' * P x' x)
    (hc1 : ∀ x ∈ admRows s, ∀ x' ∈ admRows s, IsCoin I (fun t => rowCoin O nil h i x x' t true) (P x x'))
    (hc2 : ∀ x ∈ admRows s, ∀ x' ∈ admRows s, IsCoin I (fun t => rowCoin O nil h i x x' t false) (P x' x))
    (G : (Fin p → ℝ) → (Fin p → ℝ) → ℝ≥0∞) (hG : Measurable fun q : (Fin p → ℝ) × (Fin p → ℝ) => G q.1 q.2) :
    ∫⁻ x in admRows s, ENNReal.ofReal (Real.exp (O.weight (Function.update nil i x) i)) * rho x *
        (rowUpdate root C O nil z h s i x).lexp (onOk fun v => G x (v.2.1 i)) =
      ∫⁻ x in admRows s, ENNReal.ofReal (Real.exp (O.weight (Function.update nil i x) i)) * rho x *
        (rowUpdate root C O nil z h s i x).lexp (onOk fun v => G (v.2.1 i) x) := by
  obtain ⟨sc, hsc⟩ := lastOf_ne_nil hs
  have hadm : admRows s = admVec s.lb s.ub := rfl
  have hTm := toConstVec_measurable s.lb s.ub
  have hJm := jacVec_measurable s.lb s.ub
  have hTadm : ∀ y, toConstVec s.lb s.ub y ∈ admRows s := fun y => by rw [hadm, ← toConstVec_image]; exact ⟨y, trivial, rfl⟩
  have hDm : Measurable (rwDens (jacVec s.lb s.ub) (fun x => O.weight (Function.update nil i x) i) (toConstVec s.lb s.ub) rho) :=
    (ENNReal.measurable_ofReal.comp (Real.measurable_exp.comp hJm.neg)).mul
      ((ENNReal.measurable_ofReal.comp (Real.measurable_exp.comp (hw.comp hTm))).mul (hrho.comp hTm))
  have hTT : Measurable fun q : (Fin p → ℝ) × (Fin p → ℝ) => (toConstVec s.lb s.ub q.1, toConstVec s.lb s.ub q.2) :=
    (hTm.comp measurable_fst).prodMk (hTm.comp measurable_snd)
  have hTT' : Measurable fun q : (Fin p → ℝ) × (Fin p → ℝ) => (toConstVec s.lb s.ub q.2, toConstVec s.lb s.ub q.1) :=
    (hTm.comp measurable_snd).prodMk (hTm.comp measurable_fst)
  have a1 : Measurable fun q : (Fin p → ℝ) × (Fin p → ℝ) =>
      O.weight (Function.update nil i (toConstVec s.lb s.ub q.2)) i + jacVec s.lb s.ub q.1 :=
    (hw.comp (hTm.comp measurable_snd)).add (hJm.comp measurable_fst)
  have a2 : Measurable fun q : (Fin p → ℝ) × (Fin p → ℝ) =>
      O.weight (Function.update nil i (toConstVec s.lb s.ub q.1)) i + jacVec s.lb s.ub q.2 :=
    (hw.comp (hTm.comp measurable_fst)).add (hJm.comp measurable_snd)
  have a3 : Measurable fun q : (Fin p → ℝ) × (Fin p → ℝ) => P (toConstVec s.lb s.ub q.1) (toConstVec s.lb s.ub q.2) := hP.comp hTT
  have a4 : Measurable fun q : (Fin p → ℝ) × (Fin p → ℝ) => P (toConstVec s.lb s.ub q.2) (toConstVec s.lb s.ub q.1) := hP.comp hTT'
  have hm := walk_mh (root (Real.exp sc • s.propCov)) hTm hDm
    (a := fun y y' => accF C (O.weight (Function.update nil i (toConstVec s.lb s.ub y')) i + jacVec s.lb s.ub y)
      (O.weight (Function.update nil i (toConstVec s.lb s.ub y)) i + jacVec s.lb s.ub y')
      (P (toConstVec s.lb s.ub y) (toConstVec s.lb s.ub y')) (P (toConstVec s.lb s.ub y') (toConstVec s.lb s.ub y)))
    (b := fun y y' => rejF C (O.weight (Function.update nil i (toConstVec s.lb s.ub y')) i + jacVec s.lb s.ub y)
      (O.weight (Function.update nil i (toConstVec s.lb s.ub y)) i + jacVec s.lb s.ub y')
      (P (toConstVec s.lb s.ub y) (toConstVec s.lb s.ub y')) (P (toConstVec s.lb s.ub y') (toConstVec s.lb s.ub y)))
    (accF_measurable' C a1 a2 a3 a4) (rejF_measurable' C a1 a2 a3 a4)
    (fun y y' => rwDens_balance C y y' (hP0 _ (hTadm y') _ (hTadm y)) (hbal _ (hTadm y) _ (hTadm y'))) hG
  have hside : ∀ K : (Fin p → ℝ) → (Fin p → ℝ) → ℝ≥0∞, Measurable (fun q : (Fin p → ℝ) × (Fin p → ℝ) => K q.1 q.2) → ∀ y,
      ENNReal.ofReal (Real.exp (-jacVec s.lb s.ub y)) * (ENNReal.ofReal (Real.exp (O.weight (Function.update nil i (toConstVec s.lb s.ub y)) i)) *
        rho (toConstVec s.lb s.ub y) *
        (rowUpdate root C O nil z h s i (toConstVec s.lb s.ub y)).lexp (onOk fun v => K (toConstVec s.lb s.ub y) (v.2.1 i))) =
      rwDens (jacVec s.lb s.ub) (fun x => O.weight (Function.update nil i x) i) (toConstVec s.lb s.ub) rho y *
        (rowUpdate root C O nil z h s i (toConstVec s.lb s.ub y)).lexp (onOk fun v => K (toConstVec s.lb s.ub y) (v.2.1 i)) :=
    fun K _ y => by unfold rwDens; rw [mul_assoc (ENNReal.ofReal (Real.exp (-jacVec s.lb s.ub y)))]
  rw [hadm, lintegral_admVec, lintegral_admVec]
  simp only [hside G hG, hside (fun x y => G y x) (hG.comp (measurable_snd.prodMk measurable_fst))]
  refine Eq.trans (lintegral_congr fun y => ?_) (hm.trans (lintegral_congr fun y => ?_))
  · congr 1
    exact rowUpdate_exp hk hz hsc hP hw hc1 hc2 (hG.comp (measurable_const.prodMk measurable_id)) y
  · congr 1
    exact (rowUpdate_exp hk hz hsc hP hw hc1 hc2 (F := fun x => G x (toConstVec s.lb s.ub y)) (hG.comp (measurable_id.prodMk measurable_const)) y).symm

/-- Consequence: the target is invariant, up to the updates that run out of budget. -/
theorem C85_update_invariant {p : ℕ} (root : Matrix (Fin p) (Fin p) ℝ → Matrix (Fin p) (Fin p) ℝ) {C : McmcControls}
    (hk : 0 ≤ C.prPortkey ∧ C.prPortkey ≤ 1) (O : ParamOps p ζ) (nil : Thi p) {I : Set (List ζ)} {z : List ζ} (hz : z ∈ I)
    (h : Anchorage ℝ ℝ) (s : MvRw p) (i : ℕ) (hs : s.sched.logScale ≠ []) {P : (Fin p → ℝ) → (Fin p → ℝ) → ℝ≥0∞} {rho : (Fin p → ℝ) → ℝ≥0∞}
    (hP : Measurable fun q : (Fin p → ℝ) × (Fin p → ℝ) => P q.1 q.2) (hrho : Measurable rho)
    (hw : Measurable fun x => O.weight (Function.update nil i x) i)
    (hP0 : ∀ x ∈ admRows s, ∀ x' ∈ admRows s, 0 < P x x' ∧ P x x' ≤ 1)
    (hbal : ∀ x ∈ admRows s, ∀ x' ∈ admRows s, rho x * P x x' = rho x' * P x' x)
    (hc1 : ∀ x ∈ admRows s, ∀ x' ∈ admRows s, IsCoin I (fun t => rowCoin O nil h i x x' t true) (P x x'))
    (hc2 : ∀ x ∈ admRows s, ∀ x' ∈ admRows s, IsCoin I (fun t => rowCoin O nil h i x x' t false) (P x' x))
    (F : (Fin p → ℝ) → ℝ≥0∞) (hF : Measurable F) (hF' : ∀ x, F x ≠ ∞) :
    ∫⁻ x in admRows s, ENNReal.ofReal (Real.exp (O.weight (Function.update nil i x) i)) * rho x *
        (rowUpdate root C O nil z h s i x).lexp (onOk fun v => F (v.2.1 i)) =
      ∫⁻ x in admRows s, ENNReal.ofReal (Real.exp (O.weight (Function.update nil i x) i)) * rho x *
        (F x * (rowUpdate root C O nil z h s i x).lexp (onOk fun _ => 1)) := by
  rw [C85_update_reversible root hk O nil hz h s i hs hP hrho hw hP0 hbal hc1 hc2 (fun _ y => F y) (hF.comp measurable_snd)]
  refine lintegral_congr fun x => ?_
  rw [← Prog.lexp_const_mul _ _ (hF' x)]
  congr 2
  ext r
  rcases r with e | v <;> simp [onOk]

/-! ### a concrete instance: one positive parameter, target `e^(-x^2/2) · e^(-x)`, the second factor through coins -/

/-- Probability of the demonstration coin. -/
noncomputable def demoP (x x' : ℝ) : ℝ := min 1 (Real.exp (x - x'))

theorem demoP_pos (x x' : ℝ) : 0 < demoP x x' := lt_min one_pos (Real.exp_pos _)

noncomputable def demoRwOps : ParamOps 1 Unit where
  weight thi i := -(thi i 0) ^ 2 / 2
  flip nil prime q _ up :=
    (uniformCoin (if up then demoP (nil q.2.1 0) (prime q.2.1 0) else demoP (prime q.2.1 0) (nil q.2.1 0)) ()).bind fun r => .ret (r.1, ())

theorem demoRow_isCoin (x x' : Fin 1 → ℝ) (up : Bool) :
    IsCoin {z : List Unit | z.length = 2} (fun t => rowCoin demoRwOps (fun _ _ => 1) ⟨[0, 1, 2], [0, 1, 0], [0, 0, 0]⟩ 0 x x' t up)
      (ENNReal.ofReal (if up then demoP (x 0) (x' 0) else demoP (x' 0) (x 0))) := by
  have hle : ∀ q : Seg, q.2.1 = 0 → ∀ z : Unit, z ∈ (Set.univ : Set Unit) → (∀ a b e,
      ((demoRwOps.flip (Function.update (fun _ _ => 1) 0 x) (Function.update (fun _ _ => 1) 0 x') q z up).bind fun r =>
        Prog.ret (r.1, r.2, r.2)).lexp (coinVal a b e) = ENNReal.ofReal (if up then demoP (x 0) (x' 0) else demoP (x' 0) (x 0)) * a +
          (1 - ENNReal.ofReal (if up then demoP (x 0) (x' 0) else demoP (x' 0) (x 0))) * b) := by
    intro q hq z _ a b e
    rw [← (uniformCoin_isCoin (p := if up then demoP (x 0) (x' 0) else demoP (x' 0) (x 0)) (by split_ifs <;> exact (demoP_pos _ _).le)
      (by split_ifs <;> exact min_le_left _ _) () trivial).1 a b e]
    simp only [demoRwOps, hq, Function.update_self, Prog.bind_assoc]
    rw [Prog.lexp_bind]
    congr 1; ext r
    rcases r with e' | ⟨b', y⟩
    · rfl
    · cases b' <;> simp [coinVal]
  have h := C67_param_coins (O := demoRwOps) (nil := Function.update (fun _ _ => 1) 0 x) (prime := Function.update (fun _ _ => 1) 0 x')
    (h := ⟨[0, 1, 2], [0, 1, 0], [0, 0, 0]⟩) (state := 0) (up := up) (S := [(1, 0, 0, 0), (1, 1, 0, 0)]) (by norm_num [npDiff]) (by simp)
    (J := fun _ => Set.univ) (p := fun _ => ENNReal.ofReal (if up then demoP (x 0) (x' 0) else demoP (x' 0) (x 0)))
    (fun q _ _ => by rw [ENNReal.ofReal_le_one]; split_ifs <;> exact min_le_left _ _)
    (fun q _ hq s hs => ⟨hle q hq s hs, fun _ _ => trivial⟩)
  have hI : {z : List Unit | List.Forall₂ (fun (q : Seg) x => q.2.1 = 0 → x ∈ (Set.univ : Set Unit)) [(1, 0, 0, 0), (1, 1, 0, 0)] z} =
      {z : List Unit | z.length = 2} := by
    ext z
    simp only [Set.mem_setOf_eq, Set.mem_univ, implies_true]
    refine ⟨fun hz => by simpa using hz.length_eq.symm, fun hz => ?_⟩
    match z, hz with
    | [_, _], _ => exact .cons trivial (.cons trivial .nil)
  rw [hI] at h
  unfold rowCoin
  simpa using h

/-- All hypotheses of `C85_update_reversible` together, for a genuine target. -/
example (G : (Fin 1 → ℝ) → (Fin 1 → ℝ) → ℝ≥0∞) (hG : Measurable fun q : (Fin 1 → ℝ) × (Fin 1 → ℝ) => G q.1 q.2) (s : MvRw 1)
    (hs : s = MvRw.init ⟨0.234, 0.5, 0⟩ (fun _ => 1) (fun _ => some 0) fun _ => none) :
    ∫⁻ x in admRows s, ENNReal.ofReal (Real.exp (-(x 0) ^ 2 / 2)) * ENNReal.ofReal (Real.exp (-x 0)) *
        (rowUpdate id ⟨0.01, true, 100⟩ demoRwOps (fun _ _ => 1) [(), ()] ⟨[0, 1, 2], [0, 1, 0], [0, 0, 0]⟩ s 0 x).lexp (onOk fun v => G x (v.2.1 0)) =
      ∫⁻ x in admRows s, ENNReal.ofReal (Real.exp (-(x 0) ^ 2 / 2)) * ENNReal.ofReal (Real.exp (-x 0)) *
        (rowUpdate id ⟨0.01, true, 100⟩ demoRwOps (fun _ _ => 1) [(), ()] ⟨[0, 1, 2], [0, 1, 0], [0, 0, 0]⟩ s 0 x).lexp (onOk fun v => G (v.2.1 0) x) := by
  have hdm : ∀ x x' : ℝ, Real.exp (-x) * demoP x x' = min (Real.exp (-x)) (Real.exp (-x')) := by
    intro x x'
    rw [demoP, mul_min_of_nonneg _ _ (Real.exp_pos _).le, mul_one, ← Real.exp_add]
    congr 2; ring
  have h := C85_update_reversible id (C := ⟨0.01, true, 100⟩) (by norm_num) demoRwOps (fun _ _ => 1) (I := {z | z.length = 2}) (z := [(), ()]) rfl
    ⟨[0, 1, 2], [0, 1, 0], [0, 0, 0]⟩ s 0 (by rw [hs]; simp [MvRw.init, Schedule.init])
    (P := fun x x' => ENNReal.ofReal (demoP (x 0) (x' 0))) (rho := fun x => ENNReal.ofReal (Real.exp (-x 0)))
    (by unfold demoP; fun_prop) (by fun_prop) (by simp only [demoRwOps, Function.update_self]; fun_prop)
    (fun x _ x' _ => ⟨ENNReal.ofReal_pos.2 (demoP_pos _ _), by rw [ENNReal.ofReal_le_one]; exact min_le_left _ _⟩)
    (fun x _ x' _ => by
      rw [← ENNReal.ofReal_mul (Real.exp_pos _).le, ← ENNReal.ofReal_mul (Real.exp_pos _).le, hdm, hdm, min_comm])
    (fun x _ x' _ => by simpa using demoRow_isCoin x x' true) (fun x _ x' _ => by simpa using demoRow_isCoin x x' false) G hG
  simpa only [demoRwOps, Function.update_self] using h

end Ctb
