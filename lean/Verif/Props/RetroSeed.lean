import Verif.Lemmas.DualFlags
import Verif.Props.RetroCoin

set_option linter.unusedSectionVars false

/-! # C115, C116: the coins of seeds that are revealed where the coin needs them -/

namespace Ctb

open Classical MeasureTheory Set Filter Topology
open scoped ENNReal

variable {z : EaSkel} {n k : ℕ} {disc disc0 disc1 : ℝ → ℝ} {op op0 op1 : NormOp} {size : ℤ}

theorem plain_hit (h : z.Plain) : HitInv z z := by
  refine ⟨?_, rfl, rfl⟩
  rcases h with h | h
  · exact Or.inl h.hit
  · have := h.hit
    simp only [EaSkel.neg] at this
    exact Or.inr ⟨by linarith [this.2], by linarith [this.1]⟩

/-- `flip_poisson_coin` for a seed: the coin succeeds as often as no point lies below the discriminant, less its lower bound, along a path that is revealed at the times of all points at
once; and it ends with certainty as the budget of proposals grows. -/
theorem C115_seed (hk : 0 < k) (hd : Measurable disc) {ebd : ℝ → ℝ → Res DiscBounds} {c : Option ℝ} {l u : ℝ}
    (hb : ebd (min (min z.tight z.loose * op.scale + op.x1) (min z.tight z.loose * op.scale + op.x0)) (max (max z.tight z.loose * op.scale + op.x1) (max z.tight z.loose * op.scale + op.x0)) =
      .ok (c, l, ((u : ℝ) : WithTop ℝ))) (hlu : l < u) (hT : 0 < op.finT) (hsize : 0 < size) (hz : z.Plain) (hlast : z.t.getLast? = some 1) :
    Tendsto (fun n => (flipPoissonCoin n k disc ebd op size z).prob fun r => ∃ w z', r = .ok (true, w, z')) atTop
      (𝓝 ((sampleBatchPpp 1 [u - l, op.finT] size).lexp (onOk fun bs => ⨆ n, seedClearProb n k op.finT (fun p w => p.1 < disc (pathVal op p.2 w) - l) z (bs.flatten.map pointOf)))) ∧
    Tendsto (fun n => (flipPoissonCoin n k disc ebd op size z).prob fun r => ∃ q, r = .ok q) atTop (𝓝 1) := by
  have e : ∀ n, flipPoissonCoin n k disc ebd op size z = (batchCoin (poissonStep (interpolateSeed n k op) disc [0, op.finT] [l]) (u - l) op.finT size z).bind
      fun r => .ret (r.1, stLbDisc [0, op.finT] [l], r.2) := by
    intro n
    rw [flipPoissonCoin_one, hb, one_mul]
    rfl
  have e1 : ∀ n, ((flipPoissonCoin n k disc ebd op size z).prob fun r => ∃ w z', r = .ok (true, w, z')) =
      (batchCoin (poissonStep (interpolateSeed n k op) disc [0, op.finT] [l]) (u - l) op.finT size z).prob IsTrue := by
    intro n
    rw [e, Prog.prob, Prog.lexp_bind, Prog.prob]
    refine Prog.lexp_congr ?_
    rintro (e | ⟨b, s'⟩) _
    · simp [IsTrue]
    · rw [Prog.cont_ok, Prog.lexp_ret]
      exact if_congr (by simp [IsTrue]) rfl rfl
  have e2 : ∀ n, ((flipPoissonCoin n k disc ebd op size z).prob fun r => ∃ q, r = .ok q) =
      (batchCoin (poissonStep (interpolateSeed n k op) disc [0, op.finT] [l]) (u - l) op.finT size z).prob IsOk := by
    intro n
    rw [e, Prog.prob, Prog.lexp_bind, Prog.prob]
    refine Prog.lexp_congr ?_
    rintro (e | ⟨b, s'⟩) _
    · simp [IsOk]
    · rw [Prog.cont_ok, Prog.lexp_ret]
      exact if_congr (by simp [IsOk]) rfl rfl
  have hlast' : z.t.getLast? = some (op.finT⁻¹ * op.finT) := by rw [hlast, inv_mul_cancel₀ hT.ne']
  have ha : 0 < op.finT⁻¹ := by positivity
  have h1 := (batchCoin_lim (seedCoin_step (l := l) (k := k) hT hd) hk (meas_normBad (meas_seedBad hd)) ha (sub_pos.2 hlu) hT hsize hz trivial hlast').1
  have h2 := batchCoin_ok (seedCoin_step (l := l) (k := k) hT hd) (seedCoin_end hT) hk ha (sub_pos.2 hlu) hT hsize hz trivial hlast'
  simp only [e1, e2]
  refine ⟨?_, h2⟩
  simp only [clearSup_norm hT] at h1
  exact h1

theorem dualGap_max (upside : Bool) (p0 p1 : ℝ) : dualGap upside p0 p1 = max 0 (if upside then p1 - p0 else p0 - p1) := by
  unfold dualGap
  cases upside
  · simp only [Bool.false_eq_true, if_false]
    split_ifs with h
    · rw [max_eq_right (by linarith)]
    · rw [max_eq_left (by linarith)]
  · simp only [if_true]
    split_ifs with h
    · rw [max_eq_right (by linarith)]
    · rw [max_eq_left (by linarith)]

/-- `flip_dual_coin`, the coin of a parameter: for a seed without flags it succeeds as often as no point lies below the positive part of the difference of the discriminants along the two paths of
a seed that is revealed at the times of all points at once; and it ends with certainty. -/
theorem C116_coin_partial (hk : 0 < k) (h0 : Measurable disc0) (h1 : Measurable disc1) {guard upside : Bool} {h : ℝ} (hh : 0 < h) (hT : 0 < op0.finT) (hTT : op1.finT = op0.finT)
    (hb : ∀ t, 0 ≤ t → t ≤ op0.finT → ∀ w ∈ Set.uIcc z.loose z.tight, |disc1 (pathVal op1 t w) - disc0 (pathVal op0 t w)| ≤ h)
    (hsize : 0 < size) (hz : z.Plain) (hflag : z.hitI = none) (hlast : z.t.getLast? = some 1) :
    Tendsto (fun n => (flipDualCoin guard n k h op0 op1 disc0 disc1 upside size z).prob fun r => ∃ z', r = .ok (true, z')) atTop
      (𝓝 ((sampleBatchPpp 1 [h, op0.finT] size).lexp (onOk fun bs => ⨆ n, seedClearProb n k op0.finT
        (fun p w => p.1 < max 0 (if upside then disc1 (pathVal op1 p.2 w) - disc0 (pathVal op0 p.2 w) else disc0 (pathVal op0 p.2 w) - disc1 (pathVal op1 p.2 w))) z (bs.flatten.map pointOf)))) ∧
    Tendsto (fun n => (flipDualCoin guard n k h op0 op1 disc0 disc1 upside size z).prob fun r => ∃ q, r = .ok q) atTop (𝓝 1) := by
  have hlast' : z.t.getLast? = some (op0.finT⁻¹ * op0.finT) := by rw [hlast, inv_mul_cancel₀ hT.ne']
  have ha : 0 < op0.finT⁻¹ := by positivity
  have hb' : ∀ t, 0 ≤ t → t ≤ op0.finT → ∀ w ∈ Set.uIcc z.loose z.tight, dualGap upside (disc0 (pathVal op0 t w)) (disc1 (pathVal op1 t w)) ≤ h := fun t ht ht' w hw => dualGap_le (hb t ht ht' w hw)
  have hI : DualInv z z := ⟨plain_hit hz, hflag⟩
  have ef : (op0.denorm 1 none).1 = op0.finT := by simp [NormOp.denorm]
  have q1 := (batchCoin_lim (dualCoin_step (guard := guard) (k := k) hT hTT h0 h1 hb') hk (meas_normBad (meas_dualBad h0 h1 upside)) ha hh hT hsize hz hI hlast').1
  have q2 := batchCoin_ok (dualCoin_step (guard := guard) (k := k) hT hTT h0 h1 hb') (dualCoin_end hT hTT hb') hk ha hh hT hsize hz hI hlast'
  unfold flipDualCoin
  rw [ef]
  refine ⟨?_, q2⟩
  simp only [clearSup_norm hT] at q1
  unfold dualBad at q1
  simp only [dualGap_max] at q1
  exact q1

/-- The coin of the Ornstein-Uhlenbeck model, `ito/models/ou.py`, whose intensity comes from its gradient bounds. -/
theorem C116_ito_partial (hk : 0 < k) {nil prime : Fin 2 → ℝ} (hn : ∀ i, 0 < nil i) (hp : ∀ i, 0 < prime i) {T v0 v1 : ℝ} (hT : 0 < T) {upside : Bool} (hsize : 0 < size)
    (hz : z.Plain) (hflag : z.hitI = none) (hlast : z.t.getLast? = some 1) (hh : 0 < itoIntensity nil prime (itoOuGrad nil prime T v0 v1 z.loose z.tight)) :
    Tendsto (fun n => (itoFlipParam true n k itoOu itoOuGrad nil prime T v0 v1 upside size z).prob fun r => ∃ z', r = .ok (true, z')) atTop
      (𝓝 ((sampleBatchPpp 1 [itoIntensity nil prime (itoOuGrad nil prime T v0 v1 z.loose z.tight), T] size).lexp (onOk fun bs => ⨆ n, seedClearProb n k T
        (fun p w => let x := fun thi : Fin 2 → ℝ => pathVal ⟨T, √T, v0 / thi 1, v1 / thi 1⟩ p.2 w
          p.1 < max 0 (if upside then itoOu.disc prime (x prime) - itoOu.disc nil (x nil) else itoOu.disc nil (x nil) - itoOu.disc prime (x prime))) z (bs.flatten.map pointOf)))) ∧
    Tendsto (fun n => (itoFlipParam true n k itoOu itoOuGrad nil prime T v0 v1 upside size z).prob fun r => ∃ q, r = .ok q) atTop (𝓝 1) := by
  have e : ∀ thi, itoNormops itoOu thi [0, T] [v0, v1] = [⟨T, √T, v0 / thi 1, v1 / thi 1⟩] := by
    intro thi; simp [itoNormops, npDiff, itoOu]
  have md : ∀ thi, Measurable (itoOu.disc thi) := fun thi => by
    unfold ItoFns.disc
    simp only [itoOu]
    fun_prop
  have := C116_coin_partial (z := z) (guard := true) (upside := upside) (op0 := ⟨T, √T, v0 / nil 1, v1 / nil 1⟩) (op1 := ⟨T, √T, v0 / prime 1, v1 / prime 1⟩) hk (md nil) (md prime) hh hT rfl ?_ hsize hz hflag hlast
  · unfold itoFlipParam
    rw [e nil, e prime]
    exact this
  · intro t h0 h1 w hw
    have := C55_ito_bound hn hp hT.le (s := t / T) (by positivity) ((div_le_one hT).2 h1) hw (e nil) (e prime) (denorm_pathVal rfl hT _ w) (denorm_pathVal rfl hT _ w)
    rwa [div_mul_cancel₀ _ hT.ne'] at this

/-- The coin of the switching Ornstein-Uhlenbeck model, `switching/models/ou.py`. -/
theorem C116_switch_partial (hk : 0 < k) {nil prime : Thi 2} {y : ℕ} (hn : ∀ i, 0 < nil y i) (hp : ∀ i, 0 < prime y i) {T v0 v1 : ℝ} (hT : 0 < T) {upside : Bool} (hsize : 0 < size)
    (hz : z.Plain) (hflag : z.hitI = none) (hlast : z.t.getLast? = some 1) (hh : 0 < swIntensity (nil y) (prime y) (swOuGrad (nil y) (prime y) T v0 v1 z.loose z.tight)) :
    Tendsto (fun n => (swFlipParam true n k swOu swOuGrad nil prime T y v0 v1 upside size z).prob fun r => ∃ z', r = .ok (true, z')) atTop
      (𝓝 ((sampleBatchPpp 1 [swIntensity (nil y) (prime y) (swOuGrad (nil y) (prime y) T v0 v1 z.loose z.tight), T] size).lexp (onOk fun bs => ⨆ n, seedClearProb n k T
        (fun p w => let x := fun thi : Thi 2 => pathVal ⟨T, √T * swOu.vol thi y, v0, v1⟩ p.2 w
          p.1 < max 0 (if upside then swOu.disc prime y (x prime) - swOu.disc nil y (x nil) else swOu.disc nil y (x nil) - swOu.disc prime y (x prime))) z (bs.flatten.map pointOf)))) ∧
    Tendsto (fun n => (swFlipParam true n k swOu swOuGrad nil prime T y v0 v1 upside size z).prob fun r => ∃ q, r = .ok q) atTop (𝓝 1) := by
  have e : ∀ thi : Thi 2, swNormops swOu thi [0, T] [y, y] [v0, v1] = [⟨T, √T * swOu.vol thi y, v0, v1⟩] := by
    intro thi; simp [swNormops, npDiff, swOu]
  have md : ∀ thi, Measurable (swOu.disc thi y) := fun thi => by
    unfold RegimeFns.disc
    simp only [swOu]
    fun_prop
  have := C116_coin_partial (z := z) (guard := true) (upside := upside) (op0 := ⟨T, √T * swOu.vol nil y, v0, v1⟩) (op1 := ⟨T, √T * swOu.vol prime y, v0, v1⟩) hk (md nil) (md prime) hh hT rfl ?_ hsize hz hflag hlast
  · unfold swFlipParam
    rw [e nil, e prime]
    exact this
  · intro t h0 h1 w hw
    have := C55_ou_bound hn hp hT.le (s := t / T) (by positivity) ((div_le_one hT).2 h1) hw (e nil) (e prime) (denorm_pathVal rfl hT _ w) (denorm_pathVal rfl hT _ w)
    rwa [div_mul_cancel₀ _ hT.ne'] at this

/-- The coin of the switching Ornstein-Uhlenbeck model, `switching/models/ou2.py`. -/
theorem C116_switch2_partial (hk : 0 < k) {nil prime : Thi 2} {y : ℕ} (hn : ∀ i, 0 < nil y i) (hp : ∀ i, 0 < prime y i) {T v0 v1 : ℝ} (hT : 0 < T) {upside : Bool} (hsize : 0 < size)
    (hz : z.Plain) (hflag : z.hitI = none) (hlast : z.t.getLast? = some 1) (hh : 0 < swIntensity (nil y) (prime y) (swOu2Grad (nil y) (prime y) T v0 v1 z.loose z.tight)) :
    Tendsto (fun n => (swFlipParam true n k swOu2 swOu2Grad nil prime T y v0 v1 upside size z).prob fun r => ∃ z', r = .ok (true, z')) atTop
      (𝓝 ((sampleBatchPpp 1 [swIntensity (nil y) (prime y) (swOu2Grad (nil y) (prime y) T v0 v1 z.loose z.tight), T] size).lexp (onOk fun bs => ⨆ n, seedClearProb n k T
        (fun p w => let x := fun thi : Thi 2 => pathVal ⟨T, √T * swOu2.vol thi y, v0, v1⟩ p.2 w
          p.1 < max 0 (if upside then swOu2.disc prime y (x prime) - swOu2.disc nil y (x nil) else swOu2.disc nil y (x nil) - swOu2.disc prime y (x prime))) z (bs.flatten.map pointOf)))) ∧
    Tendsto (fun n => (swFlipParam true n k swOu2 swOu2Grad nil prime T y v0 v1 upside size z).prob fun r => ∃ q, r = .ok q) atTop (𝓝 1) := by
  have e : ∀ thi : Thi 2, swNormops swOu2 thi [0, T] [y, y] [v0, v1] = [⟨T, √T * swOu2.vol thi y, v0, v1⟩] := by
    intro thi; simp [swNormops, npDiff, swOu2]
  have md : ∀ thi, Measurable (swOu2.disc thi y) := fun thi => by
    unfold RegimeFns.disc
    simp only [swOu2]
    fun_prop
  have := C116_coin_partial (z := z) (guard := true) (upside := upside) (op0 := ⟨T, √T * swOu2.vol nil y, v0, v1⟩) (op1 := ⟨T, √T * swOu2.vol prime y, v0, v1⟩) hk (md nil) (md prime) hh hT rfl ?_ hsize hz hflag hlast
  · unfold swFlipParam
    rw [e nil, e prime]
    exact this
  · intro t h0 h1 w hw
    have := C55_ou2_bound hn hp hT.le (s := t / T) (by positivity) ((div_le_one hT).2 h1) hw (e nil) (e prime) (denorm_pathVal rfl hT _ w) (denorm_pathVal rfl hT _ w)
    rwa [div_mul_cancel₀ _ hT.ne'] at this

/-- The coin of the switching Ornstein-Uhlenbeck model, `switching/models/ou3.py`. -/
theorem C116_switch3_partial (hk : 0 < k) {nil prime : Thi 2} {y : ℕ} (hn : ∀ i, 0 < nil y i) (hp : ∀ i, 0 < prime y i) {T v0 v1 : ℝ} (hT : 0 < T) {upside : Bool} (hsize : 0 < size)
    (hz : z.Plain) (hflag : z.hitI = none) (hlast : z.t.getLast? = some 1) (hh : 0 < swIntensity (nil y) (prime y) (swOu3Grad (nil y) (prime y) T v0 v1 z.loose z.tight)) :
    Tendsto (fun n => (swFlipParam true n k swOu3 swOu3Grad nil prime T y v0 v1 upside size z).prob fun r => ∃ z', r = .ok (true, z')) atTop
      (𝓝 ((sampleBatchPpp 1 [swIntensity (nil y) (prime y) (swOu3Grad (nil y) (prime y) T v0 v1 z.loose z.tight), T] size).lexp (onOk fun bs => ⨆ n, seedClearProb n k T
        (fun p w => let x := fun thi : Thi 2 => pathVal ⟨T, √T * swOu3.vol thi y, v0, v1⟩ p.2 w
          p.1 < max 0 (if upside then swOu3.disc prime y (x prime) - swOu3.disc nil y (x nil) else swOu3.disc nil y (x nil) - swOu3.disc prime y (x prime))) z (bs.flatten.map pointOf)))) ∧
    Tendsto (fun n => (swFlipParam true n k swOu3 swOu3Grad nil prime T y v0 v1 upside size z).prob fun r => ∃ q, r = .ok q) atTop (𝓝 1) := by
  have e : ∀ thi : Thi 2, swNormops swOu3 thi [0, T] [y, y] [v0, v1] = [⟨T, √T * swOu3.vol thi y, v0, v1⟩] := by
    intro thi; simp [swNormops, npDiff, swOu3]
  have md : ∀ thi, Measurable (swOu3.disc thi y) := fun thi => by
    unfold RegimeFns.disc
    simp only [swOu3]
    fun_prop
  have := C116_coin_partial (z := z) (guard := true) (upside := upside) (op0 := ⟨T, √T * swOu3.vol nil y, v0, v1⟩) (op1 := ⟨T, √T * swOu3.vol prime y, v0, v1⟩) hk (md nil) (md prime) hh hT rfl ?_ hsize hz hflag hlast
  · unfold swFlipParam
    rw [e nil, e prime]
    exact this
  · intro t h0 h1 w hw
    have := C55_ou3_bound hn hp hT.le (s := t / T) (by positivity) ((div_le_one hT).2 h1) hw (e nil) (e prime) (denorm_pathVal rfl hT _ w) (denorm_pathVal rfl hT _ w)
    rwa [div_mul_cancel₀ _ hT.ne'] at this

/-- With flags the claim fails.  The second interpolation of the coin asks for times that are known already and loses the flags, so that later batches reveal the path below the outer edge of the seed
instead of below the edge that it does not reach.  For the witness no point is ever bad if all are revealed at once, yet the probability of success stays away from 1. -/
theorem C116_violated : ∃ (z : EaSkel) (op : NormOp) (disc0 disc1 : ℝ → ℝ), Measurable disc0 ∧ Measurable disc1 ∧ 0 < op.finT ∧
    (∀ t, 0 ≤ t → t ≤ op.finT → ∀ w ∈ Set.uIcc z.loose z.tight, |disc1 (pathVal op t w) - disc0 (pathVal op t w)| ≤ 1) ∧ z.Plain ∧ z.t.getLast? = some 1 ∧ ∀ k, 0 < k →
    (sampleBatchPpp 1 [1, op.finT] 1).lexp (onOk fun bs => ⨆ n, seedClearProb n k op.finT
      (fun p w => p.1 < max 0 (if true then disc1 (pathVal op p.2 w) - disc0 (pathVal op p.2 w) else disc0 (pathVal op p.2 w) - disc1 (pathVal op p.2 w))) z (bs.flatten.map pointOf)) = 1 ∧
    ∃ q < 1, ∀ n, ((flipDualCoin true n k 1 op op disc0 disc1 true 1 z).prob fun r => ∃ z', r = .ok (true, z')) ≤ q := by
  refine ⟨demoFree, oneOp, fun _ => 0, disc2, measurable_const, meas_disc2, one_pos, ?_, Or.inl demoFree_free, rfl, fun k hk => ⟨?_, coinBound k, coinBound_lt hk, fun n => ?_⟩⟩
  · intro t _ _ w _
    have := disc2_mem (pathVal oneOp t w)
    rw [sub_zero, abs_of_nonneg this.1]
    exact this.2
  · have h := demo_shot hk
    unfold flagBad at h
    have := fun bs : List (List (List ℝ)) => clearSup_norm (k := k) (s := demoFree) (bad := dualBad oneOp oneOp (fun _ => 0) disc2 true) one_pos bs.flatten
    simp only [inv_one] at this
    simp only [this] at h
    unfold dualBad at h
    simp only [dualGap_max] at h
    exact h
  · have e : ∀ step : EaSkel → List (ℝ × ℝ) → Prog (Bool × EaSkel), (batchCoin step 1 1 1 demoFree).prob IsTrue = ∫⁻ m, (coinLoop step m 1 1 demoFree 0 (batchSizes m 1)).prob IsTrue ∂(NDist.poisson 1).law := by
      intro step
      unfold batchCoin Prog.prob
      simp only [Prog.assert, zero_lt_one, if_true, Prog.ret_bind]
      rw [if_pos (by simp), Prog.ret_bind, Prog.lexp_nat]
      norm_num
    have e1 : (oneOp.denorm 1 none).1 = 1 := by simp [NormOp.denorm, oneOp]
    unfold flipDualCoin
    rw [e1]
    refine (e _).le.trans (lintegral_mono fun m => ?_)
    dsimp only
    split_ifs with hm
    · subst hm
      exact two_bound hk n
    · refine (Prog.lexp_mono _ (h := fun _ => 1) fun r => by split_ifs <;> simp).trans ?_
      refine (Mass1.lexp_const (mass_coinLoop (fun s ps => ?_) _ _ _ (batchSizes_le one_pos) _ _) 1).le
      exact (mass_interpolateSeed ..).bind fun _ _ => (mass_interpolateSeed ..).bind fun _ _ => .ite (fun _ => .err _) fun _ => Mass1.bind Mass1.assert fun _ _ => .ret _

/-! ## Examples -/

theorem demoLoose_last : demoLoose.t.getLast? = some 1 := rfl

example : ∃ L, Tendsto (fun n => (flipPoissonCoin n 1 (fun x => x ^ 2) (fun _ _ => .ok (some 0, 0, ((100 : ℝ) : WithTop ℝ))) ⟨2, √2, 1, 2⟩ 3 demoFree).prob fun r => ∃ w z', r = .ok (true, w, z')) atTop (𝓝 L) ∧
    Tendsto (fun n => (flipPoissonCoin n 1 (fun x => x ^ 2) (fun _ _ => .ok (some 0, 0, ((100 : ℝ) : WithTop ℝ))) ⟨2, √2, 1, 2⟩ 3 demoFree).prob fun r => ∃ q, r = .ok q) atTop (𝓝 1) :=
  ⟨_, C115_seed one_pos (by fun_prop) (l := 0) (u := 100) rfl (by norm_num) (by norm_num) (by norm_num) (Or.inl demoFree_free) rfl⟩

example : ∃ L, Tendsto (fun n => (flipDualCoin true n 1 9 ⟨1, 1, 0, 0⟩ ⟨1, 1, 0, 0⟩ (fun x => x ^ 2) (fun x => 2 * x ^ 2) true 2 demoLoose).prob fun r => ∃ z', r = .ok (true, z')) atTop (𝓝 L) ∧
    Tendsto (fun n => (flipDualCoin true n 1 9 ⟨1, 1, 0, 0⟩ ⟨1, 1, 0, 0⟩ (fun x => x ^ 2) (fun x => 2 * x ^ 2) true 2 demoLoose).prob fun r => ∃ q, r = .ok q) atTop (𝓝 1) := by
  refine ⟨_, C116_coin_partial one_pos (by fun_prop) (by fun_prop) (by norm_num) (by norm_num) rfl ?_ (by norm_num) (Or.inl demoLoose_free) rfl rfl⟩
  intro t _ _ w hw
  rw [Set.mem_uIcc] at hw
  simp only [demoLoose] at hw
  simp only [pathVal]
  rw [abs_le]
  constructor <;> rcases hw with hw | hw <;> nlinarith [hw.1, hw.2]

example : ∃ L, Tendsto (fun n => (itoFlipParam true n 1 itoOu itoOuGrad ![1, 1] ![2, 1] 3 1 2 true 2 demoLoose).prob fun r => ∃ z', r = .ok (true, z')) atTop (𝓝 L) := by
  refine ⟨_, (C116_ito_partial one_pos (by simp [Fin.forall_fin_two]) (by simp [Fin.forall_fin_two]) (by norm_num) (by norm_num) (Or.inl demoLoose_free) rfl rfl ?_).1⟩
  simp only [itoIntensity, Fin.sum_univ_two, itoOuGrad, demoLoose]
  norm_num
  positivity

example : ∃ L, Tendsto (fun n => (swFlipParam true n 1 swOu swOuGrad (fun _ => ![1, 1]) (fun _ => ![2, 1]) 3 0 1 2 true 2 demoLoose).prob fun r => ∃ z', r = .ok (true, z')) atTop (𝓝 L) := by
  refine ⟨_, (C116_switch_partial one_pos (by simp [Fin.forall_fin_two]) (by simp [Fin.forall_fin_two]) (by norm_num) (by norm_num) (Or.inl demoLoose_free) rfl rfl ?_).1⟩
  simp only [swIntensity, Fin.sum_univ_two, swOuGrad, demoLoose]
  norm_num
  positivity

example : ∃ L, Tendsto (fun n => (swFlipParam true n 1 swOu2 swOu2Grad (fun _ => ![1, 1]) (fun _ => ![2, 1]) 3 0 1 2 true 2 demoLoose).prob fun r => ∃ z', r = .ok (true, z')) atTop (𝓝 L) := by
  refine ⟨_, (C116_switch2_partial one_pos (by simp [Fin.forall_fin_two]) (by simp [Fin.forall_fin_two]) (by norm_num) (by norm_num) (Or.inl demoLoose_free) rfl rfl ?_).1⟩
  simp only [swIntensity, Fin.sum_univ_two, swOu2Grad, demoLoose]
  norm_num
  positivity

example : ∃ L, Tendsto (fun n => (swFlipParam true n 1 swOu3 swOu3Grad (fun _ => ![1, 1]) (fun _ => ![2, 1]) 3 0 1 2 true 2 demoLoose).prob fun r => ∃ z', r = .ok (true, z')) atTop (𝓝 L) := by
  refine ⟨_, (C116_switch3_partial one_pos (by simp [Fin.forall_fin_two]) (by simp [Fin.forall_fin_two]) (by norm_num) (by norm_num) (Or.inl demoLoose_free) rfl rfl ?_).1⟩
  simp only [swIntensity, Fin.sum_univ_two, swOu3Grad, demoLoose]
  norm_num
  positivity

end Ctb
