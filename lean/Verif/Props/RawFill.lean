import Verif.Lemmas.RawFillLim
import Verif.Props.RawSkel
import Verif.Props.RawLaw
import Verif.Props.Interp

set_option linter.unusedSectionVars false

/-! # C112: raw skeletons filled in at given times -/

namespace Ctb

open MeasureTheory Set Classical Filter Topology
open scoped ENNReal

variable {a b : ℝ} {n k k' F : ℕ} {vs : List ℝ}

/-- The values at the times that were asked for. -/
theorem C112_length (hp : ∀ v ∈ vs, 0 < v) {r : EaSkel × List ℝ} (h : (rawFill n F k' vs.sum a b (npCumsum vs).dropLast).Out (.ok r)) :
    r.2.length = vs.length - 1 := by
  unfold rawFill at h
  simp only [Prog.out_bind_ok] at h
  obtain ⟨s, hs, q, hq, hr⟩ := h
  rw [Prog.out_ret] at hr
  cases hr
  have hR := (C45_refines (C49_wellformed hs).1 (grid_inc hp) hq).1
  have := hR.new.length_eq
  rw [grid_length] at this
  exact this.symm

theorem rawFill_ofLen (hp : ∀ v ∈ vs, 0 < v) (P : EaSkel → Prop) [DecidablePred P] (f : Bool → List ℝ → ℝ≥0∞) :
    (rawFill n F k' vs.sum a b (npCumsum vs).dropLast).lexp (onOk fun r => if P r.1 then f (decide (onMinSide r.1)) r.2 else 0) =
      (rawFill n F k' vs.sum a b (npCumsum vs).dropLast).lexp (onOk fun r => if P r.1 then ofLen (vs.length - 1) (f (decide (onMinSide r.1))) r.2 else 0) := by
  refine Prog.lexp_congr ?_
  rintro (e | r) hr
  · rfl
  · simp only [onOk, ofLen]
    rw [if_pos (C112_length hp hr)]

theorem rawFill_limit (hk' : 0 < k') (h2 : 2 ≤ vs.length) (hp : ∀ v ∈ vs, 0 < v) {f : Bool → List ℝ → ℝ≥0∞} (hf : ∀ c, MeasL (vs.length - 1) fun _ : Unit => f c) (hk : k < F) :
    Tendsto (fun n => ENNReal.ofReal (normDensR vs.sum (b - a)) * (rawFill n F k' vs.sum a b (npCumsum vs).dropLast).lexp (onOk fun r =>
        if r.1.hitI = unsetFlags k ∧ inLayer vs.sum a b k r.1 then f (decide (onMinSide r.1)) r.2 else 0)) atTop
      (𝓝 (sectorInt vs.sum (layerLow vs.sum a b (k + 1)) (layerLow vs.sum a b k) fun s m =>
        (if k = 0 then 1 else 2) * fullSplit a b k vs (fun c => ofLen (vs.length - 1) (f c)) s m)) ∧
    ∀ n, 0 < n → ENNReal.ofReal (normDensR vs.sum (b - a)) * (rawFill n F k' vs.sum a b (npCumsum vs).dropLast).lexp (onOk fun r =>
        if r.1.hitI = unsetFlags k ∧ inLayer vs.sum a b k r.1 then f (decide (onMinSide r.1)) r.2 else 0) ≤
      sectorInt vs.sum (layerLow vs.sum a b (k + 1)) (layerLow vs.sum a b k) fun s m =>
        (if k = 0 then 1 else 2) * fullSplit a b k vs (fun c => ofLen (vs.length - 1) (f c)) s m := by
  have hT : 0 < vs.sum := List.sum_pos _ hp (fun h => by simp [h] at h2)
  have hf1 := measAll_ofLen (hf true)
  have hf2 := measAll_flip (a + b) (measAll_ofLen (hf false))
  have hlaw : ∀ n, 0 < n → _ := fun n (hn : 0 < n) => rawFill_law (a := a) (b := b) (f := fun c => ofLen (vs.length - 1) (f c)) hn hk' h2 hp hf1 hf2 hk
  have hb := both_tendsto (k := k) hT hp (f := fun c => ofLen (vs.length - 1) (f c)) hf1 hf2 (if k = 0 then 1 else 2)
  have hl := ENNReal.Tendsto.mul (rawOk_tendsto (a := a) (b := b) hT k) (Or.inl one_ne_zero) hb (Or.inr ENNReal.one_ne_top)
  rw [one_mul] at hl
  have hmono : Monotone fun n => rawOk vs.sum a b n k * sectorInt vs.sum (layerLow vs.sum a b (k + 1)) (layerLow vs.sum a b k) fun s m =>
      (if k = 0 then 1 else 2) * bothSplit n a b k vs (fun c => ofLen (vs.length - 1) (f c)) s m := fun i j h =>
    mul_le_mul' (rawOk_mono k h) (lintegral_mono fun m => lintegral_mono fun s => mul_le_mul' le_rfl
      (add_le_add (mul_le_mul' (fillRate_mono _ _ _ _ _ _ _ h) le_rfl) (mul_le_mul' (fillRate_mono _ _ _ _ _ _ _ h) le_rfl)))
  constructor
  · refine hl.congr' ?_
    filter_upwards [eventually_gt_atTop 0] with n hn
    rw [← hlaw n hn, rawFill_ofLen hp (fun s => s.hitI = unsetFlags k ∧ inLayer vs.sum a b k s) f]
  · intro n hn
    rw [rawFill_ofLen hp (fun s => s.hitI = unsetFlags k ∧ inLayer vs.sum a b k s) f, hlaw n hn]
    exact hmono.ge_of_tendsto hl n

/-- With growing budgets, the values of a skeleton of the first layer have the law of a Brownian bridge that stays in the first layer,
whatever the side of the extreme value (`f true` and `f false` are the test functions of skeletons with a minimum and with a maximum). -/
theorem C112_first_side (hk' : 0 < k') (h2 : 2 ≤ vs.length) (hp : ∀ v ∈ vs, 0 < v) {f : Bool → List ℝ → ℝ≥0∞} (hf : ∀ c, MeasL (vs.length - 1) fun _ : Unit => f c) (hF : 0 < F) :
    Tendsto (fun n => 2 * (ENNReal.ofReal (normDensR vs.sum (b - a)) * (rawFill n F k' vs.sum a b (npCumsum vs).dropLast).lexp (onOk fun r =>
        if r.1.hitI = none ∧ inLayer vs.sum a b 0 r.1 then f (decide (onMinSide r.1)) r.2 else 0))) atTop
      (𝓝 (kerInt (stripDens (layerHigh vs.sum a b 1) (layerLow vs.sum a b 1)) b vs a (f true) +
        kerInt (stripDens (layerHigh vs.sum a b 1) (layerLow vs.sum a b 1)) b vs a (f false))) := by
  have hT : 0 < vs.sum := List.sum_pos _ hp (fun h => by simp [h] at h2)
  have h := ENNReal.Tendsto.const_mul (a := 2) (rawFill_limit (a := a) (b := b) (k := 0) hk' h2 hp hf hF).1 (Or.inr (by simp))
  simp only [if_true, one_mul] at h
  rw [full_zero hT hp fun c => measAll_ofLen (hf c), kerInt_ofLen, kerInt_ofLen] at h
  exact h

theorem two_cancel {u : ℕ → ℝ≥0∞} {l : ℝ≥0∞} (h : Tendsto (fun n => 2 * u n) atTop (𝓝 (l + l))) : Tendsto u atTop (𝓝 l) := by
  have := ENNReal.Tendsto.const_mul (a := 2⁻¹) h (Or.inr (by simp))
  simp only [← mul_assoc, ← two_mul] at this
  simpa [ENNReal.inv_mul_cancel two_ne_zero ENNReal.ofNat_ne_top] using this

/-- In the first layer the values have the law of a Brownian bridge that stays in it. -/
theorem C112_first (hk' : 0 < k') (h2 : 2 ≤ vs.length) (hp : ∀ v ∈ vs, 0 < v) {f : List ℝ → ℝ≥0∞} (hf : MeasL (vs.length - 1) fun _ : Unit => f) (hF : 0 < F) :
    Tendsto (fun n => ENNReal.ofReal (normDensR vs.sum (b - a)) * (rawFill n F k' vs.sum a b (npCumsum vs).dropLast).lexp (onOk fun r =>
        if r.1.hitI = none ∧ inLayer vs.sum a b 0 r.1 then f r.2 else 0)) atTop
      (𝓝 (kerInt (stripDens (layerHigh vs.sum a b 1) (layerLow vs.sum a b 1)) b vs a f)) :=
  two_cancel (C112_first_side (f := fun _ => f) hk' h2 hp (fun _ => hf) hF)

/-- With finite budgets no outcome has more than its share. -/
theorem C112_first_le (hn : 0 < n) (hk' : 0 < k') (h2 : 2 ≤ vs.length) (hp : ∀ v ∈ vs, 0 < v) {f : List ℝ → ℝ≥0∞} (hf : MeasL (vs.length - 1) fun _ : Unit => f) (hF : 0 < F) :
    ENNReal.ofReal (normDensR vs.sum (b - a)) * (rawFill n F k' vs.sum a b (npCumsum vs).dropLast).lexp (onOk fun r =>
        if r.1.hitI = none ∧ inLayer vs.sum a b 0 r.1 then f r.2 else 0) ≤
      kerInt (stripDens (layerHigh vs.sum a b 1) (layerLow vs.sum a b 1)) b vs a f := by
  have h := rawFill_limit (a := a) (b := b) (k := 0) (f := fun _ => f) hk' h2 hp (fun _ => hf) hF
  exact (h.2 n hn).trans (tendsto_nhds_unique h.1 (C112_first (a := a) (b := b) hk' h2 hp hf hF)).le

theorem rawFill_unset (hk' : 0 < k') (h2 : 2 ≤ vs.length) (hp : ∀ v ∈ vs, 0 < v) {f : Bool → List ℝ → ℝ≥0∞} (hf : ∀ c, MeasL (vs.length - 1) fun _ : Unit => f c)
    (hk : 1 ≤ k) (hF : k < F) : ∃ L, Tendsto (fun n => ENNReal.ofReal (normDensR vs.sum (b - a)) * (rawFill n F k' vs.sum a b (npCumsum vs).dropLast).lexp (onOk fun r =>
        if r.1.hitI = some [false, false] ∧ inLayer vs.sum a b k r.1 then f (decide (onMinSide r.1)) r.2 else 0)) atTop (𝓝 L) ∧
      L + (kerInt (stripDens (layerHigh vs.sum a b k) (layerLow vs.sum a b k)) b vs a (f true) + kerInt (stripDens (layerHigh vs.sum a b k) (layerLow vs.sum a b k)) b vs a (f false)) =
      kerInt (stripDens (layerHigh vs.sum a b k) (layerLow vs.sum a b (k + 1))) b vs a (f true) +
        kerInt (stripDens (layerHigh vs.sum a b (k + 1)) (layerLow vs.sum a b k)) b vs a (f false) := by
  have hT : 0 < vs.sum := List.sum_pos _ hp (fun h => by simp [h] at h2)
  have hk0 : k ≠ 0 := by omega
  have h := (rawFill_limit (a := a) (b := b) (k := k) hk' h2 hp hf hF).1
  simp only [unsetFlags, if_neg hk0] at h
  refine ⟨_, h, ?_⟩
  have e := full_succ (a := a) (b := b) hT hp hk fun c => measAll_ofLen (hf c)
  simp only [kerInt_ofLen] at e
  exact e

/-- A skeleton of layer `k + 1` with a minimum and no set flag: bridges that leave layer `k` below and not above. -/
theorem C112_low (hk' : 0 < k') (h2 : 2 ≤ vs.length) (hp : ∀ v ∈ vs, 0 < v) {f : List ℝ → ℝ≥0∞} (hf : MeasL (vs.length - 1) fun _ : Unit => f) (hk : 1 ≤ k) (hF : k < F) :
    ∃ L, Tendsto (fun n => ENNReal.ofReal (normDensR vs.sum (b - a)) * (rawFill n F k' vs.sum a b (npCumsum vs).dropLast).lexp (onOk fun r =>
        if r.1.hitI = some [false, false] ∧ inLayer vs.sum a b k r.1 ∧ onMinSide r.1 then f r.2 else 0)) atTop (𝓝 L) ∧
      L + kerInt (stripDens (layerHigh vs.sum a b k) (layerLow vs.sum a b k)) b vs a f = kerInt (stripDens (layerHigh vs.sum a b k) (layerLow vs.sum a b (k + 1))) b vs a f := by
  obtain ⟨L, h, e⟩ := rawFill_unset (a := a) (b := b) (f := fun c l => if c then f l else 0) (k := k) hk' h2 hp (by rintro (_ | _) <;> simp <;> first | exact hf | exact measurable_const) hk hF
  simp only [if_true, Bool.false_eq_true, if_false, kerInt_zero, add_zero] at e
  refine ⟨L, h.congr fun n => ?_, e⟩
  congr 2
  funext r
  congr 1
  funext r
  by_cases h1 : onMinSide r.1 <;> by_cases h3 : r.1.hitI = some [false, false] ∧ inLayer vs.sum a b k r.1 <;> simp [h1, h3, ← and_assoc]

/-- A skeleton of layer `k + 1` with a maximum and no set flag: bridges that leave layer `k` above and not below. -/
theorem C112_high (hk' : 0 < k') (h2 : 2 ≤ vs.length) (hp : ∀ v ∈ vs, 0 < v) {f : List ℝ → ℝ≥0∞} (hf : MeasL (vs.length - 1) fun _ : Unit => f) (hk : 1 ≤ k) (hF : k < F) :
    ∃ L, Tendsto (fun n => ENNReal.ofReal (normDensR vs.sum (b - a)) * (rawFill n F k' vs.sum a b (npCumsum vs).dropLast).lexp (onOk fun r =>
        if r.1.hitI = some [false, false] ∧ inLayer vs.sum a b k r.1 ∧ ¬ onMinSide r.1 then f r.2 else 0)) atTop (𝓝 L) ∧
      L + kerInt (stripDens (layerHigh vs.sum a b k) (layerLow vs.sum a b k)) b vs a f = kerInt (stripDens (layerHigh vs.sum a b (k + 1)) (layerLow vs.sum a b k)) b vs a f := by
  obtain ⟨L, h, e⟩ := rawFill_unset (a := a) (b := b) (f := fun c l => if c then 0 else f l) (k := k) hk' h2 hp (by rintro (_ | _) <;> simp <;> first | exact hf | exact measurable_const) hk hF
  simp only [if_true, Bool.false_eq_true, if_false, kerInt_zero, zero_add] at e
  refine ⟨L, h.congr fun n => ?_, e⟩
  congr 2
  funext r
  congr 1
  funext r
  by_cases h1 : onMinSide r.1 <;> by_cases h3 : r.1.hitI = some [false, false] ∧ inLayer vs.sum a b k r.1 <;> simp [h1, h3, ← and_assoc]

/-- Interpolation of a skeleton with a maximum is interpolation of its mirror image at the mirrored times, mirrored back. -/
theorem C112_mirror {s : EaSkel} {newT : List ℝ} {f x0 x1 : ℝ} (hv : s.Valid) (hlt : s.loose < s.tight) (hN : newT.Pairwise (· < ·)) (h0 : newT ≠ [])
    (hf : s.t.getLast? = some f) (hx0 : s.x.head? = some x0) (hx1 : s.x.getLast? = some x1) (hin : ∀ r ∈ newT, 0 ≤ r ∧ r ≤ f) (G : EaSkel × List ℝ → ℝ≥0∞) :
    (interpolateSkel n k s newT).lexp (onOk G) = (interpolateSkel n k (flipWith f ((x0 + x1) / 2) s) (flipList f newT)).lexp
      (onOk fun r => G (flipWith f ((x0 + x1) / 2) r.1, flipList (2 * ((x0 + x1) / 2)) r.2)) :=
  interp_flip hv hlt hN h0 hf hx0 hx1 hin G

theorem meas_square : MeasL 2 fun (_ : Unit) (l : List ℝ) => ENNReal.ofReal (l.getD 0 0 ^ 2 + l.getD 1 0) := by
  unfold MeasL
  simp [List.ofFn_succ]
  fun_prop

/-- A bridge from 0 to 1 over `[0, 4]`, filled in at the times 1 and 3. -/
example : (npCumsum [1, 2, 1]).dropLast = [1, 3] ∧
    Tendsto (fun n => ENNReal.ofReal (normDensR [1, 2, 1].sum (1 - 0)) * (rawFill n 1 1 [1, 2, 1].sum 0 1 (npCumsum [1, 2, 1]).dropLast).lexp (onOk fun r =>
        if r.1.hitI = none ∧ inLayer [1, 2, 1].sum 0 1 0 r.1 then ENNReal.ofReal (r.2.getD 0 0 ^ 2 + r.2.getD 1 0) else 0)) atTop
      (𝓝 (kerInt (stripDens (layerHigh [1, 2, 1].sum 0 1 1) (layerLow [1, 2, 1].sum 0 1 1)) 1 [1, 2, 1] 0 fun l => ENNReal.ofReal (l.getD 0 0 ^ 2 + l.getD 1 0))) :=
  ⟨by simp [npCumsum, cumsumFrom], C112_first one_pos (by simp) (by intro v hv; simp at hv; rcases hv with rfl | rfl | rfl <;> norm_num) meas_square one_pos⟩

/-- The same in the third layer, below. -/
example : ∃ L, Tendsto (fun n => ENNReal.ofReal (normDensR [1, 2, 1].sum (1 - 0)) * (rawFill n 3 1 [1, 2, 1].sum 0 1 (npCumsum [1, 2, 1]).dropLast).lexp (onOk fun r =>
        if r.1.hitI = some [false, false] ∧ inLayer [1, 2, 1].sum 0 1 2 r.1 ∧ onMinSide r.1 then ENNReal.ofReal (r.2.getD 0 0 ^ 2 + r.2.getD 1 0) else 0)) atTop (𝓝 L) ∧
      L + kerInt (stripDens (layerHigh [1, 2, 1].sum 0 1 2) (layerLow [1, 2, 1].sum 0 1 2)) 1 [1, 2, 1] 0 (fun l => ENNReal.ofReal (l.getD 0 0 ^ 2 + l.getD 1 0)) =
        kerInt (stripDens (layerHigh [1, 2, 1].sum 0 1 2) (layerLow [1, 2, 1].sum 0 1 (2 + 1))) 1 [1, 2, 1] 0 fun l => ENNReal.ofReal (l.getD 0 0 ^ 2 + l.getD 1 0) :=
  C112_low (k := 2) (vs := [1, 2, 1]) (a := 0) (b := 1) (f := fun l => ENNReal.ofReal (l.getD 0 0 ^ 2 + l.getD 1 0)) one_pos (by simp) (by intro v hv; simp at hv; rcases hv with rfl | rfl | rfl <;> norm_num) meas_square (by norm_num) (by norm_num)

/-- A skeleton with a maximum. -/
example : (⟨[0, 1, 3], [0, 2, 1], 2, -1, -1 / 2, none⟩ : EaSkel).Valid := by
  refine ⟨by simp, rfl, rfl, by simp⟩

end Ctb
