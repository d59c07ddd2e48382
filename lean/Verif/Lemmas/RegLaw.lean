import Verif.Lemmas.MeasFun
import Verif.Lemmas.MassOne
import Verif.Spec.Value
import Mathlib.Probability.Kernel.Defs

/-!
# Programs with measurable laws are kernels
-/

set_option linter.unusedSectionVars false

namespace Ctb

open MeasureTheory Set Classical ProbabilityTheory
open scoped ENNReal

variable {X Y α β : Type} [MeasurableSpace X] [MeasurableSpace Y] [MeasurableSpace α] [MeasurableSpace β]

theorem measurable_ok : Measurable (Except.ok : α → Res α) := fun _ h => h

theorem measurable_res_iff {F : Res α → Y} : Measurable F ↔ Measurable fun a => F (.ok a) :=
  ⟨fun h => h.comp measurable_ok, fun h _ hS => h hS⟩

theorem Reg.sum {p : X → Prog α} (h : Reg p) (x : X) {F : ℕ → Res α → ℝ≥0∞} (hF : ∀ n, Measurable (F n)) :
    (p x).lexp (fun r => ∑' n, F n r) = ∑' n, (p x).lexp (F n) := by
  have hs : ∀ n, Measurable fun r => ∑ i ∈ Finset.range n, F i r := fun n => Finset.measurable_fun_sum _ fun i _ => hF i
  have h1 : ∀ n, (p x).lexp (fun r => ∑ i ∈ Finset.range n, F i r) = ∑ i ∈ Finset.range n, (p x).lexp (F i) := by
    intro n
    induction n with
    | zero => simp
    | succ n ih =>
      simp only [Finset.sum_range_succ]
      rw [h.add x (fun r => ∑ i ∈ Finset.range n, F i r) (F n) (measurable_res_iff.1 (hs n)), ih]
  simp only [ENNReal.tsum_eq_iSup_nat]
  rw [h.sup x (fun n r => ∑ i ∈ Finset.range n, F i r) (fun n => measurable_res_iff.1 (hs n))]
  · simp only [h1]
  · intro m n hmn r
    exact Finset.sum_le_sum_of_subset (Finset.range_subset_range.2 hmn)

/-- The law of the result of a program. -/
noncomputable def Reg.law {p : X → Prog α} (h : Reg p) (x : X) : Measure (Res α) :=
  Measure.ofMeasurable (fun S _ => (p x).lexp (S.indicator fun _ => 1)) (by simp) (by
    intro S hS hd
    rw [← h.sum x fun n => measurable_const.indicator (hS n)]
    congr 1
    funext r
    by_cases hr : ∃ i, r ∈ S i
    · obtain ⟨i, hi⟩ := hr
      rw [indicator_of_mem (mem_iUnion.2 ⟨i, hi⟩), tsum_eq_single i, indicator_of_mem hi]
      intro j hj
      exact indicator_of_notMem (fun h => (disjoint_left.1 (hd hj) h) hi) _
    · rw [indicator_of_notMem (by simpa using hr)]
      simp only [not_exists] at hr
      simp [hr])

theorem Reg.law_apply {p : X → Prog α} (h : Reg p) (x : X) {S : Set (Res α)} (hS : MeasurableSet S) :
    h.law x S = (p x).lexp (S.indicator fun _ => 1) := Measure.ofMeasurable_apply S hS

theorem Reg.lexp_eq {p : X → Prog α} (h : Reg p) (x : X) {F : Res α → ℝ≥0∞} (hF : Measurable F) : (p x).lexp F = ∫⁻ r, F r ∂h.law x := by
  refine Measurable.ennreal_induction (motive := fun F => (p x).lexp F = ∫⁻ r, F r ∂h.law x) ?_ ?_ ?_ hF
  · intro c S hS
    rw [lintegral_indicator_const hS, h.law_apply x hS]
    by_cases hc : c = ∞
    · subst hc
      have e : (S.indicator fun _ => (∞ : ℝ≥0∞)) = fun r => ⨆ n : ℕ, S.indicator (fun _ => (n : ℝ≥0∞)) r := by
        funext r
        by_cases hr : r ∈ S
        · simp [hr, ENNReal.iSup_natCast]
        · simp [hr]
      rw [e, h.sup x (fun n r => S.indicator (fun _ => (n : ℝ≥0∞)) r) (fun n => measurable_res_iff.1 (measurable_const.indicator hS)), ← ENNReal.iSup_natCast, ENNReal.iSup_mul]
      · congr 1
        funext n
        rw [← Prog.lexp_const_mul _ _ (ENNReal.natCast_ne_top n)]
        congr 1
        funext r
        by_cases hr : r ∈ S <;> simp [hr]
      · intro m n hmn r
        by_cases hr : r ∈ S <;> simp [hr, hmn]
    · rw [← Prog.lexp_const_mul _ _ hc]
      congr 1
      funext r
      by_cases hr : r ∈ S <;> simp [hr]
  · intro f g _ hf hg ihf ihg
    have := h.add x f g (measurable_res_iff.1 hf)
    simp only [Pi.add_apply]
    rw [lintegral_add_left hf, ← ihf, ← ihg, ← this]
    rfl
  · intro f hf hm ih
    rw [h.sup x f (fun n => measurable_res_iff.1 (hf n)) hm, lintegral_iSup hf hm]
    simp only [ih]

/-- The kernel of a program. -/
noncomputable def Reg.kernel {p : X → Prog α} (h : Reg p) : Kernel X (Res α) where
  toFun := h.law
  measurable' := by
    refine Measure.measurable_of_measurable_coe _ fun S hS => ?_
    simp only [h.law_apply _ hS]
    exact h.meas' (measurable_res_iff.1 (measurable_const.indicator hS))

theorem Reg.kernel_apply {p : X → Prog α} (h : Reg p) (x : X) : h.kernel x = h.law x := rfl

theorem measurable_onOk {F : α → ℝ≥0∞} (hF : Measurable F) : Measurable (onOk F) := measurable_res_iff.2 hF

/-- A program all of whose draws have mass one is a Markov kernel. -/
theorem Reg.markov {p : X → Prog α} (h : Reg p) (hm : ∀ x, Mass1 (p x)) : IsMarkovKernel h.kernel := by
  refine ⟨fun x => ⟨?_⟩⟩
  rw [h.kernel_apply, h.law_apply x MeasurableSet.univ, indicator_univ, (hm x).lexp_const]

/-! ## Verdicts -/

variable {τ : Type} [MeasurableSpace τ] [Inhabited τ]

/-- The law of an accepted object. -/
noncomputable def Reg.acc {p : X → Prog (Bool × τ)} (h : Reg p) (x : X) : Measure τ :=
  ((h.law x).restrict {r | ∃ y, r = .ok (true, y)}).map fun r => (resGetD default r).2

theorem measurableSet_verdict (v : Bool) : MeasurableSet {r : Res (Bool × τ) | ∃ y, r = .ok (v, y)} := by
  have : MeasurableSet {q : Bool × τ | q.1 = v} := measurable_fst (measurableSet_singleton v)
  have e : {q : Bool × τ | q.1 = v} = Except.ok ⁻¹' {r : Res (Bool × τ) | ∃ y, r = .ok (v, y)} := by
    ext ⟨w, y⟩
    simp
  rw [e] at this
  exact this

theorem Reg.acc_lintegral {p : X → Prog (Bool × τ)} (h : Reg p) (x : X) {F : τ → ℝ≥0∞} (hF : Measurable F) :
    ∫⁻ y, F y ∂h.acc x = (p x).lexp (onOk fun r => if r.1 then F r.2 else 0) := by
  have hm : Measurable fun r : Res (Bool × τ) => (resGetD default r).2 := measurable_snd.comp (measurable_resGetD default)
  rw [Reg.acc, lintegral_map hF hm, ← lintegral_indicator (measurableSet_verdict true)]
  refine (h.lexp_eq x ((hF.comp hm).indicator (measurableSet_verdict true))).symm.trans ?_
  congr 1
  funext r
  match r with
  | .error e => exact indicator_of_notMem (by simp) _
  | .ok (true, y) => rw [indicator_of_mem (by simp)]; rfl
  | .ok (false, y) => exact indicator_of_notMem (by simp) _

/-- A round either accepts or rejects. -/
theorem Reg.verdict {p : X → Prog (Bool × τ)} (h : Reg p) (x : X) {F : τ → ℝ≥0∞} (hF : Measurable F) (c : ℝ≥0∞) :
    (p x).lexp (onOk fun r => if r.1 then F r.2 else c) = ∫⁻ y, F y ∂h.acc x + (p x).prob (fun r => ∃ y, r = .ok (false, y)) * c := by
  have e : (onOk fun r : Bool × τ => if r.1 then F r.2 else c) = fun r => onOk (fun r : Bool × τ => if r.1 then F r.2 else 0) r + ({r | ∃ y, r = .ok (false, y)} : Set (Res (Bool × τ))).indicator (fun _ => c) r := by
    funext r
    match r with
    | .error e => rw [indicator_of_notMem (by simp)]; simp [onOk]
    | .ok (true, y) => rw [indicator_of_notMem (by simp)]; simp [onOk]
    | .ok (false, y) => rw [indicator_of_mem (by simp)]; simp [onOk]
  have hF' : Measurable fun r : Bool × τ => if r.1 then F r.2 else 0 := Measurable.ite' (Measurable.bool measurable_fst) (hF.comp measurable_snd) measurable_const
  have hR := measurableSet_verdict (τ := τ) false
  have e2 : (p x).prob (fun r => ∃ y, r = .ok (false, y)) = (p x).lexp (({r | ∃ y, r = .ok (false, y)} : Set (Res (Bool × τ))).indicator fun _ => 1) := rfl
  rw [h.acc_lintegral x hF, e, h.add x _ _ (measurable_res_iff.1 (measurable_onOk hF')), e2, h.lexp_eq x (measurable_const.indicator hR), h.lexp_eq x (measurable_const.indicator hR),
    lintegral_indicator_const hR, lintegral_indicator_const hR, one_mul, mul_comm c]

/-- What is left is the probability of an exception. -/
theorem Reg.verdict_mass {p : X → Prog (Bool × τ)} (h : Reg p) (x : X) (hm : Mass1 (p x)) :
    h.acc x univ + (p x).prob (fun r => ∃ y, r = .ok (false, y)) + (p x).prob (fun r => ∃ e, r = .error e) = 1 := by
  have h1 := h.verdict x (F := fun _ => 1) measurable_const 1
  rw [lintegral_one, mul_one] at h1
  rw [← h1, Prog.prob, ← h.add x _ _ (measurable_res_iff.1 (measurable_onOk (by simp)))]
  refine Eq.trans ?_ (hm.lexp_const 1)
  congr 1
  funext r
  match r with
  | .error e => simp [onOk]
  | .ok (true, y) => simp [onOk]
  | .ok (false, y) => simp [onOk]

end Ctb
