import Verif.Basic.Law
import Verif.Spec.Value
import Verif.Spec.Generator
import Verif.Model.MjpFixtures
import Verif.Props.MjpInference
import Verif.Props.MjpSampling
import Verif.Props.MjpPath
import Verif.Props.Priors

set_option linter.unusedSectionVars false

/-! # C102, C103: generators to start from, and random partitions -/

namespace Ctb

open MeasureTheory ProbabilityTheory Set
open scoped ENNReal

/-- Repeated draws are independent. -/
theorem replicate_draw_pi {d : RDist} [SigmaFinite d.law] {n : ℕ} {F : (Fin n → ℝ) → ℝ≥0∞} (hF : Measurable F) :
    (Prog.replicate n (Prog.draw d)).lexp (onOk fun l => F fun i => l.getD i 0) = ∫⁻ x, F x ∂Measure.pi (fun _ => d.law) := by
  induction n with
  | zero =>
    simp only [Prog.replicate, Prog.lexp_ret, onOk]
    rw [Measure.pi_of_empty (fun _ : Fin 0 => d.law), lintegral_dirac' _ hF]
    congr 1
    funext i
    exact i.elim0
  | succ n ih =>
    have hmp := (measurePreserving_piFinSuccAbove (fun _ : Fin (n + 1) => d.law) 0).symm
    rw [← hmp.lintegral_comp hF]
    have hm : Measurable fun q : ℝ × (Fin n → ℝ) => F ((MeasurableEquiv.piFinSuccAbove (fun _ => ℝ) 0).symm q) := hF.comp (MeasurableEquiv.measurable _)
    rw [lintegral_prod _ hm.aemeasurable]
    simp only [Prog.replicate, Prog.draw, Prog.real_bind, Prog.ret_bind, Prog.lexp_real]
    refine lintegral_congr fun x => ?_
    have hx : Measurable fun y : Fin n → ℝ => F ((MeasurableEquiv.piFinSuccAbove (fun _ => ℝ) 0).symm (x, y)) := hm.comp measurable_prodMk_left
    rw [← ih hx, Prog.lexp_bind]
    refine Prog.lexp_congr fun r _ => ?_
    cases r with
    | error e => rfl
    | ok l =>
      simp only [Prog.cont_ok, Prog.lexp_ret, onOk]
      congr 1
      funext i
      refine Fin.cases ?_ (fun i => ?_) i
      · rfl
      · rfl

/-! ## C102 -/

theorem construct_hyper {a b : ℝ} (ha : 0 < a) (hb : 0 < b) (d : ℕ) :
    Hyper d (constructGenHyperprior a b).1 (constructGenHyperprior a b).2 (fun _ _ => a) (fun _ _ => b) := by
  constructor <;> intros <;> simp_all [constructGenHyperprior]

/-- The generator a run starts from: all rates equal `a / b`, and the stationary law is uniform. -/
theorem C102_start {d : ℕ} [NeZero d] {a b : ℝ} (ha : 0 < a) (hb : 0 < b) :
    ∃ g, IsGenerator d g ∧ (∀ i < d, ∀ j < d, getEv d (constructGenHyperprior a b).1 (constructGenHyperprior a b).2 i j = some (g i j)) ∧
      (∀ i < d, ∀ j < d, i ≠ j → g i j = a / b) ∧ getStat d g = .ok fun _ => 1 / d := by
  obtain ⟨g, h1, h2, h3⟩ := C19_get_ev (construct_hyper ha hb d)
  refine ⟨g, h1, h2, h3, ?_⟩
  obtain ⟨p, hp, -, -, -, hu⟩ := C12_get_stat h1
  rw [hp, ← hu fun _ => 1 / d]
  · have : (d : ℝ) ≠ 0 := Nat.cast_ne_zero.2 (NeZero.ne d)
    simp [this]
  · intro j
    rw [← Finset.mul_sum]
    have hrow := h1.row j j.2
    rw [← Fin.sum_univ_eq_sum_range (fun i => g j i)] at hrow
    have hcol : ∑ i : Fin d, g i j = ∑ i : Fin d, g j i := by
      refine Finset.sum_congr rfl fun i _ => ?_
      by_cases h : (i : ℕ) = j
      · rw [h]
      · rw [h3 i i.2 j j.2 h, h3 j j.2 i i.2 (Ne.symm h)]
    rw [hcol, hrow, mul_zero]

example : ∃ g, IsGenerator 3 g ∧ (∀ i < 3, ∀ j < 3, getEv 3 (constructGenHyperprior 2 1).1 (constructGenHyperprior 2 1).2 i j = some (g i j)) ∧
    (∀ i < 3, ∀ j < 3, i ≠ j → g i j = 2 / 1) ∧ getStat 3 g = .ok fun _ => 1 / ((3 : ℕ) : ℝ) := C102_start (by norm_num) (by norm_num)

/-- Trial generators are generators. -/
theorem C102_trial {d : ℕ} {g : Mat} (h : (sampleTrialGenerator d).Out (.ok g)) : IsGenerator d g := by
  simp only [sampleTrialGenerator, Prog.out_bind_ok, Prog.out_ret, Except.ok.injEq] at h
  obtain ⟨l, -, rfl⟩ := h
  refine ⟨fun i _ j _ hij => ?_, fun i hi => ?_⟩
  · simp only [if_neg hij]
    exact Real.exp_pos _
  · have e : ∀ j, (if i = j then -∑ k ∈ Finset.range d, (if i = k then (0 : ℝ) else Real.exp (l.getD (k + d * i) 0)) else
        if i = j then 0 else Real.exp (l.getD (j + d * i) 0)) =
        (if i = j then -∑ k ∈ Finset.range d, (if i = k then (0 : ℝ) else Real.exp (l.getD (k + d * i) 0)) else 0) +
          if i = j then 0 else Real.exp (l.getD (j + d * i) 0) := by
      intro j
      split_ifs <;> simp
    simp only [e, Finset.sum_add_distrib, Finset.sum_ite_eq, Finset.mem_range, if_pos hi, neg_add_cancel]

/-- They are always returned. -/
theorem C102_trial_no_error (d : ℕ) (e : PyErr) : ¬ (sampleTrialGenerator d).Out (.error e) := by
  have : ∀ n, ¬ (Prog.replicate n (Prog.draw (.normal 0 1))).Out (.error e) := by
    intro n
    induction n with
    | zero => simp [Prog.replicate]
    | succ n ih =>
      have ih' : ¬ (Prog.replicate n (Prog.real (.normal 0 1) Prog.ret)).Out (.error e) := ih
      simp [Prog.replicate, Prog.draw, Prog.out_bind_error, ih']
  simp [sampleTrialGenerator, Prog.out_bind_error, this]

/-- Their rates are independent lognormal variables. -/
theorem C102_trial_law {d : ℕ} (F : Fin d → Fin d → ℝ → ℝ≥0∞) (hF : ∀ i j, Measurable (F i j)) :
    (sampleTrialGenerator d).lexp (onOk fun g => ∏ i : Fin d, ∏ j : Fin d, if i = j then 1 else F i j (g i j)) =
      ∏ i : Fin d, ∏ j : Fin d, if i = j then 1 else ∫⁻ u, F i j (Real.exp u) ∂gaussianReal 0 1 := by
  have hlaw : (RDist.normal 0 1).law = gaussianReal 0 1 := by simp [RDist.law]
  haveI : IsProbabilityMeasure (RDist.normal 0 1).law := by rw [hlaw]; infer_instance
  let f : Fin (d * d) → ℝ → ℝ≥0∞ := fun k u =>
    if (finProdFinEquiv.symm k).1 = (finProdFinEquiv.symm k).2 then 1 else F (finProdFinEquiv.symm k).1 (finProdFinEquiv.symm k).2 (Real.exp u)
  have hf : ∀ k, Measurable (f k) := by
    intro k
    simp only [f]
    split
    · exact measurable_const
    · exact (hF _ _).comp Real.measurable_exp
  have hm : Measurable fun x : Fin (d * d) → ℝ => ∏ k, f k (x k) := Finset.measurable_prod _ fun k _ => (hf k).comp (measurable_pi_apply k)
  have key := replicate_draw_pi (d := .normal 0 1) hm
  rw [lintegral_pi_prod _ _ hf] at key
  have hprod : ∀ φ : Fin (d * d) → ℝ≥0∞, ∏ k, φ k = ∏ i : Fin d, ∏ j : Fin d, φ (finProdFinEquiv (i, j)) := by
    intro φ
    rw [← Fintype.prod_prod_type' (f := fun i j => φ (finProdFinEquiv (i, j)))]
    exact (finProdFinEquiv.prod_comp φ).symm
  rw [hprod] at key
  have e1 : ∀ i j : Fin d, ∫⁻ x, f (finProdFinEquiv (i, j)) x ∂(RDist.normal 0 1).law = if i = j then 1 else ∫⁻ u, F i j (Real.exp u) ∂gaussianReal 0 1 := by
    intro i j
    simp only [f, Equiv.symm_apply_apply, hlaw]
    split_ifs <;> simp
  simp only [e1] at key
  rw [← key, sampleTrialGenerator, Prog.lexp_bind]
  refine Prog.lexp_congr fun r _ => ?_
  cases r with
  | error e => rfl
  | ok l =>
    simp only [Prog.cont_ok, Prog.lexp_ret, onOk]
    rw [hprod]
    refine Finset.prod_congr rfl fun i _ => Finset.prod_congr rfl fun j _ => ?_
    simp only [f, Equiv.symm_apply_apply]
    by_cases h : i = j
    · simp [h]
    · have h' : (i : ℕ) ≠ j := fun e => h (Fin.ext e)
      simp only [if_neg h, if_neg h']
      rfl

/-- The chance that all rates of a trial generator with two states are below 1. -/
example : (sampleTrialGenerator 2).lexp (onOk fun g => ∏ i : Fin 2, ∏ j : Fin 2, if i = j then 1 else (Iio (1 : ℝ)).indicator 1 (g i j)) =
    (gaussianReal 0 1 (Iio 0)) * (gaussianReal 0 1 (Iio 0)) := by
  rw [C102_trial_law (fun _ _ => (Iio (1 : ℝ)).indicator 1) fun _ _ => measurable_one.indicator measurableSet_Iio]
  have e : ∫⁻ u, (Iio (1 : ℝ)).indicator 1 (Real.exp u) ∂gaussianReal 0 1 = gaussianReal 0 1 (Iio 0) := by
    rw [← lintegral_indicator_one measurableSet_Iio]
    refine lintegral_congr fun u => ?_
    by_cases h : u < 0 <;> simp [h]
  simp [Fin.prod_univ_two, e]

/-! ## C103 -/

theorem innerLinspace_breaks {fin : ℝ} (hf : 0 < fin) (n : ℕ) : Breaks fin (innerLinspace fin n) ∧ (innerLinspace fin n).Pairwise (· < ·) ∧
    ∀ a ∈ innerLinspace fin n, 0 < a ∧ a < fin := by
  have hin : ∀ a ∈ innerLinspace fin n, 0 < a ∧ a < fin := by
    intro a ha
    simp only [innerLinspace, List.mem_map, List.mem_range] at ha
    obtain ⟨i, hi, rfl⟩ := ha
    refine ⟨by positivity, ?_⟩
    rw [← mul_div_assoc, div_lt_iff₀ (by positivity), mul_comm]
    have : (i : ℝ) + 1 < n + 1 := by exact_mod_cast Nat.add_lt_add_right hi 1
    exact mul_lt_mul_of_pos_left this hf
  have hp : (innerLinspace fin n).Pairwise (· < ·) := by
    rw [innerLinspace, List.pairwise_map]
    refine List.pairwise_lt_range.imp fun {i j} hij => ?_
    have : (i : ℝ) < j := by exact_mod_cast hij
    have h2 : 0 < fin / ((n : ℝ) + 1) := by positivity
    nlinarith
  exact ⟨⟨hp.imp le_of_lt, fun a ha => (hin a ha).1.le, fun a ha => (hin a ha).2.le⟩, hp, hin⟩

/-- The bounds of the pieces are the multiples of `fin / (n + 1)`. -/
theorem innerLinspace_ext (fin : ℝ) (n k : ℕ) (hk : k < n + 2) : (0 :: (innerLinspace fin n ++ [fin]))[k]? = some (k * (fin / (n + 1))) := by
  rcases k with _ | k
  · simp
  · rw [List.getElem?_cons_succ]
    rcases Nat.lt_or_ge k n with h | h
    · rw [List.getElem?_append_left (by simpa [innerLinspace] using h)]
      simp [innerLinspace, h]
    · have : k = n := by omega
      subst this
      rw [List.getElem?_append_right (by simp [innerLinspace])]
      have hn : (k : ℝ) + 1 ≠ 0 := by positivity
      simp only [innerLinspace, List.length_map, List.length_range, Nat.sub_self, List.getElem?_cons_zero, Nat.cast_add, Nat.cast_one]
      rw [mul_div_cancel₀ _ hn]

/-- Whatever is drawn: break points increase strictly inside `(0, fin)`, the pieces are as many as the break points and one, all of the same duration, follow the path,
and paste back to it. -/
theorem C103_pieces {sk : Skel ℝ} (hv : sk.Valid) (hr : sk.Reduced) {intensity : ℝ} {r : List (Skel ℝ) × List ℝ} (h : (samplePartition sk intensity).Out (.ok r)) :
    r.2.Pairwise (· < ·) ∧ (∀ a ∈ r.2, 0 < a ∧ a < sk.fin) ∧ r.1.length = r.2.length + 1 ∧ pastePartition r.1 = .ok sk ∧
      ∀ k, k < r.1.length → ∃ p, r.1[k]? = some p ∧ p.fin = sk.fin / r.1.length ∧ p.Valid ∧
        ∀ s, 0 ≤ s → s < p.fin → p.stateAt s = sk.stateAt (k * (sk.fin / r.1.length) + s) := by
  unfold samplePartition at h
  split_ifs at h
  · simp at h
  simp only [Prog.out_nat, Prog.out_ret, Except.ok.injEq] at h
  obtain ⟨n, -, rfl⟩ := h
  obtain ⟨hb, h1, h2⟩ := innerLinspace_breaks hv.fin_pos n
  obtain ⟨h3, h4⟩ := C03_pieces hv hb
  have hlen : (innerLinspace sk.fin n).length = n := by simp [innerLinspace]
  refine ⟨h1, h2, h3, C02_paste_partition hv hr hb, fun k hk => ?_⟩
  simp only [h3, hlen] at hk ⊢
  obtain ⟨p, a, b, hp, ha, hb', hfin, -, -, -, hval, -, hst⟩ := h4 k (by rw [hlen]; exact hk)
  rw [innerLinspace_ext _ _ _ (by omega), Option.some.injEq] at ha hb'
  have hd : p.fin = sk.fin / (n + 1 : ℕ) := by
    rw [hfin, ← ha, ← hb']
    push_cast
    ring
  refine ⟨p, hp, hd, hval (by rw [hd]; have := hv.fin_pos; positivity), fun s hs1 hs2 => ?_⟩
  rw [hst s hs1 hs2, ← ha]
  push_cast
  rfl

example : (⟨[0, 1], [0, 1], 2⟩ : Skel ℝ).Valid ∧ (⟨[0, 1], [0, 1], 2⟩ : Skel ℝ).Reduced ∧
    (samplePartition ⟨[0, 1], [0, 1], 2⟩ 1).Out (.ok (partitionSkeleton ⟨[0, 1], [0, 1], 2⟩ (innerLinspace 2 3), innerLinspace 2 3)) := by
  refine ⟨by constructor <;> simp, by simp [Skel.Reduced], ?_⟩
  simp only [samplePartition]
  rw [if_neg (by norm_num)]
  exact ⟨3, by norm_num [NDist.support], rfl⟩

/-- The number of break points is a Poisson variable. -/
theorem C103_count {sk : Skel ℝ} {intensity : ℝ} (h : 0 ≤ intensity * sk.fin) (G : ℕ → ℝ≥0∞) :
    (samplePartition sk intensity).lexp (onOk fun r => G r.2.length) = ∫⁻ n, G n ∂poissonMeasure (intensity * sk.fin).toNNReal := by
  unfold samplePartition
  rw [if_neg (not_lt.2 h), Prog.lexp_nat]
  refine lintegral_congr fun n => ?_
  simp [onOk, innerLinspace]

/-- It fails exactly for negative intensities. -/
theorem C103_error {sk : Skel ℝ} (hf : 0 < sk.fin) {intensity : ℝ} {e : PyErr} : (samplePartition sk intensity).Out (.error e) ↔ intensity < 0 ∧ e = .value := by
  unfold samplePartition
  have : intensity * sk.fin < 0 ↔ intensity < 0 := 
    ⟨fun h => by by_contra h'; exact absurd (mul_nonneg (not_lt.1 h') hf.le) (not_le.2 h), fun h => mul_neg_of_neg_of_pos h hf⟩
  split_ifs with h
  · simp [this.1 h]
  · have : ¬ intensity < 0 := fun h' => h (this.2 h')
    simp [this]

end Ctb
