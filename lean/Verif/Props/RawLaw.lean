import Verif.Lemmas.RawAssemble
import Verif.Props.LayerProb

set_option linter.unusedSectionVars false

/-! # C111: the law of the raw skeleton -/

namespace Ctb

open Classical MeasureTheory Set Filter Topology
open scoped ENNReal

variable {T a b : ℝ} {n F k : ℕ}

/-- The edges of the layers of a bridge without bounds. -/
theorem C111_edges (hT : 0 < T) (k : ℕ) : computeEdges k T a b none none 2 = .ok (layerLow T a b k, layerHigh T a b k) := computeEdges_free hT k

/-- The skeleton has the law of the skeletons of all layers up to the search limit `F`, except that the budget `n` may run out. -/
theorem C111_law (hT : 0 < T) (a b : ℝ) : ∃ c : ℕ → ℕ → ℝ≥0∞, (∀ k, Monotone fun n => c n k) ∧ (∀ n k, c n k ≤ 1) ∧ (∀ k, Tendsto (fun n => c n k) atTop (𝓝 1)) ∧
    ∀ n F G, 0 < n → SkelMeas T a b G →
      ENNReal.ofReal (normDensR T (b - a)) * (sampleRawSkel n F T a b none none).lexp (onOk G) = ∑ k ∈ Finset.range F, c n k * layerInt T a b k G :=
  ⟨rawOk T a b, rawOk_mono, rawOk_le hT, rawOk_tendsto hT, fun _ _ _ hn hG => raw_sum hT hn hG⟩

/-- With growing budgets the law converges to the law of the skeletons of all layers. -/
theorem C111_limit (hT : 0 < T) {G : EaSkel → ℝ≥0∞} (hG : SkelMeas T a b G) :
    Tendsto (fun n => ENNReal.ofReal (normDensR T (b - a)) * (sampleRawSkel n n T a b none none).lexp (onOk G)) atTop (𝓝 (∑' k, layerInt T a b k G)) := by
  refine (budget_limit (c := rawOk T a b) (L := fun k => layerInt T a b k G) rawOk_mono (rawOk_le hT) (rawOk_tendsto hT)).congr' ?_
  filter_upwards [eventually_gt_atTop 0] with n hn
  exact (raw_sum hT hn hG).symm

/-- The skeletons of layer `k + 1` have the mass of the bridges that stay in it and leave layer `k`. -/
theorem C111_mass (hT : 0 < T) (k : ℕ) : layerInt T a b k (fun _ => 1) + stripDens (layerHigh T a b k) (layerLow T a b k) T a b =
    stripDens (layerHigh T a b (k + 1)) (layerLow T a b (k + 1)) T a b := by
  rw [layerInt_mass]
  exact layerMass_strip hT k

/-- All layers together have the mass of all bridges. -/
theorem C111_total (hT : 0 < T) : ∑' k, layerInt T a b k (fun _ => 1) = ENNReal.ofReal (normDensR T (b - a)) := by
  have hs : ∀ N, ∑ k ∈ Finset.range N, layerInt T a b k (fun _ => 1) = stripDens (layerHigh T a b N) (layerLow T a b N) T a b := by
    intro N
    induction N with
    | zero => rw [strip_zero]; simp
    | succ N ih => rw [Finset.sum_range_succ, ih, add_comm, C111_mass hT N]
  have h := strip_sup_space (a := a) (b := b) hT (free_bounds a b) (fun k => (layerLow T a b (k + 1), layerHigh T a b (k + 1))) fun k => computeEdges_free hT (k + 1)
  rw [ENNReal.tsum_eq_iSup_nat]
  simp only [hs]
  simp only [spaceDens] at h
  rw [← h]
  refine le_antisymm (iSup_le fun N => ?_) (iSup_le fun k => le_iSup (fun N => stripDens (layerHigh T a b N) (layerLow T a b N) T a b) (k + 1))
  rcases N with - | N
  · rw [strip_zero]
    exact zero_le
  · exact le_iSup (fun k => stripDens (layerHigh T a b (k + 1)) (layerLow T a b (k + 1)) T a b) N

/-- A skeleton is returned with a probability that goes to one. -/
theorem C111_proper (hT : 0 < T) : Tendsto (fun n => (sampleRawSkel n n T a b none none).prob fun r => ∃ s, r = .ok s) atTop (𝓝 1) := by
  have h := C111_limit (a := a) (b := b) hT (G := fun _ => 1) fun _ _ _ => measurable_const
  obtain ⟨n0, n1⟩ := norm_fin (a := a) (b := b) hT
  rw [C111_total hT] at h
  have h' := ENNReal.Tendsto.const_mul (a := (ENNReal.ofReal (normDensR T (b - a)))⁻¹) h (Or.inr (ENNReal.inv_ne_top.2 n0))
  rw [ENNReal.inv_mul_cancel n0 n1] at h'
  refine h'.congr fun n => ?_
  rw [← mul_assoc, ENNReal.inv_mul_cancel n0 n1, one_mul]
  refine Prog.lexp_congr ?_
  rintro (e | s) _
  · simp [onOk]
  · simp [onOk]

/-- In every layer both sides have the same mass, also for given flags. -/
theorem C111_sides (hT : 0 < T) (k : ℕ) (S : Option (List Bool) → Prop) (hS : ∀ fl, S (fl.map List.reverse) ↔ S fl) :
    layerInt T a b k (fun s => if onMinSide s ∧ S s.hitI then 1 else 0) = layerInt T a b k (fun s => if ¬ onMinSide s ∧ S s.hitI then 1 else 0) := by
  have h : ∀ (fl : Option (List Bool)) (s m : ℝ) (k : ℕ), m < layerLow T a b k →
      (if onMinSide (minSkel T a b k fl s m) ∧ S (minSkel T a b k fl s m).hitI then (1 : ℝ≥0∞) else 0) +
        (if onMinSide (maxSkel T a b k fl s m) ∧ S (maxSkel T a b k fl s m).hitI then 1 else 0) =
      (if ¬ onMinSide (minSkel T a b k fl s m) ∧ S (minSkel T a b k fl s m).hitI then (1 : ℝ≥0∞) else 0) +
        (if ¬ onMinSide (maxSkel T a b k fl s m) ∧ S (maxSkel T a b k fl s m).hitI then 1 else 0) := by
    intro fl s m k hm
    simp only [min_side hT hm, max_side hT hm, true_and, not_true, false_and, if_false, not_false_iff]
    rw [add_zero, zero_add]
    exact if_congr (hS fl).symm rfl rfl
  rcases k with - | k
  · simp only [layerInt]
    exact sector_cong fun m _ hm s _ _ => by rw [h _ _ _ _ hm]
  · simp only [layerInt]
    exact sector_cong fun m _ hm s _ _ => Finset.sum_congr rfl fun f _ => by rw [h _ _ _ _ hm]

/-- Skeletons with a minimum and no set flags have the mass of the bridges that leave layer `k` on the lower side only. -/
theorem C111_low (hT : 0 < T) (hk : 1 ≤ k) : layerInt T a b k (fun s => if onMinSide s ∧ s.hitI = some [false, false] then 1 else 0) +
    stripDens (layerHigh T a b k) (layerLow T a b k) T a b = stripDens (layerHigh T a b k) (layerLow T a b (k + 1)) T a b := by
  rw [← sectorMass_strip hT hk]
  congr 1
  obtain ⟨k, rfl⟩ : ∃ j, k = j + 1 := ⟨k - 1, by omega⟩
  simp only [layerInt, sectorMass]
  refine sector_cong fun m _ hm s _ _ => ?_
  simp only [min_side hT hm, max_side hT hm, true_and, false_and, if_false, add_zero, Fintype.sum_prod_type, Fintype.sum_bool, minSkel_flags]
  simp [passEntr]

/-- Skeletons with a minimum and a set flag have half the mass of the bridges that leave layer `k` on both sides. -/
theorem C111_both (hT : 0 < T) (hk : 1 ≤ k) : 2 * layerInt T a b k (fun s => if onMinSide s ∧ s.hitI ≠ some [false, false] then 1 else 0) +
    stripDens (layerHigh T a b k) (layerLow T a b (k + 1)) T a b + stripDens (layerHigh T a b (k + 1)) (layerLow T a b k) T a b =
      stripDens (layerHigh T a b (k + 1)) (layerLow T a b (k + 1)) T a b + stripDens (layerHigh T a b k) (layerLow T a b k) T a b := by
  rw [← sectorMass_strip (j := k) hT hk, ← sectorMass_strip (j := k + 1) (k := k) hT (by omega)]
  have e : 2 * layerInt T a b k (fun s => if onMinSide s ∧ s.hitI ≠ some [false, false] then 1 else 0) + sectorMass T a b k k = sectorMass T a b k (k + 1) := by
    obtain ⟨k, rfl⟩ : ∃ j, k = j + 1 := ⟨k - 1, by omega⟩
    simp only [layerInt, sectorMass]
    rw [← sector_mul _ (by simp), add_comm, ← sector_add (measurable_pair (measurable_stripEntr _) (measurable_stripEntr _) T a b)]
    refine sector_cong fun m _ hm s hs hs' => ?_
    rw [← passPair_sum hs hs' (layerHigh_mono hT (Nat.lt_succ_self (k + 1))).le]
    simp only [min_side hT hm, max_side hT hm, true_and, false_and, if_false, add_zero, Fintype.sum_prod_type, Fintype.sum_bool, minSkel_flags]
    simp [passEntr]
    ring
  rw [← e]
  ring

/-- A test function of the extreme value and the flags, for a bridge of duration 1 from 0 to 2. -/
example : SkelMeas 1 0 2 fun s => if s.hitI = none then ENNReal.ofReal (s.tight ^ 2) else 0 := by
  intro u v fl
  by_cases h : fl = none
  · simp only [if_pos h]
    fun_prop
  · simp only [if_neg h]
    exact measurable_const

/-- The first layer around a loop of duration `2` at 0 is bounded by the square root of `log 2` on both sides. -/
example : layerLow 2 0 0 1 = -√(Real.log 2) ∧ layerHigh 2 0 0 1 = √(Real.log 2) := by
  have h' : layerLow 2 0 0 1 = -√(Real.log 2) := by
    unfold layerLow
    norm_num
    rw [show (4 : ℝ) = 2 ^ 2 by norm_num, Real.sqrt_sq (by norm_num)]
    ring
  exact ⟨h', by rw [layerHigh, h']; ring⟩

/-- A reversible set of flags. -/
example : ∀ fl : Option (List Bool), fl.map List.reverse = some [false, false] ↔ fl = some [false, false] := by
  intro fl
  cases fl with
  | none => simp
  | some l => simp only [Option.map_some, Option.some.injEq]; rw [List.reverse_eq_iff]; rfl

end Ctb
