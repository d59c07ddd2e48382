import Verif.Lemmas.HoldLaw
import Verif.Lemmas.Duhamel
import Verif.Lemmas.Occupation
import Verif.Lemmas.Mutate
import Verif.Spec.MjpLaw

/-! # Law of `sample_forwards` -/

set_option linter.unusedSectionVars false

namespace Ctb

open Classical MeasureTheory ProbabilityTheory
open scoped ENNReal

/-- The weight of a path along its list of jumps. -/
noncomputable def jumpWeight (θ : ℕ → ℕ → ℝ) (v : ℕ → ℝ) (fin : ℝ) (j : ℕ) : List (ℝ × ℕ) → ℝ≥0∞
  | [] => 0
  | [(t, x)] => if x = j then ENNReal.ofReal (Real.exp (-(v x * (fin - t)))) else 0
  | (t, x) :: (t', y) :: l => ENNReal.ofReal (Real.exp (-(v x * (t' - t))) * θ x y) * jumpWeight θ v fin j ((t', y) :: l)

theorem prod_count_cons (d : ℕ) (θ : ℕ → ℕ → ℝ) {x y : ℕ} (hx : x < d) (hy : y < d) (l : List (ℕ × ℕ)) :
    (∏ i ∈ Finset.range d, ∏ k ∈ Finset.range d, θ i k ^ ((x, y) :: l).count (i, k)) =
      θ x y * ∏ i ∈ Finset.range d, ∏ k ∈ Finset.range d, θ i k ^ l.count (i, k) := by
  have h1 : ∀ i k, θ i k ^ ((x, y) :: l).count (i, k) = (if i = x then if k = y then θ i k else 1 else 1) * θ i k ^ l.count (i, k) := by
    intro i k
    rw [List.count_cons]
    by_cases h : i = x
    · by_cases h2 : k = y
      · subst h; subst h2; simp [pow_succ, mul_comm]
      · have : ((x, y) == (i, k)) = false := by simp; intro _ h'; exact h2 h'.symm
        rw [this]; simp [h2]
    · have : ((x, y) == (i, k)) = false := by simp; intro h' _; exact h h'.symm
      rw [this]; simp [h]
  simp only [h1, Finset.prod_mul_distrib]
  congr 1
  rw [Finset.prod_eq_single x]
  · rw [Finset.prod_eq_single y]
    · simp
    · intro k _ hk; simp [hk]
    · intro h; exact absurd (Finset.mem_range.2 hy) h
  · intro i _ hi; simp [hi]
  · intro h; exact absurd (Finset.mem_range.2 hx) h

theorem jumpWeight_eq (d : ℕ) {θ : ℕ → ℕ → ℝ} (v : ℕ → ℝ) (fin : ℝ) (j : ℕ) (hθ : ∀ i k, 0 ≤ θ i k) (l : List (ℝ × ℕ)) :
    ∀ (a : ℝ) (x : ℕ), (∀ p ∈ (a, x) :: l, p.2 < d) → jumpWeight θ v fin j ((a, x) :: l) =
      if (((a, x) :: l).map Prod.snd).getLast? = some j then
        ENNReal.ofReal ((∏ i ∈ Finset.range d, ∏ k ∈ Finset.range d, θ i k ^ ((((a, x) :: l).map Prod.snd).zip (((a, x) :: l).map Prod.snd).tail).count (i, k)) *
          Real.exp (-∑ i ∈ Finset.range d, v i * occL (fun a => fin - a) i ((a, x) :: l))) else 0 := by
  induction l with
  | nil =>
    intro a x hx
    have hx' : x < d := hx (a, x) (by simp)
    simp only [jumpWeight, List.map_cons, List.map_nil, List.getLast?_singleton, Option.some.injEq, List.tail_cons, List.zip_nil_right, List.count_nil,
      pow_zero, Finset.prod_const_one, one_mul, occL, mul_ite, mul_zero]
    rw [Finset.sum_ite_eq, if_pos (Finset.mem_range.2 hx')]
  | cons p l ih =>
    obtain ⟨b, y⟩ := p
    intro a x hx
    have hx' : x < d := hx (a, x) (by simp)
    have hy' : y < d := hx (b, y) (by simp)
    have hih := ih b y fun p hp => hx p (by simp only [List.mem_cons] at hp ⊢; tauto)
    rw [jumpWeight, hih]
    have hl : (((a, x) :: (b, y) :: l).map Prod.snd).getLast? = (((b, y) :: l).map Prod.snd).getLast? := by
      simp only [List.map_cons, List.getLast?_cons_cons]
    rw [hl]
    split_ifs with h
    · have hz : (((a, x) :: (b, y) :: l).map Prod.snd).zip (((a, x) :: (b, y) :: l).map Prod.snd).tail =
          (x, y) :: (((b, y) :: l).map Prod.snd).zip (((b, y) :: l).map Prod.snd).tail := by simp
      rw [hz, prod_count_cons d θ hx' hy', ← ENNReal.ofReal_mul (mul_nonneg (Real.exp_pos _).le (hθ x y))]
      congr 1
      have hs : ∑ i ∈ Finset.range d, v i * occL (fun a => fin - a) i ((a, x) :: (b, y) :: l) =
          v x * (b - a) + ∑ i ∈ Finset.range d, v i * occL (fun a => fin - a) i ((b, y) :: l) := by
        simp only [occL, mul_add, Finset.sum_add_distrib, mul_ite, mul_zero]
        rw [Finset.sum_ite_eq, if_pos (Finset.mem_range.2 hx')]
      rw [hs, neg_add, Real.exp_add]
      ring
    · simp

theorem weight_eq_jumpWeight {sk : Skel ℝ} (hv : sk.Valid) {d : ℕ} (hd : sk.StatesLt d) {θ : ℕ → ℕ → ℝ} (hθ : ∀ i k, 0 ≤ θ i k) (v : ℕ → ℝ) (j : ℕ) :
    sk.weight d θ v j = jumpWeight θ v sk.fin j sk.jumps := by
  obtain ⟨x, l, hl⟩ := hv.jumps_head
  obtain ⟨ht, hx⟩ := Skel.t_eq_of_len hv.len
  have hinc := hv.jumps_inc
  have hlt := hv.jumps_lt
  rw [hl] at hinc hlt
  have hvol : ∀ i, (volume (sk.timesIn i sk.fin)).toReal = occL (fun a => sk.fin - a) i ((0, x) :: l) := by
    intro i
    have := volume_occ sk.fin i l 0 x hinc (fun p hp => (hlt p hp).le)
    unfold Skel.timesIn Skel.stateAt
    rw [hl, this, ENNReal.toReal_ofReal (occL_nonneg _ _ _ hinc (fun p hp => (hlt p hp).le))]
  have hst : ∀ p ∈ (0, x) :: l, p.2 < d := by
    intro p hp
    refine hd p.2 ?_
    rw [hx, hl]; exact List.mem_map_of_mem hp
  rw [hl, jumpWeight_eq d v sk.fin j hθ l 0 x hst]
  unfold Skel.weight
  simp only [hvol]
  have hx' : sk.xt = ((0, x) :: l).map Prod.snd := by rw [hx, hl]
  rw [hx']

/-- Value at a list of jumps. -/
noncomputable def atJumps (f : List (ℝ × ℕ) → ℝ≥0∞) : Res (List (ℝ × ℕ)) → ℝ≥0∞
  | .ok l => f l
  | .error _ => 0

/-- Target of the `k`-th exit from `x`. -/
def exitTo (x k : ℕ) : ℕ := if x ≤ k then k + 1 else k

/-- What a finite clock contributes. -/
noncomputable def stepVal (d : ℕ) (g : Mat) (fin : ℝ) (θ : ℕ → ℕ → ℝ) (v : ℕ → ℝ) (j n : ℕ) (t : ℝ) (x k : ℕ) (h : ℝ) : ℝ≥0∞ :=
  if t + h < fin then ENNReal.ofReal (Real.exp (-(v x * h)) * θ x (exitTo x k)) *
      (forwardsLoop d g fin n (t + h) (exitTo x k)).lexp (atJumps (jumpWeight θ v fin j))
  else if n = 0 then 0 else jumpWeight θ v fin j [(t, x)]

theorem loop_step {d : ℕ} {g : Mat} {fin : ℝ} {θ : ℕ → ℕ → ℝ} {v : ℕ → ℝ} {j : ℕ} (n : ℕ) {t : ℝ} (ht : t < fin) {x : ℕ} (hx : x < d) :
    (forwardsLoop d g fin (n + 1) t x).lexp (atJumps (jumpWeight θ v fin j)) =
      (Prog.mapM' drawHold (exitRates d g x)).lexp (holdVal (stepVal d g fin θ v j n t x) (jumpWeight θ v fin j [(t, x)])) := by
  rw [forwardsLoop, if_pos ht, if_pos hx, Prog.lexp_bind]
  refine Prog.lexp_congr fun r hr => ?_
  rcases r with e | hold
  · rfl
  · rw [Prog.cont_ok, Prog.lexp_bind, holdVal]
    rcases hm : argmin hold with e | ⟨k, m⟩
    · simp [Prog.lift, minVal, atJumps]
    · simp only [Prog.lift, Prog.lexp_ret, Prog.cont_ok]
      cases m using WithTop.recTopCoe with
      | top => simp [minVal, atJumps]
      | coe h =>
        simp only [minVal]
        rw [stepVal, Prog.lexp_bind]
        change Prog.lexp (forwardsLoop d g fin n (t + h) (exitTo x k)) _ = _
        by_cases hth : t + h < fin
        · rw [if_pos hth, ← Prog.lexp_const_mul _ _ ENNReal.ofReal_ne_top]
          refine Prog.lexp_congr fun r hr => ?_
          rcases r with e | rest
          · simp [atJumps]
          · obtain ⟨m, rfl, -⟩ := forwardsLoop_out n _ _ _ hth hr
            simp only [Prog.cont_ok, Prog.lexp_ret, atJumps, jumpWeight]
            rw [add_sub_cancel_left]
        · rw [if_neg hth]
          cases n with
          | zero => simp [forwardsLoop, atJumps]
          | succ n => simp [forwardsLoop, hth, atJumps]

theorem loop_end {d : ℕ} {g : Mat} {fin : ℝ} {θ : ℕ → ℕ → ℝ} {v : ℕ → ℝ} {j : ℕ} (n : ℕ) {t : ℝ} (ht : ¬ t < fin) (x : ℕ) :
    (forwardsLoop d g fin n t x).lexp (atJumps (jumpWeight θ v fin j)) = 0 := by
  cases n with
  | zero => rfl
  | succ n => simp [forwardsLoop, ht, atJumps, jumpWeight]

theorem loop_out {d : ℕ} {g : Mat} {fin : ℝ} {θ : ℕ → ℕ → ℝ} {v : ℕ → ℝ} {j : ℕ} (n : ℕ) (t : ℝ) {x : ℕ} (hx : ¬ x < d) :
    (forwardsLoop d g fin n t x).lexp (atJumps (jumpWeight θ v fin j)) = 0 := by
  cases n with
  | zero => rfl
  | succ n =>
    by_cases ht : t < fin
    · simp [forwardsLoop, ht, hx, atJumps]
    · exact loop_end _ ht x

theorem exitRates_ne {d : ℕ} (hd : 2 ≤ d) (g : Mat) {x : ℕ} (hx : x < d) : exitRates d g x ≠ [] := by
  intro h
  have := exitRates_length (g := g) hx
  rw [h] at this
  simp at this
  omega

theorem loop_measurable {d : ℕ} (hd : 2 ≤ d) {g : Mat} (hg : ∀ i < d, ∀ j < d, i ≠ j → 0 ≤ g i j) {fin : ℝ} {θ : ℕ → ℕ → ℝ} {v : ℕ → ℝ} {j : ℕ} (n : ℕ) :
    ∀ x, Measurable fun t => (forwardsLoop d g fin n t x).lexp (atJumps (jumpWeight θ v fin j)) := by
  induction n with
  | zero => intro x; exact measurable_const
  | succ n ih =>
    intro x
    by_cases hx : x < d
    · have hstepm : ∀ k, Measurable fun p : ℝ × ℝ => stepVal d g fin θ v j n p.1 x k p.2 := by
        intro k
        refine Measurable.ite (measurableSet_lt (by fun_prop) measurable_const) ?_ ?_
        · refine Measurable.mul (by fun_prop) ?_
          exact (ih (exitTo x k)).comp (measurable_fst.add measurable_snd)
        · by_cases hn : n = 0
          · simp only [hn, if_true]; exact measurable_const
          · simp only [hn, if_false, jumpWeight]
            by_cases hxj : x = j
            · simp only [hxj, if_true]; fun_prop
            · simp only [hxj, if_false]; exact measurable_const
      have hrn : ∀ r ∈ exitRates d g x, 0 ≤ r := by
        intro r hr
        obtain ⟨y, hy, hyx, rfl⟩ := exitRates_mem hx hr
        exact hg x hx y hy hyx.symm
      have heq : (fun t => (forwardsLoop d g fin (n + 1) t x).lexp (atJumps (jumpWeight θ v fin j))) =
          fun t => if t < fin then holdLaw (exitRates d g x) (stepVal d g fin θ v j n t x) (jumpWeight θ v fin j [(t, x)]) else 0 := by
        ext t
        by_cases ht : t < fin
        · rw [loop_step n ht hx, if_pos ht, hold_exp _ _ _ (exitRates_ne hd g hx) hrn]
          exact fun k => (hstepm k).comp (measurable_const.prodMk measurable_id)
        · rw [if_neg ht, loop_end _ ht]
      rw [heq]
      refine Measurable.ite measurableSet_Iio ?_ measurable_const
      unfold holdLaw
      refine Measurable.add (Finset.measurable_sum _ fun k _ => ?_) ?_
      · have hm : Measurable fun p : ℝ × ℝ => ENNReal.ofReal ((exitRates d g x).getD k 0 * Real.exp (-((exitRates d g x).sum * p.2))) *
            stepVal d g fin θ v j n p.1 x k p.2 := Measurable.mul (by fun_prop) (hstepm k)
        exact hm.lintegral_prod_right' (ν := volume.restrict (Set.Ioi 0))
      · refine Measurable.ite (MeasurableSet.const _) ?_ measurable_const
        simp only [jumpWeight]
        by_cases hxj : x = j
        · simp only [hxj, if_true]; fun_prop
        · simp only [hxj, if_false]; exact measurable_const
    · simp only [loop_out _ _ hx]; exact measurable_const

/-- Sums over the exits of `x` are sums over the other states. -/
theorem sum_exits {d : ℕ} (g : Mat) (x : Fin d) (F : ℝ → ℕ → ℝ≥0∞) :
    ∑ k ∈ Finset.range (exitRates d g x).length, F ((exitRates d g x).getD k 0) (exitTo x k) = ∑ y : Fin d, if x = y then 0 else F (g x y) y := by
  obtain ⟨m, rfl⟩ : ∃ m, d = m + 1 := ⟨d - 1, by have := x.2; omega⟩
  rw [exitRates_length x.2, Nat.add_sub_cancel, Fin.sum_univ_succAbove _ x, if_pos rfl, zero_add, Finset.sum_range]
  refine Finset.sum_congr rfl fun k _ => ?_
  have hk : (k : ℕ) < (exitRates (m + 1) g x).length := by rw [exitRates_length x.2]; simp
  obtain ⟨-, -, h3⟩ := exitRates_get (g := g) x.2 (List.getElem?_eq_getElem hk)
  have he : ((x.succAbove k : Fin (m + 1)) : ℕ) = exitTo x k := by
    unfold exitTo Fin.succAbove
    by_cases h : (x : ℕ) ≤ k
    · rw [if_neg (by simp [Fin.lt_def]; omega), if_pos h]; simp
    · rw [if_pos (by simp [Fin.lt_def]; omega), if_neg h]; simp
  rw [if_neg (Fin.succAbove_ne x k).symm, he, List.getD_eq_getElem?_getD, List.getElem?_eq_getElem hk, Option.getD_some, h3]
  rfl

theorem exitRates_sum {d : ℕ} {g : Mat} (hrow : ∀ i : Fin d, ∑ j : Fin d, g i j = 0) (x : Fin d) : (exitRates d g x).sum = -g x x := by
  obtain ⟨m, rfl⟩ : ∃ m, d = m + 1 := ⟨d - 1, by have := x.2; omega⟩
  have h := hrow x
  rw [Fin.sum_univ_succAbove _ x] at h
  rw [← sum_getD, exitRates_length x.2, Nat.add_sub_cancel, Finset.sum_range]
  have : ∑ k : Fin m, (exitRates (m + 1) g x).getD k 0 = ∑ k : Fin m, g x (x.succAbove k : Fin (m + 1)) := by
    refine Finset.sum_congr rfl fun k _ => ?_
    have hk : (k : ℕ) < (exitRates (m + 1) g x).length := by rw [exitRates_length x.2]; simp
    obtain ⟨-, -, h3⟩ := exitRates_get (g := g) x.2 (List.getElem?_eq_getElem hk)
    have he : ((x.succAbove k : Fin (m + 1)) : ℕ) = exitTo x k := by
      unfold exitTo Fin.succAbove
      by_cases h : (x : ℕ) ≤ k
      · rw [if_neg (by simp [Fin.lt_def]; omega), if_pos h]; simp
      · rw [if_pos (by simp [Fin.lt_def]; omega), if_neg h]; simp
    rw [List.getD_eq_getElem?_getD, List.getElem?_eq_getElem hk, Option.getD_some, h3, he]
    rfl
  rw [this]
  linarith

/-- Expected weight of the rest of the path with `s` time units to go. -/
noncomputable def restVal (d : ℕ) (g : Mat) (fin : ℝ) (θ : ℕ → ℕ → ℝ) (v : ℕ → ℝ) (j n : ℕ) (s : ℝ) (x : Fin d) : ℝ≥0∞ :=
  (forwardsLoop d g fin (n + 1) (fin - s) x).lexp (atJumps (jumpWeight θ v fin j))

/-- Weighted rates between different states. -/
def offRates (d : ℕ) (g : Mat) (θ : ℕ → ℕ → ℝ) : Matrix (Fin d) (Fin d) ℝ := fun i k => if i = k then 0 else θ i k * g i k

theorem tilted_eq (d : ℕ) (g : Mat) (θ : ℕ → ℕ → ℝ) (v : ℕ → ℝ) :
    tilted d g θ v = Matrix.diagonal (fun i : Fin d => g i i - v i) + offRates d g θ := by
  ext i k
  rw [Matrix.add_apply, Matrix.diagonal_apply, tilted, offRates]
  split_ifs <;> simp

theorem rates_nonneg {d : ℕ} {g : Mat} (hQ : IsQMatrix (toM d g)) (x : Fin d) : ∀ r ∈ exitRates d g x, 0 ≤ r := by
  intro r hr
  obtain ⟨y, hy, hyx, rfl⟩ := exitRates_mem x.2 hr
  exact hQ.off x ⟨y, hy⟩ fun h => hyx (by rw [h])

theorem restVal_step {d : ℕ} (hd : 2 ≤ d) {g : Mat} (hQ : IsQMatrix (toM d g)) (fin : ℝ) {θ : ℕ → ℕ → ℝ} (hθ : ∀ i k, 0 ≤ θ i k) (v : ℕ → ℝ) (j : Fin d)
    (n : ℕ) {s : ℝ} (hs : 0 < s) (x : Fin d) :
    restVal d g fin θ v j (n + 1) s x = (if x = j then ENNReal.ofReal (Real.exp ((g x x - v x) * s)) else 0) +
      ∑ y, ∫⁻ h in Set.Ioo 0 s, ENNReal.ofReal (Real.exp ((g x x - v x) * h) * offRates d g θ x y) * restVal d g fin θ v j n (s - h) y := by
  have hg : ∀ i < d, ∀ j < d, i ≠ j → 0 ≤ g i j := fun i hi j hj hij => hQ.off ⟨i, hi⟩ ⟨j, hj⟩ fun h => hij (by simpa using h)
  have hm := loop_measurable hd hg (fin := fin) (θ := θ) (v := v) (j := (j : ℕ)) (n + 1)
  rw [restVal, loop_step (n + 1) (by linarith) x.2, hold_exp _ _ _ (exitRates_ne hd g x.2) (rates_nonneg hQ x)]
  · have hval : stepVal d g fin θ v j (n + 1) (fin - s) x = fun k h => if s ≤ h then (fun (k : ℕ) (h : ℝ) => if k = 0 then jumpWeight θ v fin j [(fin - s, (x : ℕ))] else
        ENNReal.ofReal (Real.exp (-(v x * h)) * θ x (exitTo x (k - 1))) *
          (forwardsLoop d g fin (n + 1) (fin - (s - h)) (exitTo x (k - 1))).lexp (atJumps (jumpWeight θ v fin j))) 0 s else
        (fun (k : ℕ) (h : ℝ) => if k = 0 then jumpWeight θ v fin j [(fin - s, (x : ℕ))] else
        ENNReal.ofReal (Real.exp (-(v x * h)) * θ x (exitTo x (k - 1))) *
          (forwardsLoop d g fin (n + 1) (fin - (s - h)) (exitTo x (k - 1))).lexp (atJumps (jumpWeight θ v fin j))) (k + 1) h := by
      ext k h
      rw [stepVal]
      by_cases h1 : s ≤ h
      · simp only [show ¬ fin - s + h < fin by linarith, if_false, h1, if_true]
        rw [if_neg (by omega)]
      · simp only [show fin - s + h < fin by linarith, if_true, h1, if_false, Nat.add_sub_cancel]
        rw [if_neg (by omega)]
        congr 3
        ring
    have hspl := holdLaw_split (rs := exitRates d g x) (rates_nonneg hQ x) hs (φ := fun (k : ℕ) (h : ℝ) => if k = 0 then jumpWeight θ v fin j [(fin - s, (x : ℕ))] else
        ENNReal.ofReal (Real.exp (-(v x * h)) * θ x (exitTo x (k - 1))) *
          (forwardsLoop d g fin (n + 1) (fin - (s - h)) (exitTo x (k - 1))).lexp (atJumps (jumpWeight θ v fin j)))
    rw [hval]
    refine hspl.trans ?_
    rw [exitRates_sum hQ.row x]
    congr 1
    · rw [if_pos rfl, jumpWeight]
      by_cases hxj : x = j
      · rw [if_pos hxj, if_pos (by rw [hxj]), ← ENNReal.ofReal_mul (Real.exp_pos _).le, ← Real.exp_add]
        congr 2
        ring
      · rw [if_neg hxj, if_neg (fun h => hxj (Fin.ext h)), mul_zero]
    · have := sum_exits g x fun q y => ∫⁻ h in Set.Ioo 0 s, ENNReal.ofReal (q * Real.exp (-(-g x x * h))) * (ENNReal.ofReal (Real.exp (-(v x * h)) * θ x y) *
          (forwardsLoop d g fin (n + 1) (fin - (s - h)) y).lexp (atJumps (jumpWeight θ v fin j)))
      refine Eq.trans (Finset.sum_congr rfl fun k _ => ?_) (this.trans (Finset.sum_congr rfl fun y _ => ?_))
      · simp
      · by_cases hxy : x = y
        · simp [hxy, offRates]
        · rw [if_neg hxy]
          refine lintegral_congr fun h => ?_
          have hgn : 0 ≤ g x y := hQ.off x y hxy
          rw [offRates, if_neg hxy, restVal, ← mul_assoc, ← ENNReal.ofReal_mul (mul_nonneg hgn (Real.exp_pos _).le)]
          congr 2
          rw [sub_mul, sub_eq_add_neg, Real.exp_add, neg_mul, neg_neg]
          ring
  · intro k
    refine Measurable.ite (measurableSet_lt (by fun_prop) measurable_const) ?_ measurable_const
    refine Measurable.mul (by fun_prop) ?_
    exact (hm (exitTo x k)).comp (measurable_const.add measurable_id)

theorem restVal_zero {d : ℕ} (hd : 2 ≤ d) {g : Mat} (hQ : IsQMatrix (toM d g)) (fin : ℝ) {θ : ℕ → ℕ → ℝ} (v : ℕ → ℝ) (j : Fin d)
    {s : ℝ} (hs : 0 < s) (x : Fin d) :
    restVal d g fin θ v j 0 s x ≤ (if x = j then ENNReal.ofReal (Real.exp ((g x x - v x) * s)) else 0) := by
  rw [restVal, loop_step 0 (by linarith) x.2, hold_exp _ _ _ (exitRates_ne hd g x.2) (rates_nonneg hQ x)]
  · have hz : stepVal d g fin θ v j 0 (fin - s) x = fun _ _ => 0 := by
      ext k h
      simp [stepVal, forwardsLoop, atJumps]
    unfold holdLaw
    rw [hz, exitRates_sum hQ.row x]
    simp only [mul_zero, lintegral_zero, Finset.sum_const_zero, zero_add]
    by_cases h0 : -g x x = 0
    · rw [if_pos h0, jumpWeight]
      have h1 : g x x = 0 := by linarith
      by_cases hxj : x = j
      · rw [if_pos hxj, if_pos (by rw [hxj]), h1]
        refine ENNReal.ofReal_le_ofReal (Real.exp_le_exp.2 ?_)
        linarith
      · rw [if_neg (fun h => hxj (Fin.ext h))]; exact zero_le
    · rw [if_neg h0]; exact zero_le
  · intro k
    have : stepVal d g fin θ v j 0 (fin - s) x k = fun _ => 0 := by
      ext h
      simp [stepVal, forwardsLoop, atJumps]
    rw [this]; exact measurable_const

/-- **Law of the loop.** -/
theorem restVal_tendsto {d : ℕ} (hd : 2 ≤ d) {g : Mat} (hQ : IsQMatrix (toM d g)) (fin : ℝ) {θ : ℕ → ℕ → ℝ} (hθ : ∀ i k, 0 ≤ θ i k) (v : ℕ → ℝ) (j : Fin d)
    {s : ℝ} (hs : 0 < s) (x : Fin d) :
    (∀ n, restVal d g fin θ v j n s x ≤ ENNReal.ofReal (NormedSpace.exp (s • tilted d g θ v) x j)) ∧
      Filter.Tendsto (fun n => restVal d g fin θ v j n s x) Filter.atTop (nhds (ENNReal.ofReal (NormedSpace.exp (s • tilted d g θ v) x j))) := by
  have hB : ∀ x y : Fin d, 0 ≤ offRates d g θ x y := by
    intro x y
    unfold offRates
    by_cases hxy : x = y
    · simp [hxy]
    · simp only [hxy, if_false]; exact mul_nonneg (hθ _ _) (hQ.off x y hxy)
  have := volterra_tendsto (tilted_eq d g θ v) hB (T := s) (j := j) (u := restVal d g fin θ v j) ?_
    (fun n s h1 _ x => restVal_step hd hQ fin hθ v j n h1 x) hs le_rfl x
  · rw [mexp_def] at this; exact this
  · intro s hs _ x
    refine (restVal_zero hd hQ fin v j hs x).trans ?_
    rw [exp_duhamel_ofReal (tilted_eq d g θ v) hB hs.le x j]
    exact le_self_add

theorem zip_fst_snd {α β : Type} (l : List (α × β)) : (l.map Prod.fst).zip (l.map Prod.snd) = l := by
  induction l with
  | nil => rfl
  | cons p l ih => simp only [List.map_cons, List.zip_cons_cons, ih]

/-- Expected weight of a simulated path. -/
theorem forwards_weight {d fuel : ℕ} {g : Mat} {fin : ℝ} (hf : 0 < fin) {θ : ℕ → ℕ → ℝ} (hθ : ∀ i k, 0 ≤ θ i k) (v : ℕ → ℝ) (j x : Fin d) :
    (sampleForwards (fuel + 1) d g fin (some x)).lexp (atSkel fun sk => sk.weight d θ v j) = restVal d g fin θ v j fuel fin x := by
  have hcongr : (sampleForwards (fuel + 1) d g fin (some x)).lexp (atSkel fun sk => sk.weight d θ v j) =
      (sampleForwards (fuel + 1) d g fin (some x)).lexp (atSkel fun sk => jumpWeight θ v fin j sk.jumps) := by
    refine Prog.lexp_congr fun r hr => ?_
    rcases r with e | sk
    · rfl
    · obtain ⟨h1, -⟩ := forwards_pathLike hf hr
      simp only [atSkel]
      rw [weight_eq_jumpWeight h1.valid h1.states hθ, h1.fin_eq]
  rw [hcongr, restVal, sub_self]
  simp only [sampleForwards, Prog.ret_bind, Prog.lexp_bind]
  refine Prog.lexp_congr fun r _ => ?_
  rcases r with e | l
  · rfl
  · simp only [Prog.cont_ok, Prog.lexp_ret, atSkel, atJumps, Skel.jumps]
    rw [zip_fst_snd]

end Ctb
