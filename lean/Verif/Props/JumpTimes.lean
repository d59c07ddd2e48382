import Verif.Lemmas.ForwardFdd
import Verif.Props.ForwardLaw

/-! # C120: states of simulated jump processes at several times -/

set_option linter.unusedSectionVars false

namespace Ctb

open Classical MeasureTheory
open scoped ENNReal

variable {d : ℕ} [NeZero d]

theorem forwards_seen (fuel : ℕ) (g : Mat) (fin : ℝ) (x : ℕ) (cs : List (ℝ × ℕ)) :
    (sampleForwards fuel d g fin (some x)).prob (fun r => ∃ sk, r = .ok sk ∧ ∀ c ∈ cs, sk.stateAt c.1 = some c.2) = (forwardsLoop d g fin fuel 0 x).lexp (onOk (seen cs)) := by
  unfold Prog.prob
  simp only [sampleForwards, Prog.ret_bind, Prog.lexp_bind]
  refine Prog.lexp_congr fun r _ => ?_
  rcases r with e | l
  · simp [onOk]
  · simp only [Prog.cont_ok, Prog.lexp_ret, onOk, seen, Except.ok.injEq, exists_eq_left', Skel.stateAt, Skel.jumps]
    rw [zip_fst_snd]

/-- **C120.** Started in `x`, the simulated path is in given states at given times `0 < s₁ < … < sₙ < fin_t` with the probability of the jump process with this generator: the product of the
entries of `exp ((sᵢ₊₁ - sᵢ) · gen)`.  The probability with a bounded number of rounds increases to it. -/
theorem C120_states (hd : 2 ≤ d) {g : Mat} (hQ : IsQMatrix (toM d g)) {fin : ℝ} {cs : List (ℝ × Fin d)} (hf : 0 < fin) (hcs : ∀ c ∈ cs, c.1 < fin) (hp : (0 :: cs.map Prod.fst).Pairwise (· < ·)) (x : Fin d) :
    (∀ fuel, (sampleForwards fuel d g fin (some x)).prob (fun r => ∃ sk, r = .ok sk ∧ ∀ c ∈ cs, sk.stateAt c.1 = some c.2.val) ≤ ENNReal.ofReal (chainProb (toM d g) 0 x cs)) ∧
    Filter.Tendsto (fun fuel => (sampleForwards fuel d g fin (some x)).prob fun r => ∃ sk, r = .ok sk ∧ ∀ c ∈ cs, sk.stateAt c.1 = some c.2.val) Filter.atTop
      (nhds (ENNReal.ofReal (chainProb (toM d g) 0 x cs))) := by
  have e : ∀ fuel, (sampleForwards fuel d g fin (some x)).prob (fun r => ∃ sk, r = .ok sk ∧ ∀ c ∈ cs, sk.stateAt c.1 = some c.2.val) =
      (forwardsLoop d g fin fuel 0 x).lexp (onOk (seen (cs.map fun c => (c.1, (c.2 : ℕ))))) := fun fuel => by
    rw [← forwards_seen]
    simp only [List.forall_mem_map]
  simp only [e]
  exact (fdd_tendsto hd hQ cs 0 x hf hcs hp).2

theorem chainProb_append (G : Matrix (Fin d) (Fin d) ℝ) (cs cs' : List (ℝ × Fin d)) (s : ℝ) (y : Fin d) (t : ℝ) (x : Fin d) :
    chainProb G t x (cs ++ (s, y) :: cs') = chainProb G t x (cs ++ [(s, y)]) * chainProb G s y cs' := by
  induction cs generalizing t x with
  | nil => simp [chainProb]
  | cons c cs ih => obtain ⟨r, z⟩ := c; simp only [List.cons_append, chainProb, ih, mul_assoc]

theorem chainProb_shift (G : Matrix (Fin d) (Fin d) ℝ) (r : ℝ) (cs : List (ℝ × Fin d)) (t : ℝ) (x : Fin d) :
    chainProb G (t + r) x (cs.map fun c => (c.1 + r, c.2)) = chainProb G t x cs := by
  induction cs generalizing t x with
  | nil => rfl
  | cons c cs ih => obtain ⟨s, z⟩ := c; simp only [List.map_cons, chainProb, ih, add_sub_add_right_eq_sub]

/-- **C120, Markov property.** Past states `cs`, state `y` at `s`, future states `cs'`, which are counted from `s`: the joint probability is that of past and present times that of the same future
for a fresh simulation started in `y`, of any horizon that covers it. -/
theorem C120_markov (hd : 2 ≤ d) {g : Mat} (hQ : IsQMatrix (toM d g)) {fin fin' : ℝ} {cs cs' : List (ℝ × Fin d)} {s : ℝ} (y : Fin d)
    (hp : (0 :: (cs ++ (s, y) :: cs'.map fun c => (s + c.1, c.2)).map Prod.fst).Pairwise (· < ·)) (hf : ∀ c ∈ cs ++ (s, y) :: cs'.map (fun c => (s + c.1, c.2)), c.1 < fin)
    (hf0 : 0 < fin') (hf' : ∀ c ∈ cs', c.1 < fin') (x : Fin d) :
    ∃ past future : ℝ≥0∞,
      Filter.Tendsto (fun fuel => (sampleForwards fuel d g fin (some x)).prob fun r => ∃ sk, r = .ok sk ∧ ∀ c ∈ cs ++ [(s, y)], sk.stateAt c.1 = some c.2.val) Filter.atTop (nhds past) ∧
      Filter.Tendsto (fun fuel => (sampleForwards fuel d g fin' (some y)).prob fun r => ∃ sk, r = .ok sk ∧ ∀ c ∈ cs', sk.stateAt c.1 = some c.2.val) Filter.atTop (nhds future) ∧
      Filter.Tendsto (fun fuel => (sampleForwards fuel d g fin (some x)).prob fun r => ∃ sk, r = .ok sk ∧
        (∀ c ∈ cs ++ [(s, y)], sk.stateAt c.1 = some c.2.val) ∧ ∀ c ∈ cs', sk.stateAt (s + c.1) = some c.2.val) Filter.atTop (nhds (past * future)) := by
  have hs0 : 0 < s := by rw [List.pairwise_cons] at hp; exact hp.1 s (by simp)
  have hfin : 0 < fin := hs0.trans (hf (s, y) (by simp))
  have hpast : (0 :: (cs ++ [(s, y)]).map Prod.fst).Pairwise (· < ·) := by
    refine hp.sublist (List.Sublist.cons_cons _ (List.Sublist.map _ ((List.Sublist.refl cs).append ?_)))
    simp
  have hfut : ((0 : ℝ) :: cs'.map Prod.fst).Pairwise (· < ·) := by
    have h1 : ((s, y) :: cs'.map fun c => (s + c.1, c.2)).map Prod.fst = (0 :: cs'.map Prod.fst).map (s + ·) := by simp [Function.comp_def]
    have h2 : (((s, y) :: cs'.map fun c => (s + c.1, c.2)).map Prod.fst).Pairwise (· < ·) := by
      refine hp.sublist (List.Sublist.cons _ (List.Sublist.map _ ?_))
      exact List.sublist_append_right _ _
    rw [h1, List.pairwise_map] at h2
    exact h2.imp fun h => by simpa using h
  have hfp : ∀ c ∈ cs ++ [(s, y)], c.1 < fin := fun c hc => hf c (by
    rcases List.mem_append.1 hc with h | h
    · simp [h]
    · simp only [List.mem_singleton] at h; simp [h])
  refine ⟨_, _, (C120_states hd hQ hfin hfp hpast x).2, (C120_states hd hQ hf0 hf' hfut y).2, ?_⟩
  have h := (C120_states hd hQ hfin hf hp x).2
  have hnn := (fdd_tendsto hd hQ (cs ++ [(s, y)]) 0 x hfin hfp hpast).1
  have e : chainProb (toM d g) s y (cs'.map fun c => (s + c.1, c.2)) = chainProb (toM d g) 0 y cs' := by
    rw [← chainProb_shift (toM d g) s cs' 0 y, zero_add]
    simp only [add_comm]
  rw [chainProb_append, e, ENNReal.ofReal_mul hnn] at h
  have hev : ∀ sk : Skel ℝ, (∀ c ∈ cs ++ (s, y) :: cs'.map (fun c => (s + c.1, c.2)), sk.stateAt c.1 = some c.2.val) ↔
      (∀ c ∈ cs ++ [(s, y)], sk.stateAt c.1 = some c.2.val) ∧ ∀ c ∈ cs', sk.stateAt (s + c.1) = some c.2.val := by
    intro sk
    rw [show cs ++ (s, y) :: cs'.map (fun c => (s + c.1, c.2)) = (cs ++ [(s, y)]) ++ cs'.map (fun c => (s + c.1, c.2)) by simp, List.forall_mem_append, List.forall_mem_map]
  simp only [hev] at h
  exact h

/-- **C120, stationarity.** Without an initial state, the states at several times have a law that does not change when all times move by `r`: first the law of `get_stat`, then the transition
probabilities. -/
theorem C120_stationary (hd : 2 ≤ d) {g : Mat} (hg : IsGenerator d g) {fin : ℝ} {s : ℝ} {y : Fin d} {cs : List (ℝ × Fin d)} :
    ∃ p, getStat d g = .ok p ∧ ∀ r : ℝ, (∀ c ∈ (s, y) :: cs, c.1 + r < fin) → (0 :: ((s, y) :: cs).map fun c => c.1 + r).Pairwise (· < ·) →
      Filter.Tendsto (fun fuel => (sampleForwards fuel d g fin none).prob fun q => ∃ sk, q = .ok sk ∧ ∀ c ∈ (s, y) :: cs, sk.stateAt (c.1 + r) = some c.2.val) Filter.atTop
        (nhds (ENNReal.ofReal (p y * chainProb (toM d g) s y cs))) := by
  obtain ⟨p, hp, hpos, hsum, hst, -⟩ := C12_get_stat hg
  refine ⟨p, hp, fun r hf hpw => ?_⟩
  have hs0 : 0 < s + r := by rw [List.pairwise_cons] at hpw; exact hpw.1 (s + r) (by simp)
  have hfin : 0 < fin := hs0.trans (hf (s, y) (by simp))
  have hf' : ∀ c ∈ ((s, y) :: cs).map (fun c => (c.1 + r, c.2)), c.1 < fin := by
    intro c hc
    obtain ⟨b, hb, rfl⟩ := List.mem_map.1 hc
    exact hf b hb
  have hp' : (0 :: (((s, y) :: cs).map fun c => (c.1 + r, c.2)).map Prod.fst).Pairwise (· < ·) := by
    rw [List.map_map]; exact hpw
  have hlim := tendsto_finsetSum Finset.univ fun (x : Fin d) _ =>
    ENNReal.Tendsto.const_mul (a := ENNReal.ofReal (p x)) (C120_states hd hg.toQ hfin hf' hp' x).2 (Or.inr ENNReal.ofReal_ne_top)
  have hc0 : 0 ≤ chainProb (toM d g) (s + r) y (cs.map fun c => (c.1 + r, c.2)) := by
    refine (fdd_tendsto hd hg.toQ _ (s + r) y (hf (s, y) (by simp)) (fun c hc => hf' c (by simp only [List.map_cons, List.mem_cons]; exact .inr hc)) ?_).1
    simpa using (List.pairwise_cons.1 hp').2
  have he : ∑ x, ENNReal.ofReal (p x) * ENNReal.ofReal (chainProb (toM d g) 0 x (((s, y) :: cs).map fun c => (c.1 + r, c.2))) =
      ENNReal.ofReal (p y * chainProb (toM d g) s y cs) := by
    have h2 : ENNReal.ofReal (∑ i, p i * getTrans (s + r - 0) (toM d g) i y * chainProb (toM d g) (s + r) y (cs.map fun c => (c.1 + r, c.2))) =
        ∑ i, ENNReal.ofReal (p i * getTrans (s + r - 0) (toM d g) i y * chainProb (toM d g) (s + r) y (cs.map fun c => (c.1 + r, c.2))) :=
      ENNReal.ofReal_sum_of_nonneg fun i _ => mul_nonneg (mul_nonneg (hpos i).le (hg.toQ.getTrans_nonneg (by linarith) i y)) hc0
    rw [← chainProb_shift (toM d g) r cs s y, ← stationary_exp hst (s + r - 0) y, Finset.sum_mul]
    refine Eq.trans ?_ h2.symm
    refine Finset.sum_congr rfl fun i _ => ?_
    rw [← ENNReal.ofReal_mul (hpos i).le]
    simp only [List.map_cons, chainProb, mul_assoc]
    rfl
  rw [he] at hlim
  refine hlim.congr fun fuel => ?_
  unfold Prog.prob
  rw [forwards_none_exp hg hp]
  refine Finset.sum_congr rfl fun x _ => ?_
  simp only [List.forall_mem_map]

/-- The flip process, observed in state 0 at time 1 and in state 1 at time 3. -/
example : Filter.Tendsto (fun fuel => (sampleForwards fuel 2 flipGen 4 (some 0)).prob fun r => ∃ sk, r = .ok sk ∧ ∀ c ∈ [((1 : ℝ), (0 : Fin 2)), (3, 1)], sk.stateAt c.1 = some c.2.val) Filter.atTop
    (nhds (ENNReal.ofReal (NormedSpace.exp ((1 : ℝ) • toM 2 flipGen) 0 0 * NormedSpace.exp ((2 : ℝ) • toM 2 flipGen) 0 1))) := by
  have h := (C120_states (d := 2) le_rfl flipGen_isGenerator.toQ (fin := 4) (cs := [((1 : ℝ), (0 : Fin 2)), (3, 1)]) (by norm_num) (by simp; try norm_num) (by simp; try norm_num) 0).2
  simp only [chainProb, mul_one] at h
  norm_num at h ⊢
  exact h

/-- Past: state 1 at time 1; present: state 0 at time 2; future: state 1 one unit later. -/
example : ∃ past future : ℝ≥0∞,
    Filter.Tendsto (fun fuel => (sampleForwards fuel 2 flipGen 4 (some 0)).prob fun r => ∃ sk, r = .ok sk ∧ ∀ c ∈ [((1 : ℝ), (1 : Fin 2)), (2, 0)], sk.stateAt c.1 = some c.2.val) Filter.atTop (nhds past) ∧
    Filter.Tendsto (fun fuel => (sampleForwards fuel 2 flipGen 2 (some 0)).prob fun r => ∃ sk, r = .ok sk ∧ ∀ c ∈ [((1 : ℝ), (1 : Fin 2))], sk.stateAt c.1 = some c.2.val) Filter.atTop (nhds future) ∧
    Filter.Tendsto (fun fuel => (sampleForwards fuel 2 flipGen 4 (some 0)).prob fun r => ∃ sk, r = .ok sk ∧
      (∀ c ∈ [((1 : ℝ), (1 : Fin 2)), (2, 0)], sk.stateAt c.1 = some c.2.val) ∧ ∀ c ∈ [((1 : ℝ), (1 : Fin 2))], sk.stateAt (2 + c.1) = some c.2.val) Filter.atTop (nhds (past * future)) :=
  C120_markov (d := 2) le_rfl flipGen_isGenerator.toQ (fin := 4) (fin' := 2) (cs := [(1, 1)]) (cs' := [(1, 1)]) (s := 2) 0 (by simp; norm_num) (by simp; norm_num) (by norm_num) (by simp) 0

/-- The same process started from its stationary law, at times 1 and 3 or 2 and 4. -/
example : ∃ p, getStat 2 flipGen = .ok p ∧ ∀ r ∈ [(0 : ℝ), 1],
    Filter.Tendsto (fun fuel => (sampleForwards fuel 2 flipGen 5 none).prob fun q => ∃ sk, q = .ok sk ∧ ∀ c ∈ [((1 : ℝ), (0 : Fin 2)), (3, 1)], sk.stateAt (c.1 + r) = some c.2.val) Filter.atTop
      (nhds (ENNReal.ofReal (p 0 * chainProb (toM 2 flipGen) 1 0 [(3, 1)]))) := by
  obtain ⟨p, h1, h2⟩ := C120_stationary (d := 2) le_rfl flipGen_isGenerator (fin := 5) (s := 1) (y := 0) (cs := [(3, 1)])
  refine ⟨p, h1, fun r hr => h2 r ?_ ?_⟩ <;> rcases List.mem_cons.1 hr with rfl | hr <;> simp at hr ⊢ <;> norm_num [hr]

end Ctb
