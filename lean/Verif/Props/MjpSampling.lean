import Verif.Lemmas.Propose
import Verif.Lemmas.Ppp
import Mathlib.Analysis.Complex.ExponentialBounds

/-!
# C06–C12, C14, C15: simulation of jump paths and Poisson processes

`p.Out r` ranges over everything `p` can return for some admissible draws; `p.Gen [0] r h'` over what it can return when
no uniform draw is exactly zero and no two draws tie (an event of probability one).
-/

set_option linter.unusedSectionVars false

namespace Ctb

variable {d : ℕ}

/-- Two-state generator used in the examples. -/
def flipGen : Mat := fun i j => if i = j then -1 else 1

theorem flipGen_isGenerator : IsGenerator 2 flipGen := by
  constructor
  · intro i _ j _ hij; simp [flipGen, hij]
  · intro i hi
    rw [Finset.sum_range_succ, Finset.sum_range_one]
    obtain rfl | rfl : i = 0 ∨ i = 1 := by omega
    · simp [flipGen]
    · simp [flipGen]

/-! ## C06 -/

/-- **C06.** Every path returned by `sample_forwards` started in `x0`. -/
theorem C06_forwards {fuel : ℕ} {g : Mat} {fin : ℝ} (hf : 0 < fin) {x0 : ℕ} {sk : Skel ℝ}
    (h : (sampleForwards fuel d g fin (some x0)).Out (.ok sk)) :
    sk.Valid ∧ sk.Reduced ∧ sk.StatesLt d ∧ sk.fin = fin ∧ sk.xt.head? = some x0 ∧
      sk.xt.IsChain fun i j => i ≠ j ∧ 0 < g i j := by
  obtain ⟨h1, h2⟩ := forwards_pathLike hf h
  exact ⟨h1.valid, h1.reduced, h1.states, h1.fin_eq, h2, h1.chain⟩

/-- Without an initial state the path starts in a state with positive stationary probability. -/
theorem C06_forwards_stationary {fuel : ℕ} {g : Mat} {fin : ℝ} (hf : 0 < fin) {sk : Skel ℝ}
    (h : (sampleForwards fuel d g fin none).Out (.ok sk)) :
    sk.Valid ∧ sk.Reduced ∧ sk.StatesLt d ∧ sk.fin = fin ∧ (sk.xt.IsChain fun i j => i ≠ j ∧ 0 < g i j) ∧
      ∃ p x, getStat d g = .ok p ∧ 0 < p x ∧ sk.xt.head? = some x.val := by
  obtain ⟨h1, h2⟩ := forwards_none_pathLike hf h
  exact ⟨h1.valid, h1.reduced, h1.states, h1.fin_eq, h1.chain, h2⟩

/-- With at least two states and non-negative rates no exception is raised (`fuel` only marks the recursion budget of
the model running out). -/
theorem C06_no_error {fuel : ℕ} {g : Mat} {fin : ℝ} (hd : 2 ≤ d) (hg : ∀ i < d, ∀ j < d, i ≠ j → 0 ≤ g i j) {x0 : ℕ}
    (hx : x0 < d) {e : PyErr} (h : (sampleForwards fuel d g fin (some x0)).Out (.error e)) : e = .fuel :=
  forwards_error hd hg hx h

/-- With a single state `np.argmin` of an empty array raises ValueError. -/
theorem C06_single_state_error {fuel : ℕ} {g : Mat} {fin : ℝ} (hf : 0 < fin) {r : Res (Skel ℝ)}
    (h : (sampleForwards (fuel + 1) 1 g fin (some 0)).Out r) : r = .error .value := by
  unfold sampleForwards at h
  simp only [Prog.ret_bind] at h
  unfold forwardsLoop at h
  simpa [hf, exitRates, Prog.mapM', argmin, Prog.lift] using h

/-- A run of three sojourns: stay 1 in state 0, stay 1 in state 1, and leave state 0 after the horizon. -/
example : (sampleForwards 4 2 flipGen (5 / 2) (some 0)).Out (.ok ⟨[0, 1, 2], [0, 1, 0], 5 / 2⟩) := by
  unfold sampleForwards
  simp only [Prog.ret_bind, Prog.out_bind_ok, Prog.out_ret]
  refine ⟨[(0, 0), (1, 1), (2, 0)], ?_, rfl⟩
  have hstep : ∀ (fuel : ℕ) (t : ℝ) (x : ℕ) (l : List (ℝ × ℕ)), t < 5 / 2 → x < 2 →
      (forwardsLoop 2 flipGen (5 / 2) fuel (t + 1) (1 - x)).Out (.ok l) →
      (forwardsLoop 2 flipGen (5 / 2) (fuel + 1) t x).Out (.ok ((t, x) :: l)) := by
    intro fuel t x l ht hx hl
    unfold forwardsLoop
    rw [if_pos ht, if_pos hx]
    have hr : exitRates 2 flipGen x = [1] := by
      obtain rfl | rfl : x = 0 ∨ x = 1 := by omega
      · simp [exitRates, flipGen, List.range_succ]
      · simp [exitRates, flipGen, List.range_succ]
    rw [hr, Prog.out_bind_ok]
    refine ⟨[((1 : ℝ) : WithTop ℝ)], ?_, ?_⟩
    · rw [Prog.out_mapM'_ok]
      refine .cons ?_ .nil
      unfold drawHold
      rw [if_pos one_pos]
      exact ⟨1, by simp [RDist.support], rfl⟩
    · simp only [argmin, Prog.lift, Prog.ret_bind]
      rw [Prog.out_bind_ok]
      refine ⟨l, ?_, rfl⟩
      have : (if x ≤ 0 then 0 + 1 else 0) = 1 - x := by
        obtain rfl | rfl : x = 0 ∨ x = 1 := by omega
        · rfl
        · rfl
      rw [this]; exact hl
  refine hstep 3 0 0 _ (by norm_num) (by norm_num) ?_
  have e1 : (0 : ℝ) + 1 = 1 := by norm_num
  rw [e1]
  refine hstep 2 1 1 _ (by norm_num) (by norm_num) ?_
  have e2 : (1 : ℝ) + 1 = 2 := by norm_num
  rw [e2]
  refine hstep 1 2 0 _ (by norm_num) (by norm_num) ?_
  unfold forwardsLoop
  rw [if_neg (by norm_num)]; rfl

/-! ## C12 -/

/-- **C12**, first half: every solution of the system `(gen.T - 1) x = -1` is a stationary law up to sign, for any
matrix with zero row sums. -/
theorem C12_solution [NeZero d] {G : Matrix (Fin d) (Fin d) ℝ} (hrow : ∀ i, ∑ j, G i j = 0) {x : Fin d → ℝ}
    (h : (G.transpose - Matrix.of fun _ _ => (1 : ℝ)).mulVec x = fun _ => -1) :
    ∑ i, x i = 1 ∧ ∀ j, ∑ i, x i * G i j = 0 :=
  statMat_const hrow h

/-- **C12**, second half: for positive rates `get_stat` returns the unique stationary law, which is positive. -/
theorem C12_get_stat [NeZero d] {g : Mat} (hg : IsGenerator d g) : ∃ p, getStat d g = .ok p ∧ (∀ i, 0 < p i) ∧
    ∑ i, p i = 1 ∧ (∀ j : Fin d, ∑ i : Fin d, p i * g i j = 0) ∧
    ∀ q : Fin d → ℝ, ∑ i, q i = 1 → (∀ j : Fin d, ∑ i : Fin d, q i * g i j = 0) → q = p :=
  hg.stat

/-- Whatever `get_stat` returns for a matrix with zero row sums is stationary. -/
theorem C12_get_stat_ok [NeZero d] {g : Mat} (hrow : ∀ i : Fin d, ∑ j : Fin d, g i j = 0) {p : Fin d → ℝ}
    (h : getStat d g = .ok p) : ∑ i, p i = 1 ∧ ∀ j : Fin d, ∑ i : Fin d, p i * g i j = 0 :=
  statMat_const (G := toM d g) hrow (getStat_ok h)

example : ∃ p, getStat 2 flipGen = .ok p ∧ p 0 = 1 / 2 := by
  obtain ⟨p, h1, -, h3, h4, -⟩ := C12_get_stat flipGen_isGenerator
  refine ⟨p, h1, ?_⟩
  have := h4 0
  simp [Fin.sum_univ_two, flipGen] at this h3
  linarith

/-! ## C08, C09 -/

/-- **C08.** The running sums of the jump-count search converge to the transition probability (times the common factor
`exp(rate_bound * fin_t)`), and for every uniform draw below one the search stops. -/
theorem C08_count_search [NeZero d] {G : Matrix (Fin d) (Fin d) ℝ} (h : IsQMatrix G) {fin : ℝ} (hf : 0 ≤ fin) (i f : Fin d) :
    HasSum (fun n : ℕ => (rateBound G * fin) ^ n / (n.factorial : ℝ) * (dtrans G ^ n) i f)
      (NormedSpace.exp (fin • G) i f * Real.exp (rateBound G * fin)) ∧
    ∀ U : ℝ, 0 ≤ U → U < 1 → ∃ N, ∀ fuel ≥ N, ∃ n, sampleNTrans fuel G fin i f U = .ok n := by
  have hs := h.hasSum_terms fin i f
  refine ⟨hs, ?_⟩
  intro U h0 h1
  set c := getTrans fin G i f * Real.exp (rateBound G * fin) with hc
  have hc0 : 0 ≤ c := mul_nonneg (h.getTrans_nonneg hf i f) (Real.exp_pos _).le
  obtain ⟨N, hN⟩ : ∃ N, U * c ≤ psum (nTransTerm G fin i f) N := by
    rcases hc0.eq_or_lt with h2 | h2
    · refine ⟨0, ?_⟩
      rw [← h2, mul_zero]
      exact Finset.sum_nonneg fun k _ => h.term_nonneg hf i f k
    · have ht := hs.tendsto_sum_nat
      have hlt : U * c < c := by nlinarith
      obtain ⟨N, hN⟩ := ((ht.eventually (lt_mem_nhds hlt)).exists)
      refine ⟨N, le_trans hN.le ?_⟩
      unfold psum
      exact Finset.sum_le_sum_of_subset_of_nonneg (Finset.range_mono (Nat.le_succ N))
        fun k _ _ => h.term_nonneg hf i f k
  refine ⟨N + 1, fun fuel hfu => ?_⟩
  obtain ⟨m, hm⟩ := nTransLoop_total hN fuel 0 (Nat.zero_le _) (by omega)
  refine ⟨m, ?_⟩
  unfold sampleNTrans
  rw [psum_zero_term, mul_assoc, ← hc]
  exact hm

example : IsQMatrix (toM 2 flipGen) := flipGen_isGenerator.toQ

/-- **C09.** `ome.choice` raises ValueError unless its vector is non-negative and sums to one; `sample_bridge` never
raises (`fuel` only marks the recursion budget of the model running out), so every vector handed over is a distribution.
The hypotheses allow zero rates and any history of drawn states. -/
theorem C09_bridge_no_error [NeZero d] {fuel : ℕ} {G : Matrix (Fin d) (Fin d) ℝ} (hQ : IsQMatrix G) {fin : ℝ} (hf : 0 ≤ fin)
    {i f : Fin d} {e : PyErr} (h : (sampleBridge fuel G fin i f).Out (.error e)) : e = .fuel :=
  bridge_error hQ hf h

/-- The same for the start-state distribution of `sample_backwards`. -/
theorem C09_backwards_no_error [NeZero d] {fuel : ℕ} {G : Matrix (Fin d) (Fin d) ℝ} (hQ : IsQMatrix G) {fin : ℝ}
    (hf : 0 ≤ fin) {f : Fin d} {e : PyErr} (h : (sampleBackwards fuel G fin f).Out (.error e)) : e = .fuel :=
  backwards_error hQ hf h

/-- The step vectors themselves: conditional on ending in `f` after `m` more steps. -/
theorem C09_step_distribution [NeZero d] {G : Matrix (Fin d) (Fin d) ℝ} (hQ : IsQMatrix G) {x f : Fin d} {m : ℕ}
    (hx : 0 < (dtrans G ^ (m + 1)) x f) :
    (∀ j, 0 ≤ dtrans G x j * (dtrans G ^ m) j f / (dtrans G ^ (m + 1)) x f) ∧
      ∑ j, dtrans G x j * (dtrans G ^ m) j f / (dtrans G ^ (m + 1)) x f = 1 :=
  stepProbs_valid hQ.dtrans_nonneg hx

/-! ## C07 -/

/-- **C07** for generic draws: endpoints connected in time `fin`, no exact zero among the uniform draws and no ties. -/
theorem C07_bridge_partial [NeZero d] {fuel : ℕ} {g : Mat} (hQ : IsQMatrix (toM d g)) {fin : ℝ} (hf : 0 < fin) {i f : Fin d}
    (hc : 0 < NormedSpace.exp (fin • toM d g) i f) {sk : Skel ℝ} {h' : List ℝ}
    (ho : (sampleBridge fuel (toM d g) fin i f).Gen [0] (.ok sk) h') :
    sk.Valid ∧ sk.Reduced ∧ sk.StatesLt d ∧ sk.fin = fin ∧ sk.xt.head? = some i.val ∧ sk.xt.getLast? = some f.val ∧
      sk.xt.IsChain fun a b => a ≠ b ∧ 0 < g a b := by
  obtain ⟨h1, h2, h3⟩ := bridge_pathLike hQ hf hc (by simp) ho
  exact ⟨h1.valid, h1.reduced, h1.states, h1.fin_eq, h2, h3, h1.chain⟩

/-- The full statement of C07 is false: when the first uniform draw is exactly 0 (numpy draws from `[0, 1)`), the
returned path stays in `i` for ever, whatever the required end state. -/
theorem C07_violated [NeZero d] {fuel : ℕ} {G : Matrix (Fin d) (Fin d) ℝ} {fin : ℝ} {i f : Fin d} (hif : i ≠ f) :
    ∃ sk, (sampleBridge (fuel + 1) G fin i f).Out (.ok sk) ∧ sk.xt.getLast? ≠ some f.val := by
  refine ⟨_, bridge_zero_draw, ?_⟩
  simpa using fun h => hif (Fin.ext h)

theorem flipGen_rateBound : rateBound (toM 2 flipGen) = 1 := by
  have h : ∀ j : Fin 2, toM 2 flipGen j j = -1 := fun j => by simp [toM, flipGen]
  unfold rateBound
  simp only [h]
  rw [neg_eq_iff_eq_neg]
  exact Finset.inf'_const ⟨0, Finset.mem_univ _⟩ (-1)

/-- The generic runs of C07 exist, with a jump: 0 → 1 at time 1/2. -/
example : (sampleBridge 3 (toM 2 flipGen) 1 0 1).Gen [0] (.ok ⟨[0, 1 / 2], [0, 1], 1⟩) [1 / 2, 1 / 4, 0] := by
  have hQ := flipGen_isGenerator.toQ
  have hr := flipGen_rateBound
  unfold sampleBridge
  rw [Prog.gen_real]
  refine ⟨1 / 4, ⟨1 / 4, by norm_num, by norm_num, by norm_num⟩, by simp, ?_⟩
  unfold bridgeFrom
  have hg := flipGen_isGenerator.getTrans_pos (d := 2) one_pos 0 1
  have hg1 := hQ.getTrans_le_one (fin := 1) (by norm_num) 0 1
  have h3 : Real.exp 1 < 4 := lt_trans Real.exp_one_lt_d9 (by norm_num)
  have h4 := Real.exp_pos 1
  have hterm : nTransTerm (toM 2 flipGen) 1 0 1 1 = 1 := by
    simp [nTransTerm, hr, dtrans, toM, flipGen]
  have hn : sampleNTrans 3 (toM 2 flipGen) 1 0 1 (1 / 4) = .ok 1 := by
    unfold sampleNTrans
    rw [hr, mul_one]
    have hlt : (0 : ℝ) < 1 / 4 * getTrans 1 (toM 2 flipGen) 0 1 * Real.exp 1 := by positivity
    have hle : 1 / 4 * getTrans 1 (toM 2 flipGen) 0 1 * Real.exp 1 ≤ 1 := by nlinarith
    unfold nTransLoop
    rw [if_neg (show ¬ (0 : Fin 2) = 1 by decide), if_pos hlt]
    unfold nTransLoop
    rw [if_neg]
    rw [zero_add, zero_add, hterm]; exact not_lt.2 hle
  rw [hn]
  simp only [Prog.lift, Prog.ret_bind]
  rw [if_neg (by simp)]
  simp only [bridgeSteps, Prog.ret_bind, Prog.replicate, Prog.draw, Prog.real_bind, Prog.gen_real]
  refine ⟨1 / 2, ⟨1 / 2, by norm_num, by norm_num, by norm_num⟩, by norm_num, ?_⟩
  simp [bridgeAssemble, npSort, select]

/-! ## C10 -/

/-- **C10** (for generic draws, see C07). -/
theorem C10_mutate_partial [NeZero d] {fuel : ℕ} {g : Mat} (hg : IsGenerator d g) {ps qs : List (Skel ℝ)}
    (hpos : ∀ p ∈ ps, 0 < p.fin) {h' : List ℝ} (ho : (mutatePartition fuel d g ps).Gen [0] (.ok qs) h') :
    qs.length = ps.length ∧ ∀ k p q, ps[k]? = some p → qs[k]? = some q →
      q.Valid ∧ q.Reduced ∧ q.StatesLt d ∧ q.fin = p.fin ∧
      (0 < k → q.xt.head? = p.xt.head?) ∧ (k + 1 < ps.length → q.xt.getLast? = p.xt.getLast?) := by
  obtain ⟨h1, h2⟩ := mutate_gen hg hpos (by simp) ho
  refine ⟨h1, fun k p q hp hq => ?_⟩
  have := h2 k p q hp hq
  exact ⟨this.path.valid, this.path.reduced, this.path.states, this.path.fin_eq, this.first, this.last⟩

/-- No exception on partitions into non-empty pieces with states of the generator (at least two states). -/
theorem C10_mutate_no_error [NeZero d] {fuel : ℕ} {g : Mat} (hd : 2 ≤ d) (hg : IsGenerator d g) {ps : List (Skel ℝ)}
    (hne : ps ≠ []) (hp : ∀ p ∈ ps, 0 ≤ p.fin ∧ p.xt ≠ [] ∧ p.StatesLt d) {e : PyErr}
    (h : (mutatePartition fuel d g ps).Out (.error e)) : e = .fuel :=
  mutate_error hd hg hne hp h

/-- The full statement of C10 is false for the same reason as C07: with a zero draw the mutated middle piece ends in the
wrong state. -/
theorem C10_violated : ∃ ps qs : List (Skel ℝ), (∀ p ∈ ps, p.Valid ∧ p.StatesLt 2) ∧
    (mutatePartition 2 2 flipGen ps).Out (.ok qs) ∧
    ∃ p q, ps[1]? = some p ∧ qs[1]? = some q ∧ 1 + 1 < ps.length ∧ q.xt.getLast? ≠ p.xt.getLast? := by
  refine ⟨[⟨[0], [1], 1⟩, ⟨[0, 1 / 2], [1, 0], 1⟩, ⟨[0], [0], 1⟩], [⟨[0], [1], 1⟩, ⟨[0], [1], 1⟩, ⟨[0], [0], 1⟩], ?_, ?_,
    ⟨[0, 1 / 2], [1, 0], 1⟩, ⟨[0], [1], 1⟩, rfl, rfl, by simp, by simp⟩
  · intro p hp
    simp only [List.mem_cons, List.not_mem_nil, or_false] at hp
    rcases hp with rfl | rfl | rfl
    · exact ⟨by constructor <;> simp, by simp [Skel.StatesLt]⟩
    · exact ⟨by constructor <;> simp <;> norm_num, by simp [Skel.StatesLt]⟩
    · exact ⟨by constructor <;> simp, by simp [Skel.StatesLt]⟩
  · have hQ := flipGen_isGenerator.toQ
    have hb : (sampleBackwards 2 (toM 2 flipGen) 1 (1 : Fin 2)).Out (.ok ⟨[0], [1], 1⟩) := by
      unfold sampleBackwards
      rw [Prog.out_bind_ok]
      refine ⟨1, ?_, bridge_zero_draw⟩
      have hpos : ∀ i, 0 < getTrans 1 (toM 2 flipGen) i 1 := fun i => flipGen_isGenerator.getTrans_pos one_pos i 1
      have hs : 0 < ∑ k, getTrans 1 (toM 2 flipGen) k 1 := Finset.sum_pos (fun i _ => hpos i) Finset.univ_nonempty
      unfold pyChoice
      rw [if_pos ⟨fun j => (div_pos (hpos j) hs).le, by rw [← Finset.sum_div, div_self hs.ne']⟩, Prog.out_nat]
      refine ⟨1, ⟨by norm_num, ?_⟩, by simp⟩
      have h12 : (1 : ℕ) < 2 := by norm_num
      simp only [h12, dif_pos]
      exact div_pos (hpos _) hs
    have hfw : (sampleForwards 2 2 flipGen 1 (some 0)).Out (.ok ⟨[0], [0], 1⟩) := by
      unfold sampleForwards
      simp only [Prog.ret_bind, Prog.out_bind_ok, Prog.out_ret]
      refine ⟨[(0, 0)], ?_, rfl⟩
      unfold forwardsLoop
      rw [if_pos one_pos, if_pos (by norm_num), Prog.out_bind_ok]
      refine ⟨[((2 : ℝ) : WithTop ℝ)], ?_, ?_⟩
      · have hr : exitRates 2 flipGen 0 = [1] := by simp [exitRates, flipGen, List.range_succ]
        rw [hr, Prog.out_mapM'_ok]
        refine .cons ?_ .nil
        unfold drawHold
        rw [if_pos one_pos]
        exact ⟨2, by simp [RDist.support], rfl⟩
      · simp only [argmin, Prog.lift, Prog.ret_bind]
        rw [Prog.out_bind_ok]
        refine ⟨[], ?_, rfl⟩
        unfold forwardsLoop
        rw [if_neg (by norm_num)]; rfl
    unfold mutatePartition
    dsimp only
    rw [Prog.out_bind_ok]
    refine ⟨1, by simp [lastState, asState], ?_⟩
    rw [Prog.out_bind_ok]
    refine ⟨_, hb, ?_⟩
    rw [Prog.out_bind_ok]
    refine ⟨0, by simp [firstState, asState], ?_⟩
    rw [Prog.out_bind_ok]
    refine ⟨_, by simpa using hfw, ?_⟩
    rw [Prog.out_bind_ok]
    refine ⟨[⟨[0], [1], 1⟩], ?_, rfl⟩
    rw [Prog.out_mapM'_ok]
    refine .cons ?_ .nil
    rw [Prog.out_bind_ok]
    refine ⟨1, by simp [firstState, asState], ?_⟩
    rw [Prog.out_bind_ok]
    refine ⟨0, by simp [lastState, asState], ?_⟩
    exact bridge_zero_draw

/-- Non-trivial partitions meet the hypotheses of C10. -/
example : ∃ ps : List (Skel ℝ), ps.length = 3 ∧ ps ≠ [] ∧ (∀ p ∈ ps, 0 < p.fin) ∧
    ∀ p ∈ ps, 0 ≤ p.fin ∧ p.xt ≠ [] ∧ p.StatesLt 2 := by
  refine ⟨[⟨[0], [1], 1⟩, ⟨[0, 1 / 2], [1, 0], 1⟩, ⟨[0], [0], 1⟩], rfl, by simp, by simp, ?_⟩
  intro p hp
  simp only [List.mem_cons, List.not_mem_nil, or_false] at hp
  rcases hp with rfl | rfl | rfl <;> simp [Skel.StatesLt]

/-! ## C11 -/

/-- **C11** (for generic draws, see C07): `t` strictly increasing within `[0, fin]`. -/
theorem C11_propose_partial [NeZero d] {fuel : ℕ} {ls : ℝ} {g : Mat} (hg : IsGenerator d g) {st : Skel ℝ} (hv : st.Valid)
    {t : List ℝ} (hs : t.Pairwise (· < ·)) (ht : ∀ a ∈ t, 0 ≤ a ∧ a ≤ st.fin) {prop : Skel ℝ} {tc h' : List ℝ}
    (ho : (mjpPropose fuel d ls st g t).Gen [0] (.ok (prop, tc)) h') :
    prop.Valid ∧ prop.Reduced ∧ prop.fin = st.fin ∧ prop.StatesLt d ∧ tc.Sublist t.tail.dropLast ∧
      ∀ s ∈ tc, prop.stateAt s = st.stateAt s :=
  propose_gen hg hv hs ht (by simp) ho

/-- Generic proposals never raise (grids of at least two points; `fuel` marks the recursion budget of the model). -/
theorem C11_propose_no_error [NeZero d] {fuel : ℕ} {ls : ℝ} {g : Mat} (hd : 2 ≤ d) (hg : IsGenerator d g) {st : Skel ℝ}
    (hv : st.Valid) (hst : st.StatesLt d) {t : List ℝ} (hs : t.Pairwise (· < ·)) (ht : ∀ a ∈ t, 0 ≤ a ∧ a ≤ st.fin)
    (h2 : 2 ≤ t.length) {e : PyErr} {h' : List ℝ}
    (ho : (mjpPropose fuel d ls st g t).Gen [0] (.error e) h') : e = .fuel :=
  propose_error hd hg hv hst hs ht h2 (by simp) ho

/-- A grid with fewer than two points makes `ome.uniform(size=len(t) - 2)` raise ValueError. -/
theorem C11_short_grid_error [NeZero d] {fuel : ℕ} {ls : ℝ} {g : Mat} {st : Skel ℝ} {t : List ℝ} (h2 : t.length < 2)
    {r : Res (Skel ℝ × List ℝ)} (ho : (mjpPropose fuel d ls st g t).Out r) : r = .error .value := by
  unfold mjpPropose condTimes at ho
  simpa [h2] using ho

example : ∃ (st : Skel ℝ) (t : List ℝ), st.Valid ∧ st.StatesLt 2 ∧ t.Pairwise (· < ·) ∧ (∀ a ∈ t, 0 ≤ a ∧ a ≤ st.fin) ∧
    t.length = 4 := by
  refine ⟨⟨[0, 1], [1, 0], 3⟩, [0, 1 / 2, 2, 3], by constructor <;> simp, by simp [Skel.StatesLt], ?_, ?_, rfl⟩
  · simp; norm_num
  · simp; norm_num

/-! ## C14 -/

/-- **C14.** With positive intensity and bounds `sample_ppp` draws one Poisson count with mean intensity times volume,
then returns exactly that many points, sorted by first coordinate, each inside the box; it raises nothing. -/
theorem C14_ppp {intensity : ℝ} {bound : List ℝ} (hi : 0 < intensity) (hne : bound ≠ []) (hb : ∀ b ∈ bound, 0 < b) :
    ∃ k, samplePpp intensity bound = .nat (.poisson (intensity * bound.prod)) k ∧ ∀ n r, (k n).Out r →
      ∃ rows, r = .ok rows ∧ rows.length = n ∧ rows.Pairwise (fun a b => a.headD 0 ≤ b.headD 0) ∧
        ∀ row ∈ rows, List.Forall₂ (fun b x => 0 ≤ x ∧ x < b) bound row := by
  have e : samplePpp intensity bound = .nat (.poisson (intensity * bound.prod)) fun n =>
      (Prog.replicate n (drawRow bound)).bind fun rows =>
        .ret (rows.insertionSort fun a b => firstCoord a ≤ firstCoord b) := by
    unfold samplePpp; simp only [Prog.assert, if_pos hi, Prog.ret_bind, if_neg hne, if_pos hb]
  refine ⟨_, e, ?_⟩
  intro n r h
  rcases r with e | rows
  · rw [Prog.out_bind_error] at h
    rcases h with h | ⟨l, -, h⟩
    · exact absurd h (replicate_no_error drawRow_no_error n)
    · simp at h
  · refine ⟨rows, rfl, ?_⟩
    rw [Prog.out_bind_ok] at h
    obtain ⟨l, hl, h⟩ := h
    simp only [Prog.out_ret, Except.ok.injEq] at h
    subst h
    rw [Prog.out_replicate_ok] at hl
    obtain ⟨h1, h2⟩ := sort_rows l
    refine ⟨by rw [h1.length_eq, hl.1], h2, ?_⟩
    intro row hr
    exact drawRow_ok hb (hl.2 row (h1.mem_iff.1 hr))

/-- A non-positive intensity or bound raises AssertionError. -/
theorem C14_assert {intensity : ℝ} {bound : List ℝ} (hne : bound ≠ [])
    (h : intensity ≤ 0 ∨ ∃ b ∈ bound, b ≤ 0) {r : Res (List (List ℝ))} (ho : (samplePpp intensity bound).Out r) :
    r = .error .assertion := by
  unfold samplePpp at ho
  by_cases hi : 0 < intensity
  · rcases h with h | ⟨b, hb, hb0⟩
    · exact absurd hi (not_lt.2 h)
    · have : ¬ ∀ b ∈ bound, 0 < b := fun hall => absurd (hall b hb) (not_lt.2 hb0)
      simpa [Prog.assert, hi, hne, this] using ho
  · simpa [Prog.assert, hi] using ho

/-! ## C15 -/

/-- **C15**, everything but the box in the first coordinate: batches, total number, order, the other coordinates, and the
bound on the first coordinate that does hold (batch number `k` is only kept below `(k + 1) * bounds[0]`; the first batch
is inside the box). -/
theorem C15_batch_partial {intensity b0 : ℝ} {bs : List ℝ} {size : ℕ} (hi : 0 < intensity) (hb : ∀ b ∈ b0 :: bs, 0 < b)
    (hs : 0 < size) :
    ∃ k, sampleBatchPpp intensity (b0 :: bs) size = .nat (.poisson (intensity * (b0 :: bs).prod)) k ∧ ∀ n r, (k n).Out r →
      ∃ batches, r = .ok batches ∧ batches.flatten.length = n ∧
        (∀ c ∈ batches, 0 < c.length ∧ c.length ≤ size) ∧ (∀ c ∈ batches.dropLast, c.length = size) ∧
        batches.flatten.Pairwise (fun a b => a.headD 0 ≤ b.headD 0) ∧
        (∀ p ∈ batches.flatten, 0 ≤ p.headD 0 ∧ p.length = bs.length + 1 ∧
          List.Forall₂ (fun b x => 0 ≤ x ∧ x < b) bs p.tail) ∧
        ∀ (j : ℕ) c, batches[j]? = some c → ∀ p ∈ c, p.headD 0 < (j + 1) * b0 := by
  have hs' : (0 : ℤ) < (size : ℤ) := by exact_mod_cast hs
  have e : sampleBatchPpp intensity (b0 :: bs) size = .nat (.poisson (intensity * (b0 :: bs).prod)) fun n =>
      pppLoop n b0 bs 0 (batchSizes n (size : ℤ).toNat) := by
    unfold sampleBatchPpp; simp only [Prog.assert, if_pos hi, Prog.ret_bind, if_pos hb, if_pos hs']
  refine ⟨_, e, ?_⟩
  intro n r h
  rcases r with e | out
  · exact absurd h (pppLoop_no_error _)
  refine ⟨out, rfl, ?_⟩
  have hsz := batchSizes_pos (n := n) (size := (size : ℤ).toNat) (by simpa using hs)
  obtain ⟨h1, h2, h3, h4⟩ := pppLoop_ok (hb b0 (by simp)) (fun b hb' => hb b (by simp [hb'])) _
    (fun i hi => (hsz i hi).1) h
  simp only [Int.toNat_natCast] at h1 hsz
  refine ⟨?_, ?_, ?_, h2, ?_, ?_⟩
  · rw [List.length_flatten, h1, batchSizes_sum]
  · intro c hc
    exact hsz c.length (by rw [← h1]; exact List.mem_map.2 ⟨c, hc, rfl⟩)
  · intro c hc
    apply batchSizes_dropLast (n := n)
    rw [← h1, ← List.map_dropLast]
    exact List.mem_map.2 ⟨c, hc, rfl⟩
  · intro p hp
    obtain ⟨a, b, c⟩ := h3 p hp
    refine ⟨a, ?_, c⟩
    have := c.length_eq
    rw [List.length_tail] at this
    have : 0 < p.length := List.length_pos_iff.2 b
    omega
  · intro j c hc p hp
    have := h4 j c hc p hp
    rwa [zero_add] at this

/-- The full statement of C15 is false: the second batch can leave the box (`bounds = (1,)`, batches of one point, two
points, beta draws 9/10 and 9/10 put the second point at 9/5). -/
theorem C15_box_violated : ∃ batches, (sampleBatchPpp 1 [1] 1).Out (.ok batches) ∧
    ∃ p ∈ batches.flatten, ¬ List.Forall₂ (fun b x => 0 ≤ x ∧ x < b) [1] p := by
  refine ⟨[[[9 / 10]], [[9 / 5]]], ?_, [9 / 5], by simp, by simp; norm_num⟩
  unfold sampleBatchPpp
  simp only [Prog.assert, zero_lt_one, if_true, Prog.ret_bind, List.mem_singleton, forall_eq, Prog.out_nat]
  refine ⟨2, by simp [NDist.support], ?_⟩
  have hsz : batchSizes 2 (Int.toNat 1) = [1, 1] := by simp [batchSizes, List.replicate]
  rw [hsz]
  have hb : ∀ lb ub : ℝ, ub = lb + 9 / 10 → (pppBatch 2 1 [] lb 1).Out (.ok (ub, [[ub]])) := by
    intro lb ub hub
    unfold pppBatch
    rw [Prog.out_real]
    refine ⟨9 / 10, by simp only [RDist.support, Set.mem_Ioo]; norm_num, ?_⟩
    simp [Prog.replicate, drawRow, Prog.mapM', hub]
  simp only [pppLoop, Prog.out_bind_ok]
  refine ⟨_, hb 0 (9 / 10) (by norm_num), _, ⟨_, hb (9 / 10) (9 / 5) (by norm_num), _, rfl, rfl⟩, rfl⟩

example : ∀ b ∈ (1 : ℝ) :: [2, 3], 0 < b := by simp

end Ctb
