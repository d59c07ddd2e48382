import Verif.Lemmas.Bfactories

/-! # C28-C31: Bernoulli factories -/

namespace Ctb

open scoped ENNReal

variable {σ τ : Type}

/-! ## C28 -/

/-- The results of `sample_twocoin` are exactly: the first successful flip's side and proposal, an escape in a failed round
reporting `prop0`, an exception raised by a coin, or the budget exception after exactly `maxProps` failed rounds. -/
theorem C28_results (w1 w2 : ℝ) (c1 c2 : Coin σ τ) (prk : ℝ) (prop0 : τ) (maxProps : ℕ) (s : σ) (r : Res (Verdict σ τ)) :
    (sampleTwocoin w1 w2 c1 c2 prk prop0 maxProps s).Out r ↔
      TwocoinResult (sideProb w1 w2) (fun side => if side then c1 else c2) prk (fun _ => prop0) maxProps s r := by
  rw [sampleTwocoin, twocoinLoop_eq, genLoop_out, exp_v1]

/-- With coins that never raise, the budget exception needs `maxProps` failed rounds, and an escape needs a positive
portkey probability. -/
theorem C28_budget (w1 w2 : ℝ) (c1 c2 : Coin σ τ) (prk : ℝ) (prop0 : τ) (maxProps : ℕ) (s : σ)
    (h1 : ∀ s e, ¬ (c1 s).Out (.error e)) (h2 : ∀ s e, ¬ (c2 s).Out (.error e)) (e : PyErr) :
    (sampleTwocoin w1 w2 c1 c2 prk prop0 maxProps s).Out (.error e) ↔
      e = .budget ∧ ∃ s', FailRun (sideProb w1 w2) (fun side => if side then c1 else c2) prk maxProps s s' := by
  rw [C28_results]
  constructor
  · rintro (⟨k, _, s1, _, u, side, x, s2, _, _, _, h⟩ | ⟨k, _, s1, _, u, u', side, x, s2, _, _, _, _, _, h⟩ |
      ⟨k, _, s1, _, u, side, e', _, _, h, _⟩ | ⟨s1, hf, h⟩)
    · simp at h
    · simp at h
    · cases side
      · exact absurd h (h2 s1 e')
      · exact absurd h (h1 s1 e')
    · simp only [Except.error.injEq] at h; exact ⟨h, s1, hf⟩
  · rintro ⟨rfl, s1, hf⟩
    exact .inr (.inr (.inr ⟨s1, hf, rfl⟩))

/-- Without portkey no escape is reported. -/
theorem C28_no_escape (w1 w2 : ℝ) (c1 c2 : Coin σ τ) (prop0 : τ) (maxProps : ℕ) (s : σ) {acc esc : Bool} {x : τ} {s' : σ}
    (h : (sampleTwocoin w1 w2 c1 c2 0 prop0 maxProps s).Out (.ok ((acc, esc, x), s'))) : esc = false := by
  rw [C28_results] at h
  rcases h with ⟨k, _, s1, _, u, side, x, s2, _, _, _, h⟩ | ⟨k, _, s1, _, u, u', side, x, s2, _, _, _, h0, h1, h⟩ |
      ⟨k, _, s1, _, u, side, e', _, _, _, h⟩ | ⟨s1, hf, h⟩
  · simp only [Except.ok.injEq, Prod.mk.injEq] at h; exact h.1.2.1
  · linarith [h0.1]
  · simp at h
  · simp at h

/-- A coin that counts its flips in its state and succeeds from the third flip on. -/
def countingCoin : Coin ℕ ℕ := fun n => .ret (decide (2 ≤ n), n, n + 1)

/-- The search over two counting coins that share their counter succeeds in its third round. -/
example : (sampleTwocoin 0 0 countingCoin countingCoin 0 7 5 0).Out (.ok ((true, false, 2), 3)) := by
  have hq : sideProb 0 0 = 1 / 2 := by unfold sideProb; norm_num
  have f : ∀ n : ℕ, n < 2 → ∀ {k s''}, FailRun (1 / 2) (fun side => if side then countingCoin else countingCoin) 0 k (n + 1) s'' →
      FailRun (1 / 2) (fun side => if side then countingCoin else countingCoin) 0 (k + 1) n s'' := by
    intro n hn k s'' h
    refine .cons (u := 0) (u' := 0) (x := n) (side := true) ⟨le_rfl, one_pos⟩ (by norm_num) ?_ ⟨le_rfl, one_pos⟩ le_rfl h
    have : ¬ 2 ≤ n := by omega
    simp [countingCoin, this]
  rw [C28_results, hq]
  refine .inl ⟨2, by norm_num, 2, f 0 (by norm_num) (f 1 (by norm_num) (.nil _)), 0, true, 2, 3, ⟨le_rfl, one_pos⟩, by norm_num, ?_, rfl⟩
  simp [countingCoin]

/-! ## C29 -/

theorem sideWeight (w1 w2 : ℝ) (p : ℝ≥0∞) :
    ENNReal.ofReal (sideProb w1 w2) * p * ENNReal.ofReal (Real.exp w1 + Real.exp w2) = ENNReal.ofReal (Real.exp w1) * p := by
  have : 0 < Real.exp w1 + Real.exp w2 := by positivity
  rw [mul_right_comm, ← ENNReal.ofReal_mul (sideProb_pos _ _).le, sideProb, div_mul_cancel₀ _ this.ne']

theorem sideWeight' (w1 w2 : ℝ) (p : ℝ≥0∞) :
    ENNReal.ofReal (1 - sideProb w1 w2) * p * ENNReal.ofReal (Real.exp w1 + Real.exp w2) = ENNReal.ofReal (Real.exp w2) * p := by
  rw [← sideProb_swap, add_comm, sideWeight]

theorem prob_accepted (p : Prog (Verdict σ τ)) : p.prob Accepted = p.lexp (verdictVal 1 0 0 0) := by
  unfold Prog.prob
  congr 1; ext r
  rcases r with e | ⟨⟨acc, esc, x⟩, s⟩
  · simp [Accepted, verdictVal]
  · cases acc <;> cases esc <;> simp [Accepted, verdictVal]

theorem prob_returned (p : Prog (Verdict σ τ)) : p.prob Returned = p.lexp (verdictVal 1 1 1 0) := by
  unfold Prog.prob
  congr 1; ext r
  rcases r with e | ⟨⟨acc, esc, x⟩, s⟩
  · simp [Returned, verdictVal]
  · cases acc <;> cases esc <;> simp [Returned, verdictVal]

theorem prob_not_returned (p : Prog (Verdict σ τ)) : p.prob (fun r => ¬ Returned r) = p.lexp (verdictVal 0 0 0 1) := by
  unfold Prog.prob
  congr 1; ext r
  rcases r with e | ⟨⟨acc, esc, x⟩, s⟩
  · simp [Returned, verdictVal]
  · cases acc <;> cases esc <;> simp [Returned, verdictVal]

/-- Exact probability of acceptance, any portkey rate and budget: a geometric sum. -/
theorem C29_accept_prob {I : Set σ} {c1 c2 : Coin σ τ} {p1 p2 : ℝ≥0∞} (h1 : IsCoin I c1 p1) (h2 : IsCoin I c2 p2) (w1 w2 : ℝ) {prk : ℝ}
    (hk : 0 ≤ prk ∧ prk ≤ 1) (prop0 : τ) (n : ℕ) {s : σ} (hs : s ∈ I) :
    (sampleTwocoin w1 w2 c1 c2 prk prop0 n s).prob Accepted =
      ENNReal.ofReal (sideProb w1 w2) * p1 * ∑ k ∈ Finset.range n, failProb (sideProb w1 w2) p1 p2 prk ^ k := by
  rw [prob_accepted, sampleTwocoin, twocoinLoop_eq,
    genLoop_lexp (by rw [exp_v1]; exact (sideProb_lt_one _ _).le) (c := fun b => if b then c1 else c2) (by simpa using h1)
      (by simpa using h2) hk _ _ _ _ _ _ hs, exp_v1]
  simp

/-- No portkey: acceptance probability conditional on returning is `e^w1 p1 / (e^w1 p1 + e^w2 p2)`, for every budget
(in product form, so also when the denominator vanishes). -/
theorem C29_twocoin {I : Set σ} {c1 c2 : Coin σ τ} {p1 p2 : ℝ≥0∞} (h1 : IsCoin I c1 p1) (h2 : IsCoin I c2 p2) (w1 w2 : ℝ) (prop0 : τ) (n : ℕ) {s : σ} (hs : s ∈ I) :
    (sampleTwocoin w1 w2 c1 c2 0 prop0 n s).prob Accepted * (ENNReal.ofReal (Real.exp w1) * p1 + ENNReal.ofReal (Real.exp w2) * p2) =
      ENNReal.ofReal (Real.exp w1) * p1 * (sampleTwocoin w1 w2 c1 c2 0 prop0 n s).prob Returned := by
  rw [C29_accept_prob h1 h2 w1 w2 ⟨le_rfl, zero_le_one⟩ _ _ hs, prob_returned, sampleTwocoin, twocoinLoop_eq,
    genLoop_lexp (by rw [exp_v1]; exact (sideProb_lt_one _ _).le) (c := fun b => if b then c1 else c2) (by simpa using h1)
      (by simpa using h2) ⟨le_rfl, zero_le_one⟩ _ _ _ _ _ _ hs, exp_v1, ← sideWeight w1 w2, ← sideWeight' w1 w2 p2]
  simp only [ENNReal.ofReal_zero, mul_zero, mul_one, add_zero]
  ring

/-- The search returns except with probability `(1 - q p1 - (1-q) p2)^n`, given as the product of failure probabilities. -/
theorem C29_budget_prob {I : Set σ} {c1 c2 : Coin σ τ} {p1 p2 : ℝ≥0∞} (h1 : IsCoin I c1 p1) (h2 : IsCoin I c2 p2) (w1 w2 : ℝ) (prop0 : τ) (n : ℕ) {s : σ} (hs : s ∈ I) :
    (sampleTwocoin w1 w2 c1 c2 0 prop0 n s).prob (fun r => ¬ Returned r) =
      (ENNReal.ofReal (sideProb w1 w2) * (1 - p1) + ENNReal.ofReal (1 - sideProb w1 w2) * (1 - p2)) ^ n := by
  rw [prob_not_returned, sampleTwocoin, twocoinLoop_eq,
    genLoop_lexp (by rw [exp_v1]; exact (sideProb_lt_one _ _).le) (c := fun b => if b then c1 else c2) (by simpa using h1)
      (by simpa using h2) ⟨le_rfl, zero_le_one⟩ _ _ _ _ _ _ hs, exp_v1]
  simp [failProb]

/-- Quotient form, for coins that do not both fail surely and a positive budget. -/
theorem C29_conditional {I : Set σ} {c1 c2 : Coin σ τ} {p1 p2 : ℝ≥0∞} (h1 : IsCoin I c1 p1) (h2 : IsCoin I c2 p2) (hp1 : p1 ≤ 1) (hp2 : p2 ≤ 1)
    (hp : p1 ≠ 0 ∨ p2 ≠ 0) (w1 w2 : ℝ) (prop0 : τ) (n : ℕ) (hn : 0 < n) {s : σ} (hs : s ∈ I) :
    (sampleTwocoin w1 w2 c1 c2 0 prop0 n s).prob Accepted / (sampleTwocoin w1 w2 c1 c2 0 prop0 n s).prob Returned =
      ENNReal.ofReal (Real.exp w1) * p1 / (ENNReal.ofReal (Real.exp w1) * p1 + ENNReal.ofReal (Real.exp w2) * p2) := by
  have key := C29_twocoin h1 h2 w1 w2 prop0 n hs
  have e1 : ENNReal.ofReal (Real.exp w1) ≠ 0 := by simp [Real.exp_pos]
  have e2 : ENNReal.ofReal (Real.exp w2) ≠ 0 := by simp [Real.exp_pos]
  have hd0 : ENNReal.ofReal (Real.exp w1) * p1 + ENNReal.ofReal (Real.exp w2) * p2 ≠ 0 := by
    rcases hp with hp | hp
    · simp [e1, hp]
    · simp [e2, hp]
  have hd1 : ENNReal.ofReal (Real.exp w1) * p1 + ENNReal.ofReal (Real.exp w2) * p2 ≠ ∞ :=
    ENNReal.add_ne_top.2 ⟨ENNReal.mul_ne_top ENNReal.ofReal_ne_top (ne_top_of_le_ne_top ENNReal.one_ne_top hp1),
      ENNReal.mul_ne_top ENNReal.ofReal_ne_top (ne_top_of_le_ne_top ENNReal.one_ne_top hp2)⟩
  set G := ∑ k ∈ Finset.range n, failProb (sideProb w1 w2) p1 p2 0 ^ k with hG
  have hR : (sampleTwocoin w1 w2 c1 c2 0 prop0 n s).prob Returned =
      (ENNReal.ofReal (sideProb w1 w2) * p1 + ENNReal.ofReal (1 - sideProb w1 w2) * p2) * G := by
    rw [prob_returned, sampleTwocoin, twocoinLoop_eq,
      genLoop_lexp (by rw [exp_v1]; exact (sideProb_lt_one _ _).le) (c := fun b => if b then c1 else c2) (by simpa using h1)
        (by simpa using h2) ⟨le_rfl, zero_le_one⟩ _ _ _ _ _ _ hs, exp_v1]
    simp [hG]
  have hq1 : ENNReal.ofReal (sideProb w1 w2) ≠ 0 := by simp [sideProb_pos]
  have hq2 : ENNReal.ofReal (1 - sideProb w1 w2) ≠ 0 := by simp [sideProb_lt_one]
  have hG0 : G ≠ 0 := by
    intro h
    have := (Finset.sum_eq_zero_iff.1 (hG.symm.trans h)) 0 (Finset.mem_range.2 hn)
    simp at this
  have hF : failProb (sideProb w1 w2) p1 p2 0 ≠ ∞ := by
    unfold failProb
    refine ENNReal.mul_ne_top (ENNReal.add_ne_top.2 ⟨?_, ?_⟩) ENNReal.ofReal_ne_top
    · exact ENNReal.mul_ne_top ENNReal.ofReal_ne_top (ENNReal.sub_ne_top ENNReal.one_ne_top)
    · exact ENNReal.mul_ne_top ENNReal.ofReal_ne_top (ENNReal.sub_ne_top ENNReal.one_ne_top)
  have hG1 : G ≠ ∞ := by
    rw [hG]; exact ENNReal.sum_ne_top.2 fun k _ => ENNReal.pow_ne_top hF
  have hR0 : (sampleTwocoin w1 w2 c1 c2 0 prop0 n s).prob Returned ≠ 0 := by
    rw [hR]
    refine mul_ne_zero ?_ hG0
    rcases hp with hp | hp
    · simp [hq1, hp]
    · simp [hq2, hp]
  have hR1 : (sampleTwocoin w1 w2 c1 c2 0 prop0 n s).prob Returned ≠ ∞ := by
    rw [hR]
    refine ENNReal.mul_ne_top (ENNReal.add_ne_top.2 ⟨?_, ?_⟩) hG1
    · exact ENNReal.mul_ne_top ENNReal.ofReal_ne_top (ne_top_of_le_ne_top ENNReal.one_ne_top hp1)
    · exact ENNReal.mul_ne_top ENNReal.ofReal_ne_top (ne_top_of_le_ne_top ENNReal.one_ne_top hp2)
  rw [ENNReal.div_eq_div_iff hd0 hd1 hR0 hR1, mul_comm, key, mul_comm]

/-- A coin made from a uniform draw, `np.random.uniform() < p` (the coins of the doctest). -/
noncomputable def uniformCoin (p : ℝ) : Coin Unit Unit := fun _ =>
  open scoped Classical in .real (.uniform 0 1) fun u => .ret (decide (u < p), (), ())

theorem uniformCoin_isCoin {p : ℝ} (h0 : 0 ≤ p) (h1 : p ≤ 1) : IsCoin Set.univ (uniformCoin p) (ENNReal.ofReal p) := by
  classical
  intro s _
  refine ⟨fun a b e => ?_, fun _ _ => trivial⟩
  rw [← ENNReal.ofReal_one, ← ENNReal.ofReal_sub _ h0, ← lintegral_uniform_lt h0 h1]
  simp only [uniformCoin, Prog.lexp_real, Prog.lexp_ret]
  congr 1; ext u
  by_cases h : u < p <;> simp [h, coinVal]

example : IsCoin Set.univ (uniformCoin (1 / 3)) (ENNReal.ofReal (1 / 3)) ∧ ENNReal.ofReal (1 / 3) ≤ 1 ∧ ENNReal.ofReal (1 / 3) ≠ 0 :=
  ⟨uniformCoin_isCoin (by norm_num) (by norm_num), by rw [ENNReal.ofReal_le_one]; norm_num, by simp⟩

/-! ## C30 -/

theorem failProb_swap (w1 w2 : ℝ) (p1 p2 : ℝ≥0∞) (prk : ℝ) :
    failProb (sideProb w2 w1) p2 p1 prk = failProb (sideProb w1 w2) p1 p2 prk := by
  unfold failProb
  rw [sideProb_swap, sub_sub_cancel, add_comm]

/-- Detailed balance of the portkey two-coin: the forward call (weights and coins in one order) and the backward call
(the other order) balance exactly, for every portkey rate, every budget, and any coin states. -/
theorem C30_detailed_balance {I : Set σ} {c1 c2 : Coin σ τ} {p1 p2 : ℝ≥0∞} (h1 : IsCoin I c1 p1) (h2 : IsCoin I c2 p2) (w1 w2 : ℝ) {prk : ℝ}
    (hk : 0 ≤ prk ∧ prk ≤ 1) (x y : τ) (n : ℕ) {s s' : σ} (hs : s ∈ I) (hs' : s' ∈ I) :
    (sampleTwocoin w1 w2 c1 c2 prk x n s).prob Accepted * (ENNReal.ofReal (Real.exp w2) * p2) =
      (sampleTwocoin w2 w1 c2 c1 prk y n s').prob Accepted * (ENNReal.ofReal (Real.exp w1) * p1) := by
  rw [C29_accept_prob h1 h2 w1 w2 hk _ _ hs, C29_accept_prob h2 h1 w2 w1 hk _ _ hs', failProb_swap w1 w2, sideProb_swap w1 w2,
    ← sideWeight w1 w2 p1, ← sideWeight' w1 w2 p2]
  ring

/-! ## C31 -/

/-- The results of the joint search: side `true` is sent to the coin exactly in the rounds whose draw picked side one, and
the proposal returned is the one of the last flip, also on escape. -/
theorem C31_results (w1 w2 : ℝ) (start : Prog σ) (c : SideCoin σ τ) (prk : ℝ) (maxProps : ℕ) (r : Res (Verdict σ τ)) :
    (sampleTwocoinJoint w1 w2 start c prk maxProps).Out r ↔
      (∃ s, start.Out (.ok s) ∧ TwocoinResult (sideProb w1 w2) (fun side s => c s side) prk id maxProps s r) ∨
      (∃ e, start.Out (.error e) ∧ r = .error e) := by
  rw [sampleTwocoinJoint, Prog.out_bind]
  simp only [twocoinJointLoop_eq, genLoop_out, exp_v1]

/-- Same acceptance probability as the two-generator version when the two sides succeed with `p1` and `p2`. -/
theorem C31_accept_prob {I : Set σ} {c : SideCoin σ τ} {p1 p2 : ℝ≥0∞} (h1 : IsCoin I (fun s => c s true) p1) (h2 : IsCoin I (fun s => c s false) p2)
    (w1 w2 : ℝ) {prk : ℝ} (hk : 0 ≤ prk ∧ prk ≤ 1) (n : ℕ) {s : σ} (hs : s ∈ I) :
    (sampleTwocoinJoint w1 w2 (.ret s) c prk n).prob Accepted =
      ENNReal.ofReal (sideProb w1 w2) * p1 * ∑ k ∈ Finset.range n, failProb (sideProb w1 w2) p1 p2 prk ^ k := by
  rw [prob_accepted, sampleTwocoinJoint, Prog.ret_bind, twocoinJointLoop_eq,
    genLoop_lexp (by rw [exp_v1]; exact (sideProb_lt_one _ _).le) (c := fun b s => c s b) h1 h2 hk _ _ _ _ _ _ hs, exp_v1]
  simp

/-- Detailed balance of the joint version. -/
theorem C31_detailed_balance {I : Set σ} {c : SideCoin σ τ} {p1 p2 : ℝ≥0∞} (h1 : IsCoin I (fun s => c s true) p1) (h2 : IsCoin I (fun s => c s false) p2)
    {c' : SideCoin σ τ} (h1' : IsCoin I (fun s => c' s true) p2) (h2' : IsCoin I (fun s => c' s false) p1)
    (w1 w2 : ℝ) {prk : ℝ} (hk : 0 ≤ prk ∧ prk ≤ 1) (n : ℕ) {s s' : σ} (hs : s ∈ I) (hs' : s' ∈ I) :
    (sampleTwocoinJoint w1 w2 (.ret s) c prk n).prob Accepted * (ENNReal.ofReal (Real.exp w2) * p2) =
      (sampleTwocoinJoint w2 w1 (.ret s') c' prk n).prob Accepted * (ENNReal.ofReal (Real.exp w1) * p1) := by
  rw [C31_accept_prob h1 h2 w1 w2 hk _ hs, C31_accept_prob h1' h2' w2 w1 hk _ hs', failProb_swap w1 w2, sideProb_swap w1 w2,
    ← sideWeight w1 w2 p1, ← sideWeight' w1 w2 p2]
  ring

/-- A side coin with success probabilities 1/3 and 1/4. -/
example : IsCoin Set.univ (fun s => (fun (s : Unit) (b : Bool) => uniformCoin (if b then 1 / 3 else 1 / 4) s) s true) (ENNReal.ofReal (1 / 3)) ∧
    IsCoin Set.univ (fun s => (fun (s : Unit) (b : Bool) => uniformCoin (if b then 1 / 3 else 1 / 4) s) s false) (ENNReal.ofReal (1 / 4)) := by
  constructor
  · simpa using uniformCoin_isCoin (p := 1 / 3) (by norm_num) (by norm_num)
  · simpa using uniformCoin_isCoin (p := 1 / 4) (by norm_num) (by norm_num)

end Ctb
