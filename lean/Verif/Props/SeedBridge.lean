import Verif.Model.SeedBridge
import Verif.Props.ItoHidden
import Verif.Lemmas.RegSeed
import Verif.Lemmas.RegSde
import Verif.Lemmas.RegLaw

set_option linter.unusedSectionVars false

/-! # C108: rejection sampling of bridges of diffusions -/

namespace Ctb

open Classical MeasureTheory
open scoped ENNReal

variable {ζ : Type} {raw : Prog ζ} {flip : ζ → Prog (Bool × ℝ × ζ)}

/-- Probability of `np.log(ome.uniform()) < w`. -/
noncomputable def capExp (w : ℝ) : ℝ := min 1 (Real.exp w)

theorem capExp_mem (w : ℝ) : 0 ≤ capExp w ∧ capExp w ≤ 1 := ⟨le_min zero_le_one (Real.exp_pos w).le, min_le_left _ _⟩

theorem logLt_law (w : ℝ) (A B : ℝ≥0∞) : ∫⁻ u, (if npLogLt u w then A else B) ∂(RDist.uniform 0 1).law = ENNReal.ofReal (capExp w) * A + ENNReal.ofReal (1 - capExp w) * B := by
  rw [← lintegral_uniform_lt (capExp_mem w).1 (capExp_mem w).2]
  refine lintegral_congr_ae ?_
  filter_upwards [RDist.law_support (.uniform 0 1)] with u hu
  rw [mem_uniform01] at hu
  have : npLogLt u w ↔ u < capExp w := by
    rw [npLogLt_iff hu.1, capExp, lt_min_iff]
    exact ⟨fun h => ⟨hu.2, h⟩, fun h => h.2⟩
  by_cases h : u < capExp w
  · rw [if_pos h, if_pos (this.2 h)]
  · rw [if_neg h, if_neg fun h' => h (this.1 h')]

/-- What the rejection sampler needs: proposals represent points of `X` with law `ρ`, the coin of a seed shows heads with the probability `p` of its
point, and its logarithmic weight is `w`. -/
structure SeedLaw {X : Type} [MeasurableSpace X] (raw : Prog ζ) (flip : ζ → Prog (Bool × ℝ × ζ)) (cls : ζ → X) (ρ : Measure X) (p : X → ℝ≥0∞) (w : X → ℝ) : Prop where
  raw : ∀ G : X → ℝ≥0∞, Measurable G → raw.lexp (onOk fun z => G (cls z)) = ∫⁻ x, G x ∂ρ
  coin : ∀ x, IsCoin {z | cls z = x} flip (p x)
  weight : ∀ z r, (flip z).Out (.ok r) → r.2.1 = w (cls z)
  mp : Measurable p
  le : ∀ x, p x ≤ 1
  mw : Measurable w

variable {X : Type} [MeasurableSpace X] {cls : ζ → X} {ρ : Measure X} {p : X → ℝ≥0∞} {w : X → ℝ}

/-- Probability that a proposal is accepted. -/
noncomputable def seedAcc (p : X → ℝ≥0∞) (w : X → ℝ) (x : X) : ℝ≥0∞ := p x * ENNReal.ofReal (capExp (w x))

theorem SeedLaw.measurable (h : SeedLaw raw flip cls ρ p w) : Measurable (seedAcc p w) :=
  h.mp.mul (ENNReal.measurable_ofReal.comp ((measurable_const.min Real.measurable_exp).comp h.mw))

/-- One seed: accepted or not. -/
theorem seed_flip (h : SeedLaw raw flip cls ρ p w) (F : X → ℝ≥0∞) (c : ℝ≥0∞) (z : ζ) :
    ((flip z).bind fun r => if r.1 then .real (.uniform 0 1) fun u => .ret (decide (npLogLt u r.2.1), r.2.2) else .ret (false, r.2.2)).lexp
      (onOk fun r => if r.1 then F (cls r.2) else c) = seedAcc p w (cls z) * F (cls z) + (1 - seedAcc p w (cls z)) * c := by
  obtain ⟨h1, h2⟩ := h.coin (cls z) z rfl
  set m := capExp (w (cls z)) with hm
  have e : (flip z).lexp (Prog.cont (fun r => if r.1 then .real (.uniform 0 1) fun u => .ret (decide (npLogLt u r.2.1), r.2.2) else .ret (false, r.2.2))
      (onOk fun r => if r.1 then F (cls r.2) else c) Prog.lexp) =
      (flip z).lexp (coinVal (ENNReal.ofReal m * F (cls z) + ENNReal.ofReal (1 - m) * c) c 0) := by
    refine Prog.lexp_congr fun r hr => ?_
    match r, hr with
    | .error e, _ => rfl
    | .ok (true, w', z'), hr =>
      have e1 : w' = w (cls z) := h.weight z _ hr
      have e2 : cls z' = cls z := h2 _ hr
      simp only [Prog.cont_ok, if_true, Prog.lexp_real, Prog.lexp_ret, onOk, decide_eq_true_eq, coinVal]
      rw [e2, logLt_law, e1]
    | .ok (false, w', z'), hr => simp [onOk, coinVal]
  have hm' := capExp_mem (w (cls z))
  rw [Prog.lexp_bind, e, h1, seedAcc, mul_add, add_assoc, mul_assoc, ← mul_assoc (p (cls z)) (ENNReal.ofReal (1 - m)), ← add_mul]
  congr 2
  have hp := h.le (cls z)
  have hpt : p (cls z) ≠ ∞ := ne_top_of_le_ne_top ENNReal.one_ne_top hp
  refine (ENNReal.eq_sub_of_add_eq (ENNReal.mul_ne_top hpt ENNReal.ofReal_ne_top) ?_)
  rw [add_right_comm, ← mul_add, ← ENNReal.ofReal_add (by linarith [hm'.2]) hm'.1, sub_add_cancel, ENNReal.ofReal_one, mul_one,
    add_tsub_cancel_of_le hp]

theorem seed_round (h : SeedLaw raw flip cls ρ p w) {F : X → ℝ≥0∞} (hF : Measurable F) (c : ℝ≥0∞) :
    (seedRound raw flip).lexp (onOk fun r => if r.1 then F (cls r.2) else c) = ∫⁻ x, seedAcc p w x * F x ∂ρ + (∫⁻ x, (1 - seedAcc p w x) ∂ρ) * c := by
  have hm := h.measurable
  have h1 : Measurable fun x => seedAcc p w x * F x := hm.mul hF
  have h2 : Measurable fun x => 1 - seedAcc p w x := measurable_const.sub hm
  rw [← lintegral_mul_const _ h2, ← lintegral_add_left h1, ← h.raw (fun x => seedAcc p w x * F x + (1 - seedAcc p w x) * c) (h1.add (h2.mul_const c)), seedRound, Prog.lexp_bind]
  refine Prog.lexp_congr fun r _ => ?_
  match r with
  | .error e => rfl
  | .ok z =>
    rw [Prog.cont_ok, seed_flip h]
    rfl

/-- Law of the bridge returned with at most `k` proposals: proposals are accepted with `p min(1, e^w)`. -/
theorem C108_law (h : SeedLaw raw flip cls ρ p w) {F : X → ℝ≥0∞} (hF : Measurable F) (k : ℕ) :
    (seedTry raw flip k).lexp (onOk fun z => F (cls z)) =
      (∫⁻ x, p x * ENNReal.ofReal (min 1 (Real.exp (w x))) * F x ∂ρ) * ∑ j ∈ Finset.range k, (∫⁻ x, (1 - p x * ENNReal.ofReal (min 1 (Real.exp (w x)))) ∂ρ) ^ j := by
  induction k with
  | zero => simp [seedTry, onOk]
  | succ k ih =>
    rw [seedTry, Prog.lexp_bind, geom_sum_succ, mul_add, mul_one, add_comm]
    rw [mul_left_comm, ← ih]
    refine Eq.trans ?_ (seed_round h hF _)
    refine Prog.lexp_congr fun r _ => ?_
    match r with
    | .error e => rfl
    | .ok (true, z) => simp [onOk]
    | .ok (false, z) => simp [onOk]

/-- If the lower bounds of the discriminant are not negative, the bridge returned has the density `e^w p` with respect to proposals, whatever the
number of proposals: expectations over it are those under the density.  What is missing are negative lower bounds. -/
theorem C108_exact_partial (h : SeedLaw raw flip cls ρ p w) (hw : ∀ x, w x ≤ 0) {F : X → ℝ≥0∞} (hF : Measurable F) (k : ℕ) :
    (seedTry raw flip k).lexp (onOk fun z => F (cls z)) * ∫⁻ x, ENNReal.ofReal (Real.exp (w x)) * p x ∂ρ =
      (seedTry raw flip k).prob (fun r => ∃ z, r = .ok z) * ∫⁻ x, ENNReal.ofReal (Real.exp (w x)) * p x * F x ∂ρ := by
  have e : (seedTry raw flip k).prob (fun r => ∃ z, r = .ok z) = (seedTry raw flip k).lexp (onOk fun z => (fun _ : X => 1) (cls z)) := by
    refine Prog.lexp_congr fun r _ => ?_
    cases r <;> simp [onOk]
  have hc : ∀ x, min 1 (Real.exp (w x)) = Real.exp (w x) := fun x => min_eq_right (Real.exp_le_one_iff.2 (hw x))
  rw [e, C108_law h hF, C108_law h measurable_const]
  simp only [hc, mul_one]
  have c1 : ∀ x, p x * ENNReal.ofReal (Real.exp (w x)) = ENNReal.ofReal (Real.exp (w x)) * p x := fun x => mul_comm _ _
  simp only [c1]
  ring

/-- The budget error has the probability that all proposals are rejected. -/
theorem C108_budget (h : SeedLaw raw flip cls ρ p w) (hr : ¬ raw.Out (.error .budget)) (hf : ∀ z, ¬ (flip z).Out (.error .budget)) (k : ℕ) :
    (seedTry raw flip k).prob (fun r => r = .error .budget) = (∫⁻ x, (1 - p x * ENNReal.ofReal (min 1 (Real.exp (w x)))) ∂ρ) ^ k := by
  have hb : ¬ (seedRound raw flip).Out (.error .budget) := by
    intro ho
    rcases Prog.out_bind_error.1 ho with ho | ⟨z, -, ho⟩
    · exact hr ho
    rcases Prog.out_bind_error.1 ho with ho | ⟨r, -, ho⟩
    · exact hf z ho
    split_ifs at ho
    · simp at ho
    · simp at ho
  induction k with
  | zero => simp [seedTry, Prog.prob]
  | succ k ih =>
    have := seed_round h (F := fun _ => 0) measurable_const ((seedTry raw flip k).prob (fun r => r = .error .budget))
    simp only [mul_zero, lintegral_zero, zero_add] at this
    rw [pow_succ', ← ih]
    refine Eq.trans ?_ this
    rw [Prog.prob, seedTry, Prog.lexp_bind]
    refine Prog.lexp_congr fun r ho => ?_
    match r, ho with
    | .error e, ho =>
      have : e ≠ .budget := by rintro rfl; exact hb ho
      simp [onOk, this]
    | .ok (true, z), _ => simp [onOk]
    | .ok (false, z), _ => simp [onOk, Prog.prob]

theorem replicate_prod' {β : Type} {q : Prog β} (Fs : List (β → ℝ≥0∞)) (hF : ∀ F ∈ Fs, ∀ b, F b ≠ ∞) (hq : ∀ F ∈ Fs, q.lexp (onOk F) ≠ ∞) :
    (Prog.replicate Fs.length q).lexp (onOk (prodVal Fs)) = (Fs.map fun F => q.lexp (onOk F)).prod := by
  have h : ∀ n, Prog.replicate n q = Prog.mapM' (fun _ : ℕ => q) (List.replicate n 0) := by
    intro n
    induction n with
    | zero => rfl
    | succ n ih => rw [Prog.replicate, List.replicate_succ, Prog.mapM', ih]
  rw [h, mapM'_prod _ _ (by simp) hF fun F hF a _ => hq F hF]
  congr 1
  clear hF hq h
  induction Fs with
  | nil => rfl
  | cons F Fs ih => rw [List.length_cons, List.replicate_succ, List.zipWith_cons_cons, ih, List.map_cons]

theorem boundsLt_iff {lb ub : Option ℝ} : boundsLt lb ub ↔ ∀ l u, lb = some l → ub = some u → l < u := by
  cases lb <;> cases ub <;> simp [boundsLt]

/-- The bridges that `sample_bridge` yields are independent, each with the law of the loop; wrong bounds and budgets are rejected. -/
theorem C108_iid {n F k : ℕ} {disc : ℝ → ℝ} {ebd : ℝ → ℝ → Res DiscBounds} {op : NormOp} {lb ub : Option ℝ} {maxProps : ℤ} (hb : ∀ l u, lb = some l → ub = some u → l < u) (h0 : 0 ≤ maxProps)
    (Fs : List (EaSkel → ℝ≥0∞)) (hF : ∀ F ∈ Fs, ∀ b, F b ≠ ∞)
    (hq : ∀ G ∈ Fs, (seedTry (sampleRawSeed n F op lb ub) (flipPoissonCoin n k disc ebd op 2) maxProps.toNat).lexp (onOk G) ≠ ∞) :
    (sampleSeedBridge n F k disc ebd op lb ub maxProps Fs.length).lexp (onOk (prodVal Fs)) =
      (Fs.map fun G => (seedTry (sampleRawSeed n F op lb ub) (flipPoissonCoin n k disc ebd op 2) maxProps.toNat).lexp (onOk G)).prod := by
  unfold sampleSeedBridge
  split_ifs with h
  · rw [List.length_eq_zero_iff.1 h]
    simp [onOk, prodVal]
  · rw [Prog.assert, if_pos (boundsLt_iff.2 hb), Prog.ret_bind, Prog.assert, if_pos h0, Prog.ret_bind, replicate_prod' _ hF hq]

/-- A round of the library's sampler: the seed, its coin and the weight. -/
theorem reg_codeRound (n F k : ℕ) {disc : ℝ → ℝ} (hd : Measurable disc) {ebd : ℝ → ℝ → Res DiscBounds} (he : Measurable fun q : ℝ × ℝ => ebd q.1 q.2) (op : NormOp) (lb ub : Option ℝ) :
    Reg fun _ : Unit => seedRound (sampleRawSeed n F op lb ub) (flipPoissonCoin n k disc ebd op 2) :=
  reg_seedRound (flip := fun _ => flipPoissonCoin n k disc ebd op 2) (reg_sampleRawSkel n F (by fun_prop) (by fun_prop) (by fun_prop) (by fun_prop) (by fun_prop))
    (reg_flipPoissonCoin n k hd he op 2 (by fun_prop))

/-- The seed that the loop returns has the law of an accepted proposal, times the expected number of rounds, whatever the model. -/
theorem C108_rounds (n F k : ℕ) {disc : ℝ → ℝ} (hd : Measurable disc) {ebd : ℝ → ℝ → Res DiscBounds} (he : Measurable fun q : ℝ × ℝ => ebd q.1 q.2) (op : NormOp) (lb ub : Option ℝ)
    {G : EaSkel → ℝ≥0∞} (hG : Measurable G) (m : ℕ) :
    (seedTry (sampleRawSeed n F op lb ub) (flipPoissonCoin n k disc ebd op 2) m).lexp (onOk G) =
      (seedRound (sampleRawSeed n F op lb ub) (flipPoissonCoin n k disc ebd op 2)).lexp (onOk fun r => if r.1 then G r.2 else 0) *
        ∑ j ∈ Finset.range m, (seedRound (sampleRawSeed n F op lb ub) (flipPoissonCoin n k disc ebd op 2)).prob (fun r => ∃ z, r = .ok (false, z)) ^ j := by
  have h := reg_codeRound n F k hd he op lb ub
  induction m with
  | zero => simp [seedTry, onOk]
  | succ m ih =>
    have h1 := h.verdict () hG ((seedTry (sampleRawSeed n F op lb ub) (flipPoissonCoin n k disc ebd op 2) m).lexp (onOk G))
    rw [h.acc_lintegral () hG] at h1
    rw [seedTry, Prog.lexp_bind, geom_sum_succ, mul_add, mul_one, add_comm, mul_left_comm, ← ih]
    refine Eq.trans ?_ h1
    refine Prog.lexp_congr fun r _ => ?_
    match r with
    | .error e => rfl
    | .ok (true, z) => simp [onOk]
    | .ok (false, z) => simp [onOk]

/-- The bridges that `sample_bridge` yields are independent, each distributed as an accepted proposal, for bounded functions. -/
theorem C108_code_iid {n F k : ℕ} {disc : ℝ → ℝ} (hd : Measurable disc) {ebd : ℝ → ℝ → Res DiscBounds} (he : Measurable fun q : ℝ × ℝ => ebd q.1 q.2) {op : NormOp} {lb ub : Option ℝ}
    {maxProps : ℤ} (hb : ∀ l u, lb = some l → ub = some u → l < u) (h0 : 0 ≤ maxProps) (Fs : List (EaSkel → ℝ≥0∞)) (hF : ∀ G ∈ Fs, Measurable G) (hc : ∀ G ∈ Fs, ∃ c : NNReal, ∀ b, G b ≤ c) :
    (sampleSeedBridge n F k disc ebd op lb ub maxProps Fs.length).lexp (onOk (prodVal Fs)) =
      (Fs.map fun G => (seedRound (sampleRawSeed n F op lb ub) (flipPoissonCoin n k disc ebd op 2)).lexp (onOk fun r => if r.1 then G r.2 else 0) *
        ∑ j ∈ Finset.range maxProps.toNat, (seedRound (sampleRawSeed n F op lb ub) (flipPoissonCoin n k disc ebd op 2)).prob (fun r => ∃ z, r = .ok (false, z)) ^ j).prod := by
  rw [C108_iid hb h0 Fs]
  · rw [List.map_congr_left fun G hG => C108_rounds n F k hd he op lb ub (hF G hG) _]
  · intro G hG b
    obtain ⟨c, h⟩ := hc G hG
    exact ne_top_of_le_ne_top ENNReal.coe_ne_top (h b)
  · intro G hG
    obtain ⟨c, h⟩ := hc G hG
    refine ne_top_of_le_ne_top (b := (c : ℝ≥0∞)) ENNReal.coe_ne_top ?_
    have m1 : Mass1 (seedTry (sampleRawSeed n F op lb ub) (flipPoissonCoin n k disc ebd op 2) maxProps.toNat) := mass_seedTry (mass_rawSkel ..) (fun _ => mass_flipPoissonCoin ..) _
    rw [← m1.lexp_const c]
    refine Prog.lexp_mono _ fun r => ?_
    cases r with
    | error e => exact zero_le
    | ok b => exact h b

/-- An empty range and a negative budget raise, unless no bridge is asked for. -/
theorem C108_errors {n F k : ℕ} {disc : ℝ → ℝ} {ebd : ℝ → ℝ → Res DiscBounds} {op : NormOp} {lb ub : Option ℝ} {maxProps : ℤ} {m : ℕ} (hm : m ≠ 0)
    (h : (∃ l u, lb = some l ∧ ub = some u ∧ u ≤ l) ∨ maxProps < 0) : sampleSeedBridge n F k disc ebd op lb ub maxProps m = .err .assertion := by
  unfold sampleSeedBridge
  rw [if_neg hm]
  by_cases hb : boundsLt lb ub
  · have h0 : ¬ 0 ≤ maxProps := not_le.2 (h.resolve_left fun ⟨l, u, h1, h2, h3⟩ => not_lt.2 h3 (boundsLt_iff.1 hb l u h1 h2))
    rw [Prog.assert, if_pos hb, Prog.ret_bind, Prog.assert, if_neg h0, Prog.err_bind]
  · rw [Prog.assert, if_neg hb, Prog.err_bind]

/-! ### negative lower bounds -/

/-- A seed whose integrated lower bound is negative is accepted as often as its coin shows heads, whatever the bound. -/
theorem C108_capped {z : ζ} (h : ∀ r, (flip z).Out (.ok r) → 0 ≤ r.2.1) :
    (seedRound (.ret z) flip).prob (fun r => ∃ q, r = .ok (true, q)) = (flip z).prob (fun r => ∃ q, r = .ok (true, q)) := by
  rw [Prog.prob, seedRound, Prog.ret_bind, Prog.lexp_bind]
  refine Prog.lexp_congr fun r hr => ?_
  match r, hr with
  | .error e, _ => simp
  | .ok (false, w', z'), _ => simp
  | .ok (true, w', z'), hr =>
    have h0 : 0 ≤ w' := h _ hr
    have : capExp w' = 1 := min_eq_left (Real.one_le_exp h0)
    have h1 := logLt_law w' 1 0
    rw [this, ENNReal.ofReal_one, one_mul, mul_zero, add_zero] at h1
    simpa [Prog.lexp_real] using h1

/-- The discriminant of the Ornstein-Uhlenbeck process along the bridge from 2 to 2. -/
theorem ou_bound (z : EaSkel) : boundDiscPath (fun a b => .ok (itoOuBounds ![1, 1] a b)) ⟨1, 1, 2, 2⟩ z (.pieces 1) =
    .ok ([0, 1], [(itoOuBounds ![1, 1] (min z.tight z.loose + 2) (max z.tight z.loose + 2)).2.1], [(itoOuBounds ![1, 1] (min z.tight z.loose + 2) (max z.tight z.loose + 2)).2.2]) := by
  have r2 : List.range (1 + 1) = [0, 1] := rfl
  unfold boundDiscPath
  simp only [Grid.normed, r2, List.map_cons, List.map_nil, List.tail_cons, List.dropLast, List.zipWith_cons_cons, List.zipWith_nil_left, listOk, Except.bind]
  by_cases h : z.tight < z.loose
  · simp [NormOp.denorm, h, h.le]
  · have h' := not_lt.1 h
    simp [NormOp.denorm, h, h']

theorem ou_weight {n k : ℕ} {z : EaSkel} {r} (h : (flipPoissonCoin n k (itoOu.disc ![1, 1]) (fun a b => .ok (itoOuBounds ![1, 1] a b)) ⟨1, 1, 2, 2⟩ 2 z).Out (.ok r)) :
    r.2.1 = -(itoOuBounds ![1, 1] (min z.tight z.loose + 2) (max z.tight z.loose + 2)).2.1 := by
  unfold flipPoissonCoin seedCoin at h
  rw [ou_bound] at h
  simp only [Prog.lift, Prog.ret_bind] at h
  obtain ⟨d, -, h⟩ := Prog.out_bind_ok.1 h
  have e : stLbDisc [0, 1] [(itoOuBounds ![1, 1] (min z.tight z.loose + 2) (max z.tight z.loose + 2)).2.1] =
      -(itoOuBounds ![1, 1] (min z.tight z.loose + 2) (max z.tight z.loose + 2)).2.1 := by
    simp [stLbDisc, npDiff]
  rw [e] at h
  split at h
  · cases h
    rfl
  · obtain ⟨q, -, h⟩ := Prog.out_bind_ok.1 h
    cases h
    rfl

/-- The bridge of the Ornstein-Uhlenbeck process from 2 to 2: two proposals, between 1/2 and 4 and between -1 and 4, whose densities `e^w p` differ by
the factor `e^(1/8)` beyond the probabilities `p` of their coins, are accepted with these probabilities. -/
theorem C108_violated (n k : ℕ) : ∃ zA zB : EaSkel, zA.Valid ∧ zB.Valid ∧ zA.Within ∧ zB.Within ∧
    (∀ r, (flipPoissonCoin n k (itoOu.disc ![1, 1]) (fun a b => .ok (itoOuBounds ![1, 1] a b)) ⟨1, 1, 2, 2⟩ 2 zA).Out (.ok r) → r.2.1 = 3 / 8) ∧
    (∀ r, (flipPoissonCoin n k (itoOu.disc ![1, 1]) (fun a b => .ok (itoOuBounds ![1, 1] a b)) ⟨1, 1, 2, 2⟩ 2 zB).Out (.ok r) → r.2.1 = 1 / 2) ∧
    ∀ z ∈ [zA, zB], (seedRound (.ret z) (flipPoissonCoin n k (itoOu.disc ![1, 1]) (fun a b => .ok (itoOuBounds ![1, 1] a b)) ⟨1, 1, 2, 2⟩ 2)).prob
        (fun r => ∃ q, r = .ok (true, q)) =
      (flipPoissonCoin n k (itoOu.disc ![1, 1]) (fun a b => .ok (itoOuBounds ![1, 1] a b)) ⟨1, 1, 2, 2⟩ 2 z).prob (fun r => ∃ q, r = .ok (true, q)) := by
  have hA : ∀ r, (flipPoissonCoin n k (itoOu.disc ![1, 1]) (fun a b => .ok (itoOuBounds ![1, 1] a b)) ⟨1, 1, 2, 2⟩ 2 ⟨[0, 1], [0, 0], -(3 / 2), 2, 0, none⟩).Out (.ok r) →
      r.2.1 = 3 / 8 := by
    intro r h
    rw [ou_weight h]
    rw [min_eq_left (by norm_num), max_eq_right (by norm_num)]
    norm_num [itoOuBounds, ouBoundsDisc, ItoFns.disc, itoOu, abs_of_pos]
  have hB : ∀ r, (flipPoissonCoin n k (itoOu.disc ![1, 1]) (fun a b => .ok (itoOuBounds ![1, 1] a b)) ⟨1, 1, 2, 2⟩ 2 ⟨[0, 1], [0, 0], -3, 2, 0, none⟩).Out (.ok r) →
      r.2.1 = 1 / 2 := by
    intro r h
    rw [ou_weight h]
    rw [min_eq_left (by norm_num), max_eq_right (by norm_num)]
    norm_num [itoOuBounds, ouBoundsDisc, ItoFns.disc, itoOu]
  refine ⟨_, _, ⟨by simp, rfl, rfl, by simp⟩, ⟨by simp, rfl, rfl, by simp⟩, by constructor <;> norm_num, by constructor <;> norm_num, hA, hB, ?_⟩
  intro z hz
  simp only [List.mem_cons, List.not_mem_nil, or_false] at hz
  rcases hz with rfl | rfl
  · exact C108_capped fun r hr => by rw [hA r hr]; norm_num
  · exact C108_capped fun r hr => by rw [hB r hr]; norm_num

/-! ### an instance -/

/-- Seeds that are uniform numbers `x`, weights `-|x|`, coins of probability 1/3. -/
theorem demo_seedLaw : SeedLaw (Prog.draw (.uniform 0 1)) (fun x => (uniformCoin (1 / 3) ()).bind fun r => .ret (r.1, -|x|, x)) id (RDist.uniform 0 1).law
    (fun _ => ENNReal.ofReal (1 / 3)) (fun x => -|x|) where
  raw G _ := by simp [Prog.draw, Prog.lexp_real, onOk]
  coin x := by
    rintro z rfl
    refine ⟨fun a b e => ?_, fun r hr => ?_⟩
    · rw [← (uniformCoin_isCoin (p := 1 / 3) (by norm_num) (by norm_num) () trivial).1 a b e, Prog.lexp_bind]
      refine Prog.lexp_congr fun r _ => ?_
      rcases r with e' | ⟨b', x⟩
      · rfl
      · cases b' <;> simp [coinVal]
    · simp only [Prog.out_bind_ok, Prog.out_ret, Except.ok.injEq] at hr
      obtain ⟨q, -, rfl⟩ := hr
      rfl
  weight z r hr := by
    simp only [Prog.out_bind_ok, Prog.out_ret, Except.ok.injEq] at hr
    obtain ⟨q, -, rfl⟩ := hr
    rfl
  mp := measurable_const
  le _ := by
    rw [← ENNReal.ofReal_one]
    exact ENNReal.ofReal_le_ofReal (by norm_num)
  mw := measurable_id.abs.neg

/-- The number returned has the density proportional to `e^(-x)` on the unit interval. -/
example : (seedTry (Prog.draw (.uniform 0 1)) (fun x => (uniformCoin (1 / 3) ()).bind fun r => .ret (r.1, -|x|, x)) 5).lexp (onOk fun x => ENNReal.ofReal x) *
      ∫⁻ x, ENNReal.ofReal (Real.exp (-|x|)) * ENNReal.ofReal (1 / 3) ∂(RDist.uniform 0 1).law =
    (seedTry (Prog.draw (.uniform 0 1)) (fun x => (uniformCoin (1 / 3) ()).bind fun r => .ret (r.1, -|x|, x)) 5).prob (fun r => ∃ z, r = .ok z) *
      ∫⁻ x, ENNReal.ofReal (Real.exp (-|x|)) * ENNReal.ofReal (1 / 3) * ENNReal.ofReal x ∂(RDist.uniform 0 1).law :=
  C108_exact_partial demo_seedLaw (fun x => neg_nonpos.2 (abs_nonneg x)) ENNReal.measurable_ofReal 5

example : (0 : ℤ) ≤ 10000 ∧ ∀ l u : ℝ, some (0 : ℝ) = some l → some 1 = some u → l < u := by
  refine ⟨by norm_num, fun l u h1 h2 => ?_⟩
  rw [← Option.some.inj h1, ← Option.some.inj h2]
  exact one_pos

/-- A range of one point is rejected. -/
example (disc : ℝ → ℝ) (ebd : ℝ → ℝ → Res DiscBounds) (op : NormOp) : sampleSeedBridge 3 10 2 disc ebd op (some 1) (some 1) 100 5 = .err .assertion :=
  C108_errors (by norm_num) (.inl ⟨1, 1, rfl, rfl, le_rfl⟩)

/-- The model of Ornstein and Uhlenbeck meets the conditions. -/
example (thi : Fin 2 → ℝ) : Measurable (itoOu.disc thi) ∧ Measurable fun q : ℝ × ℝ => (.ok (itoOuBounds thi q.1 q.2) : Res DiscBounds) :=
  ⟨measModel_ou.disc.comp (by fun_prop : Measurable fun x : ℝ => (thi, x)), measModel_ou.bounds.comp (by fun_prop : Measurable fun q : ℝ × ℝ => (thi, q))⟩

end Ctb
