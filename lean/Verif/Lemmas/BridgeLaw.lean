import Verif.Lemmas.Simplex
import Verif.Lemmas.ForwardLaw
import Verif.Lemmas.Proper
import Verif.Lemmas.Diffuse

/-! # Law of `sample_bridge` -/

set_option linter.unusedSectionVars false

namespace Ctb

open Classical MeasureTheory ProbabilityTheory
open scoped ENNReal

/-! ## virtual jumps -/

/-- A jump from a state to itself has weight one. -/
def selfOne (θ : ℕ → ℕ → ℝ) (x y : ℕ) : ℝ := if x = y then 1 else θ x y

theorem selfOne_nonneg {θ : ℕ → ℕ → ℝ} (hθ : ∀ i k, 0 ≤ θ i k) (x y : ℕ) : 0 ≤ selfOne θ x y := by
  unfold selfOne; split_ifs; exacts [zero_le_one, hθ x y]

theorem jumpWeight_shift (θ : ℕ → ℕ → ℝ) (v : ℕ → ℝ) (fin : ℝ) (j : ℕ) (t t' : ℝ) (x : ℕ) (l : List (ℝ × ℕ)) :
    ENNReal.ofReal (Real.exp (-(v x * (t' - t)))) * jumpWeight θ v fin j ((t', x) :: l) = jumpWeight θ v fin j ((t, x) :: l) := by
  cases l with
  | nil =>
    simp only [jumpWeight, mul_ite, mul_zero]
    rw [← ENNReal.ofReal_mul (Real.exp_pos _).le, ← Real.exp_add]
    congr 3; ring
  | cons q l =>
    obtain ⟨t'', y⟩ := q
    simp only [jumpWeight]
    rw [← mul_assoc, ← ENNReal.ofReal_mul (Real.exp_pos _).le, ← mul_assoc, ← Real.exp_add]
    congr 4; ring

/-- Dropping virtual jumps. -/
theorem jumpWeight_dedup (θ : ℕ → ℕ → ℝ) (v : ℕ → ℝ) (fin : ℝ) (j : ℕ) (l : List (ℝ × ℕ)) : ∀ (t : ℝ) (x : ℕ),
    jumpWeight θ v fin j ((t, x) :: dedup x l) = jumpWeight (selfOne θ) v fin j ((t, x) :: l) := by
  induction l with
  | nil => intro t x; rfl
  | cons q l ih =>
    obtain ⟨t', y⟩ := q
    intro t x
    rw [dedup]
    by_cases h : y = x
    · rw [if_pos h, ih t x, jumpWeight, h, selfOne, if_pos rfl, mul_one, jumpWeight_shift]
    · rw [if_neg h, jumpWeight, jumpWeight, ih t' y, selfOne, if_neg fun e => h e.symm]

/-! ## integrating out the times -/

/-- Weight of a sequence of states after time `t`, integrated over increasing jump times. -/
noncomputable def statesInt (θ : ℕ → ℕ → ℝ) (v : ℕ → ℝ) (T : ℝ) (j : ℕ) : ℝ → ℕ → List ℕ → ℝ≥0∞
  | t, x, [] => if x = j then ENNReal.ofReal (Real.exp (-(v x * (T - t)))) else 0
  | t, x, y :: ys => ∫⁻ h in Set.Ioo t T, ENNReal.ofReal (Real.exp (-(v x * (h - t))) * θ x y) * statesInt θ v T j h y ys

theorem simplex_states (θ : ℕ → ℕ → ℝ) (v : ℕ → ℝ) (T : ℝ) (j : ℕ) (ys : List ℕ) : ∀ (t : ℝ) (x : ℕ),
    simplexInt T ys.length t (fun l => jumpWeight θ v T j ((t, x) :: l.zip ys)) = statesInt θ v T j t x ys := by
  induction ys with
  | nil => intro t x; rfl
  | cons y ys ih =>
    intro t x
    simp only [List.length_cons, simplexInt, List.zip_cons_cons, jumpWeight, statesInt, simplexInt_const_mul T ENNReal.ofReal_ne_top, ih]

theorem measN_states (θ : ℕ → ℕ → ℝ) (v : ℕ → ℝ) (T : ℝ) (j : ℕ) (ys : List ℕ) : ∀ (x : ℕ),
    MeasN ys.length fun (t : ℝ) l => jumpWeight θ v T j ((t, x) :: l.zip ys) := by
  induction ys with
  | nil =>
    intro x
    unfold MeasN
    simp only [List.zip_nil_right, jumpWeight]
    refine Measurable.ite (by simp) ?_ measurable_const
    fun_prop
  | cons y ys ih =>
    intro x
    unfold MeasN
    have heq : (fun p : ℝ × (Fin (y :: ys).length → ℝ) => jumpWeight θ v T j ((p.1, x) :: (List.ofFn p.2).zip (y :: ys))) =
        fun p => ENNReal.ofReal (Real.exp (-(v x * (p.2 ⟨0, by simp⟩ - p.1))) * θ x y) *
          jumpWeight θ v T j ((p.2 ⟨0, by simp⟩, y) :: (List.ofFn fun k : Fin ys.length => p.2 k.succ).zip ys) := by
      ext p
      have : List.ofFn p.2 = p.2 ⟨0, by simp⟩ :: List.ofFn fun k : Fin ys.length => p.2 k.succ := List.ofFn_succ
      rw [this]
      rfl
    rw [heq]
    refine Measurable.mul ?_ ?_
    · fun_prop
    · have h1 := ih y
      unfold MeasN at h1
      exact h1.comp (((measurable_pi_apply _).comp measurable_snd).prodMk
        (measurable_pi_iff.2 fun k : Fin ys.length => (measurable_pi_apply (Fin.succ k)).comp measurable_snd))

theorem statesInt_measurable (θ : ℕ → ℕ → ℝ) (v : ℕ → ℝ) (T : ℝ) (j : ℕ) (x : ℕ) (ys : List ℕ) :
    Measurable fun t => statesInt θ v T j t x ys := by
  simp only [← simplex_states]
  exact simplexInt_measurable T _ (measN_states θ v T j ys x) measurable_id

/-- Expected weight over the jump times. -/
theorem times_exp {θ : ℕ → ℕ → ℝ} {v : ℕ → ℝ} {T : ℝ} (hT : 0 < T) (j x : ℕ) (ys : List ℕ) :
    ((Prog.replicate ys.length (.draw (.uniform 0 T))).bind fun us => Prog.ret (bridgeAssemble T (x :: ys) us)).lexp
      (atSkel fun sk => jumpWeight θ v T j sk.jumps) =
      ENNReal.ofReal (ys.length.factorial / T ^ ys.length) * statesInt (selfOne θ) v T j 0 x ys := by
  rw [← simplex_states, ← sorted_exp hT ys.length (F := fun (t : ℝ) l => jumpWeight (selfOne θ) v T j ((t, x) :: l.zip ys)) 0 (measN_states _ _ _ _ _ _),
    Prog.lexp_bind]
  refine Prog.lexp_congr fun r hr => ?_
  rcases r with e | us
  · rfl
  · rw [Prog.out_replicate_ok] at hr
    simp only [Prog.cont_ok, Prog.lexp_ret, atSkel, atDraws]
    rw [bridgeAssemble_eq T x ys us hr.1, ← jumpWeight_dedup]
    unfold Skel.jumps
    rw [zip_fst_snd]

/-! ## integrating out the states -/

/-- Value at a list of states. -/
noncomputable def atStates {d : ℕ} (F : List (Fin d) → ℝ≥0∞) : Res (List (Fin d)) → ℝ≥0∞
  | .ok l => F l
  | .error _ => 0

variable {d : ℕ}

theorem steps_step {P : Matrix (Fin d) (Fin d) ℝ} {f : Fin d} (m : ℕ) (x : Fin d) (F : List (Fin d) → ℝ≥0∞)
    (hq : (∀ j, 0 ≤ P x j * (P ^ (m + 1)) j f / (P ^ (m + 2)) x f) ∧ ∑ j, P x j * (P ^ (m + 1)) j f / (P ^ (m + 2)) x f = 1) :
    (bridgeSteps P f (m + 1) x).lexp (atStates F) =
      ∑ y, ENNReal.ofReal (P x y * (P ^ (m + 1)) y f / (P ^ (m + 2)) x f) * (bridgeSteps P f m y).lexp (atStates fun l => F (y :: l)) := by
  rw [bridgeSteps, lexp_pyChoice hq]
  refine Finset.sum_congr rfl fun y _ => ?_
  congr 1
  rw [Prog.lexp_bind]
  refine Prog.lexp_congr fun r _ => ?_
  rcases r with e | l <;> rfl

theorem steps_err {P : Matrix (Fin d) (Fin d) ℝ} {f : Fin d} (m : ℕ) (x : Fin d) (F : List (Fin d) → ℝ≥0∞)
    (hq : ¬ ((∀ j, 0 ≤ P x j * (P ^ (m + 1)) j f / (P ^ (m + 2)) x f) ∧ ∑ j, P x j * (P ^ (m + 1)) j f / (P ^ (m + 2)) x f = 1)) :
    (bridgeSteps P f (m + 1) x).lexp (atStates F) = 0 := by
  rw [bridgeSteps, pyChoice, if_neg hq]
  rfl

theorem steps_lintegral {P : Matrix (Fin d) (Fin d) ℝ} {f : Fin d} (μ : Measure ℝ) (m : ℕ) : ∀ (x : Fin d) (H : ℝ → List (Fin d) → ℝ≥0∞),
    (∀ l, Measurable fun h => H h l) →
    (Measurable fun h => (bridgeSteps P f m x).lexp (atStates (H h))) ∧
    (bridgeSteps P f m x).lexp (atStates fun l => ∫⁻ h, H h l ∂μ) = ∫⁻ h, (bridgeSteps P f m x).lexp (atStates (H h)) ∂μ := by
  induction m with
  | zero => intro x H hH; exact ⟨hH [], rfl⟩
  | succ m ih =>
    intro x H hH
    by_cases hq : (∀ j, 0 ≤ P x j * (P ^ (m + 1)) j f / (P ^ (m + 2)) x f) ∧ ∑ j, P x j * (P ^ (m + 1)) j f / (P ^ (m + 2)) x f = 1
    · simp only [steps_step m x _ hq]
      have h1 := fun y => ih y (fun h l => H h (y :: l)) fun l => hH (y :: l)
      refine ⟨?_, ?_⟩
      · exact Finset.measurable_sum _ fun y _ => (h1 y).1.const_mul _
      · rw [lintegral_finset_sum _ fun y _ => (h1 y).1.const_mul _]
        refine Finset.sum_congr rfl fun y _ => ?_
        rw [lintegral_const_mul _ (h1 y).1, (h1 y).2]
    · simp only [steps_err m x _ hq, lintegral_zero]
      exact ⟨measurable_const, trivial⟩

/-- Sum over the paths of `n` steps of the uniformised chain from `x` to `f`. -/
noncomputable def dyson (P : Matrix (Fin d) (Fin d) ℝ) (θ : ℕ → ℕ → ℝ) (v : ℕ → ℝ) (T : ℝ) (f : Fin d) : ℕ → ℝ → Fin d → ℝ≥0∞
  | 0, t, x => if x = f then ENNReal.ofReal (Real.exp (-(v x * (T - t)))) else 0
  | n + 1, t, x => ∑ y : Fin d, ∫⁻ h in Set.Ioo t T, ENNReal.ofReal (Real.exp (-(v x * (h - t))) * (θ x y * P x y)) * dyson P θ v T f n h y

theorem dyson_measurable (P : Matrix (Fin d) (Fin d) ℝ) (θ : ℕ → ℕ → ℝ) (v : ℕ → ℝ) (T : ℝ) (f : Fin d) (n : ℕ) : ∀ x,
    Measurable fun t => dyson P θ v T f n t x := by
  induction n with
  | zero =>
    intro x
    simp only [dyson]
    refine Measurable.ite (by simp) ?_ measurable_const
    fun_prop
  | succ n ih =>
    intro x
    simp only [dyson]
    refine Finset.measurable_sum _ fun y _ => ?_
    refine measurable_lintegral_Ioo (f := fun t h => ENNReal.ofReal (Real.exp (-(v x * (h - t))) * (θ x y * P x y)) * dyson P θ v T f n h y)
      measurable_id measurable_const ?_
    exact Measurable.mul (by fun_prop) ((ih y).comp measurable_snd)

theorem dyson_zero {P : Matrix (Fin d) (Fin d) ℝ} (hP : ∀ i j, 0 ≤ P i j) (θ : ℕ → ℕ → ℝ) (v : ℕ → ℝ) (T : ℝ) (f : Fin d) (n : ℕ) : ∀ (x : Fin d) (t : ℝ),
    (P ^ n) x f = 0 → dyson P θ v T f n t x = 0 := by
  induction n with
  | zero =>
    intro x t h
    rw [pow_zero, Matrix.one_apply] at h
    rw [dyson, if_neg]
    intro e; simp [e] at h
  | succ n ih =>
    intro x t h
    rw [pow_succ', Matrix.mul_apply] at h
    rw [dyson]
    refine Finset.sum_eq_zero fun y _ => ?_
    have hz := (Finset.sum_eq_zero_iff_of_nonneg fun y _ => mul_nonneg (hP x y) (pow_nonneg_entry hP n y f)).1 h y (Finset.mem_univ y)
    refine (lintegral_congr fun h => ?_).trans lintegral_zero
    rcases mul_eq_zero.1 hz with h1 | h1
    · rw [h1]; simp
    · rw [ih y h h1, mul_zero]

theorem steps_exp {P : Matrix (Fin d) (Fin d) ℝ} (hP : ∀ i j, 0 ≤ P i j) {θ : ℕ → ℕ → ℝ} (hθ : ∀ i k, 0 ≤ θ i k) (v : ℕ → ℝ) (T : ℝ) (f : Fin d) (m : ℕ) :
    ∀ (t : ℝ) (x : Fin d),
    ENNReal.ofReal ((P ^ (m + 1)) x f) * (bridgeSteps P f m x).lexp (atStates fun l => statesInt θ v T f t x (l.map Fin.val ++ [f.val])) =
      dyson P θ v T f (m + 1) t x := by
  induction m with
  | zero =>
    intro t x
    rw [dyson, Finset.sum_eq_single f, bridgeSteps, Prog.lexp_ret, atStates, List.map_nil, List.nil_append, statesInt, zero_add, pow_one,
      ← lintegral_const_mul' _ _ ENNReal.ofReal_ne_top]
    · refine lintegral_congr fun h => ?_
      rw [statesInt, dyson, if_pos rfl, if_pos rfl, ← mul_assoc, ← ENNReal.ofReal_mul (hP x f)]
      congr 2; ring
    · intro y _ hy
      refine (lintegral_congr fun h => ?_).trans lintegral_zero
      rw [dyson, if_neg hy, mul_zero]
    · simp
  | succ m ih =>
    intro t x
    rcases (pow_nonneg_entry hP (m + 1 + 1) x f).eq_or_lt with h0 | hpos
    · rw [← h0, dyson_zero hP θ v T f _ x t h0.symm]; simp
    · rw [steps_step m x _ (stepProbs_valid hP hpos), dyson, Finset.mul_sum]
      refine Finset.sum_congr rfl fun y _ => ?_
      rw [← mul_assoc, ← ENNReal.ofReal_mul hpos.le, mul_div_cancel₀ _ hpos.ne']
      simp only [List.map_cons, List.cons_append, statesInt]
      rw [(steps_lintegral (volume.restrict (Set.Ioo t T)) m y (fun h l => ENNReal.ofReal (Real.exp (-(v x * (h - t))) * θ x y) * statesInt θ v T f h y (l.map Fin.val ++ [f.val]))
        fun l => Measurable.mul (by fun_prop) (statesInt_measurable θ v T f y _)).2, ← lintegral_const_mul' _ _ ENNReal.ofReal_ne_top]
      refine lintegral_congr fun h => ?_
      rw [← ih h y]
      have hc : (bridgeSteps P f m y).lexp (atStates fun l => ENNReal.ofReal (Real.exp (-(v x * (h - t))) * θ x y) * statesInt θ v T f h y (l.map Fin.val ++ [f.val])) =
          ENNReal.ofReal (Real.exp (-(v x * (h - t))) * θ x y) * (bridgeSteps P f m y).lexp (atStates fun l => statesInt θ v T f h y (l.map Fin.val ++ [f.val])) := by
        rw [← Prog.lexp_const_mul _ _ ENNReal.ofReal_ne_top]
        refine Prog.lexp_congr fun r _ => ?_
        rcases r with e | l
        · simp [atStates]
        · rfl
      rw [hc, ← mul_assoc, ← mul_assoc, ← ENNReal.ofReal_mul (mul_nonneg (hP x y) (pow_nonneg_entry hP _ _ _)),
        ← ENNReal.ofReal_mul (mul_nonneg (Real.exp_pos _).le (mul_nonneg (hθ x y) (hP x y)))]
      congr 2; ring

/-! ## the number of jumps -/

/-- `S k`: sum of the first `k` terms. -/
noncomputable def headSum (term : ℕ → ℝ) (k : ℕ) : ℝ := ∑ i ∈ Finset.range k, term i

theorem headSum_mono {term : ℕ → ℝ} (h : ∀ n, 0 ≤ term n) : Monotone (headSum term) := by
  refine monotone_nat_of_le_succ fun n => ?_
  unfold headSum
  rw [Finset.sum_range_succ]
  linarith [h n]

/-- Value at a count. -/
noncomputable def atCount (V : ℕ → ℝ≥0∞) : Res ℕ → ℝ≥0∞
  | .ok n => V n
  | .error _ => 0

theorem count_val {term : ℕ → ℝ} (hterm : ∀ n, 0 ≤ term n) (V : ℕ → ℝ≥0∞) (u : ℝ) (fuel : ℕ) : ∀ n, headSum term n < u →
    atCount V (nTransLoop term u fuel n (headSum term (n + 1))) =
      ∑ k ∈ Finset.range fuel, if headSum term (n + k) < u ∧ u ≤ headSum term (n + k + 1) then V (n + k) else 0 := by
  induction fuel with
  | zero => intro n _; rfl
  | succ fuel ih =>
    intro n hn
    rw [Finset.sum_range_succ', nTransLoop]
    simp only [Nat.add_zero]
    by_cases h : headSum term (n + 1) < u
    · rw [if_pos h, if_neg (fun hh => absurd hh.2 (not_le.2 h)), add_zero]
      have hs : headSum term (n + 1) + term (n + 1) = headSum term (n + 1 + 1) := by unfold headSum; rw [Finset.sum_range_succ _ (n + 1)]
      rw [hs, ih (n + 1) h]
      refine Finset.sum_congr rfl fun k _ => ?_
      rw [show n + 1 + k = n + (k + 1) by ring]
    · rw [if_neg h, if_pos ⟨hn, not_lt.1 h⟩, Finset.sum_eq_zero, zero_add, atCount]
      intro k _
      refine if_neg fun hh => ?_
      have := headSum_mono hterm (show n + 1 ≤ n + (k + 1) by omega)
      exact absurd hh.1 (not_lt.2 ((not_lt.1 h).trans this))

theorem count_exp {term : ℕ → ℝ} (hterm : ∀ n, 0 ≤ term n) {c : ℝ} (hc : 0 < c) (hle : ∀ n, headSum term n ≤ c) (V : ℕ → ℝ≥0∞) (fuel : ℕ) :
    ∫⁻ U, atCount V (nTransLoop term (U * c) fuel 0 (headSum term 1)) ∂(RDist.uniform 0 1).law =
      ∑ k ∈ Finset.range fuel, ENNReal.ofReal (term k / c) * V k := by
  rw [law_uniform_zero one_pos, lintegral_smul_measure, div_one, ENNReal.ofReal_one, one_smul, setLIntegral_congr Ioo_ae_eq_Ico.symm,
    setLIntegral_congr_fun (g := fun U => ∑ k ∈ Finset.range fuel, if headSum term k < U * c ∧ U * c ≤ headSum term (k + 1) then V k else 0) measurableSet_Ioo]
  · rw [setLIntegral_congr Ioo_ae_eq_Ioc, lintegral_finset_sum]
    · refine Finset.sum_congr rfl fun k _ => ?_
      have hset : ∀ U, (if headSum term k < U * c ∧ U * c ≤ headSum term (k + 1) then V k else 0) =
          (Set.Ioc (headSum term k / c) (headSum term (k + 1) / c)).indicator (fun _ => V k) U := by
        intro U
        by_cases h : headSum term k < U * c ∧ U * c ≤ headSum term (k + 1)
        · rw [if_pos h, Set.indicator_of_mem]
          exact ⟨(div_lt_iff₀ hc).2 h.1, (le_div_iff₀ hc).2 h.2⟩
        · rw [if_neg h, Set.indicator_of_notMem]
          intro hm
          exact h ⟨(div_lt_iff₀ hc).1 hm.1, (le_div_iff₀ hc).1 hm.2⟩
      simp only [hset]
      rw [lintegral_indicator measurableSet_Ioc, lintegral_const, Measure.restrict_apply_univ, Measure.restrict_apply measurableSet_Ioc, mul_comm]
      congr 1
      have h0 : 0 ≤ headSum term k / c := div_nonneg (Finset.sum_nonneg fun i _ => hterm i) hc.le
      have h1 : headSum term (k + 1) / c ≤ 1 := (div_le_one hc).2 (hle _)
      rw [Set.inter_eq_left.2 (Set.Ioc_subset_Ioc h0 h1), Real.volume_Ioc]
      congr 1
      unfold headSum
      rw [Finset.sum_range_succ]; ring
    · intro k _
      refine Measurable.ite ?_ measurable_const measurable_const
      exact (measurableSet_lt measurable_const (measurable_id.mul_const c)).inter (measurableSet_le (measurable_id.mul_const c) measurable_const)
  · intro U hU
    have h0 : headSum term 0 < U * c := by
      have : headSum term 0 = 0 := by simp [headSum]
      rw [this]; exact mul_pos hU.1 hc
    have := count_val hterm V (U * c) fuel 0 h0
    simp only [zero_add] at this
    exact this

/-! ## the expected weight of a bridge -/

/-- What follows the choice of the number of jumps. -/
noncomputable def bridgeRest [NeZero d] (G : Matrix (Fin d) (Fin d) ℝ) (fin : ℝ) (i f : Fin d) (n : ℕ) : Prog (Skel ℝ) :=
  if n = 0 ∨ (n = 1 ∧ i = f) then .ret ⟨[0], [i.val], fin⟩
  else
    (bridgeSteps (dtrans G) f (n - 1) i).bind fun xs =>
    (Prog.replicate n (.draw (.uniform 0 fin))).bind fun us =>
    .ret (bridgeAssemble fin (i.val :: xs.map Fin.val ++ [f.val]) us)

theorem rest_exp [NeZero d] {G : Matrix (Fin d) (Fin d) ℝ} (hG : IsQMatrix G) {fin : ℝ} (hf : 0 < fin) {θ : ℕ → ℕ → ℝ} (hθ : ∀ i k, 0 ≤ θ i k)
    (v : ℕ → ℝ) (i f : Fin d) (n : ℕ) :
    ENNReal.ofReal (nTransTerm G fin i f n) * (bridgeRest G fin i f n).lexp (atSkel fun sk => jumpWeight θ v fin f sk.jumps) =
      ENNReal.ofReal (rateBound G ^ n) * dyson (dtrans G) (selfOne θ) v fin f n 0 i := by
  have hP := hG.dtrans_nonneg
  have hr := hG.rateBound_nonneg
  by_cases h0 : n = 0
  · subst h0
    rw [bridgeRest, if_pos (Or.inl rfl), Prog.lexp_ret, atSkel, nTransTerm, dyson]
    by_cases hif : i = f
    · simp [hif, Skel.jumps, jumpWeight]
    · simp [hif, Matrix.one_apply]
  by_cases h1 : n = 1 ∧ i = f
  · obtain ⟨rfl, rfl⟩ := h1
    rw [bridgeRest, if_pos (Or.inr ⟨rfl, rfl⟩), Prog.lexp_ret, atSkel, nTransTerm, dyson, Finset.sum_eq_single i]
    · have hint : ∀ h ∈ Set.Ioo 0 fin, ENNReal.ofReal (Real.exp (-(v i * (h - 0))) * (selfOne θ i i * dtrans G i i)) * dyson (dtrans G) (selfOne θ) v fin i 0 h i =
          ENNReal.ofReal (dtrans G i i * Real.exp (-(v i * fin))) := by
        intro h _
        rw [dyson, if_pos rfl, selfOne, if_pos rfl, one_mul, ← ENNReal.ofReal_mul (mul_nonneg (Real.exp_pos _).le (hP i i)), mul_comm (Real.exp _), mul_assoc,
          ← Real.exp_add]
        congr 3; ring
      rw [setLIntegral_congr_fun measurableSet_Ioo hint, lintegral_const, Measure.restrict_apply_univ, Real.volume_Ioo]
      simp only [Skel.jumps, List.zip_cons_cons, List.zip_nil_right, jumpWeight, if_true, pow_one, Nat.factorial_one, Nat.cast_one, div_one, sub_zero]
      rw [← ENNReal.ofReal_mul (mul_nonneg (mul_nonneg hr hf.le) (hP i i)), ← ENNReal.ofReal_mul (mul_nonneg (hP i i) (Real.exp_pos _).le),
        ← ENNReal.ofReal_mul hr]
      congr 1; ring
    · intro y _ hy
      refine (lintegral_congr fun h => ?_).trans lintegral_zero
      rw [dyson, if_neg hy, mul_zero]
    · simp
  · obtain ⟨m, rfl⟩ : ∃ m, n = m + 1 := ⟨n - 1, by omega⟩
    rcases (pow_nonneg_entry hP (m + 1) i f).eq_or_lt with hz | hpos
    · rw [nTransTerm, ← hz, dyson_zero hP _ v fin f _ i 0 hz.symm]; simp
    · rw [bridgeRest, if_neg (by tauto), ← steps_exp hP (selfOne_nonneg hθ) v fin f m 0 i, Prog.lexp_bind, Nat.add_sub_cancel]
      have hE : (bridgeSteps (dtrans G) f m i).lexp (Prog.cont (fun xs => (Prog.replicate (m + 1) (.draw (.uniform 0 fin))).bind fun us =>
            .ret (bridgeAssemble fin (i.val :: xs.map Fin.val ++ [f.val]) us)) (atSkel fun sk => jumpWeight θ v fin f sk.jumps) Prog.lexp) =
          ENNReal.ofReal ((m + 1).factorial / fin ^ (m + 1)) *
            (bridgeSteps (dtrans G) f m i).lexp (atStates fun l => statesInt (selfOne θ) v fin f 0 i (l.map Fin.val ++ [f.val])) := by
        rw [← Prog.lexp_const_mul _ _ ENNReal.ofReal_ne_top]
        refine Prog.lexp_congr fun r hr => ?_
        rcases r with e | xs
        · simp [atSkel, atStates]
        · obtain ⟨hlen, -⟩ := bridgeSteps_ok hP m hpos hr
          rw [Prog.cont_ok, atStates]
          have hl : m + 1 = (xs.map Fin.val ++ [f.val]).length := by simp [hlen]
          rw [hl]
          exact times_exp hf f i _
      rw [hE, ← mul_assoc, ← mul_assoc, nTransTerm]
      have hp := pow_nonneg_entry hP (m + 1) i f
      rw [← ENNReal.ofReal_mul (mul_nonneg (by positivity) hp), ← ENNReal.ofReal_mul (pow_nonneg hr _)]
      congr 2
      have hfac : ((m + 1).factorial : ℝ) ≠ 0 := Nat.cast_ne_zero.2 (Nat.factorial_ne_zero _)
      rw [mul_pow]
      field_simp

theorem bridge_split [NeZero d] {fuel : ℕ} {G : Matrix (Fin d) (Fin d) ℝ} (hG : IsQMatrix G) {fin : ℝ} (hf : 0 < fin) {i f : Fin d}
    (hc : 0 < getTrans fin G i f) {θ : ℕ → ℕ → ℝ} (hθ : ∀ i k, 0 ≤ θ i k) (v : ℕ → ℝ) :
    (sampleBridge fuel G fin i f).lexp (atSkel fun sk => jumpWeight θ v fin f sk.jumps) =
      ENNReal.ofReal (1 / (getTrans fin G i f * Real.exp (rateBound G * fin))) *
        ∑ n ∈ Finset.range fuel, ENNReal.ofReal (rateBound G ^ n) * dyson (dtrans G) (selfOne θ) v fin f n 0 i := by
  set c := getTrans fin G i f * Real.exp (rateBound G * fin) with hcdef
  have hcpos : 0 < c := mul_pos hc (Real.exp_pos _)
  have hterm : ∀ n, 0 ≤ nTransTerm G fin i f n := hG.term_nonneg hf.le i f
  have hle : ∀ n, headSum (nTransTerm G fin i f) n ≤ c := fun n =>
    sum_le_hasSum (Finset.range n) (fun k _ => hterm k) (hG.hasSum_terms fin i f)
  have h1 : (sampleBridge fuel G fin i f).lexp (atSkel fun sk => jumpWeight θ v fin f sk.jumps) =
      ∫⁻ U, atCount (fun n => (bridgeRest G fin i f n).lexp (atSkel fun sk => jumpWeight θ v fin f sk.jumps))
        (nTransLoop (nTransTerm G fin i f) (U * c) fuel 0 (headSum (nTransTerm G fin i f) 1)) ∂(RDist.uniform 0 1).law := by
    rw [sampleBridge, Prog.lexp_real]
    refine lintegral_congr fun U => ?_
    have hs : sampleNTrans fuel G fin i f U = nTransLoop (nTransTerm G fin i f) (U * c) fuel 0 (headSum (nTransTerm G fin i f) 1) := by
      rw [sampleNTrans, psum_zero_term G fin i f, hcdef, ← mul_assoc]
      rfl
    rw [bridgeFrom, hs]
    rcases nTransLoop (nTransTerm G fin i f) (U * c) fuel 0 (headSum (nTransTerm G fin i f) 1) with e | n
    · rfl
    · rfl
  rw [h1, count_exp hterm hcpos hle, Finset.mul_sum]
  refine Finset.sum_congr rfl fun n _ => ?_
  rw [← rest_exp hG hf hθ v i f n, ← mul_assoc, ← ENNReal.ofReal_mul (by positivity)]
  congr 2; ring

/-! ## summing over the number of jumps -/

theorem lintegral_Ioo_shift (a b : ℝ) (f : ℝ → ℝ≥0∞) : ∫⁻ t in Set.Ioo a b, f t = ∫⁻ h in Set.Ioo 0 (b - a), f (a + h) := by
  rw [lintegral_Ioo_ind, lintegral_Ioo_ind, ← lintegral_add_left_eq_self _ a]
  refine lintegral_congr fun h => ?_
  simp only [lt_add_iff_pos_right, lt_sub_iff_add_lt']

/-- Partial sums over the number of jumps, `s` before the end. -/
noncomputable def bridgeSum [NeZero d] (G : Matrix (Fin d) (Fin d) ℝ) (θ : ℕ → ℕ → ℝ) (v : ℕ → ℝ) (fin : ℝ) (f : Fin d) (N : ℕ) (s : ℝ) (x : Fin d) : ℝ≥0∞ :=
  ENNReal.ofReal (Real.exp (-(rateBound G * s))) * ∑ n ∈ Finset.range N, ENNReal.ofReal (rateBound G ^ n) * dyson (dtrans G) θ v fin f n (fin - s) x

/-- Rates of the uniformised process. -/
noncomputable def unifRates [NeZero d] (G : Matrix (Fin d) (Fin d) ℝ) (θ : ℕ → ℕ → ℝ) : Matrix (Fin d) (Fin d) ℝ := fun x y =>
  rateBound G * (θ x y * dtrans G x y)

theorem bridgeSum_step [NeZero d] {G : Matrix (Fin d) (Fin d) ℝ} (hG : IsQMatrix G) {θ : ℕ → ℕ → ℝ} (hθ : ∀ i k, 0 ≤ θ i k) (v : ℕ → ℝ) (fin : ℝ) (f : Fin d)
    (N : ℕ) (s : ℝ) (x : Fin d) :
    bridgeSum G θ v fin f (N + 1) s x = (if x = f then ENNReal.ofReal (Real.exp ((-rateBound G - v x) * s)) else 0) +
      ∑ y, ∫⁻ h in Set.Ioo 0 s, ENNReal.ofReal (Real.exp ((-rateBound G - v x) * h) * unifRates G θ x y) * bridgeSum G θ v fin f N (s - h) y := by
  have hr := hG.rateBound_nonneg
  have hP := hG.dtrans_nonneg
  rw [bridgeSum, Finset.sum_range_succ', mul_add, add_comm]
  congr 1
  · rw [pow_zero, ENNReal.ofReal_one, one_mul, dyson]
    split_ifs
    · rw [← ENNReal.ofReal_mul (Real.exp_pos _).le, ← Real.exp_add]
      congr 2; ring
    · simp
  · have h1 : ∀ n, ENNReal.ofReal (rateBound G ^ (n + 1)) * dyson (dtrans G) θ v fin f (n + 1) (fin - s) x =
        ∑ y, ∫⁻ h in Set.Ioo 0 s, ENNReal.ofReal (Real.exp (-(v x * h)) * unifRates G θ x y) *
          (ENNReal.ofReal (rateBound G ^ n) * dyson (dtrans G) θ v fin f n (fin - (s - h)) y) := by
      intro n
      rw [dyson, Finset.mul_sum]
      refine Finset.sum_congr rfl fun y _ => ?_
      rw [lintegral_Ioo_shift, sub_sub_cancel, ← lintegral_const_mul' _ _ ENNReal.ofReal_ne_top]
      refine lintegral_congr fun h => ?_
      rw [show fin - s + h - (fin - s) = h by ring, show fin - s + h = fin - (s - h) by ring, ← mul_assoc (ENNReal.ofReal (rateBound G ^ (n + 1))),
        ← mul_assoc _ (ENNReal.ofReal (rateBound G ^ n)), ← ENNReal.ofReal_mul (pow_nonneg hr _), ← ENNReal.ofReal_mul (mul_nonneg (Real.exp_pos _).le
          (show 0 ≤ unifRates G θ x y from mul_nonneg hr (mul_nonneg (hθ x y) (hP x y))))]
      congr 2; rw [unifRates]; ring
    simp only [h1]
    rw [Finset.sum_comm, Finset.mul_sum]
    refine Finset.sum_congr rfl fun y _ => ?_
    rw [← lintegral_finset_sum, ← lintegral_const_mul' _ _ ENNReal.ofReal_ne_top]
    · refine lintegral_congr fun h => ?_
      rw [bridgeSum, ← Finset.mul_sum, ← mul_assoc, ← mul_assoc]
      congr 1
      have hu : 0 ≤ unifRates G θ x y := mul_nonneg hr (mul_nonneg (hθ x y) (hP x y))
      rw [← ENNReal.ofReal_mul (Real.exp_pos _).le, ← ENNReal.ofReal_mul (mul_nonneg (Real.exp_pos _).le hu), ← mul_assoc, ← Real.exp_add, mul_right_comm,
        ← Real.exp_add]
      congr 3; ring
    · intro n _
      refine Measurable.mul (by fun_prop) (measurable_const.mul ?_)
      exact (dyson_measurable (dtrans G) θ v fin f n y).comp (measurable_const.sub (measurable_const.sub measurable_id))

theorem tilted_unif [NeZero d] {g : Mat} (hQ : IsQMatrix (toM d g)) (θ : ℕ → ℕ → ℝ) (v : ℕ → ℝ) :
    tilted d g θ v = Matrix.diagonal (fun x : Fin d => -rateBound (toM d g) - v x) + unifRates (toM d g) (selfOne θ) := by
  ext i k
  have h := congrFun (congrFun hQ.eq_smul i) k
  rw [Matrix.smul_apply, Matrix.sub_apply, Matrix.one_apply, smul_eq_mul] at h
  have hik : toM d g i k = g i k := rfl
  rw [Matrix.add_apply, Matrix.diagonal_apply, tilted, unifRates, selfOne]
  by_cases e : i = k
  · subst e
    rw [if_pos rfl] at h
    rw [if_pos rfl, if_pos rfl, if_pos rfl, one_mul, ← hik, h]
    ring
  · have e' : (i : ℕ) ≠ k := fun h => e (Fin.ext h)
    rw [if_neg e] at h
    rw [if_neg e, if_neg e, if_neg e', ← hik, h]
    ring

/-- **Expected weight of a bridge.** -/
theorem bridge_weight [NeZero d] {g : Mat} (hQ : IsQMatrix (toM d g)) {fin : ℝ} (hf : 0 < fin) {i f : Fin d} (hc : 0 < getTrans fin (toM d g) i f)
    {θ : ℕ → ℕ → ℝ} (hθ : ∀ i k, 0 ≤ θ i k) (v : ℕ → ℝ) (fuel : ℕ) :
    (sampleBridge fuel (toM d g) fin i f).lexp (atSkel fun sk => sk.weight d θ v f) =
      ENNReal.ofReal (1 / getTrans fin (toM d g) i f) * bridgeSum (toM d g) (selfOne θ) v fin f fuel fin i := by
  have hcongr : (sampleBridge fuel (toM d g) fin i f).lexp (atSkel fun sk => sk.weight d θ v f) =
      (sampleBridge fuel (toM d g) fin i f).lexp (atSkel fun sk => jumpWeight θ v fin f sk.jumps) := by
    refine Prog.lexp_congr_gen (diffuse_sampleBridge hf i f) (h := [0]) fun r h' hr => ?_
    rcases r with e | sk
    · rfl
    · obtain ⟨h1, -⟩ := bridge_pathLike hQ hf hc (by simp) hr
      simp only [atSkel]
      rw [weight_eq_jumpWeight h1.valid h1.states hθ, h1.fin_eq]
  rw [hcongr, bridge_split hQ hf hc hθ, bridgeSum, ← mul_assoc, ← ENNReal.ofReal_mul (by positivity), sub_self]
  congr 2
  rw [Real.exp_neg, one_div, one_div, mul_inv]

theorem bridgeSum_tendsto [NeZero d] {g : Mat} (hQ : IsQMatrix (toM d g)) {fin : ℝ} (hf : 0 < fin) (i f : Fin d) {θ : ℕ → ℕ → ℝ} (hθ : ∀ i k, 0 ≤ θ i k)
    (v : ℕ → ℝ) :
    (∀ n, bridgeSum (toM d g) (selfOne θ) v fin f n fin i ≤ ENNReal.ofReal (NormedSpace.exp (fin • tilted d g θ v) i f)) ∧
      Filter.Tendsto (fun n => bridgeSum (toM d g) (selfOne θ) v fin f n fin i) Filter.atTop
        (nhds (ENNReal.ofReal (NormedSpace.exp (fin • tilted d g θ v) i f))) := by
  have hB : ∀ x y : Fin d, 0 ≤ unifRates (toM d g) (selfOne θ) x y := fun x y =>
    mul_nonneg hQ.rateBound_nonneg (mul_nonneg (selfOne_nonneg hθ x y) (hQ.dtrans_nonneg x y))
  have := volterra_tendsto (tilted_unif hQ θ v) hB (T := fin) (j := f) (u := bridgeSum (toM d g) (selfOne θ) v fin f) ?_
    (fun n s _ _ x => bridgeSum_step hQ (selfOne_nonneg hθ) v fin f n s x) hf le_rfl i
  · rw [mexp_def] at this; exact this
  · intro s _ _ x
    rw [bridgeSum, Finset.range_zero, Finset.sum_empty, mul_zero]
    exact zero_le

end Ctb
