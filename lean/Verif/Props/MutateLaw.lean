import Verif.Lemmas.MutateLaw

/-!
# C84: resampling the pieces of a path

`mutate_partition` redraws every piece of a path given its states at the break points.  Whether that keeps the law of the path depends on the law of the initial
state.
-/

set_option linter.unusedSectionVars false

namespace Ctb

open Classical MeasureTheory ProbabilityTheory
open scoped ENNReal

variable {d : ℕ} [NeZero d]

/-- A stationary path on `[0, s + s']` in two pieces, redrawn by `mutate_partition`. -/
noncomputable def redrawTwo (fuel d : ℕ) [NeZero d] (g : Mat) (s s' : ℝ) : Prog (List (Skel ℝ)) :=
  (sampleForwards fuel d g s none).bind fun p =>
  (lastState d p).bind fun x =>
  (sampleForwards fuel d g s' (some x.val)).bind fun p' =>
  mutatePartition fuel d g [p, p']

/-- First state of the first piece. -/
def firstIs (i : ℕ) (r : Res (List (Skel ℝ))) : Prop := ∃ ps sk, r = .ok ps ∧ ps.head? = some sk ∧ sk.xt.head? = some i

theorem lexp_bind_const {α β : Type} (p : Prog α) (f : α → Prog β) (g : Res β → ℝ≥0∞) (hg : ∀ e, g (.error e) = 0) {c : ℝ≥0∞} (hc : c ≠ ∞)
    (h : ∀ a, p.Out (.ok a) → (f a).lexp g = c) : (p.bind f).lexp g = c * p.prob fun r => ∃ a, r = .ok a := by
  rw [Prog.lexp_bind, Prog.prob, ← Prog.lexp_const_mul _ _ hc]
  refine Prog.lexp_congr fun r hr => ?_
  rcases r with e | a
  · simp [hg]
  · rw [Prog.cont_ok, h a hr]; simp

/-- Probability that a backward path starts in `i`. -/
noncomputable def backStart (fuel : ℕ) (g : Mat) (s : ℝ) (x i : Fin d) : ℝ≥0∞ :=
  (sampleBackwards fuel (toM d g) s x).prob fun r => ∃ sk, r = .ok sk ∧ sk.xt.head? = some i.val

theorem proper_sampleBackwards {fuel : ℕ} {G : Matrix (Fin d) (Fin d) ℝ} (fin : ℝ) (f : Fin d) : (sampleBackwards fuel G fin f).Proper :=
  (proper_pyChoice _).bind fun _ _ => proper_sampleBridge _ _ _

theorem bridge_start {g : Mat} (hQ : IsQMatrix (toM d g)) {s : ℝ} (hs : 0 < s) {k x : Fin d} (hc : 0 < getTrans s (toM d g) k x) (i : Fin d) (fuel : ℕ) :
    (sampleBridge fuel (toM d g) s k x).prob (fun r => ∃ sk, r = .ok sk ∧ sk.xt.head? = some i.val) =
      if k = i then (sampleBridge fuel (toM d g) s k x).prob (fun r => ∃ sk, r = .ok sk ∧ sk.xt.getLast? = some x.val) else 0 := by
  have h : ∀ sk h', (sampleBridge fuel (toM d g) s k x).Gen [0] (.ok sk) h' → sk.xt.head? = some k.val ∧ sk.xt.getLast? = some x.val := by
    intro sk h' hr
    obtain ⟨-, h1, h2⟩ := bridge_pathLike hQ hs hc (by simp) hr
    exact ⟨h1, h2⟩
  split_ifs with hk
  · subst hk
    refine Prog.lexp_congr_gen (diffuse_sampleBridge hs k x) (h := [0]) fun r h' hr => ?_
    rcases r with e | sk
    · simp
    · obtain ⟨h1, h2⟩ := h sk h' hr
      simp [h1, h2]
  · refine Prog.prob_zero_gen (diffuse_sampleBridge hs k x) [0] fun r h' hr => ?_
    rintro ⟨sk, rfl, hh⟩
    rw [(h sk h' hr).1] at hh
    exact hk (Fin.ext (Option.some.inj hh))

theorem backStart_tendsto {g : Mat} (hg : IsGenerator d g) {s : ℝ} (hs : 0 < s) (x i : Fin d) :
    Filter.Tendsto (fun fuel => backStart fuel g s x i) Filter.atTop
      (nhds (ENNReal.ofReal (getTrans s (toM d g) i x / ∑ k, getTrans s (toM d g) k x))) := by
  unfold backStart Prog.prob
  simp only [backwards_exp hg.toQ hs]
  have h1 : ∀ k fuel, (sampleBridge fuel (toM d g) s k x).lexp (fun r => if ∃ sk, r = .ok sk ∧ sk.xt.head? = some i.val then 1 else 0) =
      if k = i then (sampleBridge fuel (toM d g) s k x).prob (fun r => ∃ sk, r = .ok sk ∧ sk.xt.getLast? = some x.val) else 0 := fun k fuel =>
    bridge_start hg.toQ hs (hg.getTrans_pos hs k x) i fuel
  simp only [h1, mul_ite, mul_zero, Finset.sum_ite_eq', Finset.mem_univ, if_true]
  have h2 := ENNReal.Tendsto.const_mul (a := ENNReal.ofReal (getTrans s (toM d g) i x / ∑ k, getTrans s (toM d g) k x))
    (C83_terminates hg.toQ hs (hg.getTrans_pos hs i x)).1 (Or.inr ENNReal.ofReal_ne_top)
  rwa [mul_one] at h2

/-- **C84, law of the first state.** A stationary path, cut once and redrawn, starts in `i` with probability `Σ_x π_x P_ix / Σ_k P_kx`, with `P` the transition
matrix over the first piece. -/
theorem C84_first_state_law (hd : 2 ≤ d) {g : Mat} (hg : IsGenerator d g) {s s' : ℝ} (hs : 0 < s) (hs' : 0 < s') (i : Fin d) :
    ∃ p, getStat d g = .ok p ∧
      Filter.Tendsto (fun fuel => (redrawTwo fuel d g s s').prob (firstIs i)) Filter.atTop
        (nhds (ENNReal.ofReal (∑ x, p x * (getTrans s (toM d g) i x / ∑ k, getTrans s (toM d g) k x)))) := by
  obtain ⟨p, hp, hpos, hsum, hst, -⟩ := C12_get_stat hg
  refine ⟨p, hp, ?_⟩
  set okP : ℕ → Fin d → ℝ≥0∞ := fun fuel x => (sampleForwards fuel d g s' (some x.val)).prob fun r => ∃ sk, r = .ok sk with hokP
  have hok1 : ∀ fuel x, okP fuel x ≤ 1 := fun fuel x => (proper_sampleForwards fuel d g s' _).prob_le_one _
  have hb1 : ∀ fuel x, backStart fuel g s x i ≤ 1 := fun fuel x => (proper_sampleBackwards s x).prob_le_one _
  have hnt : ∀ {a : ℝ≥0∞}, a ≤ 1 → a ≠ ∞ := fun h => ne_top_of_le_ne_top ENNReal.one_ne_top h
  -- the value given the state at the break
  have hmut : ∀ fuel (x : Fin d) (pc p' : Skel ℝ), pc.fin = s → pc.xt.getLast? = some x.val → p'.fin = s' → p'.xt.head? = some x.val →
      (mutatePartition fuel d g [pc, p']).lexp (fun r => if firstIs i r then 1 else 0) = okP fuel x * backStart fuel g s x i := by
    intro fuel x pc p' h1 h2 h3 h4
    have hl : lastState d pc = .ret x := by unfold lastState asState; rw [h2]; simp
    have hf : firstState d p' = .ret x := by unfold firstState asState; rw [h4]; simp
    have hm : mutatePartition fuel d g [pc, p'] =
        (sampleBackwards fuel (toM d g) s x).bind fun q => (sampleForwards fuel d g s' (some x.val)).bind fun r => .ret [q, r] := by
      unfold mutatePartition
      simp only [hl, h1, Prog.ret_bind, List.getLast_singleton, hf, h3, List.dropLast_singleton]
      simp [Prog.mapM', Prog.ret_bind]
    rw [hm, Prog.lexp_bind, backStart, Prog.prob, ← Prog.lexp_const_mul _ _ (hnt (hok1 fuel x))]
    refine Prog.lexp_congr fun r _ => ?_
    rcases r with e | q
    · simp [firstIs]
    · rw [Prog.cont_ok]
      by_cases hq : q.xt.head? = some i.val
      · rw [lexp_bind_const (c := 1) _ _ _ (by simp [firstIs]) ENNReal.one_ne_top]
        · simp [hq, hokP]
        · intro a _; simp [firstIs, hq]
      · rw [lexp_bind_const (c := 0) _ _ _ (by simp [firstIs]) ENNReal.zero_ne_top]
        · simp [hq]
        · intro a _; simp [firstIs, hq]
  have hval : ∀ fuel, (redrawTwo fuel d g s s').prob (firstIs i) =
      (sampleForwards fuel d g s none).lexp (atSkel (lastVal fun x => okP fuel x * backStart fuel g s x i * okP fuel x)) := by
    intro fuel
    rw [redrawTwo, Prog.prob, Prog.lexp_bind]
    refine Prog.lexp_congr fun r hr => ?_
    rcases r with e | pc
    · simp [atSkel, firstIs]
    · obtain ⟨hlike, -⟩ := forwards_none_pathLike hs hr
      have hne : pc.xt ≠ [] := by
        intro h
        have h0 := hlike.valid.head
        have ht : pc.t = [] := List.length_eq_zero_iff.1 (by rw [hlike.valid.len, h]; rfl)
        rw [ht] at h0
        simp at h0
      obtain ⟨y, hy⟩ : ∃ y, pc.xt.getLast? = some y := ⟨_, List.getLast?_eq_getLast_of_ne_nil hne⟩
      have hyd : y < d := hlike.states y (List.mem_of_getLast? hy)
      have hl : lastState d pc = .ret ⟨y, hyd⟩ := by unfold lastState asState; rw [hy]; simp [hyd]
      rw [Prog.cont_ok, hl, Prog.ret_bind, lexp_bind_const (c := okP fuel ⟨y, hyd⟩ * backStart fuel g s ⟨y, hyd⟩ i) _ _ _ (by simp [firstIs])
        (ENNReal.mul_ne_top (hnt (hok1 _ _)) (hnt (hb1 _ _)))]
      · simp only [atSkel, lastVal, hy, hyd, dif_pos]
        rfl
      · intro p' hp'
        obtain ⟨h1, h2⟩ := forwards_pathLike hs' hp'
        exact hmut fuel ⟨y, hyd⟩ pc p' hlike.fin_eq hy h1.fin_eq h2
  simp only [hval]
  have hlim := lastVal_tendsto (d := d) (p := fun fuel => sampleForwards fuel d g s none) (fun fuel => proper_sampleForwards _ _ _ _ _)
    (q := fun x => ENNReal.ofReal (p x)) (k := fun x => ENNReal.ofReal (getTrans s (toM d g) i x / ∑ k, getTrans s (toM d g) k x))
    (K := fun fuel x => okP fuel x * backStart fuel g s x i * okP fuel x) ?_ ?_ ?_ ?_
  · have he : ∑ x, ENNReal.ofReal (getTrans s (toM d g) i x / ∑ k, getTrans s (toM d g) k x) * ENNReal.ofReal (p x) =
        ENNReal.ofReal (∑ x, p x * (getTrans s (toM d g) i x / ∑ k, getTrans s (toM d g) k x)) := by
      rw [ENNReal.ofReal_sum_of_nonneg]
      · exact Finset.sum_congr rfl fun x _ => by rw [ENNReal.ofReal_mul (hpos x).le, mul_comm]
      · exact fun x _ => mul_nonneg (hpos x).le (div_nonneg (hg.toQ.getTrans_nonneg hs.le _ _) (colsum_pos hg.toQ hs x).le)
    rwa [he] at hlim
  · intro x
    obtain ⟨p', hp', h⟩ := C82_stationary hd hg hs x
    have : p' = p := Except.ok.inj (hp'.symm.trans hp)
    subst this
    exact h
  · rw [← ENNReal.ofReal_sum_of_nonneg fun x _ => (hpos x).le, hsum, ENNReal.ofReal_one]
  · exact fun fuel x => mul_le_one' (mul_le_one' (hok1 _ _) (hb1 _ _)) (hok1 _ _)
  · intro x
    have h1 := (C82_terminates hd hg.toQ hs' x).1
    have h2 := backStart_tendsto hg hs x i
    have h3 := ENNReal.Tendsto.mul (ENNReal.Tendsto.mul h1 (Or.inr ENNReal.ofReal_ne_top) h2 (Or.inr ENNReal.one_ne_top)) (Or.inr ENNReal.one_ne_top) h1
      (Or.inr (ENNReal.mul_ne_top ENNReal.one_ne_top ENNReal.ofReal_ne_top))
    rwa [one_mul, mul_one] at h3

/-- **C84 is violated.** With two states left at rates 1 and 3, a stationary path starts in state 0 with probability 3/4; after one cut and
`mutate_partition` the probability is different: the first piece is redrawn under a uniform initial law. -/
theorem C84_violated : ∃ p : Fin 2 → ℝ, getStat 2 slowFast = .ok p ∧ p 0 = 3 / 4 ∧
    Filter.Tendsto (fun fuel => (sampleForwards fuel 2 slowFast 1 none).prob fun r => ∃ sk, r = .ok sk ∧ sk.xt.head? = some 0) Filter.atTop
      (nhds (ENNReal.ofReal (3 / 4))) ∧
    ∃ q : ℝ, 0 ≤ q ∧ q < 3 / 4 ∧
      Filter.Tendsto (fun fuel => (redrawTwo fuel 2 slowFast 1 1).prob (firstIs 0)) Filter.atTop (nhds (ENNReal.ofReal q)) := by
  obtain ⟨p, hp, hpos, hsum, hst, -⟩ := C12_get_stat slowFast_isGenerator
  have h0 : p 0 = 3 / 4 := by
    have := hst 0
    simp [Fin.sum_univ_two, slowFast] at this hsum
    linarith
  have h1 : p 1 = 1 / 4 := by
    simp [Fin.sum_univ_two] at hsum
    linarith
  refine ⟨p, hp, h0, ?_, ?_⟩
  · unfold Prog.prob
    simp only [forwards_none_exp slowFast_isGenerator hp, Fin.sum_univ_two]
    have hs : ∀ (x : Fin 2) fuel, (sampleForwards fuel 2 slowFast 1 (some x.val)).lexp (fun r => if ∃ sk, r = .ok sk ∧ sk.xt.head? = some 0 then 1 else 0) =
        if x = 0 then (sampleForwards fuel 2 slowFast 1 (some x.val)).prob (fun r => ∃ sk, r = .ok sk) else 0 := by
      intro x fuel
      split_ifs with hx
      · subst hx
        refine Prog.lexp_congr fun r hr => ?_
        rcases r with e | sk
        · simp
        · have := (forwards_pathLike one_pos hr).2
          simp at this
          simp [this]
      · refine (Prog.lexp_congr fun r hr => if_neg ?_).trans (Prog.lexp_zero _)
        rintro ⟨sk, rfl, hh⟩
        rw [(forwards_pathLike one_pos hr).2] at hh
        exact hx (Fin.ext (Option.some.inj hh))
    simp only [hs, if_true, one_ne_zero, if_false, mul_zero, add_zero]
    have := ENNReal.Tendsto.const_mul (a := ENNReal.ofReal (p 0)) (C82_terminates le_rfl slowFast_isGenerator.toQ one_pos 0).1 (Or.inr ENNReal.ofReal_ne_top)
    rw [mul_one, h0] at this
    rw [h0]
    exact this
  · obtain ⟨p', hp', hlim⟩ := C84_first_state_law le_rfl slowFast_isGenerator one_pos one_pos 0
    have : p' = p := Except.ok.inj (hp'.symm.trans hp)
    subst this
    refine ⟨_, ?_, ?_, hlim⟩
    · exact Finset.sum_nonneg fun x _ => mul_nonneg (hpos x).le
        (div_nonneg (slowFast_isGenerator.toQ.getTrans_nonneg zero_le_one _ _) (colsum_pos slowFast_isGenerator.toQ one_pos x).le)
    · have he : Real.exp (-(4 * 1)) < 1 := Real.exp_lt_one_iff.2 (by norm_num)
      have he0 := Real.exp_pos (-(4 * 1 : ℝ))
      simp only [Fin.sum_univ_two, slowFast_trans, h0, h1]
      set e := Real.exp (-(4 * 1))
      simp [slowFast]
      have d1 : 0 < 1 + -((1 - e) / 4) + (1 - e) / 4 * 3 := by linarith
      have d2 : 0 < (1 - e) / 4 + (1 + -((1 - e) / 4 * 3)) := by linarith
      rw [← mul_div_assoc, ← mul_div_assoc, div_add_div _ _ d1.ne' d2.ne', div_lt_iff₀ (mul_pos d1 d2)]
      nlinarith [mul_pos (sub_pos.2 he) he0, mul_pos (sub_pos.2 he) (sub_pos.2 he)]

/-! ## what holds -/

theorem lexp_single {p : Prog (Skel ℝ)} {K : Fin d → ℝ≥0∞} {j : Fin d} (hK : ∀ x, x ≠ j → K x = 0) (hj : K j ≠ ∞) :
    p.lexp (atSkel (lastVal K)) = K j * endProb p j.val := by
  rw [endProb, Prog.prob, ← Prog.lexp_const_mul _ _ hj]
  refine Prog.lexp_congr fun r _ => ?_
  rcases r with e | sk
  · simp [atSkel]
  · rw [atSkel, lastVal_sum, Finset.sum_eq_single j]
    · simp
    · intro x _ hx; rw [hK x hx, zero_mul]
    · simp

/-- A redrawn piece ends where the old one did. -/
theorem redraw_exp {α : Type} [Nonempty α] {g : Mat} {s : ℝ} (hs : 0 < s) {init : ℕ} (fuel : ℕ) {R : Fin d → Prog (Skel ℝ)} {F : Skel ℝ → ℝ≥0∞} {j : Fin d}
    (hR : ∀ y, y ≠ j → (R y).lexp (atSkel F) = 0) (hj : (R j).lexp (atSkel F) ≠ ∞) :
    ((sampleForwards fuel d g s (some init)).bind fun p => (lastState d p).bind R).lexp (atSkel F) =
      (R j).lexp (atSkel F) * endProb (sampleForwards fuel d g s (some init)) j.val := by
  rw [← lexp_single (K := fun y => (R y).lexp (atSkel F)) hR hj, Prog.lexp_bind]
  refine Prog.lexp_congr fun r hr => ?_
  rcases r with e | pc
  · rfl
  · obtain ⟨hlike, -⟩ := forwards_pathLike hs hr
    have hne : pc.xt ≠ [] := by
      intro h
      have h0 := hlike.valid.head
      have ht : pc.t = [] := List.length_eq_zero_iff.1 (by rw [hlike.valid.len, h]; rfl)
      rw [ht] at h0
      simp at h0
    obtain ⟨y, hy⟩ : ∃ y, pc.xt.getLast? = some y := ⟨_, List.getLast?_eq_getLast_of_ne_nil hne⟩
    have hyd : y < d := hlike.states y (List.mem_of_getLast? hy)
    have hl : lastState d pc = .ret ⟨y, hyd⟩ := by unfold lastState asState; rw [hy]; simp [hyd]
    rw [Prog.cont_ok, hl, Prog.ret_bind]
    simp only [atSkel, lastVal, hy, hyd, dif_pos]

theorem bridge_other_end {g : Mat} (hg : IsGenerator d g) {s : ℝ} (hs : 0 < s) (x : Fin d) {y j : Fin d} (hy : y ≠ j) (θ : ℕ → ℕ → ℝ) (v : ℕ → ℝ) (fuel : ℕ) :
    (sampleBridge fuel (toM d g) s x y).lexp (atSkel fun sk => sk.weight d θ v j) = 0 := by
  refine (Prog.lexp_congr_gen (diffuse_sampleBridge hs x y) (h := [0]) (g' := fun _ => 0) fun r h' hr => ?_).trans (Prog.lexp_zero _)
  rcases r with e | sk
  · rfl
  · obtain ⟨-, -, h2⟩ := bridge_pathLike hg.toQ hs (hg.getTrans_pos hs x y) (by simp) hr
    rw [atSkel, Skel.weight, if_neg]
    rw [h2]
    intro h; exact hy (Fin.ext (Option.some.inj h))

/-- **C84, interior pieces.** Redrawing a piece by `sample_bridge` between its end states keeps its law: the statistics of the redrawn piece have the limit
expectations of `sample_forwards` (C82). -/
theorem C84_interior_partial (hd : 2 ≤ d) {g : Mat} (hg : IsGenerator d g) {s : ℝ} (hs : 0 < s) (x j : Fin d) {θ : ℕ → ℕ → ℝ} (hθ : ∀ i k, 0 ≤ θ i k)
    (v : ℕ → ℝ) :
    Filter.Tendsto (fun fuel => ((sampleForwards fuel d g s (some x.val)).bind fun p => (lastState d p).bind fun y =>
        sampleBridge fuel (toM d g) s x y).lexp (atSkel fun sk => sk.weight d θ v j)) Filter.atTop
      (nhds (ENNReal.ofReal (NormedSpace.exp (s • tilted d g θ v) x j))) := by
  have hpos : 0 < getTrans s (toM d g) x j := hg.getTrans_pos hs x j
  obtain ⟨h1, h2⟩ := C83_bridge_law hg.toQ hs hpos hθ v
  have he : ∀ fuel, ((sampleForwards fuel d g s (some x.val)).bind fun p => (lastState d p).bind fun y =>
        sampleBridge fuel (toM d g) s x y).lexp (atSkel fun sk => sk.weight d θ v j) =
      (sampleBridge fuel (toM d g) s x j).lexp (atSkel fun sk => sk.weight d θ v j) * endProb (sampleForwards fuel d g s (some x.val)) j.val := fun fuel =>
    redraw_exp (α := Unit) hs fuel (fun y hy => bridge_other_end hg hs x hy θ v fuel) (ne_top_of_le_ne_top ENNReal.ofReal_ne_top (h1 fuel))
  simp only [he]
  have h3 := ENNReal.Tendsto.mul h2 (Or.inr ENNReal.ofReal_ne_top) (C82_end_state hd hg.toQ hs x j) (Or.inr ENNReal.ofReal_ne_top)
  have hval : ENNReal.ofReal (NormedSpace.exp (s • tilted d g θ v) x j / NormedSpace.exp (s • toM d g) x j) * ENNReal.ofReal (NormedSpace.exp (s • toM d g) x j) =
      ENNReal.ofReal (NormedSpace.exp (s • tilted d g θ v) x j) := by
    have hr : ∀ {a b : ℝ}, 0 < b → ENNReal.ofReal (a / b) * ENNReal.ofReal b = ENNReal.ofReal a := fun {a b} hb => by
      rw [← ENNReal.ofReal_mul' hb.le, div_mul_cancel₀ _ hb.ne']
    exact hr hpos
  rw [hval] at h3
  exact h3

/-- **C84, first piece.** Redrawing the first piece by `sample_backwards` keeps its law when the initial state is uniform over the states: averaged over the
initial state, the redrawn piece has the limit expectations of `sample_forwards`. -/
theorem C84_first_piece_partial (hd : 2 ≤ d) {g : Mat} (hg : IsGenerator d g) {s : ℝ} (hs : 0 < s) (j : Fin d) {θ : ℕ → ℕ → ℝ} (hθ : ∀ i k, 0 ≤ θ i k)
    (v : ℕ → ℝ) :
    Filter.Tendsto (fun fuel => ∑ x : Fin d, ENNReal.ofReal (1 / d) * ((sampleForwards fuel d g s (some x.val)).bind fun p => (lastState d p).bind fun y =>
        sampleBackwards fuel (toM d g) s y).lexp (atSkel fun sk => sk.weight d θ v j)) Filter.atTop
      (nhds (∑ x : Fin d, ENNReal.ofReal (1 / d) * ENNReal.ofReal (NormedSpace.exp (s • tilted d g θ v) x j))) := by
  have hcol := colsum_pos hg.toQ hs j
  have hB := C83_backwards_law hg.toQ hs j hθ v
  have hfin : ∀ fuel, (sampleBackwards fuel (toM d g) s j).lexp (atSkel fun sk => sk.weight d θ v j) ≠ ∞ := by
    intro fuel
    rw [backwards_exp hg.toQ hs]
    refine ENNReal.sum_ne_top.2 fun i _ => ENNReal.mul_ne_top ENNReal.ofReal_ne_top ?_
    exact ne_top_of_le_ne_top ENNReal.ofReal_ne_top ((C83_bridge_law hg.toQ hs (hg.getTrans_pos hs i j) hθ v).1 fuel)
  have hzero : ∀ fuel y, y ≠ j → (sampleBackwards fuel (toM d g) s y).lexp (atSkel fun sk => sk.weight d θ v j) = 0 := by
    intro fuel y hy
    rw [backwards_exp hg.toQ hs]
    refine Finset.sum_eq_zero fun i _ => ?_
    rw [bridge_other_end hg hs i hy θ v fuel, mul_zero]
  have he : ∀ fuel (x : Fin d), ((sampleForwards fuel d g s (some x.val)).bind fun p => (lastState d p).bind fun y =>
        sampleBackwards fuel (toM d g) s y).lexp (atSkel fun sk => sk.weight d θ v j) =
      (sampleBackwards fuel (toM d g) s j).lexp (atSkel fun sk => sk.weight d θ v j) * endProb (sampleForwards fuel d g s (some x.val)) j.val := fun fuel x =>
    redraw_exp (α := Unit) hs fuel (hzero fuel) (hfin fuel)
  simp only [he]
  have h3 := tendsto_finset_sum Finset.univ fun (x : Fin d) _ => ENNReal.Tendsto.const_mul (a := ENNReal.ofReal (1 / d))
    (ENNReal.Tendsto.mul hB (Or.inr ENNReal.ofReal_ne_top) (C82_end_state hd hg.toQ hs x j) (Or.inr ENNReal.ofReal_ne_top)) (Or.inr ENNReal.ofReal_ne_top)
  have hval : ∑ x : Fin d, ENNReal.ofReal (1 / d) * (ENNReal.ofReal ((∑ i, NormedSpace.exp (s • tilted d g θ v) i j) / ∑ k, NormedSpace.exp (s • toM d g) k j) *
        ENNReal.ofReal (NormedSpace.exp (s • toM d g) x j)) =
      ∑ x : Fin d, ENNReal.ofReal (1 / d) * ENNReal.ofReal (NormedSpace.exp (s • tilted d g θ v) x j) := by
    rw [← Finset.mul_sum, ← Finset.mul_sum, ← Finset.mul_sum]
    congr 1
    have e1 : ∑ i, ENNReal.ofReal (getTrans s (toM d g) i j) = ENNReal.ofReal (∑ i, getTrans s (toM d g) i j) :=
      (ENNReal.ofReal_sum_of_nonneg fun i _ => hg.toQ.getTrans_nonneg hs.le i j).symm
    have e2 : ∑ i, ENNReal.ofReal (getTrans s (tilted d g θ v) i j) = ENNReal.ofReal (∑ i, getTrans s (tilted d g θ v) i j) :=
      (ENNReal.ofReal_sum_of_nonneg fun i _ => tilted_nonneg hg.toQ hs.le hθ v i j).symm
    refine Eq.trans (congrArg _ e1) (Eq.trans ?_ e2.symm)
    have hr : ∀ {a b : ℝ}, 0 < b → ENNReal.ofReal (a / b) * ENNReal.ofReal b = ENNReal.ofReal a := fun {a b} hb => by
      rw [← ENNReal.ofReal_mul' hb.le, div_mul_cancel₀ _ hb.ne']
    exact hr hcol
  rw [hval] at h3
  exact h3

/-- The hypotheses hold for the generator of the counterexample. -/
example : Filter.Tendsto (fun fuel => ((sampleForwards fuel 2 slowFast 1 (some 0)).bind fun p => (lastState 2 p).bind fun y =>
      sampleBridge fuel (toM 2 slowFast) 1 0 y).lexp (atSkel fun sk => sk.weight 2 (fun _ _ => 1) (fun _ => 0) 1)) Filter.atTop
    (nhds (ENNReal.ofReal ((1 - Real.exp (-4)) / 4))) := by
  have h := C84_interior_partial le_rfl slowFast_isGenerator one_pos 0 1 (θ := fun _ _ => 1) (fun _ _ => zero_le_one) (fun _ => 0)
  have e : NormedSpace.exp ((1 : ℝ) • tilted 2 slowFast (fun _ _ => 1) fun _ => 0) 0 1 = (1 - Real.exp (-4)) / 4 := by
    rw [tilted_one]
    refine (slowFast_trans 1 0 1).trans ?_
    simp [slowFast]
  rw [e] at h
  exact h

end Ctb
