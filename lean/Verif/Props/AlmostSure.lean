import Verif.Lemmas.Diffuse
import Verif.Props.MjpSampling

/-!
# C07, C10 and C11 with probability one

The theorems of `Props/MjpSampling.lean` exclude runs in which numpy returns one of finitely many exceptional values.  Here these
runs are shown to have probability zero, every draw having its documented distribution.
-/

set_option linter.unusedSectionVars false

namespace Ctb

open Classical MeasureTheory ProbabilityTheory
open scoped ENNReal

variable {d : ℕ}

/-- **C07 with probability one.** A bridge that is not a valid path from `i` to `f`, jumping along positive rates only, has probability
zero. -/
theorem C07_almost_surely_partial [NeZero d] {fuel : ℕ} {g : Mat} (hQ : IsQMatrix (toM d g)) {fin : ℝ} (hf : 0 < fin) {i f : Fin d}
    (hc : 0 < NormedSpace.exp (fin • toM d g) i f) :
    (sampleBridge fuel (toM d g) fin i f).prob (fun r => ∃ sk, r = .ok sk ∧ ¬ (sk.Valid ∧ sk.Reduced ∧ sk.StatesLt d ∧ sk.fin = fin ∧
      sk.xt.head? = some i.val ∧ sk.xt.getLast? = some f.val ∧ sk.xt.IsChain fun a b => a ≠ b ∧ 0 < g a b)) = 0 := by
  refine Prog.prob_zero_gen (diffuse_sampleBridge hf i f) [0] ?_
  rintro r h' hr ⟨sk, rfl, hn⟩
  exact hn (C07_bridge_partial hQ hf hc hr)

/-- **C10 with probability one.** -/
theorem C10_almost_surely_partial [NeZero d] {fuel : ℕ} {g : Mat} (hg : IsGenerator d g) {ps : List (Skel ℝ)} (hpos : ∀ p ∈ ps, 0 < p.fin) :
    (mutatePartition fuel d g ps).prob (fun r => ∃ qs, r = .ok qs ∧ ¬ (qs.length = ps.length ∧ ∀ k p q, ps[k]? = some p → qs[k]? = some q →
      q.Valid ∧ q.Reduced ∧ q.StatesLt d ∧ q.fin = p.fin ∧
      (0 < k → q.xt.head? = p.xt.head?) ∧ (k + 1 < ps.length → q.xt.getLast? = p.xt.getLast?))) = 0 := by
  refine Prog.prob_zero_gen (diffuse_mutatePartition hpos) [0] ?_
  rintro r h' hr ⟨qs, rfl, hn⟩
  exact hn (C10_mutate_partial hg hpos hr)

/-- **C11 with probability one.** The only other outcome of positive probability is the recursion budget of the model running out. -/
theorem C11_almost_surely_partial [NeZero d] {fuel : ℕ} {ls : ℝ} {g : Mat} (hd : 2 ≤ d) (hg : IsGenerator d g) {st : Skel ℝ} (hv : st.Valid)
    (hst : st.StatesLt d) {t : List ℝ} (hs : t.Pairwise (· < ·)) (ht : ∀ a ∈ t, 0 ≤ a ∧ a ≤ st.fin) (h2 : 2 ≤ t.length) :
    (mjpPropose fuel d ls st g t).prob (fun r => r ≠ .error .fuel ∧ ¬ ∃ prop tc, r = .ok (prop, tc) ∧
      prop.Valid ∧ prop.Reduced ∧ prop.fin = st.fin ∧ prop.StatesLt d ∧ tc.Sublist t.tail.dropLast ∧
      ∀ s ∈ tc, prop.stateAt s = st.stateAt s) = 0 := by
  refine Prog.prob_zero_gen (diffuse_mjpPropose hv hs ht) [0] ?_
  rintro r h' hr ⟨h1, hn⟩
  rcases r with e | ⟨prop, tc⟩
  · exact h1 (by rw [C11_propose_no_error hd hg hv hst hs ht h2 hr])
  · exact hn ⟨prop, tc, rfl, C11_propose_partial hg hv hs ht hr⟩

example : ∃ (st : Skel ℝ) (t : List ℝ), st.Valid ∧ st.StatesLt 2 ∧ t.Pairwise (· < ·) ∧ (∀ a ∈ t, 0 ≤ a ∧ a ≤ st.fin) ∧
    t.length = 4 := by
  refine ⟨⟨[0, 1], [1, 0], 3⟩, [0, 1 / 2, 2, 3], by constructor <;> simp, by simp [Skel.StatesLt], ?_, ?_, rfl⟩
  · simp; norm_num
  · simp; norm_num

/-! ## Which grid times are conditioned on -/

theorem cons_sublist_of_mem {a : ℝ} {l s : List ℝ} (ha : a ∉ l) (hs : s.Sublist (a :: l)) (hm : a ∈ s) : ∃ s', s = a :: s' ∧ s'.Sublist l := by
  cases hs with
  | cons _ h => exact absurd (h.subset hm) ha
  | cons_cons _ h => exact ⟨_, rfl, h⟩

theorem select_law {p : ℝ} (h0 : 0 ≤ p) (h1 : p ≤ 1) (l : List ℝ) : ∀ s : List ℝ, l.Nodup → s.Sublist l →
    ((Prog.replicate l.length (.draw (.uniform 0 1))).bind fun us =>
      Prog.ret (select l (us.map fun u => decide (u < p)))).prob (fun r => r = .ok s) =
      (l.map fun a => ENNReal.ofReal (if a ∈ s then p else 1 - p)).prod := by
  induction l with
  | nil =>
    intro s _ hs
    rw [List.sublist_nil.1 hs]
    simp [Prog.replicate, Prog.prob, select]
  | cons a l ih =>
    intro s hn hs
    rw [List.nodup_cons] at hn
    have hstep : ∀ u : ℝ, (((Prog.replicate l.length (.draw (.uniform 0 1))).bind fun us => Prog.ret (u :: us)).bind fun us =>
        Prog.ret (select (a :: l) (us.map fun u => decide (u < p)))).prob (fun r => r = .ok s) =
        if u < p then (if a ∈ s then (l.map fun b => ENNReal.ofReal (if b ∈ s then p else 1 - p)).prod else 0)
          else (if a ∈ s then 0 else (l.map fun b => ENNReal.ofReal (if b ∈ s then p else 1 - p)).prod) := by
      intro u
      rw [Prog.bind_assoc]
      simp only [Prog.ret_bind, List.map_cons]
      by_cases hu : u < p
      · simp only [hu, decide_true, if_true]
        by_cases ha : a ∈ s
        · obtain ⟨s', rfl, hs'⟩ := cons_sublist_of_mem hn.1 hs ha
          rw [if_pos ha]
          have e : (l.map fun b => ENNReal.ofReal (if b ∈ a :: s' then p else 1 - p)) = l.map fun b => ENNReal.ofReal (if b ∈ s' then p else 1 - p) := by
            refine List.map_congr_left fun b hb => ?_
            have : b ≠ a := fun h => hn.1 (h ▸ hb)
            simp [this]
          rw [e, ← ih s' hn.2 hs']
          simp only [Prog.prob, Prog.lexp_bind]
          refine Prog.lexp_congr fun r _ => ?_
          rcases r with e | us <;> simp [select]
        · rw [if_neg ha]
          unfold Prog.prob
          refine (Prog.lexp_congr (h := fun _ => 0) fun r hr => if_neg ?_).trans (Prog.lexp_zero _)
          rintro rfl
          rw [Prog.out_bind_ok] at hr
          obtain ⟨us, _, hr⟩ := hr
          simp only [Prog.out_ret, Except.ok.injEq] at hr
          rw [hr] at ha
          exact ha (by simp [select])
      · simp only [hu, decide_false, if_false]
        by_cases ha : a ∈ s
        · rw [if_pos ha]
          unfold Prog.prob
          refine (Prog.lexp_congr (h := fun _ => 0) fun r hr => if_neg ?_).trans (Prog.lexp_zero _)
          rintro rfl
          rw [Prog.out_bind_ok] at hr
          obtain ⟨us, _, hr⟩ := hr
          simp only [Prog.out_ret, Except.ok.injEq] at hr
          rw [hr] at ha
          exact hn.1 ((select_sublist l _).subset (by simpa [select] using ha))
        · rw [if_neg ha]
          have hs' : s.Sublist l := by
            cases hs with
            | cons _ h => exact h
            | cons_cons _ h => exact absurd (by simp) ha
          rw [← ih s hn.2 hs']
          simp only [Prog.prob, Prog.lexp_bind]
          refine Prog.lexp_congr fun r _ => ?_
          rcases r with e | us <;> simp [select]
    have hmain : ((Prog.replicate (a :: l).length (.draw (.uniform 0 1))).bind fun us =>
        Prog.ret (select (a :: l) (us.map fun u => decide (u < p)))).prob (fun r => r = .ok s) = ∫⁻ u,
        (((Prog.replicate l.length (.draw (.uniform 0 1))).bind fun us => Prog.ret (u :: us)).bind fun us =>
        Prog.ret (select (a :: l) (us.map fun u => decide (u < p)))).prob (fun r => r = .ok s) ∂(RDist.uniform 0 1).law := rfl
    rw [hmain, lintegral_congr hstep, lintegral_uniform_lt h0 h1, List.map_cons, List.prod_cons]
    split_ifs <;> simp

/-- **C11, law of the conditioning times.** Every interior grid time is kept independently with probability `p_cond`: a given set of times
is chosen with probability `p_cond` for each of its members times `1 - p_cond` for each of the others. -/
theorem C11_conditioning_law {p : ℝ} (h0 : 0 ≤ p) (h1 : p ≤ 1) {t : List ℝ} (h2 : 2 ≤ t.length) (ht : t.Nodup) {s : List ℝ}
    (hs : s.Sublist t.tail.dropLast) :
    (condTimes p t).prob (fun r => r = .ok s) = (t.tail.dropLast.map fun a => ENNReal.ofReal (if a ∈ s then p else 1 - p)).prod := by
  have hl : t.length - 2 = t.tail.dropLast.length := by simp; omega
  unfold condTimes
  rw [if_neg (by omega), pySlice_interior, hl]
  exact select_law h0 h1 _ s (ht.sublist ((List.dropLast_sublist _).trans (List.tail_sublist _))) hs

/-- On the grid `0, 1, 2, 3` with `p = 1/4`, exactly time 2 is kept with probability `3/4 · 1/4`. -/
example : (condTimes (1 / 4) [0, 1, 2, 3]).prob (fun r => r = .ok [2]) = ENNReal.ofReal (3 / 4) * ENNReal.ofReal (1 / 4) := by
  rw [C11_conditioning_law (by norm_num) (by norm_num) (by simp) (by norm_num) (by simp)]
  norm_num

end Ctb
