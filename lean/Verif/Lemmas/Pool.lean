import Verif.Spec.Pool

set_option linter.unusedSectionVars false

/-! # Lemmas on `euler_simulate` and pooled tasks -/

namespace Ctb

variable {α β σ : Type}

theorem eulerCols_spec (dfunc vfunc : ℝ → ℝ) (res : ℝ) (x : List ℝ) (es : List (List ℝ)) :
    (eulerCols dfunc vfunc res x es).length = es.length + 1 ∧ (eulerCols dfunc vfunc res x es)[0]? = some x ∧
    ∀ (k : ℕ) (h : k < es.length) (h1 : k < (eulerCols dfunc vfunc res x es).length) (h2 : k + 1 < (eulerCols dfunc vfunc res x es).length),
      (eulerCols dfunc vfunc res x es)[k + 1] =
        List.zipWith (fun a b => a + dfunc a * res + vfunc a * b) (eulerCols dfunc vfunc res x es)[k] es[k] := by
  induction es generalizing x with
  | nil => simp [eulerCols]
  | cons e es ih =>
    obtain ⟨h1, h0, h2⟩ := ih (List.zipWith (fun a b => a + dfunc a * res + vfunc a * b) x e)
    refine ⟨by simp [eulerCols, h1], by simp [eulerCols], ?_⟩
    intro k h g1 g2
    rcases k with _ | k
    · simp only [eulerCols, List.getElem_cons_succ, List.getElem_cons_zero]
      rw [List.getElem?_eq_getElem (by omega), Option.some.injEq] at h0
      exact h0
    · simp only [eulerCols, List.getElem_cons_succ]
      exact h2 k (by simpa using h) _ _

/-- Number of draws the task makes when run alone. -/
def Task.draws (R : Rng σ) : Task α → σ → ℕ
  | .ret _, _ => 0
  | .err _, _ => 0
  | .real _ d k, s => let r := R.real d s; (k r.1).draws R r.2 + 1
  | .nat _ d k, s => let r := R.nat d s; (k r.1).draws R r.2 + 1

theorem ownOnly_ofProg (p : Prog α) : (Task.ofProg false p).OwnOnly := by
  induction p with
  | ret a => trivial
  | err e => trivial
  | real d k ih => exact ⟨rfl, ih⟩
  | nat d k ih => exact ⟨rfl, ih⟩

theorem advance_own (R : Rng σ) {s : Slot α σ} (h : s.task.OwnOnly) (g : σ) :
    (s.advance R g).2 = g ∧ (s.advance R g).1.task.OwnOnly ∧
      (s.advance R g).1.task.runOwn R (s.advance R g).1.own = s.task.runOwn R s.own ∧
      (s.advance R g).1.task.draws R (s.advance R g).1.own = s.task.draws R s.own - 1 := by
  rcases s with ⟨t, o, w⟩
  cases t with
  | ret a => exact ⟨rfl, h, rfl, rfl⟩
  | err e => exact ⟨rfl, h, rfl, rfl⟩
  | real gl d k => obtain ⟨rfl, h2⟩ := h; exact ⟨rfl, h2 _, rfl, rfl⟩
  | nat gl d k => obtain ⟨rfl, h2⟩ := h; exact ⟨rfl, h2 _, rfl, rfl⟩

/-- The results that the remaining tasks will give. -/
def Pool.promise (R : Rng σ) (P : Pool α σ) : List (Res α) := P.slots.map fun s => s.task.runOwn R s.own

theorem step_own (R : Rng σ) {P : Pool α σ} (h : ∀ s ∈ P.slots, s.task.OwnOnly) (i : ℕ) :
    (∀ s ∈ (P.step R i).slots, s.task.OwnOnly) ∧ (P.step R i).promise R = P.promise R ∧ (P.step R i).glob = P.glob := by
  unfold Pool.step
  rcases hs : P.slots[i]? with _ | s
  · exact ⟨h, rfl, rfl⟩
  · simp only
    have hm : s ∈ P.slots := List.mem_of_getElem? hs
    obtain ⟨a1, a2, a3, -⟩ := advance_own R (h s hm) (P.glob s.worker)
    refine ⟨?_, ?_, ?_⟩
    · intro q hq
      rcases List.mem_or_eq_of_mem_set hq with hq | rfl
      · exact h q hq
      · exact a2
    · simp only [Pool.promise, List.map_set, a3]
      refine List.ext_getElem? fun k => ?_
      rw [List.getElem?_set]
      split_ifs with h1 h2
      · subst h1; rw [List.getElem?_map, hs]; rfl
      · subst h1; rw [List.getElem?_eq_none (by omega)]
      · rfl
    · rw [a1]; simp

theorem run_own (R : Rng σ) (sched : List ℕ) {P : Pool α σ} (h : ∀ s ∈ P.slots, s.task.OwnOnly) :
    (∀ s ∈ (P.run R sched).slots, s.task.OwnOnly) ∧ (P.run R sched).promise R = P.promise R := by
  induction sched generalizing P with
  | nil => exact ⟨h, rfl⟩
  | cons i sched ih =>
    obtain ⟨h1, h2, -⟩ := step_own R h i
    obtain ⟨g1, g2⟩ := ih h1
    exact ⟨g1, g2.trans h2⟩

theorem results_promise (R : Rng σ) {P : Pool α σ} {l : List (Res α)} (hl : P.results = some l) : l = P.promise R := by
  unfold Pool.results at hl
  unfold Pool.promise
  generalize P.slots = s at hl
  induction s generalizing l with
  | nil => simp at hl; exact hl
  | cons a s ih =>
    simp only [List.mapM_cons, Option.bind_eq_bind, Option.bind_eq_some_iff, Option.pure_def, Option.some.injEq] at hl
    obtain ⟨r, hr, l', hl', rfl⟩ := hl
    rw [ih hl', List.map_cons]
    congr 1
    rcases a with ⟨t, o, w⟩
    cases t <;> simp_all [Task.result, Task.runOwn]

theorem result_of_draws (R : Rng σ) (t : Task α) (o : σ) (h : t.draws R o = 0) : ∃ r, t.result = some r := by
  cases t with
  | ret a => exact ⟨_, rfl⟩
  | err e => exact ⟨_, rfl⟩
  | real g d k => simp [Task.draws] at h
  | nat g d k => simp [Task.draws] at h

end Ctb
