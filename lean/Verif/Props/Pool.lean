import Verif.Lemmas.Pool
import Mathlib.Algebra.Order.Floor.Ring

set_option linter.unusedSectionVars false

/-! # C72: Euler grid; C73: worker schedules -/

namespace Ctb

variable {α β σ : Type}

/-! ## C72 -/

/-- What `euler_simulate` returns: a grid of `⌈fin_t/res⌉` multiples of `res`, and `⌊fin_t/res⌋ + 1` columns, starting at `init_x` and
each obtained from the one before by an Euler step. -/
theorem C72_shapes {n : ℕ} {finT x0 res : ℝ} {dfunc vfunc : ℝ → ℝ} {grid : List ℝ} {cols : List (List ℝ)}
    (h : (eulerSimulate n finT x0 dfunc vfunc res).Out (.ok (grid, cols))) :
    grid.length = ⌈finT / res⌉₊ ∧ (∀ (k : ℕ) (hk : k < grid.length), grid[k] = k * res) ∧
    cols.length = ⌊finT / res⌋₊ + 1 ∧ cols[0]? = some (List.replicate n x0) ∧
    ∃ noise : List (List ℝ), noise.length = ⌊finT / res⌋₊ ∧ (∀ r ∈ noise, r.length = n) ∧
      ∀ (k : ℕ) (h : k < noise.length) (h1 : k < cols.length) (h2 : k + 1 < cols.length),
        cols[k + 1] = List.zipWith (fun a e => a + dfunc a * res + vfunc a * (Real.sqrt res * e)) cols[k] noise[k] := by
  unfold eulerSimulate at h
  simp only [Prog.out_bind_ok, Prog.out_ret, Except.ok.injEq, Prod.mk.injEq] at h
  obtain ⟨noise, h1, rfl, rfl⟩ := h
  rw [Prog.out_replicate_ok] at h1
  obtain ⟨l1, l2⟩ := h1
  obtain ⟨g1, g2, g3⟩ := eulerCols_spec dfunc vfunc res (List.replicate n x0) (noise.map fun r => r.map fun e => Real.sqrt res * e)
  refine ⟨by simp [npArange], by simp [npArange], by rw [g1, List.length_map, l1], g2, noise, l1, ?_, ?_⟩
  · intro r hr
    have := l2 r hr
    rw [Prog.out_replicate_ok] at this
    exact this.1
  · intro k hk k1 k2
    rw [g3 k (by simpa using hk) k1 k2]
    simp [List.zipWith_map_right]

/-- The grid has one entry per column exactly when `res` does not divide `fin_t`. -/
theorem C72_partial {n : ℕ} {finT x0 res : ℝ} (hr : 0 < res) (hT : 0 ≤ finT) {dfunc vfunc : ℝ → ℝ} {grid : List ℝ} {cols : List (List ℝ)}
    (h : (eulerSimulate n finT x0 dfunc vfunc res).Out (.ok (grid, cols))) :
    grid.length = cols.length ↔ ¬ ∃ k : ℕ, finT = k * res := by
  obtain ⟨h1, -, h2, -⟩ := C72_shapes h
  rw [h1, h2]
  have hq : 0 ≤ finT / res := div_nonneg hT hr.le
  constructor
  · rintro e ⟨k, rfl⟩
    rw [mul_div_cancel_right₀ _ hr.ne', Nat.ceil_natCast, Nat.floor_natCast] at e
    omega
  · intro hn
    have hlt : (⌊finT / res⌋₊ : ℝ) < finT / res := by
      refine lt_of_le_of_ne (Nat.floor_le hq) fun e => hn ⟨⌊finT / res⌋₊, ?_⟩
      rw [e, div_mul_cancel₀ _ hr.ne']
    apply le_antisymm
    · exact Nat.ceil_le_floor_add_one _
    · exact Nat.lt_ceil.2 hlt

/-- With the default arguments of the doctest (`fin_t = 1`, `res = 1/1000`) every call returns 1000 grid entries for 1001 columns. -/
theorem C72_violated : (∃ r, (eulerSimulate 2 1 1 (fun _ => 0) (fun _ => 1) (1 / 1000)).Out (.ok r)) ∧
    ∀ grid cols, (eulerSimulate 2 1 1 (fun _ => 0) (fun _ => 1) (1 / 1000)).Out (.ok (grid, cols)) →
      grid.length = 1000 ∧ cols.length = 1001 := by
  constructor
  · unfold eulerSimulate
    simp only [Prog.out_bind_ok, Prog.out_ret]
    refine ⟨_, List.replicate ⌊(1 : ℝ) / (1 / 1000)⌋₊ [0, 0], ?_, rfl⟩
    rw [Prog.out_replicate_ok]
    refine ⟨List.length_replicate, fun r hr => ?_⟩
    rw [(List.mem_replicate.1 hr).2, Prog.out_replicate_ok]
    refine ⟨rfl, fun x hx => ?_⟩
    exact ⟨x, fun h0 => absurd h0 one_ne_zero, rfl⟩
  · intro grid cols h
    obtain ⟨h1, -, h2, -⟩ := C72_shapes h
    have e : (1 : ℝ) / (1 / 1000) = (1000 : ℕ) := by norm_num
    rw [e, Nat.ceil_natCast] at h1
    rw [e, Nat.floor_natCast] at h2
    exact ⟨h1, h2⟩

/-- A step that does not divide the horizon. -/
example : ¬ ∃ k : ℕ, (1 : ℝ) = k * (2 / 3) := by
  rintro ⟨k, hk⟩
  have h : (2 : ℝ) * k = 3 := by linarith
  have : 2 * k = 3 := by exact_mod_cast h
  omega

/-! ## C73 -/

/-- Tasks that use only their own generators: whenever they have all finished, under any schedule, any assignment to workers and any
global states, task `i` returned what it returns when run alone on its generator. -/
theorem C73_partial (R : Rng σ) {P : Pool α σ} (h : ∀ s ∈ P.slots, s.task.OwnOnly) (sched : List ℕ) {l : List (Res α)}
    (hl : (P.run R sched).results = some l) : l = P.slots.map fun s => s.task.runOwn R s.own :=
  (results_promise R hl).trans (run_own R sched h).2

/-- Two schedules, on pools that may differ in workers and global states, agree. -/
theorem C73_schedules (R : Rng σ) {P Q : Pool α σ} (h : ∀ s ∈ P.slots, s.task.OwnOnly)
    (hPQ : P.slots.map (fun s => (s.task, s.own)) = Q.slots.map fun s => (s.task, s.own)) (s1 s2 : List ℕ) {l1 l2 : List (Res α)}
    (h1 : (P.run R s1).results = some l1) (h2 : (Q.run R s2).results = some l2) : l1 = l2 := by
  have hQ : ∀ s ∈ Q.slots, s.task.OwnOnly := by
    intro s hs
    have : (s.task, s.own) ∈ P.slots.map fun s => (s.task, s.own) := by rw [hPQ]; exact List.mem_map.2 ⟨s, hs, rfl⟩
    obtain ⟨q, hq, e⟩ := List.mem_map.1 this
    simp only [Prod.mk.injEq] at e
    rw [← e.1]; exact h q hq
  rw [C73_partial R h s1 h1, C73_partial R hQ s2 h2]
  have := congrArg (List.map fun q : Task α × σ => q.1.runOwn R q.2) hPQ
  simpa [List.map_map, Function.comp_def] using this

/-- Any schedule can be continued until all tasks have finished. -/
theorem C73_finishes (R : Rng σ) {P : Pool α σ} (h : ∀ s ∈ P.slots, s.task.OwnOnly) (sched : List ℕ) :
    ∃ more l, (P.run R (sched ++ more)).results = some l := by
  have key : ∀ (n : ℕ) (P : Pool α σ), (∀ s ∈ P.slots, s.task.OwnOnly) → (P.slots.map fun s => s.task.draws R s.own).sum = n →
      ∃ more l, (P.run R more).results = some l := by
    intro n
    induction n with
    | zero =>
      intro P _ hn
      refine ⟨[], ?_⟩
      rw [List.sum_eq_zero_iff] at hn
      have : ∀ s ∈ P.slots, ∃ r, s.task.result = some r := by
        intro s hs
        exact result_of_draws R s.task s.own (hn _ (List.mem_map.2 ⟨s, hs, rfl⟩))
      unfold Pool.results Pool.run
      simp only [List.foldl_nil]
      generalize P.slots = l at this
      induction l with
      | nil => exact ⟨[], by simp⟩
      | cons a l ih =>
        obtain ⟨r, hr⟩ := this a (by simp)
        obtain ⟨rs, hrs⟩ := ih fun s hs => this s (by simp [hs])
        exact ⟨r :: rs, by simp [hr, hrs]⟩
    | succ n ih =>
      intro P hP hn
      have hex : ∃ s ∈ P.slots, s.task.draws R s.own ≠ 0 := by
        by_contra hne
        push Not at hne
        have : (P.slots.map fun s => s.task.draws R s.own).sum = 0 := by
          rw [List.sum_eq_zero_iff]
          intro x hx
          obtain ⟨s, hs, rfl⟩ := List.mem_map.1 hx
          exact hne s hs
        omega
      obtain ⟨s, hs, hd⟩ := hex
      obtain ⟨i, hi, e⟩ := List.getElem_of_mem hs
      obtain ⟨h1, -, -⟩ := step_own R hP i
      have hsum : ((P.step R i).slots.map fun s => s.task.draws R s.own).sum = n := by
        have hgi : P.slots[i]? = some s := by rw [List.getElem?_eq_getElem hi, e]
        unfold Pool.step
        rw [hgi]
        simp only
        obtain ⟨-, -, -, a4⟩ := advance_own R (hP s hs) (P.glob s.worker)
        rw [List.map_set, a4]
        have hi' : i < (P.slots.map fun s => s.task.draws R s.own).length := by simpa using hi
        have h2 : (P.slots.map fun s => s.task.draws R s.own)[i] = s.task.draws R s.own := by simp [e]
        rw [List.set_eq_take_append_cons_drop, if_pos hi']
        have hsplit : (P.slots.map fun s => s.task.draws R s.own) =
            (P.slots.map fun s => s.task.draws R s.own).take i ++ s.task.draws R s.own :: (P.slots.map fun s => s.task.draws R s.own).drop (i + 1) := by
          conv_lhs => rw [← List.take_append_drop i (P.slots.map fun s => s.task.draws R s.own)]
          rw [List.drop_eq_getElem_cons hi', h2]
        rw [hsplit] at hn
        simp only [List.sum_append, List.sum_cons] at hn ⊢
        omega
      obtain ⟨more, l, hl⟩ := ih (P.step R i) h1 hsum
      exact ⟨i :: more, l, hl⟩
  obtain ⟨h1, -⟩ := run_own R sched h
  obtain ⟨more, l, hl⟩ := key _ (P.run R sched) h1 rfl
  exact ⟨more, l, by rw [Pool.run, List.foldl_append]; exact hl⟩

/-- The sections of `update_hidden` (switching/mcmc.py:162-166) are such tasks: their programs draw only from the generator they are
handed. -/
theorem C73_hidden {ζ : Type} (R : Rng σ) (C : McmcControls) (O : HiddenOps ζ)
    (args : List (((List ζ × Anchorage ℝ ℝ) × (List ζ × Anchorage ℝ ℝ)) × σ)) (w1 w2 : ℕ → ℕ) (g1 g2 : ℕ → σ) (s1 s2 : List ℕ)
    {l1 l2 : List (Res (Bool × List ζ × Anchorage ℝ ℝ))}
    (h1 : ((⟨args.zipIdx.map fun q => ⟨.ofProg false (updateHiddenSection C O q.1.1.1.1 q.1.1.1.2 q.1.1.2.1 q.1.1.2.2), q.1.2, w1 q.2⟩, g1⟩ :
      Pool _ σ).run R s1).results = some l1)
    (h2 : ((⟨args.zipIdx.map fun q => ⟨.ofProg false (updateHiddenSection C O q.1.1.1.1 q.1.1.1.2 q.1.1.2.1 q.1.1.2.2), q.1.2, w2 q.2⟩, g2⟩ :
      Pool _ σ).run R s2).results = some l2) : l1 = l2 := by
  refine C73_schedules R ?_ ?_ s1 s2 h1 h2
  · intro s hs
    obtain ⟨q, -, rfl⟩ := List.mem_map.1 hs
    exact ownOnly_ofProg _
  · simp [List.map_map, Function.comp_def]

/-- `update_params_section` is the proposal followed by the rest. -/
theorem paramsSection_eq {p : ℕ} {ζ : Type} (C : McmcControls) (O : ParamOps p ζ) (nil : Thi p) (z : List ζ)
    (h : Anchorage ℝ ℝ) (propose : Prog ((Fin p → ℝ) × ℝ × ℝ)) (state : ℕ) :
    updateParamsSection C O nil z h propose state = propose.bind fun q => paramsSectionRest C O nil z h state q := rfl

/-! ### The parameter update of the switching sampler draws from the global generator -/

/-- A counter as generator: uniform draws return the lower bound, normal draws the mean plus the counter. -/
noncomputable def countRng : Rng ℕ where
  real d n := match d with
    | .uniform lo _ => (lo, n + 1)
    | .normal m s => (m + s * n, n + 1)
    | .beta _ _ => (1 / 2, n + 1)
    | .exponential _ => (1, n + 1)
    | .wald _ _ => (1, n + 1)
    | .gamma _ _ => (1, n + 1)
  nat _ n := (0, n + 1)

/-- A one-parameter model with flat weights and a coin that always succeeds. -/
noncomputable def flatOps : ParamOps 1 Unit where
  weight _ _ := 0
  flip _ _ _ z _ := .ret (true, z)

/-- Anchorage of a path with one segment per regime. -/
noncomputable def twoAnch : Anchorage ℝ ℝ := ⟨[0, 1, 2], [0, 1, 1], [0, 0, 0]⟩

noncomputable def flatSampler : MvRw 1 := ⟨0, fun _ => none, fun _ => none, ⟨[0], [0], [0, 1]⟩, 0, 1, 1⟩

/-- Two regimes; both sections run on worker 0, or on workers 0 and 1. -/
noncomputable def paramsPool (worker1 : ℕ) : Pool (Bool × Thi 1 × List Unit) ℕ :=
  ⟨[⟨paramsSectionTask id ⟨0, false, 5⟩ flatOps 0 [(), ()] twoAnch flatSampler 0, 0, 0⟩,
    ⟨paramsSectionTask id ⟨0, false, 5⟩ flatOps 0 [(), ()] twoAnch flatSampler 1, 0, worker1⟩], fun _ => 0⟩

theorem flat_coins (prime : Thi 1) (state : ℕ) :
    flipParamCoins flatOps 0 prime twoAnch state [(), ()] true = .ret (true, [(), ()]) := by
  have h : (fun q : (ℝ × ℕ × ℝ × ℝ) × Unit => if q.1.2.1 = state then flatOps.flip 0 prime q.1 q.2 true else .ret (true, q.2)) =
      fun q => .ret (true, q.2) := by
    funext q; split_ifs <;> rfl
  unfold flipParamCoins
  rw [h]
  rfl

theorem flat_propose : flatSampler.propose id = .real (.normal 0 1) fun x => .ret (fun _ => x, 0, 0) := by
  have h1 : allOk (fun i => transformToReals (flatSampler.state i) (flatSampler.lb i) (flatSampler.ub i)) =
      .ok fun _ => ((0 : ℝ), (0 : ℝ)) := by
    simp only [allOk, flatSampler, transformToReals]
    refine congrArg Except.ok (funext fun i => ?_)
    fin_cases i; rfl
  have h2 : lastOf flatSampler.sched.logScale = .ok 0 := rfl
  unfold MvRw.propose
  rw [h1, h2]
  simp only [Prog.lift, Prog.bind, drawNormals, flatSampler, transformToConst]
  refine congrArg _ (funext fun x => ?_)
  simp only [id, Real.exp_zero, one_smul, Matrix.one_mulVec, zero_add, Finset.sum_const_zero]
  refine congrArg (fun f => Prog.ret (f, (0 : ℝ), (0 : ℝ))) (funext fun i => ?_)
  fin_cases i; rfl

theorem flat_task (state : ℕ) :
    ∃ K : ℝ → ℝ → Task (Bool × Thi 1 × List Unit),
      (paramsSectionTask id ⟨0, false, 5⟩ flatOps 0 [(), ()] twoAnch flatSampler state =
        .real true (.normal 0 1) fun x => .real false (.uniform 0 1) fun u => K x u) ∧
      ∀ x, K x 0 = .ret (true, Function.update 0 state (fun _ => x), [(), ()]) := by
  unfold paramsSectionTask
  rw [flat_propose]
  refine ⟨_, rfl, fun x => ?_⟩
  simp [npLogLt, flat_coins, Task.ofProg]

/-- The update of the two regimes' parameters: with the same generators, the same workers and the same global states, running section 0
or section 1 first changes both results; so does moving section 1 to another worker. -/
theorem C73_violated :
    (((paramsPool 0).run countRng [0, 1, 0, 1]).results = some [.ok (true, Function.update 0 0 (fun _ => 0), [(), ()]),
        .ok (true, Function.update 0 1 (fun _ => 1), [(), ()])]) ∧
    (((paramsPool 0).run countRng [1, 0, 0, 1]).results = some [.ok (true, Function.update 0 0 (fun _ => 1), [(), ()]),
        .ok (true, Function.update 0 1 (fun _ => 0), [(), ()])]) ∧
    ((paramsPool 1).run countRng [0, 1, 0, 1]).results = some [.ok (true, Function.update 0 0 (fun _ => 0), [(), ()]),
        .ok (true, Function.update 0 1 (fun _ => 0), [(), ()])] := by
  obtain ⟨K, hK, hr⟩ := flat_task 0
  obtain ⟨K', hK', hr'⟩ := flat_task 1
  refine ⟨?_, ?_, ?_⟩ <;>
  simp [paramsPool, hK, hK', Pool.run, Pool.step, Slot.advance, countRng, hr, hr', Pool.results, Task.result]

/-- Three tasks with one own draw each. -/
noncomputable example : Pool ℝ ℕ := ⟨[⟨.ofProg false (Prog.draw (.uniform 0 1)), 0, 0⟩, ⟨.ofProg false (Prog.draw (.normal 0 1)), 5, 0⟩], fun _ => 0⟩
example (P : Pool ℝ ℕ) (hP : P = ⟨[⟨.ofProg false (Prog.draw (.uniform 0 1)), 0, 0⟩, ⟨.ofProg false (Prog.draw (.normal 0 1)), 5, 0⟩], fun _ => 0⟩) :
    (∀ s ∈ P.slots, s.task.OwnOnly) ∧ (P.run countRng [1, 0]).results = some [.ok 0, .ok 5] := by
  subst hP
  constructor
  · simp [ownOnly_ofProg]
  · simp [Pool.run, Pool.step, Slot.advance, countRng, Pool.results, Task.result, Task.ofProg, Prog.draw]

end Ctb
