import Verif.Lemmas.MjpInference
import Verif.Spec.Generator
import Verif.Props.MjpPath

/-!
# C13, C17–C20: sufficient statistics and conjugate updates of the jump process
-/

set_option linter.unusedSectionVars false

open MeasureTheory

namespace Ctb

/-- Example path used below: horizon 3, jumps at 1 and 2. -/
noncomputable def demoR : Skel ℝ := ⟨[0, 1, 2], [1, 0, 2], 3⟩

theorem demoR_valid : demoR.Valid := by
  constructor <;> simp [demoR] <;> norm_num

theorem demoR_reduced : demoR.Reduced := by simp [Skel.Reduced, demoR]

theorem demoR_states : demoR.StatesLt 3 := by
  intro x hx; simp [demoR] at hx; omega

/-! ## C13 -/

theorem getLast_map_fst {l : List (ℝ × ℕ)} {p : ℝ × ℕ} (h : l.getLast? = some p) :
    (l.map Prod.fst).getLast? = some p.1 := by rw [List.getLast?_map, h]; rfl

/-- **C13.** `est_stat` returns, state by state, the Lebesgue measure of the time spent there divided by the horizon;
these fractions are non-negative and add up to one when `states` lists all visited states once. -/
theorem C13_est_stat {sk : Skel ℝ} (hv : sk.Valid) (states : List ℕ) :
    estStat sk states = .ok (states.map fun i => (volume (sk.timesIn i sk.fin)).toReal / sk.fin) ∧
    (∀ i, 0 ≤ (volume (sk.timesIn i sk.fin)).toReal / sk.fin) ∧
    (states.Nodup → (∀ x ∈ sk.xt, x ∈ states) →
      (states.map fun i => (volume (sk.timesIn i sk.fin)).toReal / sk.fin).sum = 1) := by
  obtain ⟨x, l, hl⟩ := hv.jumps_head
  obtain ⟨ht, hx⟩ := Skel.t_eq_of_len hv.len
  have hinc := hv.jumps_inc
  have hlt := hv.jumps_lt
  rw [hl] at hinc hlt
  have hvol : ∀ i, (volume (sk.timesIn i sk.fin)).toReal = occL (fun a => sk.fin - a) i ((0, x) :: l) := by
    intro i
    have := volume_occ sk.fin i l 0 x hinc (fun p hp => (hlt p hp).le)
    unfold Skel.timesIn Skel.stateAt
    rw [hl, this, ENNReal.toReal_ofReal (occL_nonneg _ _ _ hinc (fun p hp => (hlt p hp).le))]
  refine ⟨?_, ?_, ?_⟩
  · unfold estStat
    obtain ⟨p, hp⟩ : ∃ p, ((0, x) :: l).getLast? = some p := by
      rw [List.getLast?_eq_some_getLast (by simp)]; exact ⟨_, rfl⟩
    have hp' : sk.t.getLast? = some p.1 := by rw [ht, hl]; exact getLast_map_fst hp
    rw [hp']
    simp only
    congr 1
    apply List.map_congr_left
    intro i _
    rw [hvol, ht, hx, hl]
    congr 1
    exact occL_zip _ _ i l 0 x (by intro q hq; rw [hp] at hq; cases hq; rfl)
  · intro i; exact div_nonneg ENNReal.toReal_nonneg hv.fin_pos.le
  · intro hn hm
    have h1 : (states.map fun i => (volume (sk.timesIn i sk.fin)).toReal / sk.fin).sum =
        (states.map fun i => occL (fun a => sk.fin - a) i ((0, x) :: l)).sum / sk.fin := by
      simp only [hvol]
      clear hn hm
      induction states with
      | nil => simp
      | cons i ss ih => simp only [List.map_cons, List.sum_cons, ih, add_div]
    rw [h1, occL_sum sk.fin states hn l 0 x, sub_zero, div_self hv.fin_pos.ne']
    intro p hp
    apply hm
    rw [hx, hl]; exact List.mem_map_of_mem hp

example : demoR.Valid ∧ [0, 1, 2].Nodup ∧ ∀ x ∈ demoR.xt, x ∈ [0, 1, 2] :=
  ⟨demoR_valid, by simp, by simp [demoR]⟩

/-! ## C17 -/

/-- **C17, counts.** The first component adds to `alp0` the number of `i → j` jumps, for every `i ≠ j`; the counts add up
to the number of jumps. -/
theorem C17_counts {sk : Skel ℝ} (hr : sk.Reduced) {d : ℕ} (hd : sk.StatesLt d) {alp bet : NMat} {A B : Mat}
    (hh : Hyper d alp bet A B) :
    (∀ i < d, ∀ j < d, i ≠ j →
      (mjpUpdate sk alp bet).1 i j = some (((sk.xt.zip sk.xt.tail).count (i, j) : ℝ) + A i j)) ∧
    (∀ i < d, (mjpUpdate sk alp bet).1 i i = none) ∧
    ∑ i ∈ Finset.range d, ∑ j ∈ Finset.range d, (if i = j then 0 else (sk.xt.zip sk.xt.tail).count (i, j)) =
      sk.xt.length - 1 := by
  refine ⟨?_, ?_, ?_⟩
  · intro i hi j hj hij
    simp only [mjpUpdate, hij, if_false, hh.offA i hi j hj hij, nan2, transCount_eq]
  · intro i hi
    simp only [mjpUpdate, if_true, hh.diagA i hi, nan2]
  · unfold Skel.Reduced at hr
    unfold Skel.StatesLt at hd
    generalize sk.xt = xt at hr hd
    induction xt with
    | nil => simp
    | cons x l ih =>
      cases l with
      | nil => simp
      | cons y l =>
        rw [List.isChain_cons_cons] at hr
        have := ih hr.2 (fun z hz => hd z (List.mem_cons_of_mem _ hz))
        simp only [List.tail_cons, List.zip_cons_cons, List.length_cons, Nat.add_sub_cancel] at this ⊢
        have e : ∀ i j, (if i = j then 0 else ((x, y) :: (y :: l).zip l).count (i, j)) =
            (if i = j then 0 else ((y :: l).zip l).count (i, j)) + (if i = x then (if j = y then 1 else 0) else 0) := by
          intro i j
          rw [List.count_cons]
          by_cases h : i = x ∧ j = y
          · obtain ⟨rfl, rfl⟩ := h
            simp [hr.1]
          · have : ((x, y) == (i, j)) = false := by
              simp only [beq_eq_false_iff_ne, ne_eq, Prod.mk.injEq]; rintro ⟨rfl, rfl⟩; exact h ⟨rfl, rfl⟩
            rw [this]
            by_cases h1 : i = x
            · have h2 : j ≠ y := fun h2 => h ⟨h1, h2⟩
              simp [h1, h2]
            · simp [h1]
        simp only [e, Finset.sum_add_distrib]
        rw [this]
        have hx : x < d := hd x (by simp)
        have hy : y < d := hd y (by simp)
        have : ∑ i ∈ Finset.range d, ∑ j ∈ Finset.range d, (if i = x then (if j = y then 1 else 0) else 0) = 1 := by
          rw [Finset.sum_eq_single x]
          · simp [hy]
          · intro b _ hb; simp [hb]
          · intro h; exact absurd (Finset.mem_range.2 hx) h
        rw [this]

/-- **C17, times (what holds).** Row `i` of the second component gains the time spent in `i` *up to the last jump*.
Missing for the full property: the sojourn between the last jump and the horizon. -/
theorem C17_times_partial {sk : Skel ℝ} (hv : sk.Valid) {d : ℕ} {alp bet : NMat} {A B : Mat} (hh : Hyper d alp bet A B) :
    ∀ i < d, ∀ j < d, i ≠ j →
      (mjpUpdate sk alp bet).2 i j =
        some ((volume (sk.timesIn i (sk.t.getLastD 0))).toReal + B i j) := by
  intro i hi j hj hij
  obtain ⟨x, l, hl⟩ := hv.jumps_head
  obtain ⟨ht, hx⟩ := Skel.t_eq_of_len hv.len
  have hinc := hv.jumps_inc
  rw [hl] at hinc
  obtain ⟨p, hp⟩ : ∃ p, ((0, x) :: l).getLast? = some p := by
    rw [List.getLast?_eq_some_getLast (by simp)]; exact ⟨_, rfl⟩
  have hlast : sk.t.getLastD 0 = p.1 := by
    rw [List.getLastD_eq_getLast?, ht, hl, getLast_map_fst hp]; rfl
  have hle : ∀ q ∈ (0, x) :: l, q.1 ≤ p.1 := by
    intro q hq
    rw [List.getLast?_eq_some_getLast (by simp)] at hp
    cases hp
    rw [List.mem_iff_getElem] at hq
    obtain ⟨k, hk, rfl⟩ := hq
    rw [List.getLast_eq_getElem]
    rcases Nat.lt_or_eq_of_le (Nat.le_sub_one_of_lt hk) with h | h
    · exact ((List.pairwise_iff_getElem.1 hinc) k _ hk (by simp) h).le
    · simp [h]
  simp only [mjpUpdate, hh.offB i hi j hj hij, nan2, Option.some.injEq, add_left_inj]
  rw [hlast]
  have := volume_occ p.1 i l 0 x hinc hle
  unfold Skel.timesIn Skel.stateAt
  rw [hl, this, ENNReal.toReal_ofReal (occL_nonneg _ _ _ hinc hle)]
  unfold holdTime
  rw [ht, hx, hl]
  exact occL_select 0 (fun a => p.1 - a) i l 0 x (by intro q hq; rw [hp] at hq; cases hq; simp)

/-- **C17 is violated for every path**: the holding times credited by `update` add up to the last jump time, which is
strictly less than the observed horizon. -/
theorem C17_times_violated {sk : Skel ℝ} (hv : sk.Valid) {d : ℕ} (hd : sk.StatesLt d) :
    ∑ i ∈ Finset.range d, holdTime sk i = sk.t.getLastD 0 ∧ sk.t.getLastD 0 < sk.fin := by
  obtain ⟨x, l, hl⟩ := hv.jumps_head
  obtain ⟨ht, hx⟩ := Skel.t_eq_of_len hv.len
  obtain ⟨p, hp⟩ : ∃ p, ((0, x) :: l).getLast? = some p := by
    rw [List.getLast?_eq_some_getLast (by simp)]; exact ⟨_, rfl⟩
  have hlast : sk.t.getLastD 0 = p.1 := by
    rw [List.getLastD_eq_getLast?, ht, hl, getLast_map_fst hp]; rfl
  have hpm : p ∈ sk.jumps := by rw [hl]; exact List.mem_of_getLast? hp
  refine ⟨?_, by rw [hlast]; exact hv.jumps_lt p hpm⟩
  have : ∀ i, holdTime sk i = occL (fun a => p.1 - a) i ((0, x) :: l) := by
    intro i
    unfold holdTime
    rw [ht, hx, hl]
    exact occL_select 0 (fun a => p.1 - a) i l 0 x (by intro q hq; rw [hp] at hq; cases hq; simp)
  simp only [this]
  rw [← Finset.sum_map_toList, hlast]
  have := occL_sum p.1 (Finset.range d).toList (Finset.nodup_toList _) l 0 x (by
    intro q hq
    rw [Finset.mem_toList, Finset.mem_range]
    exact hd q.2 (by rw [hx, hl]; exact List.mem_map_of_mem hq))
  rw [this, sub_zero]

/-- Concrete witness: the path observed until time 3 whose last jump is at 2 loses one unit of time. -/
example : ∑ i ∈ Finset.range 3, holdTime demoR i = 2 ∧ demoR.fin = 3 :=
  ⟨(C17_times_violated demoR_valid demoR_states).1, rfl⟩

/-- Hyper-parameters used in examples: all ones off the diagonal. -/
def demoHyper : NMat := fun i j => if i = j then none else some 1

theorem demoHyper_ok : Hyper 3 demoHyper demoHyper (fun _ _ => 1) (fun _ _ => 1) := by
  constructor <;> simp +contextual [demoHyper]

example : demoR.Valid ∧ demoR.Reduced ∧ demoR.StatesLt 3 ∧ Hyper 3 demoHyper demoHyper (fun _ _ => 1) (fun _ _ => 1) :=
  ⟨demoR_valid, demoR_reduced, demoR_states, demoHyper_ok⟩

/-! ## C18 -/

/-- **C18.** Gamma conjugacy: adding the path likelihood to the prior gives the updated prior. -/
theorem C18_conjugacy {sk : Skel ℝ} (hv : sk.Valid) (hr : sk.Reduced) {d : ℕ} (hd : sk.StatesLt d)
    {alp bet : NMat} {A B : Mat} (hh : Hyper d alp bet A B) {g : Mat} (hg : IsGenerator d g) :
    evalLoglik sk g + evalLogprior d g alp bet =
      evalLogprior d g (mjpUpdate sk alp bet).1 (mjpUpdate sk alp bet).2 := by
  have hoff : ∀ i < d, ∀ j < d, i ≠ j → 0 ≤ g i j := fun i hi j hj h => (hg.off i hi j hj h).le
  rw [evalLoglik_eq hv hr hd g, evalLogprior_eq hoff hg.row hh.offA hh.offB,
    evalLogprior_eq (A := fun i j => (transCount sk.xt i j : ℝ) + A i j) (B := fun i j => holdTime sk i + B i j) hoff hg.row]
  · have : ∑ i ∈ Finset.range d, holdTime sk i * g i i =
        ∑ i ∈ Finset.range d, ∑ j ∈ Finset.range d, if i = j then 0 else -(holdTime sk i * g i j) := by
      apply Finset.sum_congr rfl
      intro i hi
      rw [diag_eq hg.row (Finset.mem_range.1 hi), mul_neg, Finset.mul_sum, ← Finset.sum_neg_distrib]
      apply Finset.sum_congr rfl
      intro j _
      by_cases h : i = j <;> simp [h]
    rw [this, ← Finset.sum_add_distrib, ← Finset.sum_add_distrib]
    apply Finset.sum_congr rfl
    intro i _
    rw [← Finset.sum_add_distrib, ← Finset.sum_add_distrib]
    apply Finset.sum_congr rfl
    intro j _
    by_cases h : i = j
    · simp [h]
    · simp only [h, if_false]; ring
  · intro i hi j hj hij
    simp only [mjpUpdate, hij, if_false, hh.offA i hi j hj hij, nan2]
  · intro i hi j hj hij
    simp only [mjpUpdate, hh.offB i hi j hj hij, nan2]

/-- A generator on three states: all rates 1. -/
def demoGen : Mat := fun i j => if i = j then -2 else 1

theorem demoGen_ok : IsGenerator 3 demoGen := by
  constructor
  · intro i _ j _ h; simp [demoGen, h]
  · intro i hi
    interval_cases i <;> simp [demoGen, Finset.sum_range_succ] <;> norm_num

example : evalLoglik demoR demoGen + evalLogprior 3 demoGen demoHyper demoHyper =
    evalLogprior 3 demoGen (mjpUpdate demoR demoHyper demoHyper).1 (mjpUpdate demoR demoHyper demoHyper).2 :=
  C18_conjugacy demoR_valid demoR_reduced demoR_states demoHyper_ok demoGen_ok

/-! ## C19 -/

/-- **C19.** Posterior mean. -/
theorem C19_get_ev {d : ℕ} {alp bet : NMat} {A B : Mat} (hh : Hyper d alp bet A B) :
    ∃ g, IsGenerator d g ∧ (∀ i < d, ∀ j < d, getEv d alp bet i j = some (g i j)) ∧
      ∀ i < d, ∀ j < d, i ≠ j → g i j = A i j / B i j := by
  obtain ⟨g, h1, h2, h3⟩ := fillDiag_gen (d := d) (m := fun i j => nan2 (· / ·) (alp i j) (bet i j))
    (G := fun i j => A i j / B i j) (by intro i hi; simp [hh.diagA i hi, nan2])
    (by intro i hi j hj h; simp [hh.offA i hi j hj h, hh.offB i hi j hj h, nan2])
  refine ⟨g, ⟨?_, h3⟩, h1, h2⟩
  intro i hi j hj h
  rw [h2 i hi j hj h]; exact div_pos (hh.posA i hi j hj h) (hh.posB i hi j hj h)

/-- **C19.** Posterior mode, for shape parameters above one. -/
theorem C19_get_mode {d : ℕ} {alp bet : NMat} {A B : Mat} (hh : Hyper d alp bet A B)
    (h1A : ∀ i < d, ∀ j < d, i ≠ j → 1 < A i j) :
    ∃ g, IsGenerator d g ∧ (∀ i < d, ∀ j < d, getMode d alp bet i j = some (g i j)) ∧
      ∀ i < d, ∀ j < d, i ≠ j → g i j = (A i j - 1) / B i j := by
  obtain ⟨g, h1, h2, h3⟩ := fillDiag_gen (d := d) (m := fun i j => nan2 (fun a b => (a - 1) / b) (alp i j) (bet i j))
    (G := fun i j => (A i j - 1) / B i j) (by intro i hi; simp [hh.diagA i hi, nan2])
    (by intro i hi j hj h; simp [hh.offA i hi j hj h, hh.offB i hi j hj h, nan2])
  refine ⟨g, ⟨?_, h3⟩, h1, h2⟩
  intro i hi j hj h
  rw [h2 i hi j hj h]; exact div_pos (by linarith [h1A i hi j hj h]) (hh.posB i hi j hj h)

/-- **C19.** Every matrix `sample_param` can return is a generator, and it always returns one. -/
theorem C19_sample_param {d : ℕ} {alp bet : NMat} {A B : Mat} (hh : Hyper d alp bet A B) (m : NMat)
    (hm : (sampleParam d alp bet).Out (.ok m)) :
    ∃ g, IsGenerator d g ∧ ∀ i < d, ∀ j < d, m i j = some (g i j) := by
  unfold sampleParam at hm
  rw [Prog.out_bind_ok] at hm
  obtain ⟨g0, h0, h1⟩ := hm
  simp only [Prog.out_ret, Except.ok.injEq] at h1
  subst h1
  have key := drawGammas_out _ _ _ _ h0
  have hmem : ∀ i < d, ∀ j < d, (i, j) ∈ (List.range d).flatMap fun i => (List.range d).map fun j => (i, j) := by
    intro i hi j hj
    simp only [List.mem_flatMap, List.mem_map, List.mem_range]
    exact ⟨i, hi, j, hj, rfl⟩
  have hpos : ∀ i < d, ∀ j < d, i ≠ j → ∃ x, 0 < x ∧ g0 i j = some x := by
    intro i hi j hj h
    exact (key i j).1 ⟨hmem i hi j hj, ⟨_, hh.posA i hi j hj h, hh.offA i hi j hj h⟩, by simp [hh.offB i hi j hj h]⟩
  obtain ⟨g, h1, h2, h3⟩ := fillDiag_gen (d := d) (m := g0) (G := fun i j => (g0 i j).getD 0)
    (fun i hi => (key i i).2 (hh.diagA i hi))
    (by intro i hi j hj h; obtain ⟨x, -, hx⟩ := hpos i hi j hj h; simp [hx])
  refine ⟨g, ⟨?_, h3⟩, h1⟩
  intro i hi j hj h
  rw [h2 i hi j hj h]
  obtain ⟨x, hx0, hx⟩ := hpos i hi j hj h
  simpa [hx] using hx0

theorem C19_sample_param_no_error {d : ℕ} {alp bet : NMat} {A B : Mat} (hh : Hyper d alp bet A B) (e : PyErr) : ¬ (sampleParam d alp bet).Out (.error e) := by
  unfold sampleParam
  rw [Prog.out_bind_error]
  have : ∀ L : List (ℕ × ℕ), (∀ q ∈ L, q.1 < d ∧ q.2 < d) → ¬ (drawGammas alp bet L).Out (.error e) := by
    intro L
    induction L with
    | nil => simp [drawGammas]
    | cons p L ih =>
      intro hL
      obtain ⟨a, b⟩ := p
      have ih' := ih fun q hq => hL q (List.mem_cons_of_mem _ hq)
      obtain ⟨ha, hb⟩ := hL (a, b) (by simp)
      unfold drawGammas
      split
      · rename_i u v hu hv
        have hab : a ≠ b := by
          rintro rfl
          rw [hh.diagA a ha] at hu
          cases hu
        have h1 := hh.offA a ha b hb hab
        have h2 := hh.offB a ha b hb hab
        rw [hu] at h1
        rw [hv] at h2
        cases h1
        cases h2
        rw [drawGamma_pos (hh.posA a ha b hb hab) (hh.posB a ha b hb hab)]
        simp only [Prog.out_real, Prog.out_bind_error, Prog.out_bind_ok, Prog.out_ret, reduceCtorEq, and_false, exists_false, or_false, false_or]
        rintro ⟨x, -, h⟩; exact ih' h
      · exact ih'
  have h2 := this ((List.range d).flatMap fun i => (List.range d).map fun j => (i, j)) (by
    intro q hq
    simp only [List.mem_flatMap, List.mem_map, List.mem_range] at hq
    obtain ⟨i, hi, j, hj, rfl⟩ := hq
    exact ⟨hi, hj⟩)
  simp [h2]

/-- A negative shape makes `sample_param` raise ValueError. -/
example : (sampleParam 2 (fun i j => if i = j then none else some (-1)) (fun i j => if i = j then none else some 1)).Out (.error .value) := by
  have : drawGamma (-1) 1 = .err .value := by
    unfold drawGamma
    rw [if_pos (Or.inl (by norm_num))]
  simp [sampleParam, List.range_succ, drawGammas, this, Prog.bind]

example : Hyper 3 demoHyper demoHyper (fun _ _ => 1) (fun _ _ => 1) := demoHyper_ok
example : ∃ alp : NMat, Hyper 3 alp demoHyper (fun _ _ => 2) (fun _ _ => 1) ∧ ∀ i < 3, ∀ j < 3, i ≠ j → (1 : ℝ) < 2 :=
  ⟨fun i j => if i = j then none else some 2, by constructor <;> simp +contextual [demoHyper], by norm_num⟩

/-! ## C20 -/

/-- **C20.** For hyper-parameters with shapes at least one, the matrix returned by the generator M-step has zero row sums
and non-negative rates, and its objective value is at least that of every generator. -/
theorem C20_mstep {d : ℕ} {yy : List (Skel ℝ)} (hne : yy ≠ []) (hy : ∀ y ∈ yy, y.Valid ∧ y.Reduced ∧ y.StatesLt d)
    {alp bet : NMat} {A B : Mat} (hh : Hyper d alp bet A B) (hA1 : ∀ i < d, ∀ j < d, i ≠ j → 1 ≤ A i j) :
    ∃ lam : Mat, (∀ i < d, ∀ j < d, emGenerator d yy alp bet i j = some (lam i j)) ∧
      (∀ i < d, ∀ j < d, i ≠ j → 0 ≤ lam i j) ∧ (∀ i < d, ∑ j ∈ Finset.range d, lam i j = 0) ∧
      ∀ g, IsGenerator d g → emObjective d yy alp bet g ≤ emObjective d yy alp bet lam := by
  have hn : (0 : ℝ) < yy.length := by
    have := List.length_pos_iff.2 hne; exact_mod_cast this
  set P : Mat := fun i j => (yy.map fun y => (transCount y.xt i j : ℝ) + A i j - 1).sum / yy.length with hPdef
  set Q : Mat := fun i j => (yy.map fun y => holdTime y i + B i j).sum / yy.length with hQdef
  have hPnn : ∀ i < d, ∀ j < d, i ≠ j → 0 ≤ P i j := by
    intro i hi j hj h
    apply div_nonneg _ hn.le
    apply List.sum_nonneg
    intro z hz
    obtain ⟨y, -, rfl⟩ := List.mem_map.1 hz
    have h1 := hA1 i hi j hj h
    have h2 : (0 : ℝ) ≤ transCount y.xt i j := Nat.cast_nonneg _
    linarith
  have hhold : ∀ y ∈ yy, ∀ i, 0 ≤ holdTime y i := by
    intro y hyy i
    obtain ⟨hv, -, -⟩ := hy y hyy
    obtain ⟨x, l, hl⟩ := hv.jumps_head
    obtain ⟨ht, hx⟩ := Skel.t_eq_of_len hv.len
    have hinc := hv.jumps_inc
    rw [hl] at hinc
    obtain ⟨p, hp⟩ : ∃ p, ((0, x) :: l).getLast? = some p := by
      rw [List.getLast?_eq_some_getLast (by simp)]; exact ⟨_, rfl⟩
    have hle : ∀ q ∈ (0, x) :: l, q.1 ≤ p.1 := by
      intro q hq
      rw [List.getLast?_eq_some_getLast (by simp)] at hp
      cases hp
      rw [List.mem_iff_getElem] at hq
      obtain ⟨k, hk, rfl⟩ := hq
      rw [List.getLast_eq_getElem]
      rcases Nat.lt_or_eq_of_le (Nat.le_sub_one_of_lt hk) with h | h
      · exact ((List.pairwise_iff_getElem.1 hinc) k _ hk (by simp) h).le
      · simp [h]
    unfold holdTime
    rw [ht, hx, hl, occL_select 0 (fun a => p.1 - a) i l 0 x (by intro q hq; rw [hp] at hq; cases hq; simp)]
    exact occL_nonneg _ _ _ hinc hle
  have hQpos : ∀ i < d, ∀ j < d, i ≠ j → 0 < Q i j := by
    intro i hi j hj h
    apply div_pos _ hn
    apply List.sum_pos
    · intro z hz
      obtain ⟨y, hyy, rfl⟩ := List.mem_map.1 hz
      have := hhold y hyy i
      have := hh.posB i hi j hj h
      linarith
    · simpa using hne
  obtain ⟨lam, h1, h2, h3⟩ := fillDiag_gen (d := d)
    (m := fun i j => nan2 (· / ·) (nanMean (yy.map fun y => ((mjpUpdate y alp bet).1 i j).map (· - 1)))
      (nanMean (yy.map fun y => (mjpUpdate y alp bet).2 i j)))
    (G := fun i j => P i j / Q i j)
    (by
      intro i hi
      have : nanMean (yy.map fun y => ((mjpUpdate y alp bet).1 i i).map (· - 1)) = none := by
        unfold nanMean
        cases hyy : yy with
        | nil => exact absurd hyy hne
        | cons y l => simp [mjpUpdate, nan2]
      rw [this]; rfl)
    (by
      intro i hi j hj h
      rw [nanMean_some yy _ (fun y => (transCount y.xt i j : ℝ) + A i j - 1) (by
          intro y _; simp [mjpUpdate, h, hh.offA i hi j hj h, nan2]),
        nanMean_some yy _ (fun y => holdTime y i + B i j) (by
          intro y _; simp [mjpUpdate, hh.offB i hi j hj h, nan2])]
      rfl)
  have hlnn : ∀ i < d, ∀ j < d, i ≠ j → 0 ≤ lam i j := by
    intro i hi j hj h
    rw [h2 i hi j hj h]; exact div_nonneg (hPnn i hi j hj h) (hQpos i hi j hj h).le
  refine ⟨lam, h1, hlnn, h3, ?_⟩
  intro g hg
  rw [emObjective_eq hne hy hh (fun i hi j hj h => (hg.off i hi j hj h).le) hg.row, emObjective_eq hne hy hh hlnn h3]
  apply Finset.sum_le_sum
  intro i hi
  apply Finset.sum_le_sum
  intro j hj
  rw [Finset.mem_range] at hi hj
  by_cases h : i = j
  · simp [h]
  · simp only [h, if_false]
    rw [h2 i hi j hj h]
    exact xlog_max (hPnn i hi j hj h) (hQpos i hi j hj h) (hg.off i hi j hj h)

example : [demoR] ≠ [] ∧ (∀ y ∈ [demoR], y.Valid ∧ y.Reduced ∧ y.StatesLt 3) ∧
    Hyper 3 demoHyper demoHyper (fun _ _ => 1) (fun _ _ => 1) ∧ IsGenerator 3 demoGen :=
  ⟨by simp, by simp [demoR_valid, demoR_reduced, demoR_states], demoHyper_ok, demoGen_ok⟩

end Ctb
