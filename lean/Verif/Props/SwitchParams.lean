import Verif.Lemmas.SwitchParams
import Verif.Props.Bfactories
import Verif.Props.Adapt

/-! # C25, C27, C67: parameter updates -/

set_option linter.unusedSectionVars false

namespace Ctb

open scoped ENNReal

variable {ζ : Type}

/-! ## C25 -/

/-- Updating regime `i` alone touches only row `i` and only the seeds of segments in regime `i`. -/
theorem C25_section {p : ℕ} {C : McmcControls} {O : ParamOps p ζ} {nil : Thi p} {z : List ζ} {h : Anchorage ℝ ℝ} (hv : h.Valid)
    (hz : z.length + 1 = h.t.length) {prop : Prog ((Fin p → ℝ) × ℝ × ℝ)} {i : ℕ} {acc : Bool} {thi : Thi p} {z' : List ζ}
    (ho : (updateParamsSection C O nil z h prop i).Out (.ok (acc, thi, z'))) :
    ∃ q, prop.Out (.ok q) ∧ SectionResult O h nil z i q.1 acc thi z' :=
  paramSection_out hv hz ho

/-- The assembled update: for every regime a section result of its own exists such that row `i` of the new matrix is what that section
proposed or kept, the sampler of regime `i` is adapted to exactly that row and verdict, and every segment carries the seed made by the
section of the regime in force there (a flip-refinement of its old seed). -/
theorem C25_update {p : ℕ} {root : Matrix (Fin p) (Fin p) ℝ → Matrix (Fin p) (Fin p) ℝ} {A : AdaptPar} {C : McmcControls}
    {O : ParamOps p ζ} {nil : Thi p} {z : List ζ} {h : Anchorage ℝ ℝ} (hv : h.Valid) (hz : z.length + 1 = h.t.length)
    {ss ss' : List (MvRw p)} {thi : Thi p} {z' : List ζ} (ho : (updateParams root A C O h nil z ss).Out (.ok (thi, z', ss'))) :
    z'.length = z.length ∧ ss'.length = ss.length ∧
    ∃ (row : ℕ → Fin p → ℝ) (acc : ℕ → Bool),
      (∀ i s, ss[i]? = some s → (∃ q, (s.propose root).Out (.ok q) ∧ q.1 = row i) ∧ thi i = (if acc i then row i else nil i) ∧
        ∃ s', ss'[i]? = some s' ∧ s.adapt A (thi i) (if acc i then 1 else 0) = .ok s') ∧
      (∀ (k y : ℕ) (x x' : ζ), h.yt[k]? = some y → z[k]? = some x → z'[k]? = some x' →
        y < ss.length ∧ Flips O nil (Function.update nil y (row y)) y x x') := by
  unfold updateParams at ho
  rw [Prog.out_bind_ok] at ho
  obtain ⟨part, hpart, ho⟩ := ho
  split_ifs at ho with he
  · simp at ho
  rw [Prog.out_bind_ok] at ho
  obtain ⟨zz, hzz, ho⟩ := ho
  rw [Prog.out_bind_ok] at ho
  obtain ⟨s1, hs1, ho⟩ := ho
  simp only [Prog.out_ret, Except.ok.injEq, Prod.mk.injEq] at ho
  obtain ⟨rfl, rfl, rfl⟩ := ho
  rw [Prog.out_lift] at hzz hs1
  obtain ⟨g1, g2⟩ := pickSeeds_ok hzz.symm
  obtain ⟨a1, a2⟩ := adaptAll_ok hs1.symm
  rw [Prog.out_mapM'_ok] at hpart
  have hlen := hpart.length_eq
  rw [List.length_zipIdx] at hlen
  have hsec : ∀ (i : ℕ) (hi : i < part.length), ∃ (s : MvRw p) (q : (Fin p → ℝ) × ℝ × ℝ), ss[i]? = some s ∧ (s.propose root).Out (.ok q) ∧
      SectionResult O h nil z i q.1 part[i].1 part[i].2.1 part[i].2.2 := by
    intro i hi
    have hi' : i < ss.zipIdx.length := by rw [List.length_zipIdx]; omega
    have hf := hpart.get hi' hi
    simp only [List.get_eq_getElem, List.getElem_zipIdx, Nat.zero_add] at hf
    obtain ⟨q, hq, hr⟩ := paramSection_out hv hz hf
    exact ⟨_, q, List.getElem?_eq_getElem (by omega), hq, hr⟩
  have hdl : z'.length = z.length := by rw [g1, List.length_dropLast, hv.leny]; omega
  refine ⟨hdl, a1, ?_⟩
  choose s q hs hq hr using hsec
  refine ⟨fun i => if hi : i < part.length then (q i hi).1 else 0, fun i => if hi : i < part.length then part[i].1 else false, ?_, ?_⟩
  · intro i t ht
    obtain ⟨hi, rfl⟩ := List.getElem?_eq_some_iff.1 ht
    have hi' : i < part.length := by omega
    have hst := hs i hi'
    rw [ht, Option.some.injEq] at hst
    simp only [hi', dif_pos]
    have hdi : diagRows nil (part.map fun a => a.2.1) i = part[i].2.1 i := by
      simp [diagRows, List.getElem?_eq_getElem hi']
    refine ⟨⟨_, hst ▸ hq i hi', rfl⟩, ?_, ?_⟩
    · rw [hdi, (hr i hi').own]
    · obtain ⟨a, s', h1, h2, h3⟩ := a2 i _ ht
      simp only [Nat.zero_add, List.getElem?_map, List.getElem?_eq_getElem hi', Option.map_some, Option.some.injEq] at h1 h3
      subst h1
      exact ⟨s', h2, h3⟩
  · intro k y x x' hy hx hx'
    obtain ⟨hk, -⟩ := List.getElem?_eq_some_iff.1 hx
    have hyd : h.yt.dropLast[k]? = some y := by
      rw [List.getElem?_dropLast, if_pos (by rw [hv.leny]; omega), hy]
    obtain ⟨zs, h1, h2⟩ := g2 k y hyd
    rw [List.getElem?_map, Option.map_eq_some_iff] at h1
    obtain ⟨a, ha, rfl⟩ := h1
    obtain ⟨hyp, rfl⟩ := List.getElem?_eq_some_iff.1 ha
    refine ⟨by omega, ?_⟩
    rw [Nat.zero_add, hx'] at h2
    have := (hr y hyp).seeds k x x' hx h2.symm
    rw [if_pos hy] at this
    simpa only [hyp, dif_pos] using this

/-- Assembling never fails: when all regimes of the path have a row, an exception of the update is one of a section or of an
adaptation. -/
theorem C25_errors {p : ℕ} {root : Matrix (Fin p) (Fin p) ℝ → Matrix (Fin p) (Fin p) ℝ} {A : AdaptPar} {C : McmcControls}
    {O : ParamOps p ζ} {nil : Thi p} {z : List ζ} {h : Anchorage ℝ ℝ} (hv : h.Valid) (hz : z.length + 1 = h.t.length)
    {ss : List (MvRw p)} (hy : ∀ y ∈ h.yt, y < ss.length) {e : PyErr} (ho : (updateParams root A C O h nil z ss).Out (.error e)) :
    (∃ (i : ℕ) (s : MvRw p), ss[i]? = some s ∧ (updateParamsSection C O nil z h (s.propose root) i).Out (.error e)) ∨
      ∃ s ∈ ss, ∃ x b, s.adapt A x b = .error e := by
  unfold updateParams at ho
  rw [Prog.out_bind] at ho
  rcases ho with ⟨part, hpart, ho⟩ | ⟨e', he, h'⟩
  · rw [Prog.out_mapM'_ok] at hpart
    have hlen := hpart.length_eq
    rw [List.length_zipIdx] at hlen
    have h2 := hv.two
    have hne : part.isEmpty = false := by
      rw [List.isEmpty_eq_false_iff, ← List.length_pos_iff, ← hlen]
      have : 0 < h.yt.length := by rw [hv.leny]; omega
      exact Nat.zero_lt_of_lt (hy h.yt[0] (List.getElem_mem this))
    simp only [hne, Bool.false_eq_true, if_false] at ho
    obtain ⟨l, hl⟩ := pickSeeds_total (zp := part.map fun a => a.2.2) (ys := h.yt.dropLast) (i := 0)
      (fun y hy' => by rw [List.length_map, ← hlen]; exact hy y (List.dropLast_subset _ hy'))
      (by
        intro zs hzs
        rw [List.mem_map] at hzs
        obtain ⟨a, ha, rfl⟩ := hzs
        obtain ⟨i, hi, rfl⟩ := List.mem_iff_getElem.1 ha
        have hi' : i < ss.zipIdx.length := by rw [List.length_zipIdx]; omega
        have hf := hpart.get hi' hi
        simp only [List.get_eq_getElem, List.getElem_zipIdx, Nat.zero_add] at hf
        obtain ⟨q, -, hr⟩ := paramSection_out hv hz hf
        have hlen' : part[i].2.2.length = z.length := hr.len
        rw [hlen', List.length_dropLast, hv.leny]; omega)
    rw [hl] at ho
    simp only [Prog.lift, Prog.ret_bind] at ho
    right
    rcases ha : adaptAll A (diagRows nil (part.map fun a => a.2.1)) (part.map fun a => a.1) 0 ss with e' | s'
    · rw [ha] at ho
      simp only [Prog.err_bind, Prog.out_err, Except.error.injEq] at ho
      subst ho
      exact adaptAll_error (by rw [List.length_map]; omega) ha
    · rw [ha] at ho; simp at ho
  · simp only [Except.error.injEq] at h'; subst h'
    left
    obtain ⟨q, hq, he⟩ := mapM'_error he
    obtain ⟨i, hi, rfl⟩ := List.mem_iff_getElem.1 hq
    rw [List.length_zipIdx] at hi
    simp only [List.getElem_zipIdx, Nat.zero_add] at he
    exact ⟨i, _, List.getElem?_eq_getElem hi, he⟩

/-- A path over two regimes with three segments, one seed each. -/
def demoAnch : Anchorage ℝ ℝ := ⟨[0, 1, 2, 3], [0, 1, 0, 0], [0, 1, 1, 2]⟩

theorem demoAnch_valid : demoAnch.Valid := ⟨rfl, rfl, rfl, by simp [demoAnch]; norm_num, by simp [demoAnch]⟩

/-- Coins that add ten to the seed they are flipped on and succeed. -/
noncomputable def demoParamOps : ParamOps 1 ℕ where
  weight _ _ := 0
  flip _ _ _ x _ := .ret (true, x + 10)

/-- Regime 0's section changes the seeds of segments 0 and 2 and leaves segment 1 alone. -/
example : (updateParamsSection ⟨0, false, 1⟩ demoParamOps (fun _ _ => 1) [1, 2, 3] demoAnch (.ret (fun _ => 5, 0, 0)) 0).Out
    (.ok (true, Function.update (fun _ _ => 1) 0 (fun _ => 5), [11, 2, 13])) := by
  simp only [updateParamsSection, decideParam, Prog.ret_bind, Bool.false_eq_true, if_false]
  refine Prog.out_bind_ok.2 ⟨(true, [11, 2, 13]), ?_, by simp⟩
  refine Prog.out_bind_ok.2 ⟨((true, false, [11, 2, 13]), [11, 2, 13]), ?_, by simp⟩
  rw [C31_results]
  refine .inl ⟨_, rfl, .inl ⟨0, one_pos, _, .nil _, 0, true, [11, 2, 13], [11, 2, 13], ⟨le_rfl, one_pos⟩, ?_, ?_, rfl⟩⟩
  · simp [sideProb_pos]
  · simp [flipParamCoins, demoAnch, npDiff, Prog.mapM', demoParamOps]

/-! ## C27 -/

/-- In the models `ou` and `ou2` the parallel updates do not interact. -/
theorem C27_ou {n : ℕ} {h : Anchorage ℝ ℝ} (hv : h.Valid) (hn : ∀ y ∈ h.yt.dropLast, y < n) {i : ℕ} (hi : i < n) :
    WeightLocal ouFns n h i := weightLocal_row ouRow hv hn hi

theorem C27_ou2 {n : ℕ} {h : Anchorage ℝ ℝ} (hv : h.Valid) (hn : ∀ y ∈ h.yt.dropLast, y < n) {i : ℕ} (hi : i < n) :
    WeightLocal ou2Fns n h i := weightLocal_row ou2Row hv hn hi

example : demoAnch.Valid ∧ (∀ y ∈ demoAnch.yt.dropLast, y < 2) ∧ 1 < 2 ∧ PosRows 2 (fun i j => 1 + i + j) :=
  ⟨demoAnch_valid, by simp [demoAnch], by norm_num, fun i _ j => by positivity⟩

/-- In general: the weight is local for every model whose functions look up one row per segment (this is what fails in `ou3`). -/
theorem C27_partial {M : SwitchFns 2} (R : RowFns M) {n : ℕ} {h : Anchorage ℝ ℝ} (hv : h.Valid) (hn : ∀ y ∈ h.yt.dropLast, y < n)
    {i : ℕ} (hi : i < n) : WeightLocal M n h i := weightLocal_row R hv hn hi

theorem ou3_weight {thi : Thi 2} (hp : PosRows 2 thi) (h0 : thi 0 0 = 1) :
    evalParamWeight ou3Fns 2 thi ⟨[0, 1, 2], [0, 1, 1], [0, 1, 1]⟩ 0 =
      .ok (some (-(thi 0 1 * (thi 1 0 * thi 1 1)) / 4 - Real.log (2 * Real.pi) / 2 - 1 / 2 - (rowPrior (thi 0) + rowPrior (thi 1)))) := by
  have h1 := hp 1 (by norm_num) 0
  rw [evalParamWeight, logPrior_pos hp]
  have : evalBiasedLogLik ou3Fns 2 thi ⟨[0, 1, 2], [0, 1, 1], [0, 1, 1]⟩ 0 =
      .ok (-(thi 0 1 * (thi 1 0 * thi 1 1)) / 4 - Real.log (2 * Real.pi) / 2 - 1 / 2) := by
    unfold evalBiasedLogLik
    rw [if_neg (by simp), if_neg (by simp), if_neg (by simp), if_neg]
    · simp only [likTerms, ou3Fns, List.dropLast, List.map, npDiff, List.zipWith, List.tail, select, List.prod_cons, List.prod_nil, h0,
        decide_true, List.sum_cons, List.sum_nil]
      norm_num [select]
      ring
    · simp only [ou3Fns, List.dropLast, List.map, npDiff, List.zipWith, h0]
      simp only [List.mem_cons, List.not_mem_nil, or_false, not_exists, not_and, not_le]
      rintro x (rfl | rfl)
      · norm_num
      · norm_num; positivity
  rw [this]
  simp [Except.bind, Finset.sum_range_succ]
  ring

/-- In the model `ou3` they do interact: the weight change of regime 0 depends on the row of regime 1. -/
theorem C27_ou3_violated : ∃ (n : ℕ) (h : Anchorage ℝ ℝ) (i : ℕ), h.Valid ∧ (∀ y ∈ h.yt.dropLast, y < n) ∧ i < n ∧
    ¬ WeightLocal ou3Fns n h i := by
  refine ⟨2, ⟨[0, 1, 2], [0, 1, 1], [0, 1, 1]⟩, 0, ⟨rfl, rfl, rfl, by simp, by simp⟩, by simp, by norm_num, ?_⟩
  rintro ⟨δ, hδ⟩
  -- row 0 goes from (1, 1) to (1, 2); row 1 is (1, 1) or (1, 2)
  have key : ∀ c : ℝ, 0 < c → δ ![1, 1] ![1, 2] = -c / 4 - (rowPrior ![1, 2] - rowPrior ![1, 1]) := by
    intro c hc
    let thi : Thi 2 := fun i => if i = 0 then ![1, 1] else ![1, c]
    have hp : PosRows 2 thi := by
      intro i _ j
      by_cases hi : i = 0 <;> fin_cases j <;> simp [thi, hi, hc]
    have hp' : PosRows 2 (Function.update thi 0 ![1, 2]) := by
      intro i hi j
      by_cases hi0 : i = 0
      · subst hi0; fin_cases j <;> simp
      · simpa [Function.update_of_ne hi0] using hp i hi j
    obtain ⟨b, hb, hb'⟩ := hδ thi ![1, 2] hp (by intro j; fin_cases j <;> simp)
    rw [ou3_weight hp (by simp [thi])] at hb
    rw [ou3_weight hp' (by simp)] at hb'
    simp only [Except.ok.injEq, Option.some.injEq] at hb hb'
    have e0 : thi 0 = ![1, 1] := by simp [thi]
    have e1 : thi 1 = ![1, c] := by simp [thi]
    rw [Function.update_self, Function.update_of_ne (by norm_num), ← hb, e0, e1] at hb'
    simp at hb'
    linarith
  have h1 := key 1 one_pos
  have h2 := key 2 two_pos
  linarith

/-! ## C67 -/

theorem flipPrecoin_lexp (w1 w2 : ℝ) (f : Res Bool → ℝ≥0∞) :
    (flipPrecoin w1 w2).lexp f =
      ENNReal.ofReal (sideProb w1 w2) * f (.ok true) + ENNReal.ofReal (1 - sideProb w1 w2) * f (.ok false) := by
  classical
  rw [← lintegral_uniform_lt (sideProb_pos _ _).le (sideProb_lt_one _ _).le]
  simp only [flipPrecoin, Prog.lexp_real, Prog.lexp_ret]
  refine MeasureTheory.lintegral_congr_ae ?_
  have : ∀ᵐ x ∂(RDist.uniform 0 1).law, x ∈ (RDist.uniform 0 1).support := RDist.law_support _
  filter_upwards [this] with u hu
  have e : npLogLt u (w1 - logaddexp w1 w2) ↔ u < sideProb w1 w2 := by rw [npLogLt_iff (mem_uniform01.1 hu).1, exp_v1]
  by_cases h : u < sideProb w1 w2
  · simp [h, e.2 h]
  · simp [h, mt e.1 h]

theorem taken_of_joint {τ : Type} (p : Prog (Verdict τ τ)) :
    (p.bind fun v => Prog.ret (v.1.1, v.1.2.2)).prob Taken = p.prob Accepted := by
  classical
  unfold Prog.prob
  rw [Prog.lexp_bind]
  congr 1; ext r
  rcases r with e | v
  · simp [Taken, Accepted]
  · simp [Taken, Accepted]

/-- Exact acceptance probability of the decision, with and without precoin. -/
theorem C67_accept_prob {τ : Type} {C : McmcControls} (hk : 0 ≤ C.prPortkey ∧ C.prPortkey ≤ 1) (wPre wFull : ℝ × ℝ) {I : Set τ} {z : τ} (hz : z ∈ I)
    {c : SideCoin τ τ} {p1 p2 : ℝ≥0∞} (h1 : IsCoin I (fun s => c s true) p1) (h2 : IsCoin I (fun s => c s false) p2) :
    (decideParam C wPre wFull z c).prob Taken =
      if C.precoin then ENNReal.ofReal (sideProb wPre.1 wPre.2) * (ENNReal.ofReal (1 / 2) * p1 *
        ∑ k ∈ Finset.range C.maxProps, failProb (1 / 2) p1 p2 C.prPortkey ^ k)
      else ENNReal.ofReal (sideProb wFull.1 wFull.2) * p1 *
        ∑ k ∈ Finset.range C.maxProps, failProb (sideProb wFull.1 wFull.2) p1 p2 C.prPortkey ^ k := by
  classical
  have hq : sideProb 0 0 = 1 / 2 := by unfold sideProb; norm_num
  unfold decideParam
  split_ifs with hp
  · unfold Prog.prob
    rw [Prog.lexp_bind, flipPrecoin_lexp]
    simp only [Prog.cont_ok, if_true, Bool.false_eq_true, if_false, Prog.lexp_ret]
    have h0 := taken_of_joint (sampleTwocoinJoint 0 0 (.ret z) c C.prPortkey C.maxProps)
    rw [C31_accept_prob h1 h2 0 0 hk _ hz, hq] at h0
    unfold Prog.prob at h0
    rw [h0]
    simp [Taken]
  · rw [taken_of_joint, C31_accept_prob h1 h2 _ _ hk _ hz]

/-- Switching, parameter update: whether or not the precoin is used, the forward decision (weights `w'`, `w`, coins `p1`, `p2`) and the
backward decision (everything swapped) balance with the odds `e^w' p1 : e^w p2` of the weighted two-coin. -/
theorem C67_switching_params {τ : Type} {C : McmcControls} (hk : 0 ≤ C.prPortkey ∧ C.prPortkey ≤ 1) (w' w : ℝ) {I : Set τ} {z z' : τ} (hz : z ∈ I)
    (hz' : z' ∈ I) {c c' : SideCoin τ τ} {p1 p2 : ℝ≥0∞} (h1 : IsCoin I (fun s => c s true) p1) (h2 : IsCoin I (fun s => c s false) p2)
    (h1' : IsCoin I (fun s => c' s true) p2) (h2' : IsCoin I (fun s => c' s false) p1) :
    (decideParam C (w', w) (w', w) z c).prob Taken * (ENNReal.ofReal (Real.exp w) * p2) =
      (decideParam C (w, w') (w, w') z' c').prob Taken * (ENNReal.ofReal (Real.exp w') * p1) := by
  have hf : failProb (1 / 2) p2 p1 C.prPortkey = failProb (1 / 2) p1 p2 C.prPortkey := by
    have hq : sideProb 0 0 = 1 / 2 := by unfold sideProb; norm_num
    have := failProb_swap 0 0 p1 p2 C.prPortkey
    rwa [hq] at this
  rw [C67_accept_prob hk _ _ hz h1 h2, C67_accept_prob hk _ _ hz' h1' h2']
  have e1 := sideWeight w' w 1
  have e2 := sideWeight' w' w 1
  simp only [mul_one] at e1 e2
  split_ifs
  · rw [hf, sideProb_swap w' w, ← e1, ← e2]; ring
  · rw [failProb_swap w' w, sideProb_swap w' w, ← e1, ← e2]; ring

/-- What the section update does with its proposal is that decision, with the same weights for precoin and factory. -/
theorem C67_switching_section {p : ℕ} (C : McmcControls) (O : ParamOps p ζ) (nil : Thi p) (z : List ζ) (h : Anchorage ℝ ℝ)
    (row : Fin p → ℝ) (lf lb : ℝ) (i : ℕ) :
    (updateParamsSection C O nil z h (.ret (row, lf, lb)) i).prob (fun r => ∃ v, r = .ok v ∧ v.1 = true) =
      (decideParam C (O.weight (Function.update nil i row) i + lb, O.weight nil i + lf)
        (O.weight (Function.update nil i row) i + lb, O.weight nil i + lf) z
        fun s up => (flipParamCoins O nil (Function.update nil i row) h i s up).bind fun r => .ret (r.1, r.2, r.2)).prob Taken := by
  classical
  unfold updateParamsSection Prog.prob
  simp only [Prog.ret_bind]
  rw [Prog.lexp_bind]
  congr 1; ext r
  rcases r with e | v
  · simp [Taken]
  · simp [Taken]

/-- Exact acceptance probability of one section of the hidden-state update. -/
theorem C67_hidden_accept_prob {C : McmcControls} (hk : 0 ≤ C.prPortkey ∧ C.prPortkey ≤ 1) {O : HiddenOps ζ} {zN zP : List ζ}
    {hN hP : Anchorage ℝ ℝ} {p1 p2 : ℝ≥0∞} {IN IP : Set (List ζ)} (hzN : zN ∈ IN) (hzP : zP ∈ IP)
    (h1 : IsCoin IP (fun s : List ζ => (flipHiddenCoins O s hP).bind fun r => .ret (r.1, r.2, r.2)) p1)
    (h2 : IsCoin IN (fun s : List ζ => (flipHiddenCoins O s hN).bind fun r => .ret (r.1, r.2, r.2)) p2) :
    (updateHiddenSection C O zN hN zP hP).prob (fun r => ∃ v, r = .ok v ∧ v.1 = true) =
      if C.precoin then ENNReal.ofReal (sideProb (O.weight zP hP) (O.weight zN hN)) * (ENNReal.ofReal (1 / 2) * p1 *
        ∑ k ∈ Finset.range C.maxProps, failProb (1 / 2) p1 p2 C.prPortkey ^ k)
      else ENNReal.ofReal (sideProb (O.weight zP hP) (O.weight zN hN)) * p1 *
        ∑ k ∈ Finset.range C.maxProps, failProb (sideProb (O.weight zP hP) (O.weight zN hN)) p1 p2 C.prPortkey ^ k := by
  classical
  have hq : sideProb 0 0 = 1 / 2 := by unfold sideProb; norm_num
  have lift : ∀ {h : Anchorage ℝ ℝ} {p : ℝ≥0∞} {I : Set (List ζ)} (g : List ζ × List ζ → List ζ) (put : List ζ × List ζ → List ζ → List ζ × List ζ),
      (∀ s ∈ IP ×ˢ IN, g s ∈ I) → (∀ s ∈ IP ×ˢ IN, ∀ x ∈ I, put s x ∈ IP ×ˢ IN) →
      IsCoin I (fun s : List ζ => (flipHiddenCoins O s h).bind fun r => .ret (r.1, r.2, r.2)) p →
      IsCoin (IP ×ˢ IN) (fun s : List ζ × List ζ => (flipHiddenCoins O (g s) h).bind fun r => .ret (r.1, r.2, put s r.2)) p := by
    intro h p I g put hg hput hc s hs
    obtain ⟨hlaw, hstay⟩ := hc (g s) (hg s hs)
    refine ⟨fun a b e => ?_, fun r hr => ?_⟩
    · have := hlaw a b e
      rw [Prog.lexp_bind] at this ⊢
      rw [← this]
      congr 1; ext r
      rcases r with e' | ⟨b', x⟩
      · rfl
      · cases b' <;> simp [coinVal]
    · obtain ⟨q, hq, hr⟩ := Prog.out_bind_ok.1 hr
      simp only [Prog.out_ret, Except.ok.injEq] at hr
      subst hr
      exact hput s hs _ (hstay (q.1, q.2, q.2) (Prog.out_bind_ok.2 ⟨q, hq, rfl⟩))
  have h1' := lift Prod.fst (fun s x => (x, s.2)) (fun s hs => hs.1) (fun s hs x hx => ⟨hx, hs.2⟩) h1
  have h2' := lift Prod.snd (fun s x => (s.1, x)) (fun s hs => hs.2) (fun s hs x hx => ⟨hs.1, hx⟩) h2
  have fin : ∀ (q : Prog (Verdict (List ζ × List ζ) (List ζ))), (q.bind fun v =>
      Prog.ret (v.1.1, v.1.2.2, if v.1.1 then hP else hN)).lexp (fun r => if ∃ v, r = .ok v ∧ v.1 = true then 1 else 0) =
      q.prob Accepted := by
    intro q
    unfold Prog.prob
    rw [Prog.lexp_bind]
    congr 1; ext r
    rcases r with e | v
    · simp [Accepted]
    · simp [Accepted]
  unfold updateHiddenSection
  split_ifs with hp
  · unfold Prog.prob
    simp only [hp, if_true]
    rw [Prog.lexp_bind, flipPrecoin_lexp]
    simp only [Prog.cont_ok, if_true, Bool.false_eq_true, if_false, Prog.lexp_ret]
    rw [fin, C29_accept_prob h1' h2' 0 0 hk _ _ ⟨hzP, hzN⟩, hq]
    simp
  · unfold Prog.prob
    simp only [hp, if_false, Bool.false_eq_true]
    rw [fin, C29_accept_prob h1' h2' _ _ hk _ _ ⟨hzP, hzN⟩]

/-- Switching, hidden-state update: same balance. -/
theorem C67_switching_hidden {C : McmcControls} (hk : 0 ≤ C.prPortkey ∧ C.prPortkey ≤ 1) {O : HiddenOps ζ} {zN zP : List ζ}
    {hN hP : Anchorage ℝ ℝ} {p1 p2 : ℝ≥0∞} {IN IP : Set (List ζ)} (hzN : zN ∈ IN) (hzP : zP ∈ IP)
    (h1 : IsCoin IP (fun s : List ζ => (flipHiddenCoins O s hP).bind fun r => .ret (r.1, r.2, r.2)) p1)
    (h2 : IsCoin IN (fun s : List ζ => (flipHiddenCoins O s hN).bind fun r => .ret (r.1, r.2, r.2)) p2) :
    (updateHiddenSection C O zN hN zP hP).prob (fun r => ∃ v, r = .ok v ∧ v.1 = true) *
        (ENNReal.ofReal (Real.exp (O.weight zN hN)) * p2) =
      (updateHiddenSection C O zP hP zN hN).prob (fun r => ∃ v, r = .ok v ∧ v.1 = true) *
        (ENNReal.ofReal (Real.exp (O.weight zP hP)) * p1) := by
  have hf : failProb (1 / 2) p2 p1 C.prPortkey = failProb (1 / 2) p1 p2 C.prPortkey := by
    have hq : sideProb 0 0 = 1 / 2 := by unfold sideProb; norm_num
    have := failProb_swap 0 0 p1 p2 C.prPortkey
    rwa [hq] at this
  rw [C67_hidden_accept_prob hk hzN hzP h1 h2, C67_hidden_accept_prob hk hzP hzN h2 h1]
  generalize O.weight zP hP = w'
  generalize O.weight zN hN = w
  have e1 := sideWeight w' w 1
  have e2 := sideWeight' w' w 1
  simp only [mul_one] at e1 e2
  split_ifs
  · rw [hf, sideProb_swap w' w, ← e1, ← e2]; ring
  · rw [failProb_swap w' w, sideProb_swap w' w, ← e1, ← e2]; ring

/-- A coin that always succeeds. -/
def sureCoin : SideCoin Unit Unit := fun _ _ => .ret (true, (), ())

theorem sureCoin_isCoin (b : Bool) : IsCoin Set.univ (fun s => sureCoin s b) 1 := by
  intro s _; exact ⟨fun a b' e => by simp [sureCoin, coinVal], fun _ _ => trivial⟩

example : (0 : ℝ) ≤ (⟨0.01, true, 100⟩ : McmcControls).prPortkey ∧ (⟨0.01, true, 100⟩ : McmcControls).prPortkey ≤ 1 := by norm_num

/-- Path updates with one segment and a hidden coin of probability 1/3, whatever the seed. -/
example : IsCoin {s : List Unit | s = [()]} (fun s : List Unit => (flipHiddenCoins (⟨fun _ => .err .value, fun _ _ => 0, id, fun _ _ =>
    (uniformCoin (1 / 3) ()).bind fun r => .ret (r.1, ())⟩ : HiddenOps Unit) s ⟨[0, 1], [0, 0], [0, 0]⟩).bind
      fun r => .ret (r.1, r.2, r.2)) (ENNReal.ofReal (1 / 3)) := by
  rintro s rfl
  have hform : ((flipHiddenCoins (⟨fun _ => .err .value, fun _ _ => 0, id, fun _ _ =>
      (uniformCoin (1 / 3) ()).bind fun r => .ret (r.1, ())⟩ : HiddenOps Unit) [()] ⟨[0, 1], [0, 0], [0, 0]⟩).bind
      fun r => .ret (r.1, r.2, r.2)) = (uniformCoin (1 / 3) ()).bind fun r => Prog.ret (r.1, [()], [()]) := by
    simp [flipHiddenCoins, segments, npDiff, Prog.mapM', Prog.bind_assoc, Prog.ret_bind]
  beta_reduce
  rw [hform]
  refine ⟨fun a b e => ?_, fun r hr => ?_⟩
  · rw [← (uniformCoin_isCoin (p := 1 / 3) (by norm_num) (by norm_num) () trivial).1 a b e, Prog.lexp_bind]
    congr 1; ext r
    rcases r with e' | ⟨b', x⟩
    · rfl
    · cases b' <;> simp [coinVal]
  · obtain ⟨q, -, hr⟩ := Prog.out_bind_ok.1 hr
    simp only [Prog.out_ret, Except.ok.injEq] at hr
    subst hr; rfl

/-- ito: the precoin leaves the likelihood out, so with it the forward and backward acceptance probabilities do not have the odds of the
weights used without it.  `lik`, `prior` are the log-likelihood and log-prior of the two parameters; Jacobians are zero. -/
theorem C67_ito_violated : ∃ (C : McmcControls) (lik prior : Bool → ℝ), C.precoin = true ∧ 0 ≤ C.prPortkey ∧ C.prPortkey ≤ 1 ∧
    (decideParam C (prior true + 0, prior false + 0) (lik true + prior true + 0, lik false + prior false + 0) () sureCoin).prob Taken *
        (ENNReal.ofReal (Real.exp (lik false + prior false + 0)) * 1) ≠
      (decideParam C (prior false + 0, prior true + 0) (lik false + prior false + 0, lik true + prior true + 0) () sureCoin).prob Taken *
        (ENNReal.ofReal (Real.exp (lik true + prior true + 0)) * 1) := by
  refine ⟨⟨0, true, 1⟩, fun b => if b then 1 else 0, fun _ => 0, rfl, le_rfl, zero_le_one, ?_⟩
  rw [C67_accept_prob ⟨le_rfl, zero_le_one⟩ _ _ (Set.mem_univ ()) (sureCoin_isCoin true) (sureCoin_isCoin false),
    C67_accept_prob ⟨le_rfl, zero_le_one⟩ _ _ (Set.mem_univ ()) (sureCoin_isCoin true) (sureCoin_isCoin false)]
  simp only [if_true, Finset.range_one, Finset.sum_singleton, pow_zero, mul_one, add_zero, Bool.false_eq_true, if_false, Real.exp_zero]
  intro h
  have h0 : ENNReal.ofReal (sideProb 0 0) * ENNReal.ofReal (1 / 2) ≠ 0 := by simp [sideProb_pos]
  have h1 : ENNReal.ofReal (sideProb 0 0) * ENNReal.ofReal (1 / 2) ≠ ∞ := ENNReal.mul_ne_top ENNReal.ofReal_ne_top ENNReal.ofReal_ne_top
  rw [ENNReal.mul_right_inj h0 h1, ENNReal.ofReal_eq_ofReal_iff (by norm_num) (Real.exp_pos _).le] at h
  have := Real.add_one_lt_exp (x := 1) one_ne_zero
  linarith

/-- ito: the odds are right without the precoin, and with it when the two likelihoods agree. -/
theorem C67_ito_partial {τ : Type} {C : McmcControls} (hk : 0 ≤ C.prPortkey ∧ C.prPortkey ≤ 1) (lik' lik prior' prior lf lb : ℝ)
    (hl : C.precoin = false ∨ lik' = lik) {I : Set τ} {z z' : τ} (hz : z ∈ I) (hz' : z' ∈ I) {c c' : SideCoin τ τ} {p1 p2 : ℝ≥0∞}
    (h1 : IsCoin I (fun s => c s true) p1) (h2 : IsCoin I (fun s => c s false) p2) (h1' : IsCoin I (fun s => c' s true) p2)
    (h2' : IsCoin I (fun s => c' s false) p1) :
    (decideParam C (prior' + lb, prior + lf) (lik' + prior' + lb, lik + prior + lf) z c).prob Taken *
        (ENNReal.ofReal (Real.exp (lik + prior + lf)) * p2) =
      (decideParam C (prior + lf, prior' + lb) (lik + prior + lf, lik' + prior' + lb) z' c').prob Taken *
        (ENNReal.ofReal (Real.exp (lik' + prior' + lb)) * p1) := by
  have same : ∀ (wp wf : ℝ × ℝ) (z : τ) (_ : z ∈ I) (c : SideCoin τ τ), (C.precoin = false ∨ sideProb wp.1 wp.2 = sideProb wf.1 wf.2) →
      ∀ {p1 p2 : ℝ≥0∞}, IsCoin I (fun s => c s true) p1 → IsCoin I (fun s => c s false) p2 →
      (decideParam C wp wf z c).prob Taken = (decideParam C wf wf z c).prob Taken := by
    intro wp wf z hz c h p1 p2 h1 h2
    rw [C67_accept_prob hk _ _ hz h1 h2, C67_accept_prob hk _ _ hz h1 h2]
    rcases h with h | h
    · simp [h]
    · rw [h]
  have shift : ∀ a b d : ℝ, sideProb a b = sideProb (d + a) (d + b) := by
    intro a b d
    unfold sideProb
    rw [Real.exp_add, Real.exp_add, ← mul_add, mul_div_mul_left _ _ (Real.exp_pos d).ne']
  rw [same _ _ z hz c ?_ h1 h2, same _ _ z' hz' c' ?_ h1' h2']
  · exact C67_switching_params hk _ _ hz hz' h1 h2 h1' h2'
  · rcases hl with hl | rfl
    · exact .inl hl
    · right; rw [shift _ _ lik', add_assoc, add_assoc]
  · rcases hl with hl | rfl
    · exact .inl hl
    · right; rw [shift _ _ lik', add_assoc, add_assoc]

/-- ito: as the code stands no decision is ever reached, because the scalar proposal raises (C37). -/
theorem C67_ito_never_returns {n : ℕ} {τ : Type} (A : AdaptPar) (C : McmcControls) (lik prior : (Fin n → ℝ) → ℝ)
    (flip : (Fin n → ℝ) → (Fin n → ℝ) → SideCoin τ τ) (nil : Fin n → ℝ) (z : τ) (ss : Fin n → Rw)
    (h : ∀ i, Inside (ss i).state (ss i).lb (ss i).ub) (hs : ∀ i, (ss i).sched.logScale ≠ []) {r : Res _}
    (ho : (itoUpdateParams A C lik prior flip nil z ss).Out r) : r = .error .type ∨ n = 0 ∧ r = .error .value := by
  unfold itoUpdateParams drawInteger at ho
  split_ifs at ho with h0
  · simp only [Prog.err_bind, Prog.out_err] at ho; exact .inr ⟨h0, ho⟩
  · left
    simp only [Prog.nat_bind, Prog.ret_bind, Prog.out_nat] at ho
    obtain ⟨k, ⟨hk, -⟩, ho⟩ := ho
    rw [dif_pos hk, Prog.out_bind] at ho
    rcases ho with ⟨q, hq, -⟩ | ⟨e, he, rfl⟩
    · rw [C37_violated _ (h _) (hs _)] at hq; simp at hq
    · rw [C37_violated _ (h _) (hs _)] at he; simpa using he

end Ctb
