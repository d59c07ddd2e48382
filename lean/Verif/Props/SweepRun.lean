import Verif.Lemmas.SweepInv
import Verif.Lemmas.RegSweep

/-! # C117: iterations of the switching sampler keep its state consistent -/

set_option linter.unusedSectionVars false

namespace Ctb

variable {ζ : Type} {p : ℕ}

/-! ## One update of the hidden states, C23, C24 and C26, almost surely -/

section

variable {d : ℕ} [NeZero d] {fuel : ℕ} {A : AdaptPar} {C : McmcControls} {O : HiddenOps ζ} {vol : ℕ → ℝ} {red dered : ℝ → ℝ} {rawSeed : ℝ → ℕ → ℝ → ℝ → Prog ζ} {t vt : List ℝ} {F : ℝ}

/-- C23: almost surely, an update that returns has a path that takes, between the times kept, the old or the proposed path as a whole. -/
theorem C23_almost_surely (hvol : ∀ y, vol y ≠ 0) (hO : ∀ y, O.aug y = sampleAug vol red dered rawSeed y t vt) (hg : ObsGrid t vt F)
    (hd : ∀ v ∈ vt, dered (dered (red v)) = v ∧ dered v = v) {lam : Mat} (hlam : IsGenerator d lam) {s : HiddenState ζ} (hs : Coherent d t vt F s) {m k : ℕ} (hsched : SchedInv A m k s.sampler.sched) :
    (updateHidden fuel d A C O t lam s).ASure fun r => ∀ s', r = .ok s' → ∃ (y' : Skel ℝ) (tc : List ℝ) (acc : List Bool), y'.Valid ∧ y'.fin = F ∧ tc.Sublist t.tail.dropLast ∧
      Mixes (0 :: (tc ++ [F])) acc s.sampler.state.stateAt y'.stateAt s'.sampler.state.stateAt :=
  (updateHidden_as hvol hO hg hd hlam hs hsched).mono (by rintro r hr s' rfl; exact hr.2.2)

/-- C24: almost surely, the state after an update is coherent when the state before it is. -/
theorem C24_almost_surely (hvol : ∀ y, vol y ≠ 0) (hO : ∀ y, O.aug y = sampleAug vol red dered rawSeed y t vt) (hg : ObsGrid t vt F)
    (hd : ∀ v ∈ vt, dered (dered (red v)) = v ∧ dered v = v) {lam : Mat} (hlam : IsGenerator d lam) {s : HiddenState ζ} (hs : Coherent d t vt F s) {m k : ℕ} (hsched : SchedInv A m k s.sampler.sched) :
    (updateHidden fuel d A C O t lam s).ASure fun r => ∀ s', r = .ok s' → Coherent d t vt F s' :=
  (updateHidden_as hvol hO hg hd hlam hs hsched).mono (by rintro r hr s' rfl; exact hr.1)

/-- C26: almost surely, for two regimes or more and grids of at least four times, an update raises nothing but what the coins and the seed sampler raise. -/
theorem C26_almost_surely_partial (h2 : 2 ≤ d) (h4 : 4 ≤ t.length) (hvol : ∀ y, vol y ≠ 0) (hO : ∀ y, O.aug y = sampleAug vol red dered rawSeed y t vt) (hg : ObsGrid t vt F)
    (hd : ∀ v ∈ vt, dered (dered (red v)) = v ∧ dered v = v) {lam : Mat} (hlam : IsGenerator d lam) {s : HiddenState ζ} (hs : Coherent d t vt F s) {m k : ℕ} (hsched : SchedInv A m k s.sampler.sched) :
    (updateHidden fuel d A C O t lam s).ASure fun r => ∀ e, r = .error e →
      e = .fuel ∨ e = .budget ∨ (∃ q x, (O.flip q x).Out (.error e)) ∨ ∃ dt y0 x0 x1, (rawSeed dt y0 x0 x1).Out (.error e) :=
  (updateHidden_as hvol hO hg hd hlam hs hsched).mono (by rintro r hr e rfl; exact hr h2 h4)

/-- A coherent state, with the first schedule of its sampler. -/
example (A : AdaptPar) : Coherent 2 [0, 1, 2, 3] [0, 0, 0, 0] 3 (demoState 0 (.init 0 A)) ∧ SchedInv A 1 0 (demoState 0 (.init 0 A)).sampler.sched ∧ ObsGrid [(0 : ℝ), 1, 2, 3] [0, 0, 0, 0] 3 :=
  ⟨demoState_coherent (by norm_num) _, SchedInv.init 0 A, demoGrid⟩

end

/-! ## Runs of the chain, C117 -/

section

variable {root : Matrix (Fin p) (Fin p) ℝ → Matrix (Fin p) (Fin p) ℝ} {fuel d : ℕ} [NeZero d] {A : AdaptPar} {C : McmcControls}
  {PO : Anchorage ℝ ℝ → ParamOps p ζ} {HO : Thi p → HiddenOps ζ} {t vt : List ℝ} {F : ℝ} {lb ub : Fin p → Option ℝ}
  {rawSeed : Thi p → ℝ → ℕ → ℝ → ℝ → Prog ζ} {alp bet : NMat} {A0 B0 : Mat} {thi0 : Fin p → ℝ}

/-- **C117.** With probability one, after any number of iterations of `sample_posterior` that returns: the path fits the data, the regime sampler holds it, the rates
form a generator, all parameters are within their bounds, and the sampler of every regime holds the row of that regime with positive definite covariances. -/
theorem C117_run (M : SweepModel HO t vt F lb ub rawSeed) (hh : Hyper d alp bet A0 B0) (h0 : ∀ j, Admissible (thi0 j) (lb j) (ub j)) (n : ℕ) :
    (sweepRun root fuel d A C PO HO t F alp bet thi0 lb ub n).ASure fun r => ∀ s, r = .ok s → JointOk d t vt F lb ub s := by
  unfold sweepRun
  refine Prog.ASure.bind (Prog.ASure.of_out fun r hr => sweepInit_out M PO hh h0 hr) (fun s hs => (sweepLoop_as M hh n hs).mono ?_) ?_
  · rintro r hr s rfl; exact hr.ok
  · rintro e - s h; cases h

/-- Almost surely the only exceptions of a run, for two regimes or more and grids of at least four times, are the recursion budget of the model, the documented two-coin
limit, and those of the Poisson coins and of the seed sampler. -/
theorem C117_errors (M : SweepModel HO t vt F lb ub rawSeed) (h2 : 2 ≤ d) (h4 : 4 ≤ t.length) (hh : Hyper d alp bet A0 B0)
    (h0 : ∀ j, Admissible (thi0 j) (lb j) (ub j)) (n : ℕ) :
    (sweepRun root fuel d A C PO HO t F alp bet thi0 lb ub n).ASure fun r => ∀ e, r = .error e →
      e = .fuel ∨ e = .budget ∨ (∃ h nil prime seg x up, ((PO h).flip nil prime seg x up).Out (.error e)) ∨
        (∃ thi q x, ((HO thi).flip q x).Out (.error e)) ∨ ∃ thi dt y0 x0 x1, (rawSeed thi dt y0 x0 x1).Out (.error e) := by
  unfold sweepRun
  refine Prog.ASure.bind (Prog.ASure.of_out fun r hr => sweepInit_out M PO hh h0 hr) (fun s hs => (sweepLoop_as M hh n hs).mono ?_) ?_
  · rintro r hr e rfl; exact hr h2 h4
  · rintro e he e' h; cases h; exact he h2 h4

end

/-! ## The models of the library -/

/-- `bounds_thi`, switching/models/ou.py:65, ou2.py:71, ou3.py:71: all parameters are positive. -/
theorem JointOk.pos {d : ℕ} {t vt : List ℝ} {F : ℝ} {s : SweepState 2 ζ} (hs : JointOk d t vt F (fun _ => some 0) (fun _ => none) s) : PosRows d s.thi :=
  fun i _ j => (hs.rows i j (.inr rfl)).1 0 rfl

theorem adm_pos {thi : Thi 2} (h : ∀ y j, Admissible (thi y j) (some 0) none) (y : ℕ) (j : Fin 2) : 0 < thi y j := (h y j (.inr rfl)).1 0 rfl

noncomputable def sweepModel_ou (n nb G k : ℕ) (size : ℤ) {t vt : List ℝ} {F : ℝ} (hg : ObsGrid t vt F) :
    SweepModel (swHiddenOps ouFns swOu (fun thi y le ue => .ok (swOuBounds thi y le ue)) n nb G k none none size t vt) t vt F (fun _ => some 0) (fun _ => none)
      (fun thi => augSeed swOu thi nb G none none) where
  vol := swOu.vol
  red := swOu.reduce
  dered := swOu.dereduce
  vol_ne thi h y := by have := adm_pos h y 1; simp only [swOu]; positivity
  aug _ _ := rfl
  grid := hg
  undo v _ := ⟨rfl, rfl⟩

noncomputable def sweepModel_ou2 (n nb G k : ℕ) (size : ℤ) {t vt : List ℝ} {F : ℝ} (hg : ObsGrid t vt F) :
    SweepModel (swHiddenOps ou2Fns swOu2 (fun thi y le ue => .ok (swOu2Bounds thi y le ue)) n nb G k none none size t vt) t vt F (fun _ => some 0) (fun _ => none)
      (fun thi => augSeed swOu2 thi nb G none none) where
  vol := swOu2.vol
  red := swOu2.reduce
  dered := swOu2.dereduce
  vol_ne thi h y := by have := adm_pos h y 1; have := adm_pos h y 0; simp only [swOu2]; positivity
  aug _ _ := rfl
  grid := hg
  undo v _ := ⟨rfl, rfl⟩

noncomputable def sweepModel_ou3 (n nb G k : ℕ) (size : ℤ) {t vt : List ℝ} {F : ℝ} (hg : ObsGrid t vt F) :
    SweepModel (swHiddenOps ou3Fns swOu3 (fun thi y le ue => .ok (swOu3Bounds thi y le ue)) n nb G k none none size t vt) t vt F (fun _ => some 0) (fun _ => none)
      (fun thi => augSeed swOu3 thi nb G none none) where
  vol := swOu3.vol
  red := swOu3.reduce
  dered := swOu3.dereduce
  vol_ne thi h y := by have := adm_pos h y 0; simp only [swOu3]; positivity
  aug _ _ := rfl
  grid := hg
  undo v _ := ⟨rfl, rfl⟩

/-- The three models of `ctbayes/switching`: from positive parameters, every state of the chain is consistent and has positive parameters, with probability one. -/
theorem C117_library (guard : Bool) (nb G k : ℕ) (size : ℤ) (fuel d : ℕ) [NeZero d] (A : AdaptPar) (C : McmcControls) (root : Matrix (Fin 2) (Fin 2) ℝ → Matrix (Fin 2) (Fin 2) ℝ)
    {t vt : List ℝ} {F : ℝ} (hg : ObsGrid t vt F) {alp bet : NMat} {A0 B0 : Mat} (hh : Hyper d alp bet A0 B0) {thi0 : Fin 2 → ℝ} (h0 : ∀ j, 0 < thi0 j) (n : ℕ) :
    let Good := fun r : Res (SweepState 2 EaSkel) => ∀ s, r = .ok s → JointOk d t vt F (fun _ => some 0) (fun _ => none) s ∧ PosRows d s.thi
    (sweepRun root fuel d A C (swParamOps ouFns swOu swOuGrad guard d nb k size)
        (swHiddenOps ouFns swOu (fun thi y le ue => .ok (swOuBounds thi y le ue)) d nb G k none none size t vt) t F alp bet thi0 (fun _ => some 0) (fun _ => none) n).prob Good = 1 ∧
    (sweepRun root fuel d A C (swParamOps ou2Fns swOu2 swOu2Grad guard d nb k size)
        (swHiddenOps ou2Fns swOu2 (fun thi y le ue => .ok (swOu2Bounds thi y le ue)) d nb G k none none size t vt) t F alp bet thi0 (fun _ => some 0) (fun _ => none) n).prob Good = 1 ∧
    (sweepRun root fuel d A C (swParamOps ou3Fns swOu3 swOu3Grad guard d nb k size)
        (swHiddenOps ou3Fns swOu3 (fun thi y le ue => .ok (swOu3Bounds thi y le ue)) d nb G k none none size t vt) t F alp bet thi0 (fun _ => some 0) (fun _ => none) n).prob Good = 1 := by
  intro Good
  have h0' : ∀ j, Admissible (thi0 j) (some 0) none := fun j _ => ⟨fun l hl => by cases hl; exact h0 j, fun u hu => by cases hu⟩
  have key : ∀ r : Res (SweepState 2 EaSkel), (∀ s, r = .ok s → JointOk d t vt F (fun _ => some 0) (fun _ => none) s) → Good r := fun r h s hs => ⟨h s hs, (h s hs).pos⟩
  refine ⟨?_, ?_, ?_⟩
  · exact ((C117_run (sweepModel_ou d nb G k size hg) hh h0' n).mono key).prob_one
      ((mass_sweepInit fuel d A (fun _ => massOps_switch ..) ..).bind fun _ _ => mass_sweepLoop (fun _ => mass_sweepJoint fuel d A C root (fun _ => massParamOps_switch ..) (fun _ => massOps_switch ..) ..) _ _)
  · exact ((C117_run (sweepModel_ou2 d nb G k size hg) hh h0' n).mono key).prob_one
      ((mass_sweepInit fuel d A (fun _ => massOps_switch ..) ..).bind fun _ _ => mass_sweepLoop (fun _ => mass_sweepJoint fuel d A C root (fun _ => massParamOps_switch ..) (fun _ => massOps_switch ..) ..) _ _)
  · exact ((C117_run (sweepModel_ou3 d nb G k size hg) hh h0' n).mono key).prob_one
      ((mass_sweepInit fuel d A (fun _ => massOps_switch ..) ..).bind fun _ _ => mass_sweepLoop (fun _ => mass_sweepJoint fuel d A C root (fun _ => massParamOps_switch ..) (fun _ => massOps_switch ..) ..) _ _)

/-- Volatilities of a model, one per segment, none of them zero. -/
def VolOk (M : SwitchFns 2) : Prop :=
  ∀ (n : ℕ) (thi : Thi 2) (ys : List ℕ), PosRows n thi → (∀ y ∈ ys, y < n) → ∀ v ∈ M.vol thi ys, v ≠ 0

theorem volOk_library : VolOk ouFns ∧ VolOk ou2Fns ∧ VolOk ou3Fns := by
  refine ⟨?_, ?_, ?_⟩ <;> intro n thi ys hp hy v hv <;> simp only [ouFns, ou2Fns, ou3Fns, List.mem_map] at hv <;> obtain ⟨y, hys, rfl⟩ := hv <;>
    have h0 := hp y (hy y hys) 0 <;> have h1 := hp y (hy y hys) 1 <;> positivity

/-- In a consistent state the weights that decide about a new row are numbers, for the current parameters and for every proposal: no IndexError, no shape mismatch, no
logarithm of zero. -/
theorem C117_weights {M : SwitchFns 2} (hM : VolOk M) {d : ℕ} {t vt : List ℝ} {F : ℝ} {s : SweepState 2 ζ} (hs : JointOk d t vt F (fun _ => some 0) (fun _ => none) s)
    {i : ℕ} {row : Fin 2 → ℝ} (hrow : ∀ j, 0 < row j) :
    (∃ w, evalParamWeight M d s.thi s.hid.h i = .ok (some w)) ∧ ∃ w, evalParamWeight M d (Function.update s.thi i row) s.hid.h i = .ok (some w) := by
  have hv := hs.hidden.ok.valid
  have hy : ∀ y ∈ s.hid.h.yt.dropLast, y < d := fun y h => hs.hidden.yt_lt y (List.dropLast_subset _ h)
  have key : ∀ thi : Thi 2, PosRows d thi → ∃ w, evalParamWeight M d thi s.hid.h i = .ok (some w) := by
    intro thi hp
    have h1 : evalBiasedLogLik M d thi s.hid.h i = .ok (select (likTerms M thi s.hid.h) (s.hid.h.yt.dropLast.map fun y => decide (y = i))).sum := by
      unfold evalBiasedLogLik
      rw [if_neg (by rintro ⟨y, h1, h2⟩; exact absurd (hy y h1) (not_lt.2 h2)), if_neg (by simp [hv.leny, hv.lenv]), if_neg, if_neg]
      · rintro ⟨x, hx, hx0⟩
        obtain ⟨k, hk, rfl⟩ := List.mem_iff_getElem.1 hx
        simp only [List.length_zipWith] at hk
        simp only [List.getElem_zipWith] at hx0
        have a1 : 0 < (npDiff s.hid.h.t)[k]'(by omega) := by
          have := npDiff_getElem (l := s.hid.h.t) (k := k) (by omega)
          rw [this]
          have hkl : k + 1 < s.hid.h.t.length := by have := npDiff_len s.hid.h.t; omega
          exact sub_pos.2 (List.pairwise_iff_getElem.1 hv.inc k (k + 1) (by omega) hkl (by omega))
        have a2 := hM d thi _ hp hy _ (List.getElem_mem (by omega : k < (M.vol thi s.hid.h.yt.dropLast).length))
        have : 0 < (npDiff s.hid.h.t)[k]'(by omega) * ((M.vol thi s.hid.h.yt.dropLast)[k]'(by omega)) ^ 2 := by positivity
        linarith
      · intro h; have := hv.two; rw [h] at this; simp at this
    exact ⟨_, by rw [evalParamWeight, h1, logPrior_pos hp]; rfl⟩
  refine ⟨key _ hs.pos, key _ ?_⟩
  intro k hk j
  by_cases h : k = i
  · subst h; simp [hrow j]
  · rw [Function.update_of_ne h]; exact hs.pos k hk j

/-- A consistent state: two regimes, four observations, a path that stays in regime 1. -/
example (A : AdaptPar) : JointOk 2 [0, 1, 2, 3] [0, 0, 0, 0] 3 (fun _ => some 0) (fun _ => none)
    (⟨fun _ _ => 1, flipGen, demoState 1 (.init 0 A), List.replicate 2 (.init A (fun _ => 1) (fun _ => some 0) (fun _ => none))⟩ : SweepState 2 Unit) where
  hidden := demoState_coherent (by norm_num) _
  gen := flipGen_isGenerator
  rows _ _ _ := ⟨fun l hl => by cases hl; norm_num, fun u hu => by cases hu⟩
  count := rfl
  samplers i q hq := by
    rw [List.getElem?_replicate] at hq
    split_ifs at hq
    cases hq
    exact (samplerInv_init A _ _ _).ok

/-- The hypotheses of `C117_library` and `C117_errors`. -/
example : ObsGrid [(0 : ℝ), 1, 2, 3] [0, 0, 0, 0] 3 ∧ Hyper 3 demoHyper demoHyper (fun _ _ => 1) (fun _ _ => 1) ∧ (∀ j, 0 < (![1, 2] : Fin 2 → ℝ) j) :=
  ⟨demoGrid, demoHyper_ok, fun j => by fin_cases j <;> simp⟩

end Ctb
