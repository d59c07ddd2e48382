import Verif.Lemmas.HiddenImportance
import Verif.Lemmas.HiddenSections

/-! # C86, C87: the weight of a hidden state -/

set_option linter.unusedSectionVars false

namespace Ctb

open MeasureTheory
open scoped ENNReal

/-! ## C86 -/

/-- Both outputs of `eval_biased_log_lik` for an augmentation of `y` by observations: their sum is the growth of the potential of the drift along the
anchors plus the log-likelihood of the observations given the regimes. -/
theorem C86_outputs {p : ℕ} {M : SwitchFns p} {n : ℕ} {thi : Thi p} {vol : ℕ → ℝ} {sx : ℕ → ℝ → ℝ} (hM : ∀ ys, M.vol thi ys = ys.map vol)
    (hsx : ∀ ys xs, M.sx thi ys xs = List.zipWith sx ys xs) (hvol : ∀ y, vol y ≠ 0) {ζ : Type} {y : Skel ℝ} (hv : y.Valid) (hr : y.Reduced)
    (hn : ∀ x ∈ y.xt, x < n) {t vt : List ℝ} (hg : ObsGrid t vt y.fin) (hoff : ∀ s ∈ y.t, s ≠ 0 → s ∉ t) {z : List ζ} {h : Anchorage ℝ ℝ}
    (ha : Augments y t vt z h) :
    ∃ a b, evalBiasedLogLik2 M n thi h none = .ok (a, b) ∧
      a + b = driftGain sx vol (h.yt.zip (h.vt.map M.red)) + obsLogLik M.red M.dvRed vol y.stateAt (t.zip vt) := by
  obtain ⟨a, b, h1, h2⟩ := outputs_sum (n := n) hM hsx ha.valid (fun x hx => ha.yt_lt hv hn x (List.mem_of_mem_dropLast hx)) (fun _ _ => hvol _) hg ha.obs
    (ha.jumpsOffObs hv hr hoff)
  exact ⟨a, b, h1, h2.trans (by rw [obsLogLik_congr ha.state])⟩

/-- The law of `sample_aug`: weighted with the density of the observations given the regimes, its anchors have the joint density of all increments with
respect to Lebesgue measure on the values that are not observed; seeds are drawn given the anchors. -/
theorem C86_aug_law {ζ : Type} {vol : ℕ → ℝ} (hvol : ∀ y, vol y ≠ 0) {rawSeed : ℝ → ℕ → ℝ → ℝ → Prog ζ} {y : Skel ℝ} (hv : y.Valid) (hr : y.Reduced)
    {t : List ℝ} {x0 : ℝ} {ws : List ℝ} (hg : ObsGrid t (x0 :: ws) y.fin) {τ : List ℝ} {η : List ℕ} (hτ : τ.Pairwise (· < ·))
    (hm : ∀ s, s ∈ τ ↔ s ∈ t ∨ s ∈ y.t) (hη : τ.map y.stateAt = η.map some) (G : List ζ → Anchorage ℝ ℝ → ℝ≥0∞)
    (hG : MeasN (τ.length - 1) fun (_ : Unit) l => seedVal rawSeed G τ η (x0 :: l)) :
    ENNReal.ofReal (Real.exp (obsLogLik id (fun _ => 1) vol y.stateAt (t.zip (x0 :: ws)))) *
        (sampleAug vol id id rawSeed y t (x0 :: ws)).lexp (onOk fun r => G r.1 r.2) =
      anchInt (segSpec vol (t.zip (x0 :: ws)) (τ.zip η)) x0 fun l => seedVal rawSeed G τ η (x0 :: l) :=
  aug_law hvol hv hr hg hτ hm hη G hG

/-- **C86.** Weighting what `sample_aug` draws with the exponential of `eval_hidden_weight` gives the joint density of observations and anchors, times
the exponential growth of the potential of the drift, times the exponential of minus the integrated lower bounds: the factor by which the sampler
favours anchors close to the bridge between the observations is cancelled, and no other function of the regimes is left. -/
theorem C86_importance {p : ℕ} {M : SwitchFns p} {n : ℕ} {thi : Thi p} {vol : ℕ → ℝ} {sx : ℕ → ℝ → ℝ} (hM : ∀ ys, M.vol thi ys = ys.map vol)
    (hsx : ∀ ys xs, M.sx thi ys xs = List.zipWith sx ys xs) (hred : M.red = id) (hvol : ∀ y, vol y ≠ 0) (hsm : ∀ y, Measurable (sx y))
    {ebd : ℕ → ℝ → ℝ → Res DiscBounds} {ops : Anchorage ℝ ℝ → List NormOp} {rawSeed : ℝ → ℕ → ℝ → ℝ → Prog EaSkel} {y : Skel ℝ} (hv : y.Valid)
    (hr : y.Reduced) (hn : ∀ x ∈ y.xt, x < n) {t : List ℝ} {x0 : ℝ} {ws : List ℝ} (hg : ObsGrid t (x0 :: ws) y.fin)
    (hoff : ∀ s ∈ y.t, s ≠ 0 → s ∉ t) (hd : ∀ w ∈ ws, M.dvRed w ≠ 0) {τ : List ℝ} {η : List ℕ} (hτ : τ.Pairwise (· < ·))
    (hm : ∀ s, s ∈ τ ↔ s ∈ t ∨ s ∈ y.t) (hη : τ.map y.stateAt = η.map some) (G : List EaSkel → Anchorage ℝ ℝ → ℝ≥0∞)
    (hG : MeasN (τ.length - 1) fun (_ : Unit) l => seedVal rawSeed (boundVal ebd ops G) τ η (x0 :: l)) :
    (sampleAug vol id id rawSeed y t (x0 :: ws)).lexp (onOk fun r =>
        onOk (fun w => ENNReal.ofReal (Real.exp w) * G r.1 r.2) (evalHiddenWeight M n thi ebd (ops r.2) r.1 r.2)) =
      (ws.map fun w => ENNReal.ofReal |M.dvRed w|).prod * anchInt (segSpec vol (t.zip (x0 :: ws)) (τ.zip η)) x0 fun l =>
        ENNReal.ofReal (Real.exp (driftGain sx vol (η.zip (x0 :: l)))) * seedVal rawSeed (boundVal ebd ops G) τ η (x0 :: l) :=
  importance hM hsx hred hvol hsm hv hr hn hg hoff hd hτ hm hη G hG

/-- The first output for one regime is the one used by the parameter update. -/
theorem C86_first_output {p : ℕ} (M : SwitchFns p) (n : ℕ) (thi : Thi p) (h : Anchorage ℝ ℝ) (r : ℕ) :
    (evalBiasedLogLik2 M n thi h (some r)).map Prod.fst = evalBiasedLogLik M n thi h r := by
  unfold evalBiasedLogLik2 evalBiasedLogLik
  split_ifs <;> first | rfl | (exfalso; simp_all [sigT])

/-- A path with one jump, observed at both ends only; every seed the constant one; the lower bound of the discriminant is 1/2. -/
noncomputable def exSeed : EaSkel := ⟨[0, 1], [0, 0], -1, 1, 0, none⟩

theorem exBound (op : NormOp) : integrateDiscBound (fun _ _ => .ok (none, 1 / 2, ⊤)) op exSeed = .ok (-op.finT / 2) := by
  have r2 : List.range (1 + 1) = [0, 1] := rfl
  unfold integrateDiscBound boundDiscPath
  simp only [Grid.normed, r2, List.map_cons, List.map_nil, List.tail_cons, List.dropLast, List.zipWith_cons_cons, List.zipWith_nil_left, listOk, Except.bind]
  simp [stLbDisc, npDiff, NormOp.denorm]
  ring

example (M : SwitchFns 2) (h1 : M = ouFns ∨ M = ou2Fns) : ∃ vol sx,
    (∀ ys, M.vol (fun _ => ![2, 3]) ys = ys.map vol) ∧ (∀ ys xs, M.sx (fun _ => ![2, 3]) ys xs = List.zipWith sx ys xs) ∧ (∀ y, vol y ≠ 0) ∧
      (∀ y, Measurable (sx y)) ∧ M.red = id := by
  rcases h1 with rfl | rfl
  · exact ⟨fun _ => 1 / 3, fun _ x => -2 * x ^ 2 / 2, fun ys => by simp [ouFns], fun ys xs => by simp [ouFns], by norm_num, fun _ => by fun_prop, rfl⟩
  · exact ⟨fun _ => 2 / 3, fun _ x => -2 * x ^ 2 / 2, fun ys => by simp [ou2Fns], fun ys xs => by simp [ou2Fns], by norm_num, fun _ => by fun_prop, rfl⟩

/-- Regime 0 until time 1, then regime 1, until time 2; observations 3 at time 0 and 5 at time 2; the anchor at time 1 is integrated. -/
example : (sampleAug (fun _ => 1 / 3) id id (fun _ _ _ _ => Prog.ret exSeed) ⟨[0, 1], [0, 1], 2⟩ [0, 2] [3, 5]).lexp (onOk fun r =>
      onOk (fun w => ENNReal.ofReal (Real.exp w) * 1) (evalHiddenWeight ouFns 2 (fun _ => ![2, 3]) (fun _ _ _ => .ok (none, 1 / 2, ⊤))
        ((segments r.2.t r.2.yt r.2.vt).map fun q => ⟨q.1, √q.1 / 3, q.2.2.1, q.2.2.2⟩) r.1 r.2)) =
    ∫⁻ x, normDens (1 / 9) (x - 3) * (normDens (1 / 9) (5 - x) * (ENNReal.ofReal (Real.exp (-144)) * ENNReal.ofReal (Real.exp (-1)))) := by
  have hseed : ∀ l : List ℝ, l.length = 2 → seedVal (fun _ _ _ _ => Prog.ret exSeed) (boundVal (fun _ _ _ => .ok (none, 1 / 2, ⊤))
      (fun h => (segments h.t h.yt h.vt).map fun q => ⟨q.1, √q.1 / 3, q.2.2.1, q.2.2.2⟩) fun _ _ => 1) [0, 1, 2] [0, 1, 1] (3 :: l) =
        ENNReal.ofReal (Real.exp (-1)) := by
    intro l hl
    obtain ⟨a, b, rfl⟩ := List.length_eq_two.1 hl
    simp only [seedVal, segments, npDiff, List.dropLast, List.tail_cons, List.zip_cons_cons, List.zip_nil_left, List.zip_nil_right, Prog.mapM', Prog.ret_bind,
      Prog.lexp_ret, onOk, boundVal, List.map_cons, List.map_nil, List.mapM_cons, List.mapM_nil, exBound, bind, Except.bind, pure, Except.pure]
    norm_num
  have := C86_importance (M := ouFns) (n := 2) (thi := fun _ => ![2, 3]) (vol := fun _ => 1 / 3) (sx := fun _ x => -2 * x ^ 2 / 2)
    (fun ys => by simp [ouFns]) (fun ys xs => by simp [ouFns]) rfl (by norm_num) (fun _ => by fun_prop) (ebd := fun _ _ _ => .ok (none, 1 / 2, ⊤))
    (ops := fun h => (segments h.t h.yt h.vt).map fun q => ⟨q.1, √q.1 / 3, q.2.2.1, q.2.2.2⟩) (rawSeed := fun _ _ _ _ => Prog.ret exSeed)
    (y := ⟨[0, 1], [0, 1], 2⟩) ⟨rfl, rfl, by norm_num, by simp⟩ (by simp [Skel.Reduced]) (by simp) (t := [0, 2]) (x0 := 3) (ws := [5])
    ⟨rfl, rfl, rfl, by norm_num, by simp⟩ (by norm_num) (by simp [ouFns]) (τ := [0, 1, 2]) (η := [0, 1, 1]) (by norm_num)
    (by intro s; simp; tauto) (by simp [Skel.stateAt, stAt, Skel.jumps]) (fun _ _ => 1)
    (by
      have hc : (fun q : Unit × (Fin ([0, 1, 2] : List ℝ).length.pred → ℝ) => seedVal (fun _ _ _ _ => Prog.ret exSeed) (boundVal (fun _ _ _ => .ok (none, 1 / 2, ⊤))
          (fun h => (segments h.t h.yt h.vt).map fun q => ⟨q.1, √q.1 / 3, q.2.2.1, q.2.2.2⟩) fun _ _ => 1) [0, 1, 2] [0, 1, 1] (3 :: List.ofFn q.2)) =
          fun _ => ENNReal.ofReal (Real.exp (-1)) := funext fun q => hseed _ (by simp)
      exact (congrArg Measurable hc).mpr measurable_const)
  refine this.trans ?_
  have hs : segSpec (fun _ => 1 / 3) (([0, 2] : List ℝ).zip [3, 5]) (([0, 1, 2] : List ℝ).zip [0, 1, 1]) = [(1 / 9, none), (1 / 9, some 5)] := by
    have b1 : ((1 : ℝ) == 0) = false := beq_eq_false_iff_ne.2 (by norm_num)
    have b2 : ((1 : ℝ) == 2) = false := beq_eq_false_iff_ne.2 (by norm_num)
    have b3 : ((2 : ℝ) == 0) = false := beq_eq_false_iff_ne.2 (by norm_num)
    have b4 : ((2 : ℝ) == 2) = true := beq_iff_eq.2 rfl
    simp only [segSpec, List.zip_cons_cons, List.zip_nil_left, List.lookup, b1, b2, b3, b4]
    norm_num
  rw [hs]
  simp only [anchInt]
  rw [show (([5] : List ℝ).map fun w => ENNReal.ofReal |ouFns.dvRed w|).prod = 1 by simp [ouFns], one_mul]
  refine lintegral_congr fun x => ?_
  rw [show driftGain (fun _ x => -2 * x ^ 2 / 2) (fun _ => 1 / 3) (([0, 1, 1] : List ℕ).zip [3, x, 5]) = -144 by
    simp only [List.zip_cons_cons, List.zip_nil_left, driftGain]; ring, hseed _ rfl]

/-! ## C87 -/

/-- **C87** for models whose potential acts element by element (`ou`, `ou2`): cut at any anchors where the regime does not change; the weights of the
sections, each computed as if it were a hidden state of its own, add up to the weight of the whole. -/
theorem C87_sections_partial {p : ℕ} {M : SwitchFns p} {n : ℕ} {thi : Thi p} {vol : ℕ → ℝ} {sx : ℕ → ℝ → ℝ} (hM : ∀ ys, M.vol thi ys = ys.map vol)
    (hsx : ∀ ys xs, M.sx thi ys xs = List.zipWith sx ys xs) {ζ : Type} {h : Anchorage ℝ ℝ} (hv : h.Valid) (hn : ∀ y ∈ h.yt, y < n)
    (hvol : ∀ y ∈ h.yt, vol y ≠ 0) {z : List ζ} (hz : z.length + 1 = h.t.length) {tc : List ℝ}
    (htc : ∀ i a y y', h.t[i + 1]? = some a → h.yt[i]? = some y → h.yt[i + 1]? = some y' → a ∈ tc → i + 2 < h.t.length → y = y') :
    ∃ zp hp abs a b, splitHidden z h tc = .ok (zp, hp) ∧ hp.mapM (fun k => evalBiasedLogLik2 M n thi k none) = .ok abs ∧
      evalBiasedLogLik2 M n thi h none = .ok (a, b) ∧ (abs.map fun q => q.1 + q.2).sum = a + b :=
  sections_sum hM hsx hv hn hvol hz htc

/-- Regime 0 until time 2, then regime 1; cut at time 1, where the regime does not change. -/
example : ∃ zp hp abs a b, splitHidden ['a', 'b', 'c'] (⟨[0, 1, 2, 3], [0, 0, 1, 1], [5, 6, 7, 8]⟩ : Anchorage ℝ ℝ) [1] = .ok (zp, hp) ∧
    hp.mapM (fun k => evalBiasedLogLik2 ouFns 2 (fun _ => ![2, 3]) k none) = .ok abs ∧
    evalBiasedLogLik2 ouFns 2 (fun _ => ![2, 3]) (⟨[0, 1, 2, 3], [0, 0, 1, 1], [5, 6, 7, 8]⟩ : Anchorage ℝ ℝ) none = .ok (a, b) ∧
    (abs.map fun q => q.1 + q.2).sum = a + b := by
  refine C87_sections_partial (vol := fun _ => 1 / 3) (sx := fun _ x => -2 * x ^ 2 / 2) (fun ys => by simp [ouFns]) (fun ys xs => by simp [ouFns])
    ⟨rfl, rfl, rfl, by norm_num, by simp⟩ (by simp) (by norm_num) rfl ?_
  intro i a y y' h1 h2 h3 h4 h5
  rcases i with _ | _ | i
  · simp at h2 h3; omega
  · simp at h1 h4; rw [← h1] at h4; norm_num at h4
  · simp at h5; omega

/-- `ou3` multiplies the parameters of all segments of the array it is given: whole and sections disagree. -/
theorem C87_ou3_violated : ∃ zp hp abs a b, splitHidden ['a', 'b'] (⟨[0, 1, 2], [0, 0, 0], [1, 2, 4]⟩ : Anchorage ℝ ℝ) [1] = .ok (zp, hp) ∧
    hp.mapM (fun k => evalBiasedLogLik2 ou3Fns 1 (fun _ => ![1, 2]) k none) = .ok abs ∧
    evalBiasedLogLik2 ou3Fns 1 (fun _ => ![1, 2]) (⟨[0, 1, 2], [0, 0, 0], [1, 2, 4]⟩ : Anchorage ℝ ℝ) none = .ok (a, b) ∧
    (abs.map fun q => q.1 + q.2).sum ≠ a + b := by
  have e1 : evalBiasedLogLik2 ou3Fns 1 (fun _ => ![1, 2]) (⟨[0, 1, 2], [0, 0, 0], [1, 2, 4]⟩ : Anchorage ℝ ℝ) none = .ok (-15 - 5 / 2 - Real.log (2 * Real.pi), 0) := by
    simp [evalBiasedLogLik2, sigT, ou3Fns, npDiff, pDelTerms, normTerms, sigObs, npSplit, whereFrom, isObs, select]
    norm_num
    ring
  have e2 : evalBiasedLogLik2 ou3Fns 1 (fun _ => ![1, 2]) (⟨[0, 1], [0, 0], [1, 2]⟩ : Anchorage ℝ ℝ) none = .ok (-2 - Real.log (2 * Real.pi) / 2, 0) := by
    simp [evalBiasedLogLik2, sigT, ou3Fns, npDiff, pDelTerms, normTerms, sigObs, npSplit, whereFrom, isObs, select]
    norm_num
    ring
  have e3 : evalBiasedLogLik2 ou3Fns 1 (fun _ => ![1, 2]) (⟨[0, 1], [0, 0], [2, 4]⟩ : Anchorage ℝ ℝ) none = .ok (-8 - Real.log (2 * Real.pi) / 2, 0) := by
    simp [evalBiasedLogLik2, sigT, ou3Fns, npDiff, pDelTerms, normTerms, sigObs, npSplit, whereFrom, isObs, select]
    norm_num
    ring
  have e4 : splitHidden ['a', 'b'] (⟨[0, 1, 2], [0, 0, 0], [1, 2, 4]⟩ : Anchorage ℝ ℝ) [1] =
      .ok ([['a'], ['b']], [⟨[0, 1], [0, 0], [1, 2]⟩, ⟨[0, 1], [0, 0], [2, 4]⟩]) := by
    simp [splitHidden, breakRows, anchPiece, pyGet, pySlice, pyClip, bind, Except.bind, pure, Except.pure, List.mapM_cons]
    norm_num
  refine ⟨_, _, [(-2 - Real.log (2 * Real.pi) / 2, 0), (-8 - Real.log (2 * Real.pi) / 2, 0)], _, _, e4, ?_, e1, ?_⟩
  · rw [List.mapM_cons, e2, List.mapM_cons, e3, List.mapM_nil]; rfl
  · simp only [List.map_cons, List.map_nil, List.sum_cons, List.sum_nil]
    intro h0
    linarith

end Ctb
