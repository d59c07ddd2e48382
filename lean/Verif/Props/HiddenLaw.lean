import Verif.Props.HiddenWeight
import Verif.Lemmas.AugMeas
import Verif.Lemmas.RegSde

/-! # C86 for the seeds the library draws -/

set_option linter.unusedSectionVars false

namespace Ctb

open MeasureTheory
open scoped ENNReal

/-- What `sample_aug` draws for a segment: `sample_raw_seed` on its normalisation, switching/static.py:55-57. -/
noncomputable def augSeed {p : ℕ} (R : RegimeFns p) (thi : Thi p) (nb F : ℕ) (lb ub : Option ℝ) (dt : ℝ) (y : ℕ) (x0 x1 : ℝ) : Prog EaSkel :=
  sampleRawSeed nb F ⟨dt, √dt * R.vol thi y, x0, x1⟩ lb ub

theorem swNormops_eq {p : ℕ} {R : RegimeFns p} (hR : R.reduce = id) (thi : Thi p) (h : Anchorage ℝ ℝ) :
    swNormops R thi h.t h.yt h.vt = (segments h.t h.yt h.vt).map (segOp (R.vol thi)) := by
  simp only [swNormops, hR, List.map_id, segments]
  rfl

theorem reg_augSeed {p : ℕ} (R : RegimeFns p) (thi : Thi p) (nb F : ℕ) (lb ub : Option ℝ) :
    Reg fun q : ℝ × ℕ × ℝ × ℝ => augSeed R thi nb F lb ub q.1 q.2.1 q.2.2.1 q.2.2.2 :=
  reg_sampleRawSeed nb F (meas_segOp (R.vol thi)) lb ub

/-- The law of `sample_aug` with the seeds the library draws: every value of seeds and anchors that is measurable in the usual sense. -/
theorem C86_code_law {p : ℕ} {R : RegimeFns p} {thi : Thi p} (hvol : ∀ y, R.vol thi y ≠ 0) (nb F : ℕ) (lb ub : Option ℝ) {y : Skel ℝ} (hv : y.Valid)
    (hr : y.Reduced) {t : List ℝ} {x0 : ℝ} {ws : List ℝ} (hg : ObsGrid t (x0 :: ws) y.fin) {τ : List ℝ} {η : List ℕ} (hτ : τ.Pairwise (· < ·))
    (hm : ∀ s, s ∈ τ ↔ s ∈ t ∨ s ∈ y.t) (hη : τ.map y.stateAt = η.map some) {G : List EaSkel → Anchorage ℝ ℝ → ℝ≥0∞}
    (hG : Measurable fun q : List EaSkel × List ℝ => G q.1 ⟨τ, η, q.2⟩) :
    ENNReal.ofReal (Real.exp (obsLogLik id (fun _ => 1) (R.vol thi) y.stateAt (t.zip (x0 :: ws)))) *
        (sampleAug (R.vol thi) id id (augSeed R thi nb F lb ub) y t (x0 :: ws)).lexp (onOk fun r => G r.1 r.2) =
      anchInt (segSpec (R.vol thi) (t.zip (x0 :: ws)) (τ.zip η)) x0 fun l => seedVal (augSeed R thi nb F lb ub) G τ η (x0 :: l) :=
  C86_aug_law hvol hv hr hg hτ hm hη G (measN_of_meas (meas_seedVal (reg_augSeed R thi nb F lb ub) hG) _ x0)

/-- **C86** for the seeds and normalisations the library uses. -/
theorem C86_code_importance {p : ℕ} {M : SwitchFns p} {R : RegimeFns p} {n : ℕ} {thi : Thi p} {sx : ℕ → ℝ → ℝ} (hM : ∀ ys, M.vol thi ys = ys.map (R.vol thi))
    (hsx : ∀ ys xs, M.sx thi ys xs = List.zipWith sx ys xs) (hred : M.red = id) (hR : R.reduce = id) (hvol : ∀ y, R.vol thi y ≠ 0)
    (hsm : ∀ y, Measurable (sx y)) {ebd : ℕ → ℝ → ℝ → Res DiscBounds} (he : ∀ y, Measurable fun q : ℝ × ℝ => ebd y q.1 q.2) (nb F : ℕ) (lb ub : Option ℝ)
    {y : Skel ℝ} (hv : y.Valid) (hr : y.Reduced) (hn : ∀ x ∈ y.xt, x < n) {t : List ℝ} {x0 : ℝ} {ws : List ℝ} (hg : ObsGrid t (x0 :: ws) y.fin)
    (hoff : ∀ s ∈ y.t, s ≠ 0 → s ∉ t) (hd : ∀ w ∈ ws, M.dvRed w ≠ 0) {τ : List ℝ} {η : List ℕ} (hτ : τ.Pairwise (· < ·))
    (hm : ∀ s, s ∈ τ ↔ s ∈ t ∨ s ∈ y.t) (hη : τ.map y.stateAt = η.map some) {G : List EaSkel → Anchorage ℝ ℝ → ℝ≥0∞}
    (hG : Measurable fun q : List EaSkel × List ℝ => G q.1 ⟨τ, η, q.2⟩) :
    (sampleAug (R.vol thi) id id (augSeed R thi nb F lb ub) y t (x0 :: ws)).lexp (onOk fun r =>
        onOk (fun w => ENNReal.ofReal (Real.exp w) * G r.1 r.2) (evalHiddenWeight M n thi ebd (swNormops R thi r.2.t r.2.yt r.2.vt) r.1 r.2)) =
      (ws.map fun w => ENNReal.ofReal |M.dvRed w|).prod * anchInt (segSpec (R.vol thi) (t.zip (x0 :: ws)) (τ.zip η)) x0 fun l =>
        ENNReal.ofReal (Real.exp (driftGain sx (R.vol thi) (η.zip (x0 :: l)))) *
          seedVal (augSeed R thi nb F lb ub) (boundVal ebd (fun h => swNormops R thi h.t h.yt h.vt) G) τ η (x0 :: l) := by
  have hb : MeasAnch τ η (boundVal ebd (fun h => swNormops R thi h.t h.yt h.vt) G) := by
    simp only [swNormops_eq hR]
    exact meas_boundVal (R.vol thi) he hG
  exact C86_importance (ops := fun h => swNormops R thi h.t h.yt h.vt) hM hsx hred hvol hsm hv hr hn hg hoff hd hτ hm hη G
    (measN_of_meas (meas_seedVal (reg_augSeed R thi nb F lb ub) hb) _ x0)

theorem meas_swOuBounds (thi : Thi 2) (y : ℕ) : Measurable fun q : ℝ × ℝ => (.ok (swOuBounds thi y q.1 q.2) : Res DiscBounds) := by
  unfold swOuBounds
  refine Measurable.resOk (Measurable.ouBounds (X := ℝ × ℝ) (disc := fun _ => swOu.disc thi y) ?_ (by fun_prop) (by fun_prop) (by fun_prop))
  simp only [RegimeFns.disc, swOu]
  fun_prop

theorem meas_swOu2Bounds (thi : Thi 2) (y : ℕ) : Measurable fun q : ℝ × ℝ => (.ok (swOu2Bounds thi y q.1 q.2) : Res DiscBounds) := by
  unfold swOu2Bounds
  refine Measurable.resOk (Measurable.ouBounds (X := ℝ × ℝ) (disc := fun _ => swOu2.disc thi y) ?_ (by fun_prop) (by fun_prop) (by fun_prop))
  simp only [RegimeFns.disc, swOu2]
  fun_prop

/-- `ou` as it is. -/
theorem C86_code_ou {n : ℕ} {thi : Thi 2} (hthi : ∀ y, thi y 1 ≠ 0) (nb F : ℕ) {y : Skel ℝ} (hv : y.Valid) (hr : y.Reduced) (hn : ∀ x ∈ y.xt, x < n) {t : List ℝ}
    {x0 : ℝ} {ws : List ℝ} (hg : ObsGrid t (x0 :: ws) y.fin) (hoff : ∀ s ∈ y.t, s ≠ 0 → s ∉ t) {τ : List ℝ} {η : List ℕ} (hτ : τ.Pairwise (· < ·))
    (hm : ∀ s, s ∈ τ ↔ s ∈ t ∨ s ∈ y.t) (hη : τ.map y.stateAt = η.map some) {G : List EaSkel → Anchorage ℝ ℝ → ℝ≥0∞}
    (hG : Measurable fun q : List EaSkel × List ℝ => G q.1 ⟨τ, η, q.2⟩) :
    (sampleAug (swOu.vol thi) id id (augSeed swOu thi nb F none none) y t (x0 :: ws)).lexp (onOk fun r =>
        onOk (fun w => ENNReal.ofReal (Real.exp w) * G r.1 r.2)
          (evalHiddenWeight ouFns n thi (fun y le ue => .ok (swOuBounds thi y le ue)) (swNormops swOu thi r.2.t r.2.yt r.2.vt) r.1 r.2)) =
      anchInt (segSpec (fun y => 1 / thi y 1) (t.zip (x0 :: ws)) (τ.zip η)) x0 fun l =>
        ENNReal.ofReal (Real.exp (driftGain (fun y x => -thi y 0 * x ^ 2 / 2) (fun y => 1 / thi y 1) (η.zip (x0 :: l)))) *
          seedVal (augSeed swOu thi nb F none none) (boundVal (fun y le ue => .ok (swOuBounds thi y le ue)) (fun h => swNormops swOu thi h.t h.yt h.vt) G) τ η (x0 :: l) := by
  have := C86_code_importance (M := ouFns) (R := swOu) (n := n) (thi := thi) (sx := fun y x => -thi y 0 * x ^ 2 / 2) (ebd := fun y le ue => .ok (swOuBounds thi y le ue)) (fun _ => rfl) (fun _ _ => rfl) rfl rfl
    (fun y => one_div_ne_zero (hthi y)) (fun _ => by fun_prop) (meas_swOuBounds thi) nb F none none hv hr hn hg hoff (by simp [ouFns]) hτ hm hη hG
  rw [this]
  rw [show (ws.map fun w => ENNReal.ofReal |ouFns.dvRed w|).prod = 1 by simp [ouFns], one_mul]
  rfl

/-- `ou2` as it is. -/
theorem C86_code_ou2 {n : ℕ} {thi : Thi 2} (hthi : ∀ y, thi y 0 ≠ 0 ∧ thi y 1 ≠ 0) (nb F : ℕ) {y : Skel ℝ} (hv : y.Valid) (hr : y.Reduced) (hn : ∀ x ∈ y.xt, x < n)
    {t : List ℝ} {x0 : ℝ} {ws : List ℝ} (hg : ObsGrid t (x0 :: ws) y.fin) (hoff : ∀ s ∈ y.t, s ≠ 0 → s ∉ t) {τ : List ℝ} {η : List ℕ} (hτ : τ.Pairwise (· < ·))
    (hm : ∀ s, s ∈ τ ↔ s ∈ t ∨ s ∈ y.t) (hη : τ.map y.stateAt = η.map some) {G : List EaSkel → Anchorage ℝ ℝ → ℝ≥0∞}
    (hG : Measurable fun q : List EaSkel × List ℝ => G q.1 ⟨τ, η, q.2⟩) :
    (sampleAug (swOu2.vol thi) id id (augSeed swOu2 thi nb F none none) y t (x0 :: ws)).lexp (onOk fun r =>
        onOk (fun w => ENNReal.ofReal (Real.exp w) * G r.1 r.2)
          (evalHiddenWeight ou2Fns n thi (fun y le ue => .ok (swOu2Bounds thi y le ue)) (swNormops swOu2 thi r.2.t r.2.yt r.2.vt) r.1 r.2)) =
      anchInt (segSpec (fun y => thi y 0 / thi y 1) (t.zip (x0 :: ws)) (τ.zip η)) x0 fun l =>
        ENNReal.ofReal (Real.exp (driftGain (fun y x => -thi y 0 * x ^ 2 / 2) (fun y => thi y 0 / thi y 1) (η.zip (x0 :: l)))) *
          seedVal (augSeed swOu2 thi nb F none none) (boundVal (fun y le ue => .ok (swOu2Bounds thi y le ue)) (fun h => swNormops swOu2 thi h.t h.yt h.vt) G) τ η (x0 :: l) := by
  have := C86_code_importance (M := ou2Fns) (R := swOu2) (n := n) (thi := thi) (sx := fun y x => -thi y 0 * x ^ 2 / 2) (ebd := fun y le ue => .ok (swOu2Bounds thi y le ue)) (fun _ => rfl) (fun _ _ => rfl) rfl rfl
    (fun y => div_ne_zero (hthi y).1 (hthi y).2) (fun _ => by fun_prop) (meas_swOu2Bounds thi) nb F none none hv hr hn hg hoff (by simp [ou2Fns]) hτ hm hη hG
  rw [this]
  rw [show (ws.map fun w => ENNReal.ofReal |ou2Fns.dvRed w|).prod = 1 by simp [ou2Fns], one_mul]
  rfl

/-- Regime 0 until time 1, then regime 1, until time 2; observations 3 at time 0 and 5 at time 2; the event that the first seed's tight edge is below its anchor. -/
example (nb F : ℕ) : ∃ I : ℝ → ℝ≥0∞, (sampleAug (swOu.vol fun _ => ![2, 3]) id id (augSeed swOu (fun _ => ![2, 3]) nb F none none) ⟨[0, 1], [0, 1], 2⟩ [0, 2] [3, 5]).lexp
      (onOk fun r => onOk (fun w => ENNReal.ofReal (Real.exp w) * if (r.1.map EaSkel.tight).headD 0 < r.2.vt.headD 0 then 1 else 0)
        (evalHiddenWeight ouFns 2 (fun _ => ![2, 3]) (fun y le ue => .ok (swOuBounds (fun _ => ![2, 3]) y le ue)) (swNormops swOu (fun _ => ![2, 3]) r.2.t r.2.yt r.2.vt) r.1 r.2)) =
    ∫⁻ x, normDens (1 / 9) (x - 3) * (normDens (1 / 9) (5 - x) * I x) := by
  have hG : Measurable fun q : List EaSkel × List ℝ => if (q.1.map EaSkel.tight).headD 0 < q.2.headD 0 then (1 : ℝ≥0∞) else 0 := by
    have : Measurable fun q : List EaSkel × List ℝ => q.1.map EaSkel.tight := Measurable.listMap (f := fun _ s => EaSkel.tight s) (by fun_prop) (by fun_prop)
    fun_prop
  have := C86_code_ou (n := 2) (thi := fun _ => ![2, 3]) (by simp) nb F (y := ⟨[0, 1], [0, 1], 2⟩) ⟨rfl, rfl, by norm_num, by simp⟩ (by simp [Skel.Reduced]) (by simp)
    (t := [0, 2]) (x0 := 3) (ws := [5]) ⟨rfl, rfl, rfl, by norm_num, by simp⟩ (by norm_num) (τ := [0, 1, 2]) (η := [0, 1, 1]) (by norm_num)
    (by intro s; simp; tauto) (by simp [Skel.stateAt, stAt, Skel.jumps])
    (G := fun z h => if (z.map EaSkel.tight).headD 0 < h.vt.headD 0 then 1 else 0) hG
  have hs : segSpec (fun _ => 1 / ![(2 : ℝ), 3] 1) (([0, 2] : List ℝ).zip [3, 5]) (([0, 1, 2] : List ℝ).zip [0, 1, 1]) = [(1 / 9, none), (1 / 9, some 5)] := by
    have b1 : ((1 : ℝ) == 0) = false := beq_eq_false_iff_ne.2 (by norm_num)
    have b2 : ((1 : ℝ) == 2) = false := beq_eq_false_iff_ne.2 (by norm_num)
    have b3 : ((2 : ℝ) == 0) = false := beq_eq_false_iff_ne.2 (by norm_num)
    have b4 : ((2 : ℝ) == 2) = true := beq_iff_eq.2 rfl
    simp only [segSpec, List.zip_cons_cons, List.zip_nil_left, List.lookup, b1, b2, b3, b4]
    norm_num
  rw [hs] at this
  simp only [anchInt] at this
  exact ⟨_, this⟩

end Ctb
