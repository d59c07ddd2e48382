import Verif.Props.SweepRun
import Verif.Lemmas.HiddenNumbers
import Verif.Lemmas.HiddenImportance

/-! # C117: the weights of the sections of old and proposed paths are numbers -/

set_option linter.unusedSectionVars false

namespace Ctb

/-- The weight of every section of the path `(z, h)` cut at `tc` is a number. -/
def SectionNumbers (M : SwitchFns 2) (R : RegimeFns 2) (n : ℕ) (thi : Thi 2) (ebd : ℕ → ℝ → ℝ → Res DiscBounds) (tc : List ℝ) (z : List EaSkel) (h : Anchorage ℝ ℝ) : Prop :=
  ∃ zp hp, splitHidden z h tc = .ok (zp, hp) ∧ ∀ q ∈ zp.zip hp, ∃ w, evalHiddenWeight M n thi ebd (swNormops R thi q.2.t q.2.yt q.2.vt) q.1 q.2 = .ok w

theorem sectionNumbers {M : SwitchFns 2} (hM : VolOk M) {R : RegimeFns 2} {n : ℕ} {thi : Thi 2} (hp : PosRows n thi) {ebd : ℕ → ℝ → ℝ → Res DiscBounds} (he : ∀ y a b, ∃ r, ebd y a b = .ok r)
    {h : Anchorage ℝ ℝ} (hv : h.Valid) (hy : ∀ y ∈ h.yt, y < n) {z : List EaSkel} (hz : z.length + 1 = h.t.length) (tc : List ℝ) : SectionNumbers M R n thi ebd tc z h := by
  obtain ⟨zp, hp', e, hk⟩ := split_sections hv hz tc
  refine ⟨zp, hp', e, fun q hq => ?_⟩
  obtain ⟨a1, a2, a3, a4, a5⟩ := hk q.2 (List.of_mem_zip hq).2
  exact hiddenWeight_num he a1 a2 a3 a4 (fun y h => hy y (a5 y h)) (hM n thi _ hp fun y h => hy y (a5 y (List.dropLast_subset _ h))) _ _

/-- At a consistent state with positive parameters, however the path is cut: all weights of sections that the update of the hidden path compares against are numbers. -/
theorem C117_section_weights {M : SwitchFns 2} (hM : VolOk M) {R : RegimeFns 2} {ebd : ℕ → ℝ → ℝ → Res DiscBounds} (he : ∀ y a b, ∃ r, ebd y a b = .ok r) {d : ℕ} {t vt : List ℝ} {F : ℝ}
    {s : SweepState 2 EaSkel} (hs : JointOk d t vt F (fun _ => some 0) (fun _ => none) s) (tc : List ℝ) : SectionNumbers M R d s.thi ebd tc s.hid.z s.hid.h :=
  sectionNumbers hM hs.pos he hs.hidden.ok.valid hs.hidden.yt_lt hs.hidden.ok.seeds tc

/-- With probability one, whatever `update_hidden` proposes and however its path is cut where old and new path meet, all weights of sections of the proposed path are numbers too: the
comparisons of `flip_hidden_precoin` and `sample_twocoin` never see the result of an invalid operation. -/
theorem C117_proposed_weights {M : SwitchFns 2} (hM : VolOk M) {R : RegimeFns 2} {ebd : ℕ → ℝ → ℝ → Res DiscBounds} (he : ∀ y a b, ∃ r, ebd y a b = .ok r) {d : ℕ} [NeZero d] {fuel : ℕ}
    {t vt : List ℝ} {F : ℝ} (hg : ObsGrid t vt F) {thi : Thi 2} (hp : PosRows d thi) (hvol : ∀ y, R.vol thi y ≠ 0) (hd : ∀ v ∈ vt, R.dereduce (R.dereduce (R.reduce v)) = v ∧ R.dereduce v = v)
    {rawSeed : ℝ → ℕ → ℝ → ℝ → Prog EaSkel} {lam : Mat} (hlam : IsGenerator d lam) {s : HiddenState EaSkel} (hs : Coherent d t vt F s) (sc : ℝ) :
    ((mjpPropose fuel d sc s.sampler.state lam (pySlice t 1 (-1))).bind fun q => (sampleAug (R.vol thi) R.reduce R.dereduce rawSeed q.1 t vt).bind fun a => .ret (q.2, a)).ASure
      fun r => ∀ tc a, r = .ok (tc, a) → SectionNumbers M R d thi ebd tc a.1 a.2 ∧ SectionNumbers M R d thi ebd tc s.z s.h := by
  obtain ⟨sk, hsk, skv, skr, skf, sks⟩ := prune_sound hs.ok.valid hs.ok.closed
  have hst : sk = s.sampler.state := by have := hs.sync; rw [hsk] at this; exact Except.ok.inj this
  subst hst
  have hinc := hg.inc
  rw [hg.eq_ext, List.pairwise_cons, List.pairwise_append] at hinc
  have hin : ∀ a ∈ t.tail.dropLast, 0 ≤ a ∧ a ≤ s.sampler.state.fin := fun a ha => by
    rw [skf, hs.ok.fin_eq]
    exact ⟨(hinc.1 a (by simp [ha])).le, (hinc.2.2.2 a ha F (by simp)).le⟩
  rw [pySlice_interior]
  refine Prog.ASure.bind (P := fun r => ∀ q : Skel ℝ × List ℝ, r = .ok q → q.1.Valid ∧ q.1.Reduced ∧ q.1.fin = F ∧ q.1.StatesLt d)
    (Prog.ASure.of_gen (diffuse_mjpPropose skv hinc.2.1 hin) (h := [0]) ?_) ?_ ?_
  · rintro r h' hr q rfl
    obtain ⟨v1, r1, f1, st1, -⟩ := propose_gen hlam skv hinc.2.1 hin (prop := q.1) (tc := q.2) (by simp) hr
    exact ⟨v1, r1, f1.trans (skf.trans hs.ok.fin_eq), st1⟩
  · intro q hq
    obtain ⟨v1, r1, f1, st1⟩ := hq q rfl
    refine Prog.ASure.bind (Prog.ASure.of_out fun r hr => hr) ?_ ?_
    · rintro ⟨z, h⟩ ha tc a e
      cases e
      have hgr := hg
      rw [← f1] at hgr
      rcases aug_out hvol v1 r1 hgr hd ha with ⟨z', h', h1, h2⟩ | ⟨e', dt, y0, x0, x1, h1, h2⟩
      · cases h1
        exact ⟨sectionNumbers hM hp he h2.valid (h2.yt_lt v1 st1) h2.seeds _, sectionNumbers hM hp he hs.ok.valid hs.yt_lt hs.ok.seeds _⟩
      · cases h1
    · intro e _ tc a h; cases h
  · intro e _ tc a h; cases h

/-- The three models of `ctbayes/switching`, for positive parameters: with probability one, all weights the update of the hidden path compares are numbers. -/
theorem C117_weights_library {d : ℕ} [NeZero d] {fuel : ℕ} {t vt : List ℝ} {F : ℝ} (hg : ObsGrid t vt F) {thi : Thi 2} (hp : ∀ y j, 0 < thi y j)
    {rawSeed : ℝ → ℕ → ℝ → ℝ → Prog EaSkel} {lam : Mat} (hlam : IsGenerator d lam) {s : HiddenState EaSkel} (hs : Coherent d t vt F s) (sc : ℝ) :
    let proposal := fun R : RegimeFns 2 => (mjpPropose fuel d sc s.sampler.state lam (pySlice t 1 (-1))).bind fun q =>
      (sampleAug (R.vol thi) R.reduce R.dereduce rawSeed q.1 t vt).bind fun a => .ret (q.2, a)
    let Numbers := fun (M : SwitchFns 2) (R : RegimeFns 2) (ebd : ℕ → ℝ → ℝ → Res DiscBounds) (r : Res (List ℝ × List EaSkel × Anchorage ℝ ℝ)) =>
      ∀ tc a, r = .ok (tc, a) → SectionNumbers M R d thi ebd tc a.1 a.2 ∧ SectionNumbers M R d thi ebd tc s.z s.h
    (proposal swOu).ASure (Numbers ouFns swOu fun y le ue => .ok (swOuBounds thi y le ue)) ∧
    (proposal swOu2).ASure (Numbers ou2Fns swOu2 fun y le ue => .ok (swOu2Bounds thi y le ue)) ∧
    (proposal swOu3).ASure (Numbers ou3Fns swOu3 fun y le ue => .ok (swOu3Bounds thi y le ue)) := by
  intro proposal Numbers
  have hp' : PosRows d thi := fun i _ j => hp i j
  refine ⟨?_, ?_, ?_⟩
  · exact C117_proposed_weights volOk_library.1 (fun _ _ _ => ⟨_, rfl⟩) hg hp' (fun y => by have := hp y 0; have := hp y 1; simp only [swOu]; positivity) (fun v _ => ⟨rfl, rfl⟩) hlam hs sc
  · exact C117_proposed_weights volOk_library.2.1 (fun _ _ _ => ⟨_, rfl⟩) hg hp' (fun y => by have := hp y 0; have := hp y 1; simp only [swOu2]; positivity) (fun v _ => ⟨rfl, rfl⟩) hlam hs sc
  · exact C117_proposed_weights volOk_library.2.2 (fun _ _ _ => ⟨_, rfl⟩) hg hp' (fun y => by have := hp y 0; have := hp y 1; simp only [swOu3]; positivity) (fun v _ => ⟨rfl, rfl⟩) hlam hs sc

/-- What `swHiddenOps` compares is the weight itself, never the number that stands for an error. -/
theorem C117_weight_value {M : SwitchFns 2} {R : RegimeFns 2} {ebd : Thi 2 → ℕ → ℝ → ℝ → Res DiscBounds} {n nb G k : ℕ} {lb ub : Option ℝ} {size : ℤ} {t vt : List ℝ} {thi : Thi 2}
    {tc : List ℝ} {z : List EaSkel} {h : Anchorage ℝ ℝ} (hn : SectionNumbers M R n thi (ebd thi) tc z h) {zp : List (List EaSkel)} {hp : List (Anchorage ℝ ℝ)}
    (he : splitHidden z h tc = .ok (zp, hp)) : ∀ q ∈ zp.zip hp,
      evalHiddenWeight M n thi (ebd thi) (swNormops R thi q.2.t q.2.yt q.2.vt) q.1 q.2 = .ok ((swHiddenOps M R ebd n nb G k lb ub size t vt thi).weight q.1 q.2) := by
  obtain ⟨zp', hp', e, hw⟩ := hn
  rw [he] at e
  cases e
  intro q hq
  obtain ⟨w, hw⟩ := hw q hq
  simp only [swHiddenOps, hw]
  rfl

/-- A consistent state with seeds: two regimes, four observations, a path in regime 1, cut at time 1. -/
noncomputable example (sd : EaSkel) : SectionNumbers ouFns swOu 2 (fun _ => ![2, 3]) (fun y le ue => .ok (swOuBounds (fun _ => ![2, 3]) y le ue)) [1]
    [sd, sd, sd] ⟨[0, 1, 2, 3], [1, 1, 1, 1], [0, 4, 1, 0]⟩ :=
  sectionNumbers volOk_library.1 (fun i _ j => by fin_cases j <;> simp) (fun _ _ _ => ⟨_, rfl⟩) ⟨rfl, rfl, rfl, by simp; norm_num, by simp⟩ (by simp) rfl _

/-- The hypotheses of `C117_proposed_weights` and `C117_weights_library`. -/
example (sc : Schedule) (sd : EaSkel) : ObsGrid [(0 : ℝ), 1, 2, 3] [0, 0, 0, 0] 3 ∧ IsGenerator 2 flipGen ∧ (∀ (y : ℕ) (j : Fin 2), 0 < (fun _ => ![2, 3] : Thi 2) y j) ∧
    Coherent 2 [0, 1, 2, 3] [0, 0, 0, 0] 3 (⟨[sd, sd, sd], ⟨[0, 1, 2, 3], [1, 1, 1, 1], [0, 0, 0, 0]⟩, ⟨⟨[0], [1], 3⟩, sc⟩⟩ : HiddenState EaSkel) :=
  have h := demoState_coherent (x := 1) (by norm_num) sc
  ⟨demoGrid, flipGen_isGenerator, fun _ j => by fin_cases j <;> simp, ⟨h.ok.valid, h.ok.closed, h.ok.fin_eq, rfl, h.ok.obs⟩, h.sync, h.states⟩

end Ctb
