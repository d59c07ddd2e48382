import Verif.Lemmas.RawSkel
import Verif.Props.LayerPaths

set_option linter.unusedSectionVars false

/-! # C49: raw skeletons and the bounds of the state space -/

namespace Ctb

open Classical Filter Topology

variable {T a b : ℝ} {lb ub : Option ℝ} {n F : ℕ} {s : EaSkel}

/-- A value strictly between the bounds (`none`: infinite). -/
def InBounds (lb ub : Option ℝ) (v : ℝ) : Prop := (∀ l, lb = some l → l < v) ∧ ∀ u, ub = some u → v < u

/-- Every value, both edges and the hitting level between the bounds. -/
def EaSkel.InBounds (s : EaSkel) (lb ub : Option ℝ) : Prop :=
  (∀ v ∈ s.x, Ctb.InBounds lb ub v) ∧ Ctb.InBounds lb ub s.tight ∧ Ctb.InBounds lb ub s.loose ∧ Ctb.InBounds lb ub s.hitX

theorem RawOk.inBounds (h : RawOk T a b lb ub s) : s.InBounds lb ub := by
  have h0 : ∀ v, s.tight ≤ v → v ≤ s.loose → Ctb.InBounds lb ub v :=
    fun v h1 h2 => ⟨fun l hl => (h.lbound l hl).trans_le h1, fun u hu => h2.trans_lt (h.ubound u hu)⟩
  have hlt := h.tight_hit.trans h.hit_loose
  refine ⟨?_, h0 _ le_rfl hlt.le, h0 _ hlt.le le_rfl, h0 _ h.tight_hit.le h.hit_loose.le⟩
  intro v hv
  have := h.within.1 hlt v hv
  exact h0 v this.1 this.2.le

/-- What every raw skeleton satisfies: well formed, values between its edges, flags right, a bridge from `init_x` to `fin_x` over `[0, fin_t]`
with one inner time, the hitting level between the edges. -/
theorem C49_wellformed (h : (sampleRawSkel n F T a b lb ub).Out (.ok s)) :
    s.Valid ∧ s.Within ∧ s.FlagsSound ∧ (∃ τ v, 0 < τ ∧ τ < T ∧ s.t = [0, τ, T] ∧ s.x = [a, v, b] ∧ v = s.tight) ∧
      (s.tight < s.hitX ∧ s.hitX < s.loose ∨ s.loose < s.hitX ∧ s.hitX < s.tight) := by
  obtain ⟨s0, hr, rfl | hf⟩ := rawSkel_out h
  · obtain ⟨τ, h1, h2, h3⟩ := hr.times
    exact ⟨hr.valid, hr.within, hr.sound, ⟨τ, s.tight, h1, h2, h3, hr.values, rfl⟩, Or.inl ⟨hr.tight_hit, hr.hit_loose⟩⟩
  · obtain ⟨f, x0, x1, hl, hx0, hx1, -, -, he⟩ := flipSkel_eq hr.valid
    rw [hf] at he
    cases he
    have hlt := hr.tight_hit.trans hr.hit_loose
    obtain ⟨τ, h1, h2, h3⟩ := hr.times
    have ef : f = T := by rw [h3] at hl; simpa using hl.symm
    have e0 : x0 = a := by rw [hr.values] at hx0; simpa using hx0.symm
    have e1 : x1 = b := by rw [hr.values] at hx1; simpa using hx1.symm
    subst ef e0 e1
    refine ⟨(flipWith_valid hr.valid hl _).1, ?_, flagsSound_flip hr.sound hlt.ne, ⟨f - τ, _, by linarith, by linarith, ?_, ?_, rfl⟩, Or.inr ?_⟩
    · apply within_flip (f := f) (c := (x0 + x1) / 2)
      rw [flipWith_flip]
      exact hr.within
    · simp [flipWith, flipList, h3]
    · simp only [flipWith, flipList, hr.values]
      simp
      constructor <;> ring
    · have g1 := hr.tight_hit
      have g2 := hr.hit_loose
      simp only [flipWith]
      exact ⟨by linarith, by linarith⟩

/-- A skeleton whose tight edge is the lower one (it was not flipped) respects the bounds. -/
theorem C49_lower_partial (h : (sampleRawSkel n F T a b lb ub).Out (.ok s)) (hlt : s.tight < s.loose) : s.InBounds lb ub := by
  obtain ⟨s0, hr, rfl | hf⟩ := rawSkel_out h
  · exact hr.inBounds
  · obtain ⟨f, x0, x1, hl, hx0, hx1, -, -, he⟩ := flipSkel_eq hr.valid
    rw [hf] at he
    cases he
    simp only [flipWith] at hlt
    linarith [hr.tight_hit.trans hr.hit_loose]

/-- With bounds symmetric around the middle of the end values (both infinite, in particular) every raw skeleton respects them. -/
theorem C49_symmetric_partial (h : (sampleRawSkel n F T a b lb ub).Out (.ok s)) (hs : lb = ub.map (a + b - ·)) : s.InBounds lb ub := by
  obtain ⟨s0, hr, rfl | hf⟩ := rawSkel_out h
  · exact hr.inBounds
  · obtain ⟨f, x0, x1, hl, hx0, hx1, -, -, he⟩ := flipSkel_eq hr.valid
    rw [hf] at he
    cases he
    have e0 : x0 = a := by rw [hr.values] at hx0; simpa using hx0.symm
    have e1 : x1 = b := by rw [hr.values] at hx1; simpa using hx1.symm
    subst e0 e1
    have key : ∀ v, Ctb.InBounds lb ub v → Ctb.InBounds lb ub (2 * ((x0 + x1) / 2) - v) := by
      intro v hv
      subst hs
      rcases ub with _ | u
      · exact ⟨fun _ h => by simp at h, fun _ h => by cases h⟩
      · simp only [Ctb.InBounds, Option.map_some, Option.some.injEq, forall_eq'] at hv ⊢
        exact ⟨by linarith, by linarith⟩
    obtain ⟨b1, b2, b3, b4⟩ := hr.inBounds
    refine ⟨?_, key _ b2, key _ b3, key _ b4⟩
    intro v hv
    simp only [flipWith, mem_flipList] at hv
    have := key _ (b1 _ hv)
    simpa using this

/-- In general a skeleton respects the bounds or their mirror image. -/
theorem C49_mirror_partial (h : (sampleRawSkel n F T a b lb ub).Out (.ok s)) :
    s.InBounds lb ub ∨ s.InBounds (ub.map (a + b - ·)) (lb.map (a + b - ·)) := by
  obtain ⟨s0, hr, rfl | hf⟩ := rawSkel_out h
  · exact Or.inl hr.inBounds
  · right
    obtain ⟨f, x0, x1, hl, hx0, hx1, -, -, he⟩ := flipSkel_eq hr.valid
    rw [hf] at he
    cases he
    have e0 : x0 = a := by rw [hr.values] at hx0; simpa using hx0.symm
    have e1 : x1 = b := by rw [hr.values] at hx1; simpa using hx1.symm
    subst e0 e1
    have key : ∀ v, Ctb.InBounds lb ub v → Ctb.InBounds (ub.map (x0 + x1 - ·)) (lb.map (x0 + x1 - ·)) (2 * ((x0 + x1) / 2) - v) := by
      intro v hv
      rcases ub with _ | u <;> rcases lb with _ | l <;>
        simp only [Ctb.InBounds, Option.map_some, Option.map_none, Option.some.injEq, forall_eq', reduceCtorEq, false_imp_iff, implies_true,
          true_and, and_true] at hv ⊢
      · linarith
      · linarith
      · exact ⟨by linarith, by linarith⟩
    obtain ⟨b1, b2, b3, b4⟩ := hr.inBounds
    refine ⟨?_, key _ b2, key _ b3, key _ b4⟩
    intro v hv
    simp only [flipWith, mem_flipList] at hv
    have := key _ (b1 _ hv)
    simpa using this

/-! ## The violation -/

theorem minTime_reachable {m : ℝ} : ∃ t, (sampleMinTime T a b m).Out (.ok t) := by
  refine ⟨T / (1 + 1), ?_⟩
  simp only [sampleMinTime, Prog.out_bind_ok, Prog.out_draw]
  refine ⟨0, ⟨0, mem_uniform01.2 ⟨le_rfl, one_pos⟩, rfl⟩, ?_⟩
  rw [if_pos (by positivity), Prog.out_bind_ok]
  exact ⟨1, ⟨1, (one_pos : (0 : ℝ) < 1), rfl⟩, rfl⟩

/-- Any level in the sector can be the minimum. -/
theorem layerMin_reachable {U l u m : ℝ} (hT : 0 < T) (hU : max a b < U) (hlm : l < m) (hmu : m < u) (hu : u ≤ min a b) (hn : 0 < n) :
    ∃ t, 0 < t ∧ t < T ∧ (sampleLayerMin n T a b (some U) (some l) (some u)).Out (.ok (t, m)) := by
  have hl' : ∀ l', some l = some l' → l' < (some u).getD (min a b) := by simpa using hlm.trans hmu
  have hu' : (some u).getD (min a b) ≤ min a b := hu
  obtain ⟨p, -, p0, p1, hp⟩ := C38_ppf_cdf (a := a) (b := b) (lb := some l) (ub := some u) (m := m) hT hl' hu'
    (by simpa using hlm.le) (by simpa using hmu.le)
  have p1' : p < 1 := by
    rcases p1.eq_or_lt with rfl | h
    · obtain ⟨m', e1, -, -, -, -, e6⟩ := ppfBridgeMin_spec (a := a) (b := b) (lb := some l) (ub := some u) p0 p1 hT ⟨hl', hu'⟩ (by simp)
      rw [hp] at e1
      cases e1
      rw [one_mul, sub_add_cancel] at e6
      have := cdfMinBase_inj hT (hmu.le.trans hu) hu' e6
      simp at this
      linarith
    · exact h
  obtain ⟨t, ht⟩ := minTime_reachable (T := T) (a := a) (b := b) (m := m)
  have hbr : (sampleBridgeMin T a b (some l) (some u)).Out (.ok (t, m)) := by
    simp only [sampleBridgeMin, Prog.out_bind_ok, Prog.out_assert_ok, Prog.out_draw]
    refine ⟨(), hT, (), ⟨hl', hu'⟩, p, ⟨p, mem_uniform01.2 ⟨p0, p1'⟩, rfl⟩, some m, ?_, ?_⟩
    · rw [Prog.out_lift, hp]
    · simp only [Prog.out_bind_ok]
      exact ⟨t, ht, rfl⟩
  obtain ⟨t0, tT, ma, mb, -⟩ := C40_bridge_partial hbr
  refine ⟨t, t0, tT, ?_⟩
  have hUa : a < U := (le_max_left _ _).trans_lt hU
  have hUb : b < U := (le_max_right _ _).trans_lt hU
  obtain ⟨k, rfl⟩ := Nat.exists_eq_succ_of_ne_zero hn.ne'
  simp only [sampleLayerMin, Prog.out_bind_ok, Prog.out_assert_ok, layerMinLoop]
  refine ⟨(), hT, (), by simpa using ⟨hUa.le, hUb.le⟩, (t, m), hbr, false, ?_, false, ?_, by simp⟩
  · exact besEsc_false_reachable t0 le_rfl (by simpa using ma) (by simp only; linarith) (by simp only; linarith)
  · exact besEsc_false_reachable (by simp only; linarith) le_rfl (by simpa using mb) (by simp only; linarith) (by simp only; linarith)

/-- A raw skeleton of the bridge from 0 to 0 over time 1 with upper bound 1/2, reflected and not. -/
theorem raw_witness : (∃ s, (sampleRawSkel 1 1 1 0 0 none (some (1 / 2))).Out (.ok s) ∧ s.tight < s.loose) ∧
    ∃ s, (sampleRawSkel 1 1 1 0 0 none (some (1 / 2))).Out (.ok s) ∧ s.tight ∈ s.x ∧ 1 / 2 < s.tight := by
  have hT : (0 : ℝ) < 1 := one_pos
  have hl : ∀ l : ℝ, (none : Option ℝ) = some l → l < min 0 0 := by simp
  have hu : ∀ u : ℝ, (some (1 / 2) : Option ℝ) = some u → max 0 0 < u := by simp
  obtain ⟨le, m', e1, e2, -, e4, -, e6, e7⟩ := computeEdges_spec (i := 1) (pow := 2) hT hl hu one_pos
  have hle : le < -(1 / 2) := by
    obtain ⟨m, f1, f2, -, -, -, f6⟩ := ppfBridgeMin_spec (a := 0) (b := 0) (lb := none) (ub := none) (p := 1 / ((1 : ℕ) ^ 2 + 1))
      (by positivity) (by norm_num) hT ⟨by simp, by simp⟩ (by norm_num)
    have e2' := e2
    rw [f1] at e2'
    cases e2'
    rw [← cdfMinBase_lt_iff hT (by simpa using f2) (by norm_num : (-(1 / 2) : ℝ) ≤ min 0 0), f6, Option.getD_none, cdfMinBase_top,
      cdfMinBase_eq (by norm_num)]
    have : (1 : ℝ) / 2 < Real.exp (-(1 / 2)) := by
      have := Real.add_one_lt_exp (x := -(1 / 2)) (by norm_num)
      linarith
    norm_num [cdfMinBase] at this ⊢
    exact this
  set ue := ((0 : ℝ) + 0) / 2 - m' with hue
  have hue0 : 0 < ue := by simpa using e6
  have hb0 : BoundsAround 0 0 none (some (1 / 2)) := ⟨hl, hu⟩
  have e0 : computeEdges 0 1 0 0 none (some (1 / 2)) 2 = .ok (0, 0) := by simpa using C39_zero (pow := 2) hT hl hu
  -- the seed
  have hK : |0 - (le + ue) / 2| < (ue - le) / 2 := by
    rw [abs_lt]
    constructor <;> linarith
  obtain ⟨p, p0, p1, hp, -⟩ := C41_series hT hK hK
  obtain ⟨c, hc, hc1⟩ : ∃ c, cdfBridgeMin (some (-(1 / 2))) 1 (-0) (-0) none none = .ok c ∧ c < 1 := by
    refine ⟨_, cdfBridgeMin_eq hT ⟨by simp, by simp⟩, ?_⟩
    rw [Option.getD_none, cdfMinBase_top, cdfMinBase_eq (by norm_num)]
    norm_num [cdfMinBase]
  have hlay : (sampleLayer 1 1 1 0 0 none (some (1 / 2))).Out (.ok 1) := by
    simp only [sampleLayer, Prog.out_bind_ok, Prog.out_assert_ok, layerSeed, Prog.out_lift, Prog.out_draw]
    have hw : ∃ w, 0 ≤ w ∧ w < 1 ∧ p < c + (1 - c) * w ∧ c + (1 - c) * w ≤ 1 ∧ 0 ≤ c + (1 - c) * w := by
      rcases le_or_gt p c with h | h
      · exact ⟨1 / 2, by norm_num, by norm_num, by linarith, by linarith, by linarith⟩
      · have h1c : 0 < 1 - c := by linarith
        refine ⟨((p + 1) / 2 - c) / (1 - c), by apply div_nonneg <;> linarith, by rw [div_lt_one h1c]; linarith, ?_, ?_, ?_⟩ <;>
          rw [mul_div_cancel₀ _ h1c.ne'] <;> linarith
    obtain ⟨w, w0, w1, w2, w3, w4⟩ := hw
    refine ⟨(), hT, c + (1 - c) * w, ⟨c, hc.symm, _, ?_, rfl⟩, ?_⟩
    · simp only [RDist.support]
      exact ⟨w, w0, w1, rfl⟩
    · simp only [layerSearch, Prog.out_bind_ok, Prog.out_lift]
      refine ⟨(le, ue), e1.symm, false, ?_, by simp⟩
      exact ((C41_decision hT hK hK hp w4 w3 (.ok false)).2.1 w2).2 rfl
  obtain ⟨pl, hpl⟩ : ∃ q, sectorProbs 1 0 0 (le, 0) (0, ue) = .ok q := by
    have h1 := cdfBridgeMin_eq (m := some 0) (a := 0) (b := 0) (lb := some le) (ub := none) hT ⟨by simp; linarith, by simp⟩
    have h2 := cdfBridgeMin_eq (m := some (-0)) (a := -0) (b := -0) (lb := some (-ue)) (ub := none) hT ⟨by simp; linarith, by simp⟩
    unfold sectorProbs
    simp only [h1, h2]
    exact ⟨_, rfl⟩
  have hanc : ∃ z, (sampleAnchor 1 1 1 0 0 none (some (1 / 2))).Out (.ok (z, (le, 0), (0, ue))) := by
    simp only [sampleAnchor, Prog.out_bind_ok, Prog.out_assert_ok, Prog.out_lift, Prog.out_draw]
    exact ⟨_, (), hT, 1, hlay, (le, ue), e1.symm, (0, 0), e0.symm, pl, hpl.symm, 0, ⟨0, mem_uniform01.2 ⟨le_rfl, one_pos⟩, rfl⟩, rfl⟩
  obtain ⟨z, hanc⟩ := hanc
  have hm1 : le < (le + -(1 / 2)) / 2 := by linarith
  have hm2 : (le + -(1 / 2)) / 2 < -(1 / 2) := by linarith
  obtain ⟨t, t0, t1, hmin⟩ := layerMin_reachable (T := 1) (a := 0) (b := 0) (n := 1) (U := ue) (l := le) (u := 0) (m := (le + -(1 / 2)) / 2) hT
    (by simpa using hue0) hm1 (by linarith) (by simp) one_pos
  set m := (le + -(1 / 2)) / 2
  have hv : EaSkel.Valid ⟨[0, t, 1], [0, m, 0], m, ue, 0, none⟩ := ⟨by simp [t0, t1], rfl, rfl, fun _ h => by cases h⟩
  obtain ⟨f, x0, x1, hf, hx0, hx1, -, -, he⟩ := flipSkel_eq hv
  simp only [List.head?_cons, Option.some.injEq] at hx0
  simp at hx1
  subst hx0 hx1
  have hed : (sampleEdges 1 1 1 0 0 (le, 0) (0, ue)).Out (.ok (t, m, 0, ue, none)) := by
    simp only [sampleEdges, Prog.out_bind_ok, Prog.out_assert_ok, edgesLoop]
    refine ⟨(), hT, (), one_pos, (t, m), hmin, ?_⟩
    rw [if_pos (by simp)]
    rfl
  refine ⟨⟨⟨[0, t, 1], [0, m, 0], m, ue, 0, none⟩, ?_, by simp only; linarith⟩, flipWith f ((0 + 0) / 2) ⟨[0, t, 1], [0, m, 0], m, ue, 0, none⟩, ?_, ?_, ?_⟩
  · simp only [sampleRawSkel, Prog.out_bind_ok]
    refine ⟨_, hanc, (t, m, 0, ue, none), hed, 1 / 4, ⟨1 / 4, mem_uniform01.2 ⟨by norm_num, by norm_num⟩, rfl⟩, ?_⟩
    rw [if_pos (by norm_num)]
    rfl
  · simp only [sampleRawSkel, Prog.out_bind_ok]
    refine ⟨_, hanc, (t, m, 0, ue, none), hed, 1 / 2, ⟨1 / 2, mem_uniform01.2 ⟨by norm_num, by norm_num⟩, rfl⟩, ?_⟩
    rw [if_neg (by norm_num), Prog.out_lift, he]
  · simp [flipWith, flipList]
  · simp only [flipWith]
    linarith

/-- The bridge from 0 to 0 over time 1 with upper bound 1/2: the first layer goes down to `-√(log 2 / 2) < -1/2`, and with probability 1/2 it
is reflected at 0, so the tight edge, a value of the path, ends up above the bound. -/
theorem C49_violated : ∃ s, (sampleRawSkel 1 1 1 0 0 none (some (1 / 2))).Out (.ok s) ∧ s.tight ∈ s.x ∧ 1 / 2 < s.tight :=
  raw_witness.2

example : ∃ s, (sampleRawSkel 1 1 1 0 0 none (some (1 / 2))).Out (.ok s) ∧ s.tight < s.loose ∧ s.Valid ∧ s.InBounds none (some (1 / 2)) := by
  obtain ⟨s, h, hs⟩ := raw_witness.1
  exact ⟨s, h, hs, (C49_wellformed h).1, C49_lower_partial h hs⟩

example : ∃ s, (sampleRawSkel 1 1 1 0 0 none (some (1 / 2))).Out (.ok s) ∧ ¬ s.InBounds none (some (1 / 2)) ∧ s.InBounds (some (-(1 / 2))) none := by
  obtain ⟨s, h, h1, h2⟩ := raw_witness.2
  have hn : ¬ s.InBounds none (some (1 / 2)) := fun hb => by
    have := (hb.1 _ h1).2 _ rfl
    linarith
  refine ⟨s, h, hn, ?_⟩
  have := (C49_mirror_partial h).resolve_left hn
  norm_num at this
  exact this

end Ctb
