import Verif.Model.RawSkel
import Verif.Lemmas.SkelFlip
import Verif.Props.LayerMin
import Verif.Props.Hitting

set_option linter.unusedSectionVars false

/-! # What the layer samplers and the raw skeleton return -/

namespace Ctb

open Classical

variable {T a b : ℝ} {lb ub : Option ℝ} {n F : ℕ}

/-- Bounds strictly around both end points. -/
def BoundsAround (a b : ℝ) (lb ub : Option ℝ) : Prop := (∀ l, lb = some l → l < min a b) ∧ ∀ u, ub = some u → max a b < u

theorem computeEdges_ok {i pow : ℕ} {e : ℝ × ℝ} (h : computeEdges i T a b lb ub pow = .ok e) : 0 < T ∧ BoundsAround a b lb ub := by
  unfold computeEdges at h
  by_cases h1 : 0 < T
  · rw [if_neg (not_not.2 h1)] at h
    by_cases h2 : ∀ l, lb = some l → l < min a b
    · rw [if_neg (not_not.2 h2)] at h
      by_cases h3 : ∀ u, ub = some u → max a b < u
      · exact ⟨h1, h2, h3⟩
      · rw [if_pos h3] at h; cases h
    · rw [if_pos h2] at h; cases h
  · rw [if_pos h1] at h; cases h

theorem layerSearch_out {u : ℝ} {l l' : ℕ} (h : (layerSearch T a b lb ub u F l).Out (.ok l')) :
    l ≤ l' ∧ l' < l + F ∧ (∃ e, computeEdges l' T a b lb ub 2 = .ok e ∧
      (brownEsc T (a - (e.1 + e.2) / 2) (b - (e.1 + e.2) / 2) ((e.2 - e.1) / 2) none (some u)).Out (.ok false)) ∧
      ∀ j, l ≤ j → j < l' → ∃ e, computeEdges j T a b lb ub 2 = .ok e ∧
        (brownEsc T (a - (e.1 + e.2) / 2) (b - (e.1 + e.2) / 2) ((e.2 - e.1) / 2) none (some u)).Out (.ok true) := by
  induction F generalizing l with
  | zero => cases h
  | succ F ih =>
    simp only [layerSearch, Prog.out_bind_ok, Prog.out_lift] at h
    obtain ⟨e, he, esc, h1, h2⟩ := h
    by_cases hesc : esc = true
    · subst hesc
      rw [if_neg (by simp)] at h2
      obtain ⟨i1, i2, i3, i4⟩ := ih h2
      refine ⟨by omega, by omega, i3, ?_⟩
      intro j hj hj'
      rcases hj.eq_or_lt with rfl | hj
      · exact ⟨e, he.symm, h1⟩
      · exact i4 j hj hj'
    · rw [if_pos (by simpa using hesc), Prog.out_ret] at h2
      cases h2
      have : esc = false := by simpa using hesc
      subst this
      exact ⟨le_rfl, by omega, ⟨e, he.symm, h1⟩, fun j h1 h2 => absurd h2 (by omega)⟩

theorem sampleLayer_out {l : ℕ} (h : (sampleLayer n F T a b lb ub).Out (.ok l)) : 0 < T ∧ 1 ≤ l ∧ BoundsAround a b lb ub := by
  simp only [sampleLayer, Prog.out_bind_ok, Prog.out_assert_ok] at h
  obtain ⟨_, hT, u, -, h⟩ := h
  obtain ⟨h1, -, ⟨e, he, -⟩, -⟩ := layerSearch_out h
  exact ⟨hT, h1, (computeEdges_ok he).2⟩

/-- Sectors returned by `sample_anchor`. -/
theorem sampleAnchor_out {q : Bool × (ℝ × ℝ) × ℝ × ℝ} (h : (sampleAnchor n F T a b lb ub).Out (.ok q)) :
    0 < T ∧ BoundsAround a b lb ub ∧ ∃ l, 1 ≤ l ∧ computeEdges l T a b lb ub 2 = .ok (q.2.1.1, q.2.2.2) ∧
      computeEdges (l - 1) T a b lb ub 2 = .ok (q.2.1.2, q.2.2.1) := by
  simp only [sampleAnchor, Prog.out_bind_ok, Prog.out_assert_ok, Prog.out_lift, Prog.out_ret] at h
  obtain ⟨_, hT, l, hl, e, he, e', he', p, -, u, -, hq⟩ := h
  obtain ⟨-, h1, h2⟩ := sampleLayer_out hl
  simp only [Except.ok.injEq] at hq
  subst hq
  exact ⟨hT, h2, l, h1, he.symm, he'.symm⟩

/-- The ordering of the two sectors. -/
theorem sectors_order {l : ℕ} (h1 : 1 ≤ l) {lo hi : ℝ × ℝ} (h : computeEdges l T a b lb ub 2 = .ok (lo.1, hi.2))
    (h' : computeEdges (l - 1) T a b lb ub 2 = .ok (lo.2, hi.1)) :
    lo.1 < lo.2 ∧ lo.2 ≤ min a b ∧ max a b ≤ hi.1 ∧ hi.1 < hi.2 ∧ (∀ l, lb = some l → l < lo.1) ∧ ∀ u, ub = some u → hi.2 < u := by
  obtain ⟨hT, hb⟩ := computeEdges_ok h
  obtain ⟨e, e', k1, k2, k3, k4⟩ := C39_nested (pow := 2) (by norm_num) hT hb.1 hb.2 (show l - 1 < l by omega)
  rw [h'] at k1; rw [h] at k2
  cases k1; cases k2
  obtain ⟨e, f1, f2, f3, f4, f5, -, -, -⟩ := C39_brackets (i := l - 1) (pow := 2) hT hb.1 hb.2
  rw [h'] at f1
  cases f1
  obtain ⟨e, g1, -, -, -, -, g6, g7, -⟩ := C39_brackets (i := l) (pow := 2) hT hb.1 hb.2
  rw [h] at g1
  cases g1
  exact ⟨k3, le_min f2 f3, max_le f4 f5, k4, g6, g7⟩

/-- `sample_edges`. -/
theorem edgesLoop_out {m : ℕ} {inf sup : ℝ × ℝ} {t x hx lx : ℝ} {hi : Option (List Bool)}
    (h : (edgesLoop m T a b inf sup n).Out (.ok (t, x, hx, lx, hi))) :
    0 < t ∧ t < T ∧ x < a ∧ x < b ∧ inf.1 ≤ x ∧ x < inf.2 ∧ max a b < lx ∧ hx = sup.1 ∧ lx = sup.2 ∧
      (hi = none ∧ (min a b = inf.2 ∨ min a b = sup.1) ∨ ∃ e1 e2, hi = some [e1, e2] ∧ ¬ (min a b = inf.2 ∨ min a b = sup.1) ∧
        (besEsc t 0 (a - x) (sup.1 - x) (some (sup.2 - x)) none).Out (.ok e1) ∧
        (besEsc (T - t) 0 (b - x) (sup.1 - x) (some (sup.2 - x)) none).Out (.ok e2)) := by
  induction n with
  | zero => cases h
  | succ n ih =>
    simp only [edgesLoop] at h
    rw [Prog.out_bind_ok] at h
    obtain ⟨⟨t', x'⟩, hq, h⟩ := h
    obtain ⟨q1, q2, q3, q4, q5, q6, q7⟩ := C40_layer_partial hq
    have hf : ∀ hi', (Except.ok (t, x, hx, lx, hi) : Res _) = .ok (t', x', sup.1, sup.2, hi') →
        (0 < t ∧ t < T ∧ x < a ∧ x < b ∧ inf.1 ≤ x ∧ x < inf.2 ∧ max a b < lx ∧ hx = sup.1 ∧ lx = sup.2) ∧ t = t' ∧ x = x' ∧ hi = hi' := by
      intro hi' he
      simp only [Except.ok.injEq, Prod.mk.injEq] at he
      obtain ⟨rfl, rfl, rfl, rfl, rfl⟩ := he
      exact ⟨⟨q1, q2, q3, q4, q5 _ rfl, q6 _ rfl, (q7 _ rfl).1, rfl, rfl⟩, rfl, rfl, rfl⟩
    by_cases hm : min a b = inf.2 ∨ min a b = sup.1
    · rw [if_pos hm, Prog.out_ret] at h
      obtain ⟨⟨f1, f2, f3, f4, f5, f6, f7, f8, f9⟩, -, -, g3⟩ := hf _ h
      exact ⟨f1, f2, f3, f4, f5, f6, f7, f8, f9, Or.inl ⟨g3, hm⟩⟩
    · rw [if_neg hm, Prog.out_bind_ok] at h
      obtain ⟨e1, he1, h⟩ := h
      rw [Prog.out_bind_ok] at h
      obtain ⟨e2, he2, h⟩ := h
      have fin : (Except.ok (t, x, hx, lx, hi) : Res _) = .ok (t', x', sup.1, sup.2, some [e1, e2]) →
          0 < t ∧ t < T ∧ x < a ∧ x < b ∧ inf.1 ≤ x ∧ x < inf.2 ∧ max a b < lx ∧ hx = sup.1 ∧ lx = sup.2 ∧
            (hi = none ∧ (min a b = inf.2 ∨ min a b = sup.1) ∨ ∃ e1 e2, hi = some [e1, e2] ∧ ¬ (min a b = inf.2 ∨ min a b = sup.1) ∧
              (besEsc t 0 (a - x) (sup.1 - x) (some (sup.2 - x)) none).Out (.ok e1) ∧
              (besEsc (T - t) 0 (b - x) (sup.1 - x) (some (sup.2 - x)) none).Out (.ok e2)) := by
        intro hh
        obtain ⟨⟨f1, f2, f3, f4, f5, f6, f7, f8, f9⟩, g1, g2, g3⟩ := hf _ hh
        subst g1 g2
        exact ⟨f1, f2, f3, f4, f5, f6, f7, f8, f9, Or.inr ⟨e1, e2, g3, hm, he1, he2⟩⟩
      by_cases hee : ¬ e1 = true ∧ ¬ e2 = true
      · rw [if_pos hee, Prog.out_ret] at h
        exact fin h
      · rw [if_neg hee, Prog.out_bind_ok] at h
        obtain ⟨u, -, h⟩ := h
        by_cases hu : 1 / 2 < u
        · rw [if_pos hu, Prog.out_ret] at h
          exact fin h
        · rw [if_neg hu] at h
          exact ih h

/-- The skeleton before the coin for flipping. -/
structure RawOk (T a b : ℝ) (lb ub : Option ℝ) (s : EaSkel) : Prop where
  valid : s.Valid
  within : s.Within
  sound : s.FlagsSound
  tight_hit : s.tight < s.hitX
  hit_loose : s.hitX < s.loose
  times : ∃ τ, 0 < τ ∧ τ < T ∧ s.t = [0, τ, T]
  values : s.x = [a, s.tight, b]
  low : s.tight < min a b
  high : max a b < s.loose
  lbound : ∀ l, lb = some l → l < s.tight
  ubound : ∀ u, ub = some u → s.loose < u

theorem rawSkel_out {s : EaSkel} (h : (sampleRawSkel n F T a b lb ub).Out (.ok s)) :
    ∃ s0, RawOk T a b lb ub s0 ∧ (s = s0 ∨ flipSkel s0 = .ok s) := by
  simp only [sampleRawSkel] at h
  rw [Prog.out_bind_ok] at h
  obtain ⟨⟨anc, lo, hi⟩, hA, h⟩ := h
  rw [Prog.out_bind_ok] at h
  obtain ⟨⟨t, x, hx, lx, fl⟩, hE, h⟩ := h
  rw [Prog.out_bind_ok] at h
  obtain ⟨u, -, h⟩ := h
  obtain ⟨hT, hb, l, hl1, c1, c2⟩ := sampleAnchor_out hA
  obtain ⟨s1, s2, s3, s4, s5, s6⟩ := sectors_order hl1 c1 c2
  simp only [sampleEdges, Prog.out_bind_ok, Prog.out_assert_ok] at hE
  obtain ⟨-, -, -, -, hE⟩ := hE
  obtain ⟨f1, f2, f3, f4, f5, f6, f7, f8, f9, f10⟩ := edgesLoop_out hE
  simp only at f5 f6 f8 f9 f10 h s5 s6 s1 s2 s3 s4
  subst f8 f9
  have hxa : a < hi.2 := (le_max_left _ _).trans_lt f7
  have hxb : b < hi.2 := (le_max_right _ _).trans_lt f7
  have hmx : x < min a b := lt_min f3 f4
  have hxh : x < hi.1 := (hmx.trans_le ((min_le_left a b).trans (le_max_left a b))).trans_le s3
  refine ⟨⟨[0, t, T], [a, x, b], x, hi.2, hi.1, fl⟩, ⟨?_, ?_, ?_, hxh, s4, ⟨t, f1, f2, rfl⟩, rfl, hmx, f7, fun l hl => (s5 l hl).trans_le f5, s6⟩, ?_⟩
  · refine ⟨by simp [f1, f2, hT], rfl, rfl, ?_⟩
    intro hs hh
    rcases f10 with ⟨e, -⟩ | ⟨e1, e2, e, -⟩
    · rw [e] at hh; cases hh
    · rw [e] at hh; cases hh; rfl
  · refine ⟨fun _ => ?_, fun hn => absurd (hxh.trans s4) hn⟩
    intro v hv
    simp only [List.mem_cons, List.not_mem_nil, or_false] at hv
    rcases hv with rfl | rfl | rfl
    · exact ⟨f3.le, hxa⟩
    · exact ⟨le_rfl, hxh.trans s4⟩
    · exact ⟨f4.le, hxb⟩
  · intro hs hh
    refine ⟨fun _ => ?_, fun hn => absurd (hxh.trans s4) hn⟩
    rcases f10 with ⟨e, -⟩ | ⟨e1, e2, e, -, k1, k2⟩
    · rw [e] at hh; cases hh
    · rw [e] at hh; cases hh
      refine List.Forall₂.cons ?_ (List.Forall₂.cons ?_ List.Forall₂.nil)
      · rintro rfl
        have := besEsc_below k1
        exact ⟨by show a < hi.1; linarith [this.2], hxh⟩
      · rintro rfl
        have := besEsc_below k2
        exact ⟨hxh, by show b < hi.1; linarith [this.2]⟩
  · by_cases hu : u < 1 / 2
    · rw [if_pos hu, Prog.out_ret] at h
      cases h
      exact Or.inl rfl
    · rw [if_neg hu, Prog.out_lift] at h
      exact Or.inr h.symm

end Ctb
