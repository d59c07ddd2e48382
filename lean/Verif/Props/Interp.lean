import Verif.Lemmas.SkelFlip
import Verif.Props.LayerPaths

set_option linter.unusedSectionVars false

/-! # C45-C48: interpolating and flipping a bridge skeleton -/

namespace Ctb

open Classical

variable {s s' : EaSkel} {newT vals : List ℝ} {n k : ℕ}

/-! ## C45 -/

/-- Interpolation refines the path: stored pairs kept, exactly the new times added, times strictly increasing, new values in order. -/
theorem C45_refines (hv : s.Valid) (hN : newT.Pairwise (· < ·)) (h : (interpolateSkel n k s newT).Out (.ok (s', vals))) :
    Refines s.t s.x newT s'.t s'.x vals ∧ s'.Valid ∧ s'.tight = s.tight ∧ s'.loose = s.loose ∧ s'.hitX = s.hitX := by
  by_cases h0 : newT = []
  · simp only [interpolateSkel] at h
    rw [if_pos h0, Prog.out_ret] at h
    simp only [Except.ok.injEq, Prod.mk.injEq] at h
    obtain ⟨rfl, rfl⟩ := h
    subst h0
    exact ⟨⟨hv.sorted, by simp, hv.len, fun p hp => hp, List.Forall₂.nil⟩, hv, rfl, rfl, rfl⟩
  · have := interpolateSkel_out hv hN h0 h
    exact ⟨this.refines, this.valid, this.tight, this.loose, this.hitX⟩

/-- Values stay between the edges. -/
theorem C45_within (hv : s.Valid) (hN : newT.Pairwise (· < ·)) (hw : s.Within) (h : (interpolateSkel n k s newT).Out (.ok (s', vals))) :
    s'.Within := by
  by_cases h0 : newT = []
  · simp only [interpolateSkel] at h
    rw [if_pos h0, Prog.out_ret] at h
    simp only [Except.ok.injEq, Prod.mk.injEq] at h
    obtain ⟨rfl, rfl⟩ := h
    exact hw
  · exact (interpolateSkel_out hv hN h0 h).within

/-- End points of the path stay where they are. -/
theorem C45_ends (hv : s.Valid) (hN : newT.Pairwise (· < ·)) (h : (interpolateSkel n k s newT).Out (.ok (s', vals))) :
    s'.t.head? = s.t.head? ∧ s'.t.getLast? = s.t.getLast? ∧ s'.x.head? = s.x.head? ∧ s'.x.getLast? = s.x.getLast? := by
  by_cases h0 : newT = []
  · simp only [interpolateSkel] at h
    rw [if_pos h0, Prog.out_ret] at h
    simp only [Except.ok.injEq, Prod.mk.injEq] at h
    obtain ⟨rfl, rfl⟩ := h
    exact ⟨rfl, rfl, rfl, rfl⟩
  · have := interpolateSkel_out hv hN h0 h
    exact ⟨by rw [this.valid.start, hv.start], this.last, this.xfirst, this.xlast⟩

/-- Skeleton of the examples. -/
noncomputable def exSkel : EaSkel := ⟨[0, 1], [0, 1], 0, 3, 1, some [true]⟩

theorem exSkel_valid : exSkel.Valid := ⟨by simp [exSkel], rfl, rfl, by simp [exSkel]⟩

theorem exSkel_within : exSkel.Within := by constructor <;> norm_num [exSkel]

theorem exSkel_sound : exSkel.FlagsSound := by
  intro hs h
  simp only [exSkel, Option.some.injEq] at h
  subst h
  constructor <;> norm_num [exSkel, pairsOf]

/-- An interpolation with a new time that succeeds. -/
theorem exSkel_fill : (interpolateSkel 1 1 exSkel [1 / 2]).Out (.ok (⟨[0, 1 / 2, 1], [0, 3 / 2, 1], 0, 3, 1, some [true, true]⟩, [3 / 2])) := by
  have h1 : searchLeft ([0, 1] : List ℝ) (1 / 2) = 1 := by norm_num [searchLeft]
  have hi : (fillInner 1 1 [0, 1] [0, 1] [1 / 2] 0 (some 3) (some 1) (some [true])).Out
      (.ok ([0, 1 / 2, 1], [0, 3 / 2, 1], [1], some [true, true])) := by
    simp only [fillInner]
    rw [if_neg (by simp), if_neg (by simp)]
    simp only [Prog.out_bind_ok, Prog.out_assert_ok]
    refine ⟨(), by norm_num, ?_⟩
    rw [if_neg (by simp)]
    simp only [Prog.out_bind_ok, Prog.out_assert_ok]
    refine ⟨(), by norm_num, (), by norm_num, (), by norm_num, [([3 / 2], some [true, true])], ?_, ?_⟩
    · rw [Prog.out_mapM'_ok]
      simp only [List.map_cons, List.map_nil, h1]
      refine List.Forall₂.cons ?_ List.Forall₂.nil
      simp only [fillSector, pyGet, ueSec, hitSec]
      norm_num [h1]
      have := layerbr_reachable
      norm_num at this
      exact this
    · simp only [List.map_cons, List.map_nil, h1, Prog.out_ret, Except.ok.injEq]
      simp [npInsert, select, stackHits, splitFlag, npUnique, List.range_succ]
  simp only [interpolateSkel]
  rw [if_neg (by simp), if_pos (by norm_num [exSkel]), Prog.out_bind_ok]
  refine ⟨([0, 1 / 2, 1], [0, 3 / 2, 1], [1], some [true, true]), ?_, by simp [exSkel]⟩
  show (fillOuter 1 1 [0, 1] [0, 1] [1 / 2] 0 (some 3) (some 1) (some [true])).Out _
  simp only [fillOuter]
  rw [if_neg (by simp)]
  simp only [Prog.out_bind_ok, Prog.out_assert_ok]
  refine ⟨(), by norm_num, ?_⟩
  rw [if_neg (by simp)]
  simp only [Prog.out_bind_ok, Prog.out_assert_ok]
  refine ⟨(), by norm_num, (), by norm_num, (), by norm_num, ([0, 1 / 2, 1], [0, 3 / 2, 1], [1], some [true, true]), ?_, ?_⟩
  · have : ([1 / 2] : List ℝ).filter (fun r => decide (r ∉ ([0, 1] : List ℝ))) = [1 / 2] := by norm_num [List.filter]
    rw [this]
    exact hi
  · norm_num [whereIn, List.range_succ, List.filter]

/-- The hypotheses of C45 and C47 can be met. -/
example : Refines [0, 1] [0, 1] [1 / 2] [0, 1 / 2, 1] [0, 3 / 2, 1] [3 / 2] := (C45_refines exSkel_valid (by simp) exSkel_fill).1

/-! ## C46 -/

/-- At known times: times, values and edges unchanged, the stored values returned; the flags are dropped, so everything is unchanged for a
skeleton without flags. -/
theorem C46_known_partial (hv : s.Valid) (hN : newT.Pairwise (· < ·)) (hk : ∀ r ∈ newT, r ∈ s.t)
    (h : (interpolateSkel n k s newT).Out (.ok (s', vals))) :
    s'.t = s.t ∧ s'.x = s.x ∧ s'.tight = s.tight ∧ s'.loose = s.loose ∧ s'.hitX = s.hitX ∧
      List.Forall₂ (fun r v => (r, v) ∈ s.t.zip s.x) newT vals ∧ (s.hitI = none ∨ newT = [] → s' = s) := by
  by_cases h0 : newT = []
  · simp only [interpolateSkel] at h
    rw [if_pos h0, Prog.out_ret] at h
    simp only [Except.ok.injEq, Prod.mk.injEq] at h
    obtain ⟨rfl, rfl⟩ := h
    subst h0
    exact ⟨rfl, rfl, rfl, rfl, rfl, List.Forall₂.nil, fun _ => rfl⟩
  · have hs := interpolateSkel_out hv hN h0 h
    obtain ⟨h1, h2, h3⟩ := hs.known hk
    refine ⟨h1, h2, hs.tight, hs.loose, hs.hitX, ?_, ?_⟩
    · have := hs.refines.new
      rwa [h1, h2] at this
    · rintro (hn | hn)
      · rcases s with ⟨a1, a2, a3, a4, a5, a6⟩
        rcases s' with ⟨b1, b2, b3, b4, b5, b6⟩
        have e1 := hs.tight
        have e2 := hs.loose
        have e3 := hs.hitX
        simp only at h1 h2 h3 hn e1 e2 e3
        subst h1 h2 h3 hn e1 e2 e3
        rfl
      · exact absurd hn h0

/-- A skeleton with flags loses them. -/
theorem C46_flags_lost (hv : s.Valid) (hN : newT.Pairwise (· < ·)) (h0 : newT ≠ []) (hk : ∀ r ∈ newT, r ∈ s.t)
    (h : (interpolateSkel n k s newT).Out (.ok (s', vals))) : s'.hitI = none :=
  ((interpolateSkel_out hv hN h0 h).known hk).2.2

/-- A witness: the skeleton at 0 and 1, asked for its value at 1. -/
theorem C46_violated : ∃ (s s' : EaSkel) (newT vals : List ℝ), s.Valid ∧ s.Within ∧ s.FlagsSound ∧ newT.Pairwise (· < ·) ∧
    (∀ r ∈ newT, r ∈ s.t) ∧ (interpolateSkel 1 1 s newT).Out (.ok (s', vals)) ∧ s' ≠ s := by
  refine ⟨exSkel, ⟨[0, 1], [0, 1], 0, 3, 1, none⟩, [1], [1], exSkel_valid, exSkel_within, exSkel_sound, by simp, by simp [exSkel], ?_, ?_⟩
  · simp only [interpolateSkel]
    rw [if_neg (by simp), if_pos (by norm_num [exSkel]), Prog.out_bind_ok]
    refine ⟨([0, 1], [0, 1], [1], none), ?_, by simp [exSkel]⟩
    show (fillOuter 1 1 [0, 1] [0, 1] [1] 0 (some 3) (some 1) (some [true])).Out _
    simp only [fillOuter]
    rw [if_neg (by simp)]
    simp only [Prog.out_bind_ok, Prog.out_assert_ok]
    refine ⟨(), by norm_num, ?_⟩
    rw [if_neg (by simp)]
    simp only [Prog.out_bind_ok, Prog.out_assert_ok]
    refine ⟨(), by norm_num, (), by norm_num, (), by norm_num, ([0, 1], [0, 1], [], none), ?_, ?_⟩
    · have : ([1] : List ℝ).filter (fun r => decide (r ∉ ([0, 1] : List ℝ))) = [] := by norm_num [List.filter]
      rw [this]
      simp only [fillInner]
      rw [if_pos trivial]
      rfl
    · norm_num [whereIn, List.range_succ, List.filter]
  · simp [exSkel]

/-! ## C47 -/

/-- One flag per gap afterwards; a flagged new gap lies inside a flagged old gap and every flagged old gap contains a flagged new gap. -/
theorem C47_flags (hv : s.Valid) (hN : newT.Pairwise (· < ·)) (hnew : ∃ r ∈ newT, r ∉ s.t) {hs : List Bool} (hI : s.hitI = some hs)
    (h : (interpolateSkel n k s newT).Out (.ok (s', vals))) :
    ∃ hs', s'.hitI = some hs' ∧ hs'.length = s'.t.length - 1 ∧ FlagsRefine s.t hs s'.t hs' := by
  have h0 : newT ≠ [] := by
    obtain ⟨r, hr, -⟩ := hnew
    exact List.ne_nil_of_mem hr
  have hst := interpolateSkel_out hv hN h0 h
  obtain ⟨hs', h1, h2⟩ := hst.flags hnew hs hI
  exact ⟨hs', h1, hst.valid.flags hs' h1, h2⟩

/-- If some flag was set some flag is still set. -/
theorem C47_some_flag (hv : s.Valid) (hN : newT.Pairwise (· < ·)) (hnew : ∃ r ∈ newT, r ∉ s.t) {hs hs' : List Bool} (hI : s.hitI = some hs)
    (h : (interpolateSkel n k s newT).Out (.ok (s', vals))) (hI' : s'.hitI = some hs') : true ∈ hs ↔ true ∈ hs' := by
  obtain ⟨hs'', h1, h2, h3⟩ := C47_flags hv hN hnew hI h
  rw [hI'] at h1
  simp only [Option.some.injEq] at h1
  subst h1
  have hl := hv.flags hs hI
  constructor
  · intro ht
    obtain ⟨g, hg⟩ := mem_zip_of_right (l := pairsOf s.t) (by rw [pairsOf_length, hl]) ht
    obtain ⟨g', hg', -⟩ := h3.2 g hg
    exact (List.of_mem_zip hg').2
  · intro ht
    obtain ⟨g, hg⟩ := mem_zip_of_right (l := pairsOf s'.t) (by rw [pairsOf_length, h2]) ht
    obtain ⟨g', hg', -⟩ := h3.1 g hg
    exact (List.of_mem_zip hg').2

/-- Flags stay right: a gap not flagged has both ends short of the hitting level. -/
theorem C47_sound (hv : s.Valid) (hN : newT.Pairwise (· < ·)) (hs : s.FlagsSound) (h : (interpolateSkel n k s newT).Out (.ok (s', vals))) :
    s'.FlagsSound := by
  by_cases h0 : newT = []
  · simp only [interpolateSkel] at h
    rw [if_pos h0, Prog.out_ret] at h
    simp only [Except.ok.injEq, Prod.mk.injEq] at h
    obtain ⟨rfl, rfl⟩ := h
    exact hs
  · exact (interpolateSkel_out hv hN h0 h).sound hs

/-- The example has a new time and a flag. -/
example : ∃ hs', some [true, true] = some hs' ∧ hs'.length = 3 - 1 ∧ FlagsRefine [0, 1] [true] [0, 1 / 2, 1] hs' :=
  C47_flags exSkel_valid (by simp) ⟨1 / 2, by simp, by norm_num [exSkel]⟩ rfl exSkel_fill

/-! ## C48 -/

/-- Flipping a well-formed skeleton never fails, gives a well-formed skeleton, and flipping again restores it. -/
theorem C48_involution (hv : s.Valid) : ∃ s', flipSkel s = .ok s' ∧ s'.Valid ∧ flipSkel s' = .ok s := by
  obtain ⟨f, x0, x1, hf, hx0, hx1, -, -, he⟩ := flipSkel_eq hv
  have h1 := flipWith_valid hv hf ((x0 + x1) / 2)
  refine ⟨_, he, h1.1, ?_⟩
  obtain ⟨f', y0, y1, hf', hy0, hy1, -, -, he'⟩ := flipSkel_eq h1.1
  rw [he']
  rw [h1.2] at hf'
  simp only [flipWith, flipList_head, flipList_last, hx0, hx1, Option.map_some, Option.some.injEq] at hf' hy0 hy1
  have : (y0 + y1) / 2 = (x0 + x1) / 2 := by rw [← hy0, ← hy1]; ring
  rw [this, ← hf', flipWith_flip]

/-- Flipping mirrors time at half the final time and values at the middle of the end values; a lower edge becomes an upper edge. -/
theorem C48_mirror (hv : s.Valid) (h : flipSkel s = .ok s') : ∃ f c, s.t.getLast? = some f ∧
    (∀ r v, (r, v) ∈ s'.t.zip s'.x ↔ (f - r, c - v) ∈ s.t.zip s.x) ∧ s'.tight = c - s.tight ∧ s'.loose = c - s.loose ∧ s'.hitX = c - s.hitX ∧
    (s.tight < s.loose ↔ s'.loose < s'.tight) ∧ (s.loose < s.tight ↔ s'.tight < s'.loose) ∧
    (∀ hs, s.hitI = some hs → ∃ hs', s'.hitI = some hs' ∧ ∀ g b, (g, b) ∈ flaggedGaps s'.t hs' ↔ ((f - g.2, f - g.1), b) ∈ flaggedGaps s.t hs) ∧
    s'.x.head? = s.x.head? ∧ s'.x.getLast? = s.x.getLast? := by
  obtain ⟨f, x0, x1, hf, hx0, hx1, -, -, he⟩ := flipSkel_eq hv
  rw [he] at h
  simp only [Except.ok.injEq] at h
  subst h
  refine ⟨f, 2 * ((x0 + x1) / 2), hf, fun r v => mem_flip_zip hv.len, rfl, rfl, rfl, ?_, ?_, ?_, ?_, ?_⟩
  · simp [flipWith]
  · simp [flipWith]
  · intro hs hh
    exact ⟨hs.reverse, by simp [flipWith, hh], fun g b => flaggedGaps_flip (hv.flags hs hh)⟩
  · simp only [flipWith, flipList_head, hx0, hx1, Option.map_some, Option.some.injEq]
    ring
  · simp only [flipWith, flipList_last, hx0, hx1, Option.map_some, Option.some.injEq]
    ring

/-- `reverse` twice is the identity, for times in `[0, fin_t]`. -/
theorem C48_reverse {t x t' x' : List ℝ} {f : ℝ} (h : reversePath t x f = .ok (t', x')) : reversePath t' x' f = .ok (t, x) := by
  unfold reversePath at h
  split_ifs at h with h1 h2
  simp only [Except.ok.injEq, Prod.mk.injEq] at h
  obtain ⟨rfl, rfl⟩ := h
  unfold reversePath
  rw [if_neg, if_neg (not_not.2 h2)]
  · have := flipList_flip f t
    simp only [flipList] at this
    rw [this, List.reverse_reverse]
  · rw [not_not]
    intro r hr
    have hr' : r ∈ flipList f t := hr
    rw [mem_flipList] at hr'
    have := h1 _ hr'
    exact ⟨by linarith, by linarith⟩

/-- `reflect` twice is the identity. -/
theorem C48_reflect {t x t' x' : List ℝ} {c : ℝ} (h : reflectPath t x c = .ok (t', x')) : reflectPath t' x' c = .ok (t, x) := by
  unfold reflectPath at h
  split_ifs at h with h1 h2
  simp only [Except.ok.injEq, Prod.mk.injEq] at h
  obtain ⟨rfl, rfl⟩ := h
  unfold reflectPath
  rw [if_neg h1, if_neg (not_not.2 h2)]
  simp [Function.comp_def]

/-- When `reverse` and `reflect` fail. -/
theorem C48_errors (t x : List ℝ) (f c : ℝ) :
    ((∃ q, reversePath t x f = .ok q) ↔ 0 ≤ f ∧ ∀ r ∈ t, 0 ≤ r ∧ r ≤ f) ∧ ((∃ q, reflectPath t x c = .ok q) ↔ t ≠ [] ∧ ∀ r ∈ t, 0 ≤ r) := by
  constructor
  · unfold reversePath
    split_ifs with h1 h2 <;> simp_all
  · unfold reflectPath
    split_ifs with h1 h2 <;> simp_all

/-- The start at 0 matters: a skeleton that starts later is moved by the first flip. -/
example : flipSkel ⟨[1, 2], [0, 1], 0, 3, 1, none⟩ = .ok ⟨[0, 1], [0, 1], 1, -2, 0, none⟩ := by
  norm_num [flipSkel, reversePath, reflectPath]
  rw [if_neg (by simp)]

example : flipSkel exSkel = .ok ⟨[0, 1], [0, 1], 1, -2, 0, some [true]⟩ := by
  norm_num [flipSkel, reversePath, reflectPath, exSkel]
  rw [if_neg (by simp)]

end Ctb
