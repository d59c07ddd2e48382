import Verif.Lemmas.LayerPaths

set_option linter.unusedSectionVars false

/-! # C44: values of a layered bridge stay in their band -/

namespace Ctb

open Classical Filter Topology

variable {t xt : List ℝ} {T a b m : ℝ} {U L : Option ℝ} {n k : ℕ}

/-- One value per requested time, all of them in `[inf_x, ub_sup_x)`. -/
theorem C44_values {hit : Option (List Bool)} (h : (sampleLayerbr n k t T a b m U L).Out (.ok (xt, hit))) :
    xt.length = t.length ∧ (∀ v ∈ xt, m ≤ v) ∧ ∀ U', U = some U' → ∀ v ∈ xt, v < U' := by
  obtain ⟨i, hp, -⟩ := sampleLayerbr_out h
  exact ⟨hp.len, hp.low, hp.up⟩

/-- Flags come exactly when a hitting level is given: one per gap, at least one set. -/
theorem C44_flags {hit : Option (List Bool)} (h : (sampleLayerbr n k t T a b m U L).Out (.ok (xt, hit))) :
    (L = none → hit = none) ∧ (L ≠ none → ∃ i, hit = some i ∧ i.length = t.length + 1 ∧ true ∈ i) := by
  obtain ⟨i, hp, h1, h2⟩ := sampleLayerbr_out h
  refine ⟨h1, fun hL => ⟨i, (h2 hL).1, ?_, (h2 hL).2⟩⟩
  obtain ⟨L', rfl⟩ := Option.ne_none_iff_exists'.1 hL
  rw [(hp.hit L' rfl).length_eq, pairsOf_length]
  simp [hp.len]

/-- A gap without its flag set has both ends below the hitting level. -/
theorem C44_below {i : List Bool} {L' : ℝ} (h : (sampleLayerbr n k t T a b m U (some L')).Out (.ok (xt, some i))) :
    List.Forall₂ (fun f g => f = false → g.1 < L' ∧ g.2 < L') i (pairsOf (a :: xt ++ [b])) := by
  obtain ⟨i', hp, -, h2⟩ := sampleLayerbr_out h
  obtain ⟨e, -⟩ := h2 (by simp)
  simp only [Option.some.injEq] at e
  subst e
  exact hp.hit L' rfl

/-- A value is returned only for admissible arguments. -/
theorem C44_arguments {q : List ℝ × Option (List Bool)} (h : (sampleLayerbr n k t T a b m U L).Out (.ok q)) :
    t ≠ [] ∧ (∀ s ∈ t, 0 < s ∧ s < T) ∧ m ≤ a ∧ m ≤ b ∧ (∀ U', U = some U' → a < U' ∧ b < U') ∧
      ∀ U' L', U = some U' → L = some L' → L' < U' := by
  unfold sampleLayerbr at h
  split_ifs at h with ht
  · cases h
  simp only [Prog.out_bind_ok, Prog.out_assert_ok] at h
  obtain ⟨-, h1, -, -, -, h2, -, h3, -, h4, -⟩ := h
  exact ⟨ht, h1, (le_min_iff.1 h2).1, (le_min_iff.1 h2).2, fun U' hU => max_lt_iff.1 (h3 U' hU), h4⟩

theorem besEsc_false_reachable {K : ℝ} (hT : 0 < T) (ha : 0 ≤ a) (hb : 0 < b) (haK : a < K) (hbK : b < K) :
    (besEsc T a b K none none).Out (.ok false) := by
  obtain ⟨p, hp1, hp, hp0, -⟩ := bes_search hT ha hb haK hbK
  have h1 : p < (p + 1) / 2 := by linarith
  have h2 : (p + 1) / 2 < 1 := by linarith
  have := ((C43_decision hT ha hb haK hbK hp (by linarith) h2.le (.ok false)).2 h1).2 rfl
  simp only [besEsc] at this ⊢
  rw [Prog.out_bind_ok]
  exact ⟨_, ⟨_, mem_uniform01.2 ⟨by linarith, h2⟩, rfl⟩, this⟩

theorem besEsc_true_reachable {K : ℝ} {B : Option ℝ} (hT : 0 < T) (ha : 0 ≤ a) (hb : 0 < b) (hK : K ≤ max a b) :
    (besEsc T a b K B none).Out (.ok true) := by
  have := (C43_outside (B := B) hT ha hb hK (by norm_num : (0 : ℝ) ≤ 1 / 2) (by norm_num) (.ok true)).2 rfl
  simp only [besEsc] at this ⊢
  rw [Prog.out_bind_ok]
  exact ⟨_, ⟨_, mem_uniform01.2 ⟨by norm_num, by norm_num⟩, rfl⟩, this⟩

theorem brownbr_one (w z : ℝ) : (sampleBrownbr [1 / 2] 1 0 w).Out (.ok [(z + w) / 2]) := by
  unfold sampleBrownbr
  rw [if_neg (by simp), Prog.out_bind_ok]
  refine ⟨(), Prog.out_assert_ok.2 (by norm_num), ?_⟩
  rw [Prog.out_bind_ok]
  refine ⟨[z + w], ?_, ?_⟩
  · unfold sampleWiener
    rw [if_neg (by simp), Prog.out_bind_ok]
    refine ⟨(), Prog.out_assert_ok.2 (by norm_num), ?_⟩
    rw [if_neg (by norm_num [ediffBegin, npDiff]), Prog.out_bind_ok]
    refine ⟨[z], ?_, ?_⟩
    · rw [Prog.out_replicate_ok]
      refine ⟨rfl, ?_⟩
      intro y hy
      rw [List.mem_singleton] at hy
      subst hy
      exact ⟨y, by simp [RDist.support], rfl⟩
    · norm_num [npCumsum, cumsumFrom, wienerIncs, ediffBegin, npDiff]
  · norm_num
    ring

/-- The hypotheses can be met: a path through 3/2 at time 1/2, staying below 3 and above 0, hitting 1 in both gaps. -/
theorem layerbr_reachable : (sampleLayerbr 1 1 [1 / 2] 1 0 1 0 (some 3) (some 1)).Out (.ok ([3 / 2], some [true, true])) := by
  have hb : (sampleBesselbr [1 / 2] 1 1 3).Out (.ok [3 / 2]) := by
    unfold sampleBesselbr
    rw [if_neg (by simp)]
    simp only [Prog.out_bind_ok, Prog.out_assert_ok]
    refine ⟨(), by norm_num, (), by norm_num, [[(0 + 0) / 2], [(0 + 0) / 2], [(2 + 1) / 2]], ?_, ?_⟩
    · rw [Prog.out_mapM'_ok]
      refine List.Forall₂.cons (brownbr_one 0 0) (List.Forall₂.cons (brownbr_one 0 0) (List.Forall₂.cons (brownbr_one 1 2) List.Forall₂.nil))
    · have : √((3 / 2 : ℝ) ^ 2) = 3 / 2 := Real.sqrt_sq (by norm_num)
      simp [colNorm]
      norm_num at this ⊢
      exact this.symm
  have he : (proposeEdge 1 [1 / 2] 1 1 (some 3) (some 1)).Out (.ok ([3 / 2], [true, true])) := by
    simp only [proposeEdge, Prog.out_bind_ok, Prog.out_assert_ok]
    refine ⟨(), by norm_num, (), by norm_num, ?_⟩
    simp only [edgeLoop]
    rw [if_neg (by simp), Prog.out_bind_ok]
    refine ⟨_, hb, ?_⟩
    rw [Prog.out_bind_ok]
    refine ⟨false, ?_, ?_⟩
    · simp only [escAny, Prog.out_bind_ok]
      refine ⟨[false, false], ?_, by simp⟩
      unfold escGaps
      rw [Prog.out_mapM'_ok]
      refine List.Forall₂.cons ?_ (List.Forall₂.cons ?_ List.Forall₂.nil) <;> apply besEsc_false_reachable <;> norm_num
    · rw [if_neg (by simp), Prog.out_bind_ok]
      refine ⟨[true, true], ?_, rfl⟩
      simp only [hitFlags]
      unfold escGaps
      rw [Prog.out_mapM'_ok]
      refine List.Forall₂.cons ?_ (List.Forall₂.cons ?_ List.Forall₂.nil) <;> apply besEsc_true_reachable <;> norm_num
  have hp : (proposeLayer 1 (some 3) (some 1) [1 / 2] 1 0 1 0).Out (.ok ([3 / 2], [true, true])) := by
    unfold proposeLayer
    simp only [layerStep]
    simp only [Prog.out_bind_ok, Prog.out_assert_ok]
    refine ⟨(), by norm_num, (), by norm_num, (), by norm_num, ?_⟩
    rw [if_neg (by norm_num), if_pos (by simp), if_neg (by norm_num), Prog.out_bind_ok]
    refine ⟨([3 / 2], [true, true]), ?_, by simp⟩
    simpa using he
  unfold sampleLayerbr
  rw [if_neg (by simp)]
  simp only [Prog.out_bind_ok, Prog.out_assert_ok]
  refine ⟨(), by norm_num, (), by norm_num, (), by norm_num, (), by norm_num, (), by norm_num, ?_⟩
  simp only [layerbrLoop, Prog.out_bind_ok]
  exact ⟨_, hp, by simp⟩

example : (∀ v ∈ [(3 / 2 : ℝ)], 0 ≤ v) ∧ (∀ U', some (3 : ℝ) = some U' → ∀ v ∈ [(3 / 2 : ℝ)], v < U') ∧
    List.Forall₂ (fun f g => f = false → g.1 < (1 : ℝ) ∧ g.2 < 1) [true, true] (pairsOf (0 :: [3 / 2] ++ [1])) :=
  ⟨(C44_values layerbr_reachable).2.1, (C44_values layerbr_reachable).2.2, C44_below layerbr_reachable⟩

end Ctb
