import Verif.Lemmas.Coin
import Verif.Props.Seed
import Verif.Props.Interp

set_option linter.unusedSectionVars false

/-! # C54, C55: the Poisson coins -/

namespace Ctb

open Classical
open scoped ENNReal

/-! ## Interpolation of a seed -/

variable {n k : ℕ} {op : NormOp} {s s' : EaSkel} {ts xs : List ℝ}

/-- What `interpolate_seed` does: the seed is refined at the normalised times, the values returned are those of the path. -/
theorem interpolateSeed_out (hT : 0 < op.finT) (hv : s.Valid) (hN : ts.Pairwise (· < ·))
    (h : (interpolateSeed n k op s ts).Out (.ok (s', xs))) :
    s'.Valid ∧ s'.tight = s.tight ∧ s'.loose = s.loose ∧ (s.Within → s'.Within) ∧ (∀ p ∈ s.t.zip s.x, p ∈ s'.t.zip s'.x) ∧
      List.Forall₂ (fun τ x => ∃ w, (τ / op.finT, w) ∈ s'.t.zip s'.x ∧ x = pathVal op τ w) ts xs := by
  unfold interpolateSeed at h
  rw [Prog.out_bind_ok] at h
  obtain ⟨⟨s1, vals⟩, h1, h⟩ := h
  change (interpolateSkel n k s (ts.map fun t => t / op.finT)).Out _ at h1
  have hN' : (ts.map fun t => t / op.finT).Pairwise (· < ·) := by
    rw [List.pairwise_map]
    exact hN.imp fun h => by gcongr
  obtain ⟨r1, r2, r3, r4, r5⟩ := C45_refines hv hN' h1
  by_cases hl : vals.length = (ts.map fun t => (op.norm t none).1).length
  · rw [if_pos hl] at h
    simp only [Prog.out_ret, Except.ok.injEq, Prod.mk.injEq] at h
    obtain ⟨rfl, rfl⟩ := h
    refine ⟨r2, r3, r4, fun hw => C45_within hv hN' hw h1, r1.old, ?_⟩
    rw [List.forall₂_iff_get]
    simp only [List.length_map] at hl
    refine ⟨by simp [hl], ?_⟩
    intro i hi hi'
    have := (List.forall₂_iff_get.1 r1.new).2 i (by simpa using hi) (by omega)
    simp only [List.get_eq_getElem, List.getElem_map] at this
    refine ⟨_, this, ?_⟩
    simp [denorm_val, pathVal, NormOp.norm]
    ring
  · rw [if_neg hl] at h
    simp at h

/-! ## C54 -/

theorem pointOf_mem {b : List (List ℝ)} {p : ℝ × ℝ} : p ∈ byTime b ↔ ∃ row ∈ b, pointOf row = p := by
  rw [(byTime_perm b).mem_iff, List.mem_map, rowPoint_eq]

theorem lowerAt_one {T l r : ℝ} (h0 : 0 ≤ r) (h1 : r < T) : lowerAt [0, T] [l] r = some l := by
  simp [lowerAt, searchRight, List.takeWhile, h0, not_le.2 h1, pyGet]

theorem anyBelow_one {disc : ℝ → ℝ} {T l : ℝ} {ps : List (ℝ × ℝ)} {xs : List ℝ} (h : ∀ p ∈ ps, 0 ≤ p.2 ∧ p.2 < T) :
    anyBelow disc [0, T] [l] ps xs = .ok ((List.zipWith (fun (p : ℝ × ℝ) x => decide (p.1 < disc x - l)) ps xs).any id) := by
  have : ∀ (ps : List (ℝ × ℝ)) (xs : List ℝ), (∀ p ∈ ps, 0 ≤ p.2 ∧ p.2 < T) → listOk (List.zipWith (isBelow disc [0, T] [l]) ps xs) =
      .ok (List.zipWith (fun (p : ℝ × ℝ) x => decide (p.1 < disc x - l)) ps xs) := by
    intro ps
    induction ps with
    | nil => intro xs _; simp [listOk]
    | cons p ps ih =>
      intro xs hp
      cases xs with
      | nil => simp [listOk]
      | cons x xs =>
        obtain ⟨h0, h1⟩ := hp p (by simp)
        simp only [List.zipWith_cons_cons, listOk, isBelow, lowerAt_one h0 h1, Except.bind]
        rw [ih xs fun q hq => hp q (by simp [hq])]
  unfold anyBelow
  rw [this ps xs h]

/-- The values of the seed at the points of a batch. -/
theorem any_zipWith_iff {G : ℝ × ℝ → ℝ → Prop} {R : ℝ → ℝ → Prop} {ps : List (ℝ × ℝ)} {xs : List ℝ} (h : List.Forall₂ R (ps.map Prod.snd) xs) :
    ((List.zipWith (fun (p : ℝ × ℝ) x => decide (G p x)) ps xs).any id = true → ∃ p ∈ ps, ∃ x, R p.2 x ∧ G p x) ∧
      ((List.zipWith (fun (p : ℝ × ℝ) x => decide (G p x)) ps xs).any id = false → ∀ p ∈ ps, ∃ x, R p.2 x ∧ ¬ G p x) := by
  induction ps generalizing xs with
  | nil => simp
  | cons p ps ih =>
    cases h with
    | cons h1 h2 =>
      rename_i x xs
      obtain ⟨i1, i2⟩ := ih h2
      simp only [List.zipWith_cons_cons, List.any_cons, id, Bool.or_eq_true, decide_eq_true_eq, Bool.or_eq_false_iff, decide_eq_false_iff_not]
      constructor
      · rintro (hg | hg)
        · exact ⟨p, by simp, x, h1, hg⟩
        · obtain ⟨q, hq, y, hy⟩ := i1 hg
          exact ⟨q, by simp [hq], y, hy⟩
      · rintro ⟨hg, hr⟩ q hq
        rcases List.mem_cons.1 hq with rfl | hq
        · exact ⟨x, h1, hg⟩
        · exact i2 hr q hq

theorem forall2_mem {R : ℝ → ℝ → Prop} {ps : List (ℝ × ℝ)} {xs : List ℝ} (h : List.Forall₂ R (ps.map Prod.snd) xs) {p : ℝ × ℝ} (hp : p ∈ ps) :
    ∃ x, R p.2 x := by
  induction ps generalizing xs with
  | nil => simp at hp
  | cons q ps ih =>
    cases h with
    | cons h1 h2 =>
      rcases List.mem_cons.1 hp with rfl | hp
      · exact ⟨_, h1⟩
      · exact ih h2 hp

/-- The stored value at a time is unique. -/
theorem zip_unique {t x : List ℝ} (ht : t.Pairwise (· < ·)) {r a b : ℝ} (ha : (r, a) ∈ t.zip x) (hb : (r, b) ∈ t.zip x) : a = b := by
  obtain ⟨i, hi, ei⟩ := List.mem_iff_getElem.1 ha
  obtain ⟨j, hj, ej⟩ := List.mem_iff_getElem.1 hb
  rw [List.getElem_zip] at ei ej
  simp only [List.length_zip] at hi hj
  simp only [Prod.mk.injEq] at ei ej
  have : i = j := by
    rcases lt_trichotomy i j with h | h | h
    · have := List.pairwise_iff_getElem.1 ht i j (by omega) (by omega) h
      rw [ei.1, ej.1] at this
      exact absurd this (lt_irrefl _)
    · exact h
    · have := List.pairwise_iff_getElem.1 ht j i (by omega) (by omega) h
      rw [ei.1, ej.1] at this
      exact absurd this (lt_irrefl _)
  subst this
  rw [← ei.2, ← ej.2]

/-- The point `p = (mark, time)` lies strictly under the graph of `disc - l` along the path: `val τ w` is the value of the path at time `τ` when
the skeleton has the value `w` at `key τ`. -/
def UnderPath (disc : ℝ → ℝ) (key : ℝ → ℝ) (val : ℝ → ℝ → ℝ) (l : ℝ) (z : EaSkel) (p : ℝ × ℝ) : Prop :=
  ∃ w, (key p.2, w) ∈ z.t.zip z.x ∧ p.1 < disc (val p.2 w) - l

/-- For a seed. -/
def Under (disc : ℝ → ℝ) (op : NormOp) (l : ℝ) (z : EaSkel) (p : ℝ × ℝ) : Prop := UnderPath disc (fun τ => τ / op.finT) (pathVal op) l z p

/-- The seed knows its value at the time of the point. -/
def Knows (op : NormOp) (z : EaSkel) (p : ℝ × ℝ) : Prop := ∃ w, (p.2 / op.finT, w) ∈ z.t.zip z.x

/-- Search of the batches by an examination that refines the skeleton at the times of the points. -/
theorem searched_known {disc : ℝ → ℝ} {key : ℝ → ℝ} {val : ℝ → ℝ → ℝ} {l : ℝ} {R : EaSkel → List (List ℝ) → Bool → EaSkel → Prop}
    (hR : ∀ s b v s', s.Valid → R s b v s' → ∃ xs, s'.Valid ∧ (∀ p ∈ s.t.zip s.x, p ∈ s'.t.zip s'.x) ∧
      List.Forall₂ (fun τ x => ∃ w, (key τ, w) ∈ s'.t.zip s'.x ∧ x = val τ w) ((byTime b).map Prod.snd) xs ∧
      v = (List.zipWith (fun (p : ℝ × ℝ) x => decide (p.1 < disc x - l)) (byTime b) xs).any id)
    {z z' : EaSkel} {v : Bool} {bs : List (List (List ℝ))} (hv : z.Valid) (h : Searched R z bs v z') :
    z'.Valid ∧ (∀ p ∈ z.t.zip z.x, p ∈ z'.t.zip z'.x) ∧ (∀ row ∈ bs.flatten, ∃ w, (key (pointOf row).2, w) ∈ z'.t.zip z'.x) ∧
      (v = true ↔ ∀ row ∈ bs.flatten, ¬ UnderPath disc key val l z' (pointOf row)) := by
  induction h with
  | done s => exact ⟨hv, fun _ h => h, by simp, by simp⟩
  | stop hr =>
    rename_i z z' b
    obtain ⟨xs, a1, a5, a6, hb⟩ := hR _ _ _ _ hv hr
    obtain ⟨p, hp, x, ⟨w, hw, rfl⟩, hlt⟩ := (any_zipWith_iff a6).1 hb.symm
    refine ⟨a1, a5, ?_, ?_⟩
    · intro row hrow
      have hmem : pointOf row ∈ byTime b := pointOf_mem.2 ⟨row, by simpa using hrow, rfl⟩
      obtain ⟨x, w, hw, -⟩ := forall2_mem a6 hmem
      exact ⟨w, hw⟩
    · obtain ⟨row, hrow, rfl⟩ := pointOf_mem.1 hp
      simp only [Bool.false_eq_true, false_iff, not_forall, not_not]
      exact ⟨row, by simpa using hrow, w, hw, hlt⟩
  | go hr hs ih =>
    rename_i z z1 z' b bs v
    obtain ⟨xs, a1, a5, a6, hb⟩ := hR _ _ _ _ hv hr
    have hno := (any_zipWith_iff a6).2 hb.symm
    obtain ⟨c1, c5, c6, c7⟩ := ih a1
    have hrow' : ∀ row ∈ b, ∃ w, (key (pointOf row).2, w) ∈ z'.t.zip z'.x ∧ ¬ (pointOf row).1 < disc (val (pointOf row).2 w) - l := by
      intro row hrow
      obtain ⟨x, ⟨w, hw, rfl⟩, hg⟩ := hno (pointOf row) (pointOf_mem.2 ⟨row, hrow, rfl⟩)
      exact ⟨w, c5 _ hw, hg⟩
    refine ⟨c1, fun p hp => c5 p (a5 p hp), ?_, ?_⟩
    · intro row hrow
      rw [List.flatten_cons, List.mem_append] at hrow
      rcases hrow with hrow | hrow
      · obtain ⟨w, hw, -⟩ := hrow' row hrow
        exact ⟨w, hw⟩
      · exact c6 row hrow
    · rw [c7]
      constructor
      · intro h row hrow
        rw [List.flatten_cons, List.mem_append] at hrow
        rcases hrow with hrow | hrow
        · obtain ⟨w, hw, hg⟩ := hrow' row hrow
          rintro ⟨w', hw', hlt⟩
          rw [zip_unique c1.sorted hw' hw] at hlt
          exact hg hlt
        · exact h row hrow
      · intro h row hrow
        exact h row (by simp only [List.flatten_cons, List.mem_append]; exact .inr hrow)

theorem poisson_step {disc : ℝ → ℝ} (hT : 0 < op.finT) {l : ℝ} {s s' : EaSkel} {v : Bool} {b : List (List ℝ)} (hv : s.Valid)
    (h : BatchStep (poissonStep (interpolateSeed n k op) disc [0, op.finT] [l]) op.finT s b v s') : ∃ xs, s'.Valid ∧
      (∀ p ∈ s.t.zip s.x, p ∈ s'.t.zip s'.x) ∧
      List.Forall₂ (fun τ x => ∃ w, (τ / op.finT, w) ∈ s'.t.zip s'.x ∧ x = pathVal op τ w) ((byTime b).map Prod.snd) xs ∧
      v = (List.zipWith (fun (p : ℝ × ℝ) x => decide (p.1 < disc x - l)) (byTime b) xs).any id := by
  obtain ⟨⟨hN, hne, hts⟩, hst⟩ := h
  unfold poissonStep at hst
  rw [Prog.out_bind_ok] at hst
  obtain ⟨⟨s1, xs⟩, h1, hst⟩ := hst
  rw [anyBelow_one hts] at hst
  simp only [Prog.lift, Prog.ret_bind, Prog.out_ret, Except.ok.injEq, Prod.mk.injEq] at hst
  obtain ⟨hb, rfl⟩ := hst
  obtain ⟨a1, a2, a3, a4, a5, a6⟩ := interpolateSeed_out hT hv hN h1
  exact ⟨xs, a1, a5, a6, hb⟩

theorem skel_step {disc : ℝ → ℝ} {T l : ℝ} {s s' : EaSkel} {v : Bool} {b : List (List ℝ)} (hv : s.Valid)
    (h : BatchStep (skelStep (interpolateSkel n k) disc l) T s b v s') : ∃ xs, s'.Valid ∧
      (∀ p ∈ s.t.zip s.x, p ∈ s'.t.zip s'.x) ∧
      List.Forall₂ (fun τ x => ∃ w, (τ, w) ∈ s'.t.zip s'.x ∧ x = w) ((byTime b).map Prod.snd) xs ∧
      v = (List.zipWith (fun (p : ℝ × ℝ) x => decide (p.1 < disc x - l)) (byTime b) xs).any id := by
  obtain ⟨⟨hN, hne, hts⟩, hst⟩ := h
  unfold skelStep at hst
  rw [Prog.out_bind_ok] at hst
  obtain ⟨⟨s1, xs⟩, h1, hst⟩ := hst
  by_cases hl : xs.length = (byTime b).length
  · rw [if_neg (not_not.2 hl)] at hst
    simp only [Prog.out_ret, Except.ok.injEq, Prod.mk.injEq] at hst
    obtain ⟨hb, rfl⟩ := hst
    obtain ⟨r1, r2, -, -, -⟩ := C45_refines hv hN h1
    exact ⟨xs, r2, r1.old, r1.new.imp fun τ x h => ⟨x, h, rfl⟩, hb⟩
  · rw [if_pos hl] at hst
    simp at hst

/-- The bounds on the grid of one piece. -/
theorem bound_one {ebd : ℝ → ℝ → Res DiscBounds} {z : EaSkel} (hT : 0 < op.finT) {t le : List ℝ} {ue : List (WithTop ℝ)}
    (h : boundDiscPath ebd op z (.pieces 1) = .ok (t, le, ue)) : t = [0, op.finT] ∧ ∃ l u, le = [l] ∧ ue = [u] := by
  obtain ⟨-, h1, h2, -, -⟩ := boundDiscPath_ok h
  obtain ⟨g1, g2, g3⟩ := (C53_grid hT h).1 1 rfl
  have hl : le.length = 1 := by omega
  obtain ⟨l, rfl⟩ := List.length_eq_one_iff.1 hl
  obtain ⟨u, rfl⟩ := List.length_eq_one_iff.1 (h2.trans hl)
  obtain ⟨r0, r1, rfl⟩ := List.length_eq_two.1 g1
  have e0 := g3 0 r0 (by simp)
  have e1 := g3 1 r1 (by simp)
  simp only [Nat.cast_zero, zero_mul, Nat.cast_one, div_one, one_mul] at e0 e1
  subst e0 e1
  exact ⟨rfl, l, u, rfl, rfl⟩

/-- Every run without ties: the coin of a seed is true exactly if none of the points examined lies under the graph of the discriminant along
the path of the seed that is returned; a true coin has examined all points of a run of the Poisson sampler, a false one those of the first
batches.  With an infinite upper bound the coin is false and the seed is unchanged. -/
theorem C54_seed {disc : ℝ → ℝ} {ebd : ℝ → ℝ → Res DiscBounds} {size : ℤ} {z z' : EaSkel} {v : Bool} {lb : ℝ} {H : List ℝ} (hv : z.Valid)
    (hT : 0 < op.finT) (h : (flipPoissonCoin n k disc ebd op size z).Gen [] (.ok (v, lb, z')) H) :
    ∃ l u, boundDiscPath ebd op z (.pieces 1) = .ok ([0, op.finT], [l], [u]) ∧ lb = -(op.finT * l) ∧
      (u = ⊤ → v = false ∧ z' = z) ∧
      ∀ u' : ℝ, u = u' → ∃ (bs : List (List (List ℝ))) (j : ℕ), (sampleBatchPpp 1 [u' - l, op.finT] size).Out (.ok bs) ∧ j ≤ bs.length ∧
        (v = true → j = bs.length) ∧ (∀ row ∈ (bs.take j).flatten, Knows op z' (pointOf row)) ∧
        (v = true ↔ ∀ row ∈ (bs.take j).flatten, ¬ Under disc op l z' (pointOf row)) := by
  unfold flipPoissonCoin seedCoin at h
  cases hb : boundDiscPath ebd op z (.pieces 1) with
  | error e => rw [hb] at h; simp [Prog.lift] at h
  | ok b =>
    obtain ⟨t, le, ue⟩ := b
    obtain ⟨rfl, l, u, rfl, rfl⟩ := bound_one hT hb
    rw [hb] at h
    refine ⟨l, u, rfl, ?_⟩
    have hst : stLbDisc [0, op.finT] [l] = -(op.finT * l) := by simp [stLbDisc, npDiff]
    cases u with
    | top =>
      have hm : maxGap [l] [⊤] = .ok ⊤ := rfl
      simp only [Prog.lift, Prog.ret_bind, hm, hst] at h
      simp only [Prog.gen_ret, Except.ok.injEq, Prod.mk.injEq] at h
      obtain ⟨⟨rfl, rfl, rfl⟩, -⟩ := h
      refine ⟨rfl, fun _ => ⟨rfl, rfl⟩, fun u' hu' => by simp at hu'⟩
    | coe u =>
      have hm : maxGap [l] [(u : WithTop ℝ)] = .ok ((u - l : ℝ) : WithTop ℝ) := rfl
      simp only [Prog.lift, Prog.ret_bind, hm, hst] at h
      rw [Prog.gen_bind_ok] at h
      obtain ⟨⟨v1, z1⟩, H1, h1, h2⟩ := h
      simp only [Prog.gen_ret, Except.ok.injEq, Prod.mk.injEq] at h2
      obtain ⟨⟨rfl, rfl, rfl⟩, -⟩ := h2
      refine ⟨rfl, fun hu => by simp at hu, ?_⟩
      intro u' hu'
      have : u = u' := by simpa using hu'
      subst this
      have hf : (op.denorm 1 none).1 = op.finT := by simp [NormOp.denorm]
      rw [hf] at h1
      obtain ⟨-, -, -, bs, j, q1, q2, q3, q4⟩ := batchCoin_gen h1
      obtain ⟨-, -, c6, c7⟩ := searched_known (disc := disc) (l := l) (R := BatchStep _ _) (fun _ _ _ _ hv h => poisson_step hT hv h) hv q4
      exact ⟨bs, j, q1, q2, q3, c6, c7⟩

/-- A seed of a bridge from 0 to 0 between -1 and 1. -/
def exZ : EaSkel := ⟨[0, 1], [0, 0], -1, 1, 0, none⟩

theorem exZ_valid : exZ.Valid := ⟨by simp [exZ], rfl, rfl, by simp [exZ]⟩

theorem exZ_within : exZ.Within := by constructor <;> norm_num [exZ]

/-- The value of the seed at time 0 is known. -/
theorem exZ_known : interpolateSeed 1 1 ⟨1, 1, 0, 0⟩ exZ [0] = .ret (exZ, [0]) := by
  have hs : interpolateSkel 1 1 exZ [0] = .ret (exZ, [0]) := by
    simp only [interpolateSkel]
    rw [if_neg (by simp), if_pos (by norm_num [exZ])]
    have hf : fillOuter 1 1 [0, 1] [0, 0] [0] (-1) (some 1) (some 0) none = .ret ([0, 1], [0, 0], [0], none) := by
      simp only [fillOuter]
      rw [if_neg (by simp)]
      simp only [Prog.assert]
      rw [if_pos (by norm_num), Prog.ret_bind, if_neg (by simp), if_pos (by norm_num), Prog.ret_bind, if_pos (by norm_num), Prog.ret_bind,
        if_pos (by norm_num), Prog.ret_bind]
      have : ([0] : List ℝ).filter (fun r => decide (r ∉ ([0, 1] : List ℝ))) = [] := by norm_num [List.filter]
      rw [this]
      have hi : fillInner 1 1 [0, 1] [0, 0] [] (-1) (some 1) (some 0) none = .ret ([0, 1], [0, 0], [], none) := by
        simp only [fillInner]
        rw [if_pos trivial]
      rw [hi, Prog.ret_bind]
      norm_num [whereIn, List.range_succ, List.filter]
    simp only [exZ]
    rw [hf, Prog.ret_bind]
    simp
  simp [interpolateSeed, NormOp.norm, hs, Prog.ret_bind, NormOp.denorm]

/-- A coin of the Ornstein-Uhlenbeck model that examines one point, at time 0 and height 1/4. -/
example : ∃ H, (flipPoissonCoin 1 1 (itoOu.disc fun _ => 1) (fun l u => .ok (itoOuBounds (fun _ => 1) l u)) ⟨1, 1, 0, 0⟩ 2 exZ).Gen []
    (.ok (true, 1 / 2, exZ)) H := by
  have hb : boundDiscPath (fun l u => .ok (itoOuBounds (fun _ => 1) l u)) ⟨1, 1, 0, 0⟩ exZ (.pieces 1) =
      .ok ([0, 1], [-1 / 2], [((0 : ℝ) : WithTop ℝ)]) := by
    have r3 : List.range (1 + 1) = [0, 1] := rfl
    unfold boundDiscPath
    rw [if_pos (by norm_num [exZ])]
    simp only [Grid.normed, r3, List.map_cons, List.map_nil, NormOp.denorm, Option.map_some, Option.getD_some, List.tail_cons, List.dropLast,
      List.zipWith_cons_cons, List.zipWith_nil_left, listOk, Except.bind]
    simp only [itoOuBounds, ouBoundsDisc, ItoFns.disc, itoOu, exZ]
    norm_num [abs_of_neg, abs_of_pos, max_def, min_def]
  have hm : maxGap [-1 / 2] [((0 : ℝ) : WithTop ℝ)] = .ok ((0 - -1 / 2 : ℝ) : WithTop ℝ) := rfl
  refine ⟨[0, 1 / 2], ?_⟩
  unfold flipPoissonCoin seedCoin
  simp only [hb, Prog.lift, Prog.ret_bind, hm]
  rw [Prog.gen_bind_ok]
  refine ⟨(true, exZ), _, ?_, ?_, rfl⟩
  · simp only [batchCoin, Prog.assert]
    rw [if_pos (by norm_num [NormOp.denorm]), Prog.ret_bind, if_pos (by norm_num), Prog.ret_bind, Prog.gen_nat]
    refine ⟨1, by norm_num [NDist.support, NormOp.denorm], ?_⟩
    have hs : batchSizes 1 (2 : ℤ).toNat = [1] := by simp [batchSizes]
    rw [hs, coinLoop, Prog.gen_bind_ok]
    refine ⟨(1 / 4, [[1 / 4, 0]]), [0, 1 / 2], ?_, ?_⟩
    · simp only [pppBatch, Prog.gen_real]
      refine ⟨1 / 2, by simp only [RDist.support, Set.mem_Ioo]; norm_num, by simp, ?_⟩
      simp only [if_true, Prog.ret_bind, Prog.replicate, drawRow_single, Prog.real_bind, Prog.gen_real, Prog.gen_ret]
      refine ⟨0, ⟨0, le_rfl, one_pos, by norm_num⟩, by norm_num, ?_, rfl⟩
      norm_num
    · have hbt : byTime [[1 / 4, 0]] = [(1 / 4, 0)] := by simp [byTime, rowPoint]
      have hst : poissonStep (interpolateSeed 1 1 ⟨1, 1, 0, 0⟩) (itoOu.disc fun _ => 1) [0, 1] [-1 / 2] exZ [(1 / 4, 0)] = .ret (false, exZ) := by
        simp only [poissonStep, List.map_cons, List.map_nil]
        rw [exZ_known, Prog.ret_bind, anyBelow_one (by norm_num)]
        simp only [Prog.lift, Prog.ret_bind]
        norm_num [ItoFns.disc, itoOu]
      rw [hbt, hst, Prog.ret_bind, if_neg (by simp), coinLoop]
      simp
  · norm_num [stLbDisc, npDiff]

/-- A path fixed in advance: the probability of a true coin is the probability that none of the points of all batches lies under the graph. -/
theorem C54_path {σ : Type} {disc X : ℝ → ℝ} {T l u : ℝ} {size : ℤ} (s : σ) :
    (seedCoin (fun s ts => .ret (s, ts.map X)) disc ⟨T, 1, 0, 0⟩ (.ok ([0, T], [l], [((u : ℝ) : WithTop ℝ)])) size s).prob (fun r => ∃ q, r = .ok (true, q)) =
      (sampleBatchPpp 1 [u - l, T] size).prob
        fun r => ∃ bs, r = .ok bs ∧ ∀ row ∈ bs.flatten, ¬ (pointOf row).1 < disc (X (pointOf row).2) - l := by
  have hm : maxGap [l] [(u : WithTop ℝ)] = .ok ((u - l : ℝ) : WithTop ℝ) := rfl
  have hf : ((⟨T, 1, 0, 0⟩ : NormOp).denorm 1 none).1 = T := by simp [NormOp.denorm]
  have hstep : ∀ (s : σ) (ps : List (ℝ × ℝ)), ps ≠ [] → (∀ p ∈ ps, 0 ≤ p.2 ∧ p.2 < T) →
      ∃ s', poissonStep (fun s ts => .ret (s, ts.map X)) disc [0, T] [l] s ps = .ret (decide (∃ p ∈ ps, p.1 < disc (X p.2) - l), s') := by
    intro s ps _ hps
    refine ⟨s, ?_⟩
    unfold poissonStep
    rw [Prog.ret_bind, anyBelow_one hps]
    simp only [Prog.lift, Prog.ret_bind]
    congr 2
    rw [Bool.eq_iff_iff]
    simp only [List.map_map, List.zipWith_map_right, List.zipWith_self, List.any_map, List.any_eq_true, Function.comp_apply, id, decide_eq_true_eq]
  have := batchCoin_prob (h := u - l) (size := size) hstep s
  unfold Prog.prob at this ⊢
  unfold seedCoin
  simp only [Prog.lift, Prog.ret_bind, hm, hf]
  rw [Prog.lexp_bind]
  refine Eq.trans (Prog.lexp_congr fun r _ => ?_) this
  rcases r with e | ⟨v, q⟩
  · simp only [Prog.cont_error]
    rw [if_neg (by simp), if_neg (by rintro ⟨s, hs⟩; simp at hs)]
  · simp only [Prog.cont_ok, Prog.lexp_ret]
    congr 1
    refine propext ⟨?_, ?_⟩
    · rintro ⟨q', hq⟩
      simp only [Except.ok.injEq, Prod.mk.injEq] at hq
      exact ⟨q, by rw [hq.1]⟩
    · rintro ⟨q', hq⟩
      simp only [Except.ok.injEq, Prod.mk.injEq] at hq
      exact ⟨_, by rw [hq.1]⟩

/-- The coin of a skeleton, `ea3lib/skeleton.py`: the level is the first component of the bounds, the box the last time. -/
theorem C54_skeleton {disc : ℝ → ℝ} {ebd : ℝ → ℝ → Res DiscBounds} {size : ℤ} {z z' : EaSkel} {v : Bool} {H : List ℝ} (hv : z.Valid)
    (h : (flipSkelCoin n k disc ebd size z).Gen [] (.ok (v, z')) H) :
    ∃ (c l u T : ℝ), ebd (min z.loose z.tight) (max z.loose z.tight) = .ok (some c, l, (u : WithTop ℝ)) ∧ z.t.getLast? = some T ∧
      ∃ (bs : List (List (List ℝ))) (j : ℕ), (sampleBatchPpp 1 [u - c, T] size).Out (.ok bs) ∧ j ≤ bs.length ∧
        (v = true → j = bs.length) ∧ (∀ row ∈ (bs.take j).flatten, ∃ w, ((pointOf row).2, w) ∈ z'.t.zip z'.x) ∧
        (v = true ↔ ∀ row ∈ (bs.take j).flatten, ¬ ∃ w, ((pointOf row).2, w) ∈ z'.t.zip z'.x ∧ (pointOf row).1 < disc w - c) := by
  unfold flipSkelCoin at h
  rw [Prog.gen_bind_ok] at h
  obtain ⟨⟨c, l, u⟩, H1, hb, h⟩ := h
  have hb := hb.out
  rw [Prog.out_lift] at hb
  split at h
  · simp at h
  · rename_i T hT
    unfold skelCoin at h
    dsimp only at h
    split at h
    · rename_i c u _
      obtain ⟨-, -, -, bs, j, q1, q2, q3, q4⟩ := batchCoin_gen h
      obtain ⟨-, -, c6, c7⟩ := searched_known (disc := disc) (l := _) (key := id) (val := fun _ w => w) (R := BatchStep _ _) (fun _ _ _ _ hv h => skel_step hv h) hv q4
      exact ⟨c, l, u, T, hb.symm, hT, bs, j, q1, q2, q3, c6, c7⟩
    · simp at h
    · split_ifs at h <;> simp at h

/-- A path fixed in advance, skeleton version. -/
theorem C54_skeleton_path {σ : Type} {disc X : ℝ → ℝ} {T c l u : ℝ} {size : ℤ} (s : σ) :
    (skelCoin (fun s ts => .ret (s, ts.map X)) disc (some c, l, ((u : ℝ) : WithTop ℝ)) T size s).prob (fun r => ∃ q, r = .ok (true, q)) =
      (sampleBatchPpp 1 [u - c, T] size).prob
        fun r => ∃ bs, r = .ok bs ∧ ∀ row ∈ bs.flatten, ¬ (pointOf row).1 < disc (X (pointOf row).2) - c := by
  have hstep : ∀ (s : σ) (ps : List (ℝ × ℝ)), ps ≠ [] → (∀ p ∈ ps, 0 ≤ p.2 ∧ p.2 < T) →
      ∃ s', skelStep (fun s ts => .ret (s, ts.map X)) disc c s ps = .ret (decide (∃ p ∈ ps, p.1 < disc (X p.2) - c), s') := by
    intro s ps _ hps
    refine ⟨s, ?_⟩
    unfold skelStep
    rw [Prog.ret_bind, if_neg (by simp)]
    congr 2
    rw [Bool.eq_iff_iff]
    simp only [List.map_map, List.zipWith_map_right, List.zipWith_self, List.any_map, List.any_eq_true, Function.comp_apply, id, decide_eq_true_eq]
  exact batchCoin_prob (h := u - c) (size := size) hstep s

/-! ## C55: the assertion of the dual coin -/

theorem coinLoop_gen_congr {σ : Type} {step1 step2 : σ → List (ℝ × ℝ) → Prog (Bool × σ)} {I : σ → Prop} {m : ℕ} {h T : ℝ} (hT : 0 < T)
    (hstep : ∀ s ps H r H', I s → (ps.map Prod.snd).Pairwise (· < ·) → (∀ p ∈ ps, 0 ≤ p.2 ∧ p.2 < T) →
      ((step1 s ps).Gen H r H' ↔ (step2 s ps).Gen H r H') ∧ ∀ v s', (step2 s ps).Gen H (.ok (v, s')) H' → I s')
    {is : List ℕ} (his : ∀ i ∈ is, 0 < i) : ∀ {s : σ} {lb : ℝ} {r : Res (Bool × σ)} {H H' : List ℝ}, I s →
      ((coinLoop step1 m h T s lb is).Gen H r H' ↔ (coinLoop step2 m h T s lb is).Gen H r H') := by
  induction is with
  | nil => intro s lb r H H' _; simp [coinLoop]
  | cons i is ih =>
    intro s lb r H H' hI
    rw [coinLoop, coinLoop, Prog.gen_bind, Prog.gen_bind]
    refine or_congr (exists_congr fun a => exists_congr fun H1 => and_congr_right fun hb => ?_) Iff.rfl
    obtain ⟨ub, pts⟩ := a
    obtain ⟨g1, -, g3⟩ := pppBatch_gen hT (his i (by simp)) hb
    have hs := fun r H' => (hstep s (byTime pts) H1 r H' hI g1 g3)
    rw [Prog.gen_bind, Prog.gen_bind]
    refine or_congr (exists_congr fun q => exists_congr fun H2 => ?_) (exists_congr fun e => and_congr_left fun _ => (hs _ _).1)
    obtain ⟨v, s1⟩ := q
    refine (and_congr_left fun _ => (hs _ _).1).trans (and_congr_right fun hq => ?_)
    have hI1 := (hs (.ok (v, s1)) H2).2 v s1 hq
    cases v with
    | true => rw [if_pos rfl, if_pos rfl]
    | false =>
      rw [if_neg (by simp), if_neg (by simp)]
      exact ih (fun j hj => his j (by simp [hj])) hI1

theorem batchCoin_gen_congr {σ : Type} {step1 step2 : σ → List (ℝ × ℝ) → Prog (Bool × σ)} {I : σ → Prop} {h T : ℝ} {size : ℤ}
    (hstep : 0 < T → ∀ s ps H r H', I s → (ps.map Prod.snd).Pairwise (· < ·) → (∀ p ∈ ps, 0 ≤ p.2 ∧ p.2 < T) →
      ((step1 s ps).Gen H r H' ↔ (step2 s ps).Gen H r H') ∧ ∀ v s', (step2 s ps).Gen H (.ok (v, s')) H' → I s')
    {s : σ} {r : Res (Bool × σ)} {H H' : List ℝ} (hI : I s) :
    (batchCoin step1 h T size s).Gen H r H' ↔ (batchCoin step2 h T size s).Gen H r H' := by
  unfold batchCoin
  by_cases hb : ∀ b ∈ [h, T], 0 < b
  · rw [Prog.assert, if_pos hb, Prog.ret_bind, Prog.ret_bind]
    by_cases hs : 0 < size
    · rw [Prog.assert, if_pos hs, Prog.ret_bind, Prog.ret_bind, Prog.gen_nat, Prog.gen_nat]
      refine exists_congr fun m => and_congr_right fun _ => ?_
      have hT := hb T (by simp)
      exact coinLoop_gen_congr hT (hstep hT) (fun i hi => (batchSizes_pos (by omega) i hi).1) hI
    · rw [Prog.assert, if_neg hs, Prog.err_bind, Prog.err_bind]
  · rw [Prog.assert, if_neg hb, Prog.err_bind, Prog.err_bind]

/-- All values of the seed lie between its edges. -/
theorem within_uIcc {z : EaSkel} (h : z.Within) {r w : ℝ} (hw : (r, w) ∈ z.t.zip z.x) : w ∈ Set.uIcc z.loose z.tight := by
  have hx : w ∈ z.x := (List.of_mem_zip hw).2
  rw [Set.mem_uIcc]
  by_cases ht : z.tight < z.loose
  · obtain ⟨h1, h2⟩ := h.1 ht w hx
    exact .inr ⟨h1, h2.le⟩
  · obtain ⟨h1, h2⟩ := h.2 ht w hx
    exact .inl ⟨h1.le, h2⟩

theorem dualGap_le {upside : Bool} {p0 p1 c : ℝ} (h : |p1 - p0| ≤ c) : dualGap upside p0 p1 ≤ c := by
  have h0 := (abs_nonneg _).trans h
  unfold dualGap
  have h1 := (le_abs_self (p1 - p0)).trans h
  have h2 := (neg_abs_le (p1 - p0)).trans' (neg_le_neg h)
  split_ifs <;> linarith

/-- If the intensity dominates the difference of the discriminants on the seed, the internal assertion of `flip_dual_coin` never fails: with
and without it the coin has the same runs. -/
theorem C55_coin {op0 op1 : NormOp} {disc0 disc1 : ℝ → ℝ} {intensity : ℝ} {upside : Bool} {size : ℤ} {z : EaSkel} (hv : z.Valid)
    (hw : z.Within) (hTT : op1.finT = op0.finT)
    (hbound : 0 < op0.finT → ∀ s, 0 ≤ s → s ≤ 1 → ∀ w ∈ Set.uIcc z.loose z.tight,
      |disc1 (pathVal op1 (s * op0.finT) w) - disc0 (pathVal op0 (s * op0.finT) w)| ≤ intensity)
    {r : Res (Bool × EaSkel)} {H : List ℝ} :
    (flipDualCoin true n k intensity op0 op1 disc0 disc1 upside size z).Gen [] r H ↔
      (flipDualCoin false n k intensity op0 op1 disc0 disc1 upside size z).Gen [] r H := by
  unfold flipDualCoin
  have hf : (op0.denorm 1 none).1 = op0.finT := by simp [NormOp.denorm]
  rw [hf]
  refine batchCoin_gen_congr (I := fun s => s.Valid ∧ s.Within ∧ s.tight = z.tight ∧ s.loose = z.loose) ?_ ⟨hv, hw, rfl, rfl⟩
  rintro hT s ps H r H' ⟨i1, i2, i3, i4⟩ hN hps
  have hT1 : 0 < op1.finT := by rw [hTT]; exact hT
  have key : ∀ {q0 q1 : EaSkel × List ℝ}, (interpolateSeed n k op0 s (ps.map Prod.snd)).Out (.ok q0) →
      (interpolateSeed n k op1 q0.1 (ps.map Prod.snd)).Out (.ok q1) →
      (q1.1.Valid ∧ q1.1.Within ∧ q1.1.tight = z.tight ∧ q1.1.loose = z.loose) ∧ q0.2.length = q1.2.length ∧
        ¬ ∃ g ∈ List.zipWith (fun x0 x1 => dualGap upside (disc0 x0) (disc1 x1)) q0.2 q1.2, intensity < g := by
    rintro ⟨s1, xs0⟩ ⟨s2, xs1⟩ h0 h1
    obtain ⟨a1, a2, a3, a4, a5, a6⟩ := interpolateSeed_out hT i1 hN h0
    obtain ⟨b1, b2, b3, b4, b5, b6⟩ := interpolateSeed_out hT1 a1 hN h1
    have l0 := a6.length_eq
    have l1 := b6.length_eq
    refine ⟨⟨b1, b4 (a4 i2), by simp [b2, a2, i3], by simp [b3, a3, i4]⟩, by simp [← l0, ← l1], ?_⟩
    rintro ⟨g, hg, hlt⟩
    obtain ⟨i, hi, rfl⟩ := List.mem_iff_getElem.1 hg
    simp only [List.length_zipWith] at hi
    rw [List.getElem_zipWith] at hlt
    have hi' : i < (ps.map Prod.snd).length := by omega
    obtain ⟨w0, hw0, e0⟩ := (List.forall₂_iff_get.1 a6).2 i hi' (by omega)
    obtain ⟨w1, hw1, e1⟩ := (List.forall₂_iff_get.1 b6).2 i hi' (by omega)
    simp only [List.get_eq_getElem] at hw0 e0 hw1 e1
    rw [hTT] at hw1
    rw [zip_unique b1.sorted hw1 (b5 _ hw0)] at e1
    rw [e0, e1] at hlt
    have hp := hps _ (List.getElem_mem (by simpa using hi') : ps[i]'(by simpa using hi') ∈ ps)
    have hτ : (ps.map Prod.snd)[i] = (ps[i]'(by simpa using hi')).2 := by simp
    have hb := hbound hT ((ps.map Prod.snd)[i] / op0.finT) (by rw [hτ]; exact div_nonneg hp.1 hT.le)
      (by rw [hτ, div_le_one hT]; exact hp.2.le) w0 (by
        have := within_uIcc (a4 i2) hw0
        rw [a3, a2, i3, i4] at this
        exact this)
    rw [div_mul_cancel₀ _ hT.ne'] at hb
    exact absurd hlt (not_lt.2 (dualGap_le hb))
  unfold dualStep
  constructor
  · rw [Prog.gen_bind, Prog.gen_bind]
    refine or_congr (exists_congr fun q0 => exists_congr fun H1 => and_congr_right fun h0 => ?_) Iff.rfl
    rw [Prog.gen_bind, Prog.gen_bind]
    refine or_congr (exists_congr fun q1 => exists_congr fun H2 => and_congr_right fun h1 => ?_) Iff.rfl
    obtain ⟨-, hl, hg⟩ := key h0.out h1.out
    rw [if_neg (not_not.2 hl), if_neg (not_not.2 hl)]
    dsimp only
    rw [if_pos rfl, if_neg (by simp), Prog.assert, if_pos hg]
  · intro v s' h
    rw [Prog.gen_bind_ok] at h
    obtain ⟨q0, H1, h0, h⟩ := h
    rw [Prog.gen_bind_ok] at h
    obtain ⟨q1, H2, h1, h⟩ := h
    obtain ⟨hI, hl, hg⟩ := key h0.out h1.out
    rw [if_neg (not_not.2 hl)] at h
    dsimp only at h
    rw [if_neg (by simp), Prog.ret_bind, Prog.gen_ret] at h
    simp only [Except.ok.injEq, Prod.mk.injEq] at h
    rw [h.1.2]
    exact hI

theorem denorm_pathVal {op : NormOp} {T : ℝ} (hop : op.finT = T) (hT : 0 < T) (s w : ℝ) :
    (op.denorm s (some w)).2 = some (pathVal op (s * T) w) := by
  subst hop
  simp only [NormOp.denorm, Option.map_some, Option.some.injEq, pathVal]
  rw [mul_div_cancel_right₀ _ hT.ne']
  ring

/-- `ito/models/ou.py` -/
theorem C55_ito {nil prime : Fin 2 → ℝ} (hn : ∀ i, 0 < nil i) (hp : ∀ i, 0 < prime i) {T v0 v1 : ℝ} {upside : Bool} {size : ℤ} {z : EaSkel}
    (hv : z.Valid) (hw : z.Within) {r : Res (Bool × EaSkel)} {H : List ℝ} :
    (itoFlipParam true n k itoOu itoOuGrad nil prime T v0 v1 upside size z).Gen [] r H ↔
      (itoFlipParam false n k itoOu itoOuGrad nil prime T v0 v1 upside size z).Gen [] r H := by
  have e : ∀ thi, itoNormops itoOu thi [0, T] [v0, v1] = [⟨T - 0, Real.sqrt (T - 0), v0 / thi 1, v1 / thi 1⟩] := by
    intro thi; simp [itoNormops, npDiff, itoOu]
  unfold itoFlipParam
  rw [e nil, e prime]
  dsimp only
  refine C55_coin hv hw ?_ ?_
  · rfl
  intro hT s h0 h1 w hw
  have hT' : 0 ≤ T := by simpa using hT.le
  refine C55_ito_bound hn hp hT' h0 h1 hw (e nil) (e prime) ?_ ?_
  · refine denorm_pathVal ?_ hT s w
    rfl
  · refine denorm_pathVal ?_ hT s w
    rfl

/-- `switching/models/ou.py` -/
theorem C55_ou {nil prime : Thi 2} {y : ℕ} (hn : ∀ i, 0 < nil y i) (hp : ∀ i, 0 < prime y i) {T v0 v1 : ℝ} {upside : Bool} {size : ℤ}
    {z : EaSkel} (hv : z.Valid) (hw : z.Within) {r : Res (Bool × EaSkel)} {H : List ℝ} :
    (swFlipParam true n k swOu swOuGrad nil prime T y v0 v1 upside size z).Gen [] r H ↔
      (swFlipParam false n k swOu swOuGrad nil prime T y v0 v1 upside size z).Gen [] r H := by
  have e : ∀ thi : Thi 2, swNormops swOu thi [0, T] [y, y] [v0, v1] = [⟨T - 0, Real.sqrt (T - 0) * swOu.vol thi y, v0, v1⟩] := by
    intro thi; simp [swNormops, npDiff, swOu]
  unfold swFlipParam
  rw [e nil, e prime]
  dsimp only
  refine C55_coin hv hw ?_ ?_
  · rfl
  intro hT s h0 h1 w hw
  have hT' : 0 ≤ T := by simpa using hT.le
  refine C55_ou_bound hn hp hT' h0 h1 hw (e nil) (e prime) ?_ ?_
  · refine denorm_pathVal ?_ hT s w
    rfl
  · refine denorm_pathVal ?_ hT s w
    rfl

/-- `switching/models/ou2.py` -/
theorem C55_ou2 {nil prime : Thi 2} {y : ℕ} (hn : ∀ i, 0 < nil y i) (hp : ∀ i, 0 < prime y i) {T v0 v1 : ℝ} {upside : Bool} {size : ℤ}
    {z : EaSkel} (hv : z.Valid) (hw : z.Within) {r : Res (Bool × EaSkel)} {H : List ℝ} :
    (swFlipParam true n k swOu2 swOu2Grad nil prime T y v0 v1 upside size z).Gen [] r H ↔
      (swFlipParam false n k swOu2 swOu2Grad nil prime T y v0 v1 upside size z).Gen [] r H := by
  have e : ∀ thi : Thi 2, swNormops swOu2 thi [0, T] [y, y] [v0, v1] = [⟨T - 0, Real.sqrt (T - 0) * swOu2.vol thi y, v0, v1⟩] := by
    intro thi; simp [swNormops, npDiff, swOu2]
  unfold swFlipParam
  rw [e nil, e prime]
  dsimp only
  refine C55_coin hv hw ?_ ?_
  · rfl
  intro hT s h0 h1 w hw
  have hT' : 0 ≤ T := by simpa using hT.le
  refine C55_ou2_bound hn hp hT' h0 h1 hw (e nil) (e prime) ?_ ?_
  · refine denorm_pathVal ?_ hT s w
    rfl
  · refine denorm_pathVal ?_ hT s w
    rfl

/-- `switching/models/ou3.py` -/
theorem C55_ou3 {nil prime : Thi 2} {y : ℕ} (hn : ∀ i, 0 < nil y i) (hp : ∀ i, 0 < prime y i) {T v0 v1 : ℝ} {upside : Bool} {size : ℤ}
    {z : EaSkel} (hv : z.Valid) (hw : z.Within) {r : Res (Bool × EaSkel)} {H : List ℝ} :
    (swFlipParam true n k swOu3 swOu3Grad nil prime T y v0 v1 upside size z).Gen [] r H ↔
      (swFlipParam false n k swOu3 swOu3Grad nil prime T y v0 v1 upside size z).Gen [] r H := by
  have e : ∀ thi : Thi 2, swNormops swOu3 thi [0, T] [y, y] [v0, v1] = [⟨T - 0, Real.sqrt (T - 0) * swOu3.vol thi y, v0, v1⟩] := by
    intro thi; simp [swNormops, npDiff, swOu3]
  unfold swFlipParam
  rw [e nil, e prime]
  dsimp only
  refine C55_coin hv hw ?_ ?_
  · rfl
  intro hT s h0 h1 w hw
  have hT' : 0 ≤ T := by simpa using hT.le
  refine C55_ou3_bound hn hp hT' h0 h1 hw (e nil) (e prime) ?_ ?_
  · refine denorm_pathVal ?_ hT s w
    rfl
  · refine denorm_pathVal ?_ hT s w
    rfl

example : ∀ (size : ℤ) (r : Res (Bool × EaSkel)) (H : List ℝ), (itoFlipParam true 9 9 itoOu itoOuGrad ![1, 1] ![2, 1 / 2] 3 (-1) 1 true size exSkel).Gen [] r H ↔
    (itoFlipParam false 9 9 itoOu itoOuGrad ![1, 1] ![2, 1 / 2] 3 (-1) 1 true size exSkel).Gen [] r H := fun _ _ _ =>
  C55_ito (by intro i; fin_cases i <;> norm_num) (by intro i; fin_cases i <;> norm_num) exSkel_valid exSkel_within

end Ctb
