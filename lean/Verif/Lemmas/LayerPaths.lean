import Verif.Model.LayerPaths
import Verif.Spec.Refine
import Verif.Lemmas.SwitchAug
import Verif.Props.LayerMin

set_option linter.unusedSectionVars false

/-! # Bridges inside a layer: lengths, ranges and hit flags -/

namespace Ctb

open Classical

section Pairs

variable {α β : Type}

theorem pairsOf_length (l : List α) : (pairsOf l).length = l.length - 1 := by
  induction l with
  | nil => rfl
  | cons a l ih =>
    cases l with
    | nil => rfl
    | cons b l => simp only [pairsOf, List.length_cons] at ih ⊢; omega

theorem pairsOf_zip (l : List α) : l.dropLast.zip l.tail = pairsOf l := by
  induction l with
  | nil => rfl
  | cons a l ih =>
    cases l with
    | nil => rfl
    | cons b l =>
      simp only [pairsOf, ← ih, List.dropLast_cons_cons, List.tail_cons]
      cases l <;> simp

theorem pairsOf_map (f : α → β) (l : List α) : pairsOf (l.map f) = (pairsOf l).map (Prod.map f f) := by
  induction l with
  | nil => rfl
  | cons a l ih =>
    cases l with
    | nil => rfl
    | cons b l => simp only [List.map_cons, pairsOf] at ih ⊢; rw [ih]; rfl

theorem pairsOf_append (l : List α) (a b : α) (l' : List α) :
    pairsOf (l ++ [a] ++ b :: l') = pairsOf (l ++ [a]) ++ (a, b) :: pairsOf (b :: l') := by
  induction l with
  | nil => simp [pairsOf]
  | cons c l ih =>
    cases l with
    | nil => simp [pairsOf]
    | cons d l => simp only [List.cons_append, pairsOf] at ih ⊢; rw [ih]

theorem pairsOf_reverse (l : List α) : pairsOf l.reverse = ((pairsOf l).reverse).map Prod.swap := by
  induction l with
  | nil => rfl
  | cons a l ih =>
    cases l with
    | nil => rfl
    | cons b l =>
      simp only [pairsOf, List.reverse_cons, List.map_append, List.map_cons, List.map_nil] at ih ⊢
      rw [← ih]
      have := pairsOf_append l.reverse b a []
      simpa [pairsOf] using this

theorem mem_pairsOf {l : List α} {p : α × α} (h : p ∈ pairsOf l) : p.1 ∈ l ∧ p.2 ∈ l := by
  induction l with
  | nil => simp [pairsOf] at h
  | cons a l ih =>
    cases l with
    | nil => simp [pairsOf] at h
    | cons b l =>
      rw [pairsOf, List.mem_cons] at h
      rcases h with rfl | h
      · simp
      · exact ⟨List.mem_cons_of_mem _ (ih h).1, List.mem_cons_of_mem _ (ih h).2⟩

end Pairs

variable {t xt : List ℝ} {T a b x m : ℝ} {U L : Option ℝ} {n k : ℕ}

theorem brownbr_len (h : (sampleBrownbr t T a b).Out (.ok xt)) : xt.length = t.length := by
  unfold sampleBrownbr at h
  split_ifs at h with h0
  · cases h
  rw [Prog.out_bind_ok] at h
  obtain ⟨-, -, h⟩ := h
  rw [Prog.out_bind_ok] at h
  obtain ⟨w, hw, h⟩ := h
  unfold sampleWiener at hw
  by_cases h1 : List.map (fun s => s / (1 - s)) (List.map (fun x => x / T) t) = []
  · rw [if_pos h1] at hw; cases hw
  rw [if_neg h1, Prog.out_bind_ok] at hw
  obtain ⟨-, -, hw⟩ := hw
  split_ifs at hw with h2
  case neg => cases hw
  rw [Prog.out_bind_ok] at hw
  obtain ⟨zs, hz, hw⟩ := hw
  rw [Prog.out_replicate_ok] at hz
  simp only [Prog.out_ret, Except.ok.injEq] at h hw
  subst h hw
  simp [npCumsum, cumsumFrom_len, wienerIncs, npDiff_length_zipWith, hz.1]

theorem besselbr_out {dim : ℕ} (h : (sampleBesselbr t T x dim).Out (.ok xt)) : xt.length = t.length ∧ ∀ v ∈ xt, 0 ≤ v := by
  unfold sampleBesselbr at h
  split_ifs at h
  · cases h
  simp only [Prog.out_bind_ok] at h
  obtain ⟨-, -, -, -, ws, -, h⟩ := h
  simp only [Prog.out_ret, Except.ok.injEq] at h
  subst h
  refine ⟨by simp, ?_⟩
  intro v hv
  rw [List.mem_map] at hv
  obtain ⟨j, -, rfl⟩ := hv
  exact Real.sqrt_nonneg _

theorem besEsc_below {K : ℝ} {B : Option ℝ} (h : (besEsc T a b K B none).Out (.ok false)) : a < K ∧ b < K := by
  simp only [besEsc, Prog.out_bind_ok] at h
  obtain ⟨u, -, h⟩ := h
  simp only [besEscSeeded, Prog.out_bind_ok, Prog.out_assert_ok] at h
  obtain ⟨-, -, -, -, -, -, -, -, h⟩ := h
  by_contra hc
  rw [if_pos (by by_contra hm; exact hc (max_lt_iff.1 (not_le.1 hm)))] at h
  cases h

theorem forall₂_right_mem {α β : Type} {R : α → β → Prop} {l : List α} {l' : List β} (h : List.Forall₂ R l l') {y : β} (hy : y ∈ l') :
    ∃ z ∈ l, R z y := by
  induction h with
  | nil => simp at hy
  | cons hR _ ih =>
    rcases List.mem_cons.1 hy with rfl | hy
    · exact ⟨_, by simp, hR⟩
    · obtain ⟨z, hz, hR⟩ := ih hy
      exact ⟨z, List.mem_cons_of_mem _ hz, hR⟩

theorem gapsOf_snd (h : t.length = xt.length) : (gapsOf t xt).map Prod.snd = pairsOf xt := by
  unfold gapsOf
  rw [pairsOf_zip, List.map_snd_zip]
  rw [pairsOf_length, npDiff_len, h]

theorem escGaps_out {K : ℝ} {B : Option ℝ} {es : List Bool} (hl : t.length = xt.length) (h : (escGaps t xt K B).Out (.ok es)) :
    List.Forall₂ (BelowUnlessHit K) es (pairsOf xt) := by
  unfold escGaps at h
  rw [Prog.out_mapM'_ok] at h
  rw [← gapsOf_snd hl, List.forall₂_map_right_iff]
  refine h.flip.imp ?_
  rintro e ⟨dt, x0, x1⟩ he hf
  simp only [flip] at he
  subst hf
  exact besEsc_below he

/-- What a proposal from the edge, relative to the minimum, looks like. -/
structure EdgeOk (t : List ℝ) (x : ℝ) (U L : Option ℝ) (r : List ℝ × List Bool) : Prop where
  len : r.1.length = t.length
  low : ∀ v ∈ r.1, 0 ≤ v
  up : ∀ U', U = some U' → ∀ v ∈ r.1, v < U'
  none : L = none → r.2 = []
  hit : ∀ L', L = some L' → List.Forall₂ (BelowUnlessHit L') r.2 (pairsOf (0 :: r.1 ++ [x]))

theorem edgeLoop_out {r : List ℝ × List Bool} (h : (edgeLoop t T x U L n).Out (.ok r)) : EdgeOk t x U L r := by
  induction n with
  | zero => cases h
  | succ n ih =>
    simp only [edgeLoop] at h
    rw [Prog.out_bind_ok] at h
    obtain ⟨xt, hx, h⟩ := h
    rw [Prog.out_bind_ok] at h
    obtain ⟨esc, he, h⟩ := h
    split_ifs at h with hc
    · exact ih h
    · rw [Prog.out_bind_ok] at h
      obtain ⟨hit, hh, h⟩ := h
      simp only [Prog.out_ret, Except.ok.injEq] at h
      subst h
      have hx' : xt.length = t.length ∧ ∀ v ∈ xt, 0 ≤ v := by
        split_ifs at hx with ht
        · simp only [Prog.out_ret, Except.ok.injEq] at hx
          subst hx ht
          simp
        · exact besselbr_out hx
      have hl : (0 :: t ++ [T]).length = (0 :: xt ++ [x]).length := by simp [hx'.1]
      refine ⟨hx'.1, hx'.2, ?_, ?_, ?_⟩
      · rintro U' rfl v hv
        simp only [escAny] at he
        rw [Prog.out_bind_ok] at he
        obtain ⟨es, hes, he⟩ := he
        simp only [Prog.out_ret, Except.ok.injEq] at he
        have hf := escGaps_out hl hes
        have hall : ∀ e ∈ es, e = false := by
          intro e hm
          by_contra hne
          apply hc
          rw [he, List.any_eq_true]
          exact ⟨e, hm, by simpa using hne⟩
        have hg : ∀ g ∈ pairsOf (0 :: xt ++ [x]), g.1 < U' ∧ g.2 < U' := by
          intro g hg
          obtain ⟨e, hm, hb⟩ := forall₂_right_mem hf hg
          exact hb (hall e hm)
        obtain ⟨l1, l2, rfl⟩ := List.append_of_mem hv
        have h3 := pairsOf_append (0 :: l1) v ((l2 ++ [x]).headD 0) ((l2 ++ [x]).tail)
        have h4 : (l2 ++ [x]) = (l2 ++ [x]).headD 0 :: (l2 ++ [x]).tail := by cases l2 <;> simp
        refine (hg (v, (l2 ++ [x]).headD 0) ?_).1
        have h5 : 0 :: (l1 ++ v :: l2) ++ [x] = 0 :: l1 ++ [v] ++ (l2 ++ [x]).headD 0 :: (l2 ++ [x]).tail := by
          rw [← h4]; simp
        rw [h5, h3]
        simp
      · rintro rfl
        simp only [hitFlags, Prog.out_ret, Except.ok.injEq] at hh
        exact hh
      · rintro L' rfl
        simp only [hitFlags] at hh
        exact escGaps_out hl hh

theorem proposeEdge_out {r : List ℝ × List Bool} (h : (proposeEdge n t T x U L).Out (.ok r)) : EdgeOk t x U L r := by
  simp only [proposeEdge, Prog.out_bind_ok] at h
  obtain ⟨-, -, -, -, h⟩ := h
  exact edgeLoop_out h

/-- What a proposal for the layered bridge looks like. -/
structure PathOk (t : List ℝ) (a b m : ℝ) (U L : Option ℝ) (r : List ℝ × List Bool) : Prop where
  len : r.1.length = t.length
  low : ∀ v ∈ r.1, m ≤ v
  up : ∀ U', U = some U' → ∀ v ∈ r.1, v < U'
  none : L = none → r.2 = []
  hit : ∀ L', L = some L' → List.Forall₂ (BelowUnlessHit L') r.2 (pairsOf (a :: r.1 ++ [b]))

theorem below_shift {K m : ℝ} {es : List Bool} {l : List ℝ} (h : List.Forall₂ (BelowUnlessHit (K - m)) es (pairsOf l)) :
    List.Forall₂ (BelowUnlessHit K) es (pairsOf (l.map (· + m))) := by
  rw [pairsOf_map, List.forall₂_map_right_iff]
  refine h.imp ?_
  rintro e ⟨x, y⟩ h he
  have := h he
  simp only [Prod.map] at this ⊢
  exact ⟨by linarith [this.1], by linarith [this.2]⟩

theorem below_reverse {K : ℝ} {es : List Bool} {l : List ℝ} (h : List.Forall₂ (BelowUnlessHit K) es (pairsOf l)) :
    List.Forall₂ (BelowUnlessHit K) es.reverse (pairsOf l.reverse) := by
  rw [pairsOf_reverse, List.forall₂_map_right_iff]
  refine (List.forall₂_reverse_iff.2 h).imp ?_
  rintro e ⟨x, y⟩ h he
  exact (h he).symm

theorem layer_edge {rec : LayerProp} {r : List ℝ × List Bool} (hm : m = a ∨ m = b) (h : (layerStep n U L rec t T a b m).Out (.ok r)) :
    PathOk t a b m U L r := by
  simp only [layerStep, Prog.out_bind_ok] at h
  obtain ⟨-, -, -, -, -, -, h⟩ := h
  split_ifs at h with h1 h2
  · cases h
  · subst h2
    rw [Prog.out_bind_ok] at h
    obtain ⟨r', hr, h⟩ := h
    simp only [Prog.out_ret, Except.ok.injEq] at h
    subst h
    obtain ⟨e1, e2, e3, e4, e5⟩ := proposeEdge_out hr
    refine ⟨by simpa using e1, ?_, ?_, ?_, ?_⟩
    · intro v hv
      simp only [List.mem_map, List.mem_reverse] at hv
      obtain ⟨w, hw, rfl⟩ := hv
      linarith [e2 w hw]
    · rintro U' rfl v hv
      simp only [List.mem_map, List.mem_reverse] at hv
      obtain ⟨w, hw, rfl⟩ := hv
      linarith [e3 _ rfl w hw]
    · rintro rfl
      simp [e4 rfl]
    · rintro L' rfl
      have := below_shift (below_reverse (e5 _ rfl))
      simpa using this
  · rw [Prog.out_bind_ok] at h
    obtain ⟨r', hr, h⟩ := h
    simp only [Prog.out_ret, Except.ok.injEq] at h
    subst h
    have hma : m = a := hm.resolve_right h2
    subst hma
    obtain ⟨e1, e2, e3, e4, e5⟩ := proposeEdge_out hr
    refine ⟨by simpa using e1, ?_, ?_, ?_, ?_⟩
    · intro v hv
      simp only [List.mem_map] at hv
      obtain ⟨w, hw, rfl⟩ := hv
      linarith [e2 w hw]
    · rintro U' rfl v hv
      simp only [List.mem_map] at hv
      obtain ⟨w, hw, rfl⟩ := hv
      linarith [e3 _ rfl w hw]
    · rintro rfl
      simp [e4 rfl]
    · rintro L' rfl
      have := below_shift (e5 _ rfl)
      simpa using this

/-- Joining the two sides of the minimum. -/
theorem below_join {K m : ℝ} {i0 i1 i : List Bool} {x0 x1 : List ℝ} (h0 : List.Forall₂ (BelowUnlessHit K) i0 (pairsOf (a :: x0 ++ [m])))
    (h1 : List.Forall₂ (BelowUnlessHit K) i1 (pairsOf (m :: x1 ++ [b]))) (hi : joinFlags i0 i1 = some i) :
    List.Forall₂ (BelowUnlessHit K) i (pairsOf (a :: (x0 ++ x1) ++ [b])) := by
  obtain ⟨y0, v, hy0⟩ : ∃ y0 v, a :: x0 = y0 ++ [v] := ⟨_, _, (List.dropLast_append_getLast (by simp)).symm⟩
  obtain ⟨w, y1, hy1⟩ : ∃ w y1, x1 ++ [b] = w :: y1 := by
    cases x1 with
    | nil => exact ⟨_, _, rfl⟩
    | cons c x1 => exact ⟨_, _, rfl⟩
  have e0 : pairsOf (a :: x0 ++ [m]) = pairsOf (y0 ++ [v]) ++ [(v, m)] := by
    have := pairsOf_append y0 v m []
    rw [hy0]; simpa [pairsOf] using this
  have e1 : pairsOf (m :: x1 ++ [b]) = (m, w) :: pairsOf (w :: y1) := by
    rw [List.cons_append, hy1]; rfl
  have e2 : pairsOf (a :: (x0 ++ x1) ++ [b]) = pairsOf (y0 ++ [v]) ++ (v, w) :: pairsOf (w :: y1) := by
    have : a :: (x0 ++ x1) ++ [b] = y0 ++ [v] ++ w :: y1 := by
      rw [← hy1, ← hy0]; simp
    rw [this, pairsOf_append]
  rw [e0] at h0
  rw [e1] at h1
  rw [e2]
  obtain ⟨j0, c, hj0⟩ : ∃ j0 c, i0 = j0 ++ [c] := by
    have : i0 ≠ [] := by rintro rfl; simp at h0
    exact ⟨_, _, (List.dropLast_append_getLast this).symm⟩
  obtain ⟨d, j1, rfl⟩ : ∃ d j1, i1 = d :: j1 := by
    cases i1 with
    | nil => simp at h1
    | cons d j1 => exact ⟨_, _, rfl⟩
  subst hj0
  simp only [joinFlags, List.getLast?_append, List.getLast?_singleton, Option.some_or, List.dropLast_concat, Option.some.injEq] at hi
  subst hi
  have hlen : j0.length = (pairsOf (y0 ++ [v])).length := by
    have := h0.length_eq
    simp only [List.length_append, List.length_singleton] at this
    omega
  rw [List.forall₂_cons] at h1
  have h0' := List.forall₂_take_append _ _ _ h0
  have h0'' := List.forall₂_drop_append _ _ _ h0
  rw [← hlen] at h0' h0''
  simp only [List.take_left', List.drop_left', List.forall₂_cons, List.forall₂_nil_left_iff, and_true] at h0' h0''
  rw [List.append_assoc]
  refine List.rel_append h0' ?_
  refine List.Forall₂.cons ?_ h1.2
  intro hf
  rw [Bool.or_eq_false_iff] at hf
  exact ⟨(h0'' hf.1).1, (h1.1 hf.2).2⟩

theorem joinFlags_isSome {i0 i1 : List Bool} (h0 : i0 ≠ []) (h1 : i1 ≠ []) : ∃ i, joinFlags i0 i1 = some i := by
  cases i1 with
  | nil => exact absurd rfl h1
  | cons d j1 =>
    rcases List.getLast?_eq_some_iff.2 ⟨_, (List.dropLast_append_getLast h0).symm⟩ with h
    simp [joinFlags, h]

theorem layer_out {rec : LayerProp} (hrec : ∀ {t T a b m r}, m = a ∨ m = b → (rec t T a b m).Out (.ok r) → PathOk t a b m U L r)
    {r : List ℝ × List Bool} (h : (layerStep n U L rec t T a b m).Out (.ok r)) : PathOk t a b m U L r := by
  by_cases hm : m = a ∨ m = b
  · exact layer_edge hm h
  simp only [layerStep, Prog.out_bind_ok] at h
  obtain ⟨-, -, -, -, -, -, h⟩ := h
  rw [if_neg hm] at h
  split_ifs at h with h1
  · cases h
  rw [Prog.out_bind_ok] at h
  obtain ⟨⟨s, y⟩, hq, h⟩ := h
  obtain ⟨-, -, hya, hyb, hl, -⟩ := C40_layer_partial hq
  have hmy := hl m rfl
  rw [Prog.out_bind_ok] at h
  obtain ⟨r0, hr0, h⟩ := h
  rw [Prog.out_bind_ok] at h
  obtain ⟨r1, hr1, h⟩ := h
  have k0 := hrec (Or.inr rfl) hr0
  have k1 := hrec (Or.inl rfl) hr1
  have hlen : (r0.1 ++ r1.1).length = t.length := by
    rw [List.length_append, k0.len, k1.len, List.length_map, ← List.length_append, List.take_append_drop]
  have hlow : ∀ v ∈ r0.1 ++ r1.1, m ≤ v := by
    intro v hv
    rcases List.mem_append.1 hv with hv | hv
    · exact hmy.trans (k0.low v hv)
    · exact hmy.trans (k1.low v hv)
  have hup : ∀ U', U = some U' → ∀ v ∈ r0.1 ++ r1.1, v < U' := by
    intro U' hU v hv
    rcases List.mem_append.1 hv with hv | hv
    · exact k0.up U' hU v hv
    · exact k1.up U' hU v hv
  rcases L with _ | L'
  · simp only [Prog.out_ret, Except.ok.injEq] at h
    subst h
    exact ⟨hlen, hlow, hup, fun _ => rfl, by simp⟩
  · simp only at h
    rcases hj : joinFlags r0.2 r1.2 with _ | i
    · rw [hj] at h
      cases h
    · rw [hj] at h
      simp only [Prog.out_ret, Except.ok.injEq] at h
      subst h
      refine ⟨hlen, hlow, hup, by simp, ?_⟩
      rintro L'' ⟨⟩
      exact below_join (k0.hit _ rfl) (k1.hit _ rfl) hj

theorem proposeLayer_out {r : List ℝ × List Bool} (h : (proposeLayer n U L t T a b m).Out (.ok r)) : PathOk t a b m U L r :=
  layer_out (fun hm h => layer_edge hm h) h

theorem layerStep_congr {rec rec' : LayerProp} (h : ∀ t T a b m, m = a ∨ m = b → rec t T a b m = rec' t T a b m) :
    layerStep n U L rec t T a b m = layerStep n U L rec' t T a b m := by
  simp only [layerStep]
  have h1 : ∀ t T a m, rec t T a m m = rec' t T a m m := fun t T a m => h t T a m m (Or.inr rfl)
  have h2 : ∀ t T b m, rec t T m b m = rec' t T m b m := fun t T b m => h t T m b m (Or.inl rfl)
  simp only [h1, h2]

theorem layerStep_edge {rec rec' : LayerProp} (hm : m = a ∨ m = b) : layerStep n U L rec t T a b m = layerStep n U L rec' t T a b m := by
  simp only [layerStep, if_pos hm]

/-- The definition of `proposeLayer` is a solution of the recursion of the code. -/
theorem proposeLayer_unfold : proposeLayer n U L = layerStep n U L (proposeLayer n U L) := by
  funext t T a b m
  exact layerStep_congr fun t T a b m hm => layerStep_edge hm

theorem layerbrLoop_out {r : List ℝ × Option (List Bool)} (h : (layerbrLoop n t T a b m U L k).Out (.ok r)) :
    ∃ i, PathOk t a b m U L (r.1, i) ∧ (L = none → r.2 = none) ∧ (L ≠ none → r.2 = some i ∧ true ∈ i) := by
  induction k with
  | zero => cases h
  | succ k ih =>
    simp only [layerbrLoop] at h
    rw [Prog.out_bind_ok] at h
    obtain ⟨q, hq, h⟩ := h
    have hp := proposeLayer_out hq
    rcases L with _ | L'
    · simp only [Prog.out_ret, Except.ok.injEq] at h
      subst h
      exact ⟨q.2, hp, fun _ => rfl, by simp⟩
    · simp only at h
      split_ifs at h with hc
      · simp only [Prog.out_ret, Except.ok.injEq] at h
        subst h
        refine ⟨q.2, hp, by simp, fun _ => ⟨rfl, ?_⟩⟩
        simpa using hc
      · exact ih h

theorem sampleLayerbr_out {r : List ℝ × Option (List Bool)} (h : (sampleLayerbr n k t T a b m U L).Out (.ok r)) :
    ∃ i, PathOk t a b m U L (r.1, i) ∧ (L = none → r.2 = none) ∧ (L ≠ none → r.2 = some i ∧ true ∈ i) := by
  unfold sampleLayerbr at h
  split_ifs at h
  · cases h
  simp only [Prog.out_bind_ok] at h
  obtain ⟨-, -, -, -, -, -, -, -, -, -, h⟩ := h
  exact layerbrLoop_out h

end Ctb
