import Verif.Lemmas.SkelFlip
import Verif.Props.InterpPos
import Verif.Basic.Law
import Verif.Spec.Value
import Mathlib.Algebra.BigOperators.Group.List.Lemmas

set_option linter.unusedSectionVars false

/-! # The values that `fill_wiener_outer` returns at the new times -/

namespace Ctb

open Classical
open scoped ENNReal

variable {t x newT t' x' vals : List ℝ} {idx : List ℕ} {minX : ℝ} {U H : ℝ} {hitI hit' : Option (List Bool)} {n k : ℕ}

theorem map_getD_inj {l : List ℝ} (hl : l.Nodup) : ∀ {p q : List ℕ}, (∀ i ∈ p, i < l.length) → (∀ i ∈ q, i < l.length) →
    p.map (fun i => l.getD i 0) = q.map (fun i => l.getD i 0) → p = q
  | [], [], _, _, _ => rfl
  | [], b :: q, _, _, h => by simp at h
  | a :: p, [], _, _, h => by simp at h
  | a :: p, b :: q, hp, hq, h => by
    simp only [List.map_cons, List.cons.injEq] at h
    have ha := hp a List.mem_cons_self
    have hb := hq b List.mem_cons_self
    have e : a = b := by
      have := h.1
      rw [List.getD_eq_getElem _ _ ha, List.getD_eq_getElem _ _ hb] at this
      exact (hl.getElem_inj_iff).1 this
    rw [e, map_getD_inj hl (fun i hi => hp i (List.mem_cons_of_mem _ hi)) (fun i hi => hq i (List.mem_cons_of_mem _ hi)) h.2]

/-- The values found at the new times are the inserted ones. -/
theorem whereIn_insert {ins : List ℕ} (hi : ins.Pairwise (· ≤ ·)) (hb : ∀ i ∈ ins, i ≤ t.length) (hx : x.length = t.length) (hl : ins.length = newT.length)
    (hv : vals.length = newT.length) (hs : (npInsert t ins newT).Pairwise (· < ·)) (hN : newT.Pairwise (· < ·)) :
    (whereIn (npInsert t ins newT) newT).map (fun i => (npInsert x ins vals).getD i 0) = vals := by
  have hat := npInsert_at ins t newT hi hb hl
  have hax := npInsert_at ins x vals hi (by rwa [hx]) (by rw [hl, hv])
  set P := List.zipWith (· + ·) ins (List.range ins.length) with hP
  have hPl : P.length = ins.length := by simp [hP]
  have hPj : ∀ j (hj : j < P.length), P[j] = ins[j]'(by omega) + j := by
    intro j hj
    simp [hP]
  have hPt : P.map (fun i => (npInsert t ins newT).getD i 0) = newT := by
    refine List.ext_getElem (by simp [hPl, hl]) fun j h1 h2 => ?_
    rw [List.getElem_map, hPj j (by simpa using h1), List.getD_eq_getElem?_getD, hat j (by omega), List.getElem?_eq_getElem h2]
    rfl
  have hPx : P.map (fun i => (npInsert x ins vals).getD i 0) = vals := by
    refine List.ext_getElem (by simp [hPl, hl, hv]) fun j h1 h2 => ?_
    rw [List.getElem_map, hPj j (by simpa using h1), List.getD_eq_getElem?_getD, hax j (by omega), List.getElem?_eq_getElem h2]
    rfl
  have hPb : ∀ i ∈ P, i < (npInsert t ins newT).length := by
    intro i hi'
    obtain ⟨j, hj, rfl⟩ := List.mem_iff_getElem.1 hi'
    rw [hPj j hj]
    have := hat j (by omega)
    rw [List.getElem?_eq_getElem (by omega : j < newT.length)] at this
    exact (List.getElem?_eq_some_iff.1 this).1
  have hmem : ∀ r ∈ newT, r ∈ npInsert t ins newT := by
    intro r hr
    rw [← hPt] at hr
    obtain ⟨i, hi', rfl⟩ := List.mem_map.1 hr
    rw [List.getD_eq_getElem _ _ (hPb i hi')]
    exact List.getElem_mem _
  have : whereIn (npInsert t ins newT) newT = P := by
    refine map_getD_inj (hs.imp fun h => h.ne) (fun i hi' => ?_) hPb ((whereIn_map hs hN hmem).trans hPt.symm)
    exact List.mem_range.1 (List.mem_filter.1 hi').1
  rw [this, hPx]

theorem fill_length {ues hits : List (Option ℝ)} {res : List (List ℝ × Option (List Bool))}
    (h : List.Forall₂ (fun i r => (fillSector n k t x newT minX ues hits i).Out (.ok r)) (npUnique t.length (newT.map (searchLeft t))) res) :
    (res.map Prod.fst).flatten.length = newT.length := by
  have h1 : ∀ (l : List ℕ) (res : List (List ℝ × Option (List Bool))), List.Forall₂ (fun i r => (fillSector n k t x newT minX ues hits i).Out (.ok r)) l res →
      (res.map Prod.fst).flatten.length = (l.map fun i => (newT.map (searchLeft t)).count i).sum := by
    intro l res h
    induction h with
    | nil => rfl
    | @cons i r l res hr _ ih =>
      simp only [List.map_cons, List.flatten_cons, List.length_append, List.sum_cons, ih]
      congr 1
      unfold fillSector at hr
      split at hr
      · obtain ⟨j, hp, -⟩ := sampleLayerbr_out hr
        rw [hp.len, List.length_map, List.count_eq_length_filter, List.filter_map, List.length_map]
        congr 1
      · cases hr
  rw [h1 _ _ h]
  have hperm : (npUnique t.length (newT.map (searchLeft t))).Perm (newT.map (searchLeft t)).dedup := by
    refine (List.perm_ext_iff_of_nodup (List.nodup_range.filter _) (List.nodup_dedup _)).2 fun i => ?_
    simp only [npUnique, List.mem_filter, List.mem_range, decide_eq_true_eq, List.mem_dedup, and_iff_right_iff_imp]
    intro hi
    obtain ⟨r, _, rfl⟩ := List.mem_map.1 hi
    unfold searchLeft
    exact Nat.lt_succ_of_le (List.takeWhile_sublist _).length_le
  rw [(hperm.map _).sum_eq]
  exact (List.sum_map_count_dedup_eq_length _).trans (by simp)

/-- What may be filled in: new times between the old ones, values in the layer. -/
structure Fillable (t x newT : List ℝ) (minX U H : ℝ) (hitI : Option (List Bool)) : Prop where
  sorted : t.Pairwise (· < ·)
  len : x.length = t.length
  new : newT.Pairwise (· < ·)
  fresh : ∀ r ∈ newT, r ∉ t
  some : newT ≠ []
  pos : ∀ s ∈ t, 0 ≤ s
  lo : ∃ s ∈ t, ∀ r ∈ newT, s < r
  hi : ∃ s ∈ t, ∀ r ∈ newT, r < s
  low : ∀ v ∈ x, minX ≤ v
  up : ∀ v ∈ x, v < U
  hit : minX < H ∧ H < U
  flags : ∀ hs, hitI = Option.some hs → hs.length = t.length - 1

theorem fillOuter_vals (h : Fillable t x newT minX U H hitI) (F : List ℝ → ℝ≥0∞) :
    (fillOuter n k t x newT minX (some U) (some H) hitI).lexp (onOk fun r => F (r.2.2.1.map fun i => r.2.1.getD i 0)) =
      (Prog.mapM' (fillSector n k t x newT minX (ueSec t.length (some U) (some H) hitI) (hitSec t.length (some H) hitI)) (npUnique t.length (newT.map (searchLeft t)))).lexp
        (onOk fun res => F (res.map Prod.fst).flatten) := by
  obtain ⟨s0, hs0, hs0'⟩ := h.lo
  obtain ⟨s1, hs1, hs1'⟩ := h.hi
  have ht0 : t ≠ [] := List.ne_nil_of_mem hs0
  have hx0 : x ≠ [] := by
    rw [← List.length_pos_iff, h.len]
    exact List.length_pos_iff.2 ht0
  have hf : (newT.filter fun r => decide (r ∉ t)) = newT := List.filter_eq_self.2 fun r hr => by simpa using h.fresh r hr
  have hA : (∀ s ∈ t, 0 ≤ s) ∧ (∃ s ∈ t, ∀ r ∈ newT, s < r) ∧ ∃ s ∈ t, ∀ r ∈ newT, r < s := ⟨h.pos, h.lo, h.hi⟩
  have hA' : (∀ s ∈ t, 0 ≤ s) ∧ (∃ s ∈ t, ∀ r ∈ newT, s ≤ r) ∧ ∃ s ∈ t, ∀ r ∈ newT, r ≤ s :=
    ⟨h.pos, ⟨s0, hs0, fun r hr => (hs0' r hr).le⟩, ⟨s1, hs1, fun r hr => (hs1' r hr).le⟩⟩
  have hU : ∀ U', some U = some U' → ∀ v ∈ x, v < U' := by rintro _ ⟨⟩; exact h.up
  have hH : ∀ U' H', some U = some U' → some H = some H' → minX < H' ∧ H' < U' := by rintro _ _ ⟨⟩ ⟨⟩; exact h.hit
  have hin : fillInner n k t x newT minX (some U) (some H) hitI =
      (Prog.mapM' (fillSector n k t x newT minX (ueSec t.length (some U) (some H) hitI) (hitSec t.length (some H) hitI)) (npUnique t.length (newT.map (searchLeft t)))).bind fun res =>
        .ret (npInsert t (newT.map (searchLeft t)) newT, npInsert x (newT.map (searchLeft t)) (res.map Prod.fst).flatten,
          List.zipWith (· + ·) (newT.map (searchLeft t)) (List.range (newT.map (searchLeft t)).length), hitI.map (stackHits ((npUnique t.length (newT.map (searchLeft t))).zip res))) := by
    unfold fillInner
    simp only [if_neg h.some, if_neg ht0, if_neg hx0, Prog.assert, if_pos hA, if_pos h.low, if_pos hU, if_pos hH, Prog.ret_bind]
  have hout : fillOuter n k t x newT minX (some U) (some H) hitI = (fillInner n k t x newT minX (some U) (some H) hitI).bind fun r => .ret (r.1, r.2.1, whereIn r.1 newT, r.2.2.2) := by
    unfold fillOuter
    rw [if_neg (by simp [ht0, h.some])]
    simp only [if_neg hx0, Prog.assert, if_pos hA', if_pos h.low, if_pos hU, if_pos hH, Prog.ret_bind, hf]
  rw [hout, hin, Prog.bind_assoc, Prog.lexp_bind]
  refine Prog.lexp_congr ?_
  rintro (e | res) hres
  · rfl
  rw [Prog.cont_ok, Prog.ret_bind, Prog.lexp_ret]
  simp only [onOk]
  congr 1
  have hO : (fillInner n k t x newT minX (some U) (some H) hitI).Out (.ok (npInsert t (newT.map (searchLeft t)) newT, npInsert x (newT.map (searchLeft t)) (res.map Prod.fst).flatten,
          List.zipWith (· + ·) (newT.map (searchLeft t)) (List.range (newT.map (searchLeft t)).length), hitI.map (stackHits ((npUnique t.length (newT.map (searchLeft t))).zip res)))) := by
    rw [hin, Prog.out_bind_ok]
    exact ⟨res, hres, by rw [Prog.out_ret]⟩
  obtain ⟨⟨R, hG⟩, hgap⟩ := fillInner_gaps h.sorted h.len h.new h.fresh h.some h.flags hO
  refine whereIn_insert (List.pairwise_map.2 (h.new.imp fun h' => searchLeft_mono h.sorted h'.le)) ?_ h.len (by simp) ?_ (hG.times_sorted h.sorted h.new) h.new
  · intro i hi
    obtain ⟨a, _, rfl⟩ := List.mem_map.1 hi
    unfold searchLeft
    exact (List.takeWhile_sublist _).length_le
  · exact fill_length (Prog.out_mapM'_ok.1 hres)

/-- Sectors without new times contribute nothing. -/
theorem mapM'_filter {f : ℕ → Prog (List ℝ × Option (List Bool))} (P : ℕ → Prop) [DecidablePred P] : ∀ (l : List ℕ) (F : List ℝ → ℝ≥0∞),
    (Prog.mapM' f (l.filter fun i => decide (P i))).lexp (onOk fun res => F (res.map Prod.fst).flatten) =
      (Prog.mapM' (fun i => if P i then f i else .ret ([], none)) l).lexp (onOk fun res => F (res.map Prod.fst).flatten)
  | [], F => rfl
  | i :: l, F => by
    have ih := mapM'_filter (f := f) P l
    by_cases h : P i
    · rw [List.filter_cons_of_pos (by simpa using h)]
      simp only [Prog.mapM', if_pos h]
      rw [Prog.lexp_bind, Prog.lexp_bind]
      congr 1
      funext r
      rcases r with e | r
      · rfl
      rw [Prog.cont_ok, Prog.cont_ok, Prog.lexp_bind, Prog.lexp_bind]
      refine Eq.trans ?_ ((ih fun l => F (r.1 ++ l)).trans ?_) <;>
      · congr 1
    · rw [List.filter_cons_of_neg (by simpa using h), ih F]
      simp only [Prog.mapM', if_neg h, Prog.ret_bind]
      rw [Prog.lexp_bind]
      congr 1

end Ctb
