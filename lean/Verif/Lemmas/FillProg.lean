import Verif.Lemmas.RetroLim
import Verif.Lemmas.PointFill

set_option linter.unusedSectionVars false

/-! # Filling in a skeleton without flagged gaps, gap by gap -/

namespace Ctb

open Classical MeasureTheory Set Filter Topology
open scoped ENNReal

variable {U m V H : ℝ} {newT : List ℝ} {n k : ℕ} {hitI : Option (List Bool)} {t0 x0 : ℝ} {ts xs : List ℝ}

/-- New values and old ones in turn. -/
def assemble : List ℝ → List (List ℝ) → List ℝ
  | y :: ys, z :: zs => z ++ y :: assemble ys zs
  | _, _ => []

theorem assemble_range : ∀ (ys : List ℝ) (zs : List (List ℝ)), zs.length = ys.length →
    ((List.range ys.length).flatMap fun j : ℕ => zs.getD j [] ++ [ys.getD j 0]) = assemble ys zs
  | [], [], _ => rfl
  | [], z :: zs, h => by simp at h
  | y :: ys, [], h => by simp at h
  | y :: ys, z :: zs, h => by
    rw [List.length_cons, List.range_succ_eq_map, List.flatMap_cons, List.flatMap_map]
    have ih := assemble_range ys zs (by simpa using h)
    simp only [List.getD_cons_zero, Nat.succ_eq_add_one, List.getD_cons_succ, assemble, ih]
    simp

theorem gapProg_blocks : ∀ (ts xs : List ℝ) (s x : ℝ), xs.length = ts.length → ∀ (i0 : ℕ) (g : ℕ → Prog (List ℝ × Option (List Bool))),
    (∀ j < ts.length, g (i0 + j) = secBr n k ((between newT ((s :: ts).getD j 0) (ts.getD j 0)).map (· - (s :: ts).getD j 0)) (ts.getD j 0 - (s :: ts).getD j 0)
      ((x :: xs).getD j 0) (xs.getD j 0) m (some V)) → ∀ F : List ℝ → ℝ≥0∞,
    (gapProg n k newT m V s x (ts.zip xs)).lexp (onOk F) = (Prog.mapM' g (List.range' i0 ts.length)).lexp (onOk fun res => F (assemble xs (res.map Prod.fst)))
  | [], [], s, x, _, i0, g, _, F => rfl
  | [], _ :: _, _, _, h, _, _, _, _ => by simp at h
  | _ :: _, [], _, _, h, _, _, _, _ => by simp at h
  | t :: ts, y :: xs, s, x, hl, i0, g, hg, F => by
    have h0 := hg 0 (by simp)
    simp only [add_zero, List.getD_cons_zero] at h0
    have ih := gapProg_blocks ts xs t y (by simpa using hl) (i0 + 1) g (fun j hj => by
      have := hg (j + 1) (by simpa using hj)
      simp only [List.getD_cons_succ] at this
      rw [← this]
      congr 1
      omega)
    rw [List.zip_cons_cons, gapProg, List.length_cons, List.range'_succ, Prog.mapM', h0, Prog.lexp_bind, Prog.lexp_bind]
    congr 1
    funext r
    rcases r with e | q
    · rfl
    rw [Prog.cont_ok, Prog.cont_ok, Prog.lexp_bind, Prog.lexp_bind]
    refine Eq.trans ?_ ((ih fun ws => F (q.1 ++ y :: ws)).trans ?_)
    · congr 1
    · congr 1

theorem npInsert_assemble {ins : List ℕ} {zs : List (List ℝ)} (hl : zs.length = xs.length) (hs : ins.Pairwise (· ≤ ·)) (hi : ∀ i ∈ ins, 1 ≤ i ∧ i < xs.length + 1)
    (hz : ∀ j < xs.length, (zs.getD j []).length = ins.count (j + 1)) : npInsert (x0 :: xs) ins zs.flatten = x0 :: assemble xs zs := by
  rw [npInsert_gaps 0 (by simp) (by simpa using hi), List.getD_cons_zero, ← assemble_range xs zs hl]
  congr 1
  rw [List.length_cons, Nat.add_sub_cancel, List.flatMap_def, List.flatMap_def]
  congr 1
  refine List.map_congr_left fun j hj => ?_
  rw [List.mem_range] at hj
  rw [List.getD_cons_succ]
  congr 1
  have hfl : zs.flatten = (List.range (xs.length + 1)).flatMap fun i : ℕ => if i = 0 then [] else zs.getD (i - 1) [] := by
    rw [range_shift _ _ (by simp), ← hl]
    simp only [Nat.add_eq_zero_iff, one_ne_zero, and_false, if_false, Nat.add_sub_cancel]
    rw [List.flatMap_def]
    congr 1
    refine List.ext_getElem (by simp) fun i h1 h2 => ?_
    simp [List.getD_eq_getElem?_getD, h1]
  have := select_blocks hs (N := xs.length + 1) (fun i h => (hi i h).2) (ys := fun i => if i = 0 then [] else zs.getD (i - 1) []) (fun i => by
    rcases Nat.eq_zero_or_pos i with rfl | h0
    · rw [if_pos rfl, List.count_eq_zero_of_not_mem]
      · rfl
      · intro h; have := (hi 0 h).1; omega
    · rw [if_neg h0.ne']
      by_cases hx : i - 1 < xs.length
      · rw [hz _ hx]; congr 1; omega
      · rw [List.getD_eq_default _ _ (by omega), List.count_eq_zero_of_not_mem]
        · rfl
        · intro h; have := (hi i h).2; omega) (j := j + 1) (by omega)
  rw [hfl, this]
  simp

/-- The edges used in the gaps of a skeleton without flagged gap. -/
theorem noHit_edges (hn : ∀ hs, hitI = some hs → true ∉ hs) (hh : ∀ hs, hitI = some hs → hs.length = ts.length) {j : ℕ} (hj : j < ts.length) :
    pyGet (ueSec (t0 :: ts).length (some U) (some H) hitI) (j : ℤ) = some (some (if hitI = none then U else H)) ∧
    pyGet (hitSec (t0 :: ts).length (some H) hitI) (j : ℤ) = some none := by
  rcases hitI with _ | hs
  · rw [pyGet_some none (by simpa [ueSec] using hj), pyGet_some none (by simpa [hitSec] using hj)]
    simp [ueSec, hitSec, hj]
  · have hl := hh hs rfl
    have hf : hs[j]'(by omega) = false := by
      have := hn hs rfl
      by_contra hc
      rw [Bool.not_eq_false] at hc
      exact this (hc ▸ List.getElem_mem _)
    rw [pyGet_some none (by simpa [ueSec, hl] using hj), pyGet_some none (by simpa [hitSec, hl] using hj)]
    simp [ueSec, hitSec, hl, hj, hf]

theorem fillInner_law (h : Fillable (t0 :: ts) (x0 :: xs) newT m U H hitI) (hn : ∀ hs, hitI = some hs → true ∉ hs) (G : List ℝ → List ℝ → Option (List Bool) → ℝ≥0∞) :
    (fillInner n k (t0 :: ts) (x0 :: xs) newT m (some U) (some H) hitI).lexp (onOk fun r => G r.1 r.2.1 r.2.2.2) =
      (gapProg n k newT m (if hitI = none then U else H) t0 x0 (ts.zip xs)).lexp
        (onOk fun ws => G (t0 :: weaveT newT t0 ts) (x0 :: ws) (hitI.map fun _ => List.replicate (weaveT newT t0 ts).length false)) := by
  obtain ⟨s0, hs0, hs0'⟩ := h.lo
  obtain ⟨s1, hs1, hs1'⟩ := h.hi
  have hlen : xs.length = ts.length := by simpa using h.len
  have hfl : ∀ hs, hitI = some hs → hs.length = ts.length := fun hs e => by simpa using h.flags hs e
  have hA : (∀ s ∈ t0 :: ts, 0 ≤ s) ∧ (∃ s ∈ t0 :: ts, ∀ r ∈ newT, s < r) ∧ ∃ s ∈ t0 :: ts, ∀ r ∈ newT, r < s := ⟨h.pos, h.lo, h.hi⟩
  have hU : ∀ U', some U = some U' → ∀ v ∈ x0 :: xs, v < U' := by rintro _ ⟨⟩; exact h.up
  have hH : ∀ U' H', some U = some U' → some H = some H' → m < H' ∧ H' < U' := by rintro _ _ ⟨⟩ ⟨⟩; exact h.hit
  set V := if hitI = none then U else H with hV
  set ins := newT.map (searchLeft (t0 :: ts)) with hins
  set g := fillSector n k (t0 :: ts) (x0 :: xs) newT m (ueSec (t0 :: ts).length (some U) (some H) hitI) (hitSec (t0 :: ts).length (some H) hitI) with hg
  have hin : fillInner n k (t0 :: ts) (x0 :: xs) newT m (some U) (some H) hitI =
      (Prog.mapM' g (npUnique (t0 :: ts).length ins)).bind fun res =>
        .ret (npInsert (t0 :: ts) ins newT, npInsert (x0 :: xs) ins (res.map Prod.fst).flatten,
          List.zipWith (· + ·) ins (List.range ins.length), hitI.map (stackHits ((npUnique (t0 :: ts).length ins).zip res))) := by
    unfold fillInner
    simp only [if_neg h.some, if_neg (List.cons_ne_nil _ _), Prog.assert, if_pos hA, if_pos h.low, if_pos hU, if_pos hH, Prog.ret_bind]
    rfl
  have hgap := fun r hr => searchLeft_gap h.sorted (h.fresh r hr) ⟨s0, hs0, hs0' r hr⟩ ⟨s1, hs1, hs1' r hr⟩
  have hi : ∀ i ∈ ins, 1 ≤ i ∧ i < xs.length + 1 := by
    intro i hi
    obtain ⟨r, hr, rfl⟩ := List.mem_map.1 hi
    have := hgap r hr
    simp only [List.length_cons] at this
    exact ⟨this.1, by omega⟩
  have hsort : ins.Pairwise (· ≤ ·) := List.pairwise_map.2 (h.new.imp fun h' => searchLeft_mono h.sorted h'.le)
  have hfil : ∀ j < ts.length, (newT.filter fun r => decide (searchLeft (t0 :: ts) r = j + 1)) = between newT ((t0 :: ts).getD j 0) (ts.getD j 0) := by
    intro j hj
    refine List.filter_congr fun r hr => ?_
    rw [decide_eq_decide]
    simpa using (hgap r hr).2.2 j (by simpa using hj)
  have hmem : ∀ i, i ∈ ins ↔ (newT.filter fun r => decide (searchLeft (t0 :: ts) r = i)) ≠ [] := by
    intro i
    rw [hins, List.mem_map, Ne, List.filter_eq_nil_iff]
    push Not
    simp
  have hsec : ∀ j < ts.length, (if 1 + j ∈ ins then g (1 + j) else .ret ([], none)) =
      secBr n k ((between newT ((t0 :: ts).getD j 0) (ts.getD j 0)).map (· - (t0 :: ts).getD j 0)) (ts.getD j 0 - (t0 :: ts).getD j 0)
        ((x0 :: xs).getD j 0) (xs.getD j 0) m (some V) := by
    intro j hj
    rw [add_comm 1 j, ← hfil j hj]
    unfold secBr
    by_cases he : (newT.filter fun r => decide (searchLeft (t0 :: ts) r = j + 1)) = []
    · rw [if_neg (by rw [hmem]; simpa using he), if_pos (by rw [he]; rfl)]
    · rw [if_pos ((hmem _).2 he), if_neg (by simpa using he), hg]
      unfold fillSector
      have ec : ((j + 1 : ℕ) : ℤ) - 1 = (j : ℤ) := by push_cast; ring
      obtain ⟨eu, eh⟩ := noHit_edges (t0 := t0) (U := U) (H := H) hn hfl hj
      rw [ec, eu, eh, pyGet_some 0 (by simp; omega), pyGet_some 0 (by simpa using hj), pyGet_some 0 (by simp; omega), pyGet_some 0 (by simp; omega)]
      simp only [List.getD_cons_succ]
      rfl
  have hcount : ∀ j < ts.length, (between newT ((t0 :: ts).getD j 0) (ts.getD j 0)).length = ins.count (j + 1) := by
    intro j hj
    rw [← hfil j hj, hins, List.count_eq_length_filter, List.filter_map, List.length_map]
    congr 1
  have htime : npInsert (t0 :: ts) ins newT = t0 :: weaveT newT t0 ts := by
    rw [npInsert_gaps 0 (by simp) (fun i hi' => by have := hi i hi'; simp; omega), List.getD_cons_zero]
    congr 1
    have e : ∀ (l : List ℝ) (s : ℝ), ((List.range l.length).flatMap fun j : ℕ => between newT ((s :: l).getD j 0) (l.getD j 0) ++ [l.getD j 0]) = weaveT newT s l := by
      intro l
      induction l with
      | nil => intro s; rfl
      | cons r l ih =>
        intro s
        rw [List.length_cons, List.range_succ_eq_map, List.flatMap_cons, List.flatMap_map, weaveT, ← ih r]
        simp
    rw [← e ts t0, List.length_cons, Nat.add_sub_cancel, List.flatMap_def, List.flatMap_def]
    congr 1
    refine List.map_congr_left fun j hj => ?_
    rw [List.mem_range] at hj
    rw [← hfil j hj, hins, List.map_map, List.getD_cons_succ, ← select_filter]
    rfl
  rw [hin, Prog.lexp_bind]
  set F0 : List ℝ → ℝ≥0∞ := fun vals => G (t0 :: weaveT newT t0 ts) (npInsert (x0 :: xs) ins vals) (hitI.map fun _ => List.replicate (weaveT newT t0 ts).length false) with hF0
  refine Eq.trans (b := (Prog.mapM' g (npUnique (t0 :: ts).length ins)).lexp (onOk fun res => F0 (res.map Prod.fst).flatten)) ?_ ?_
  · refine Prog.lexp_congr ?_
    rintro (e | res) hres
    · rfl
    rw [Prog.cont_ok, Prog.lexp_ret]
    simp only [onOk]
    have hO : (fillInner n k (t0 :: ts) (x0 :: xs) newT m (some U) (some H) hitI).Out (.ok (npInsert (t0 :: ts) ins newT, npInsert (x0 :: xs) ins (res.map Prod.fst).flatten,
          List.zipWith (· + ·) ins (List.range ins.length), hitI.map (stackHits ((npUnique (t0 :: ts).length ins).zip res)))) := by
      rw [hin, Prog.out_bind_ok]
      exact ⟨res, hres, by rw [Prog.out_ret]⟩
    obtain ⟨⟨R, hG⟩, -⟩ := fillInner_gaps h.sorted h.len h.new h.fresh h.some h.flags hO
    rw [hG.flag, htime, hF0]
    congr 1
    rcases hitI with _ | hs
    · rfl
    simp only [Option.map_some, Option.some.injEq]
    rw [List.eq_replicate_iff]
    have hR : ∀ j < ts.length, (R j).2 = none ∧ hs.getD j false = false := by
      intro j hj
      have hf : hs.getD j false = false := by
        rw [List.getD_eq_getElem _ _ (by rw [hfl hs rfl]; exact hj)]
        by_contra hc
        rw [Bool.not_eq_false] at hc
        exact hn hs rfl (hc ▸ List.getElem_mem _)
      refine ⟨?_, hf⟩
      by_cases he : gapTimes (t0 :: ts) newT j = []
      · rw [hG.empty j (by simpa using hj) he]
      · obtain ⟨_, -, hnone, -⟩ := sampleLayerbr_out (hG.sample j (by simpa using hj) he)
        exact hnone (by
          show (if hs.getD j false then some H else none) = none
          rw [hf]
          rfl)
    constructor
    · have e2 : ∀ (l : List ℝ) (s : ℝ), (weaveT newT s l).length = ((List.range l.length).map fun j => (between newT ((s :: l).getD j 0) (l.getD j 0)).length + 1).sum := by
        intro l
        induction l with
        | nil => intro s; rfl
        | cons r l ih =>
          intro s
          rw [weaveT, List.length_append, List.length_cons, ih r, List.length_cons, List.range_succ_eq_map, List.map_cons, List.map_map, List.sum_cons]
          simp [Function.comp_def]
          omega
      rw [e2, List.length_flatMap, List.length_cons, Nat.add_sub_cancel]
      congr 1
      refine List.map_congr_left fun j hj => ?_
      rw [List.mem_range] at hj
      rw [(hR j hj).1]
      simp [gapFlags, gapTimes, between]
    · intro b hb
      rw [List.mem_flatMap] at hb
      obtain ⟨j, hj, hb⟩ := hb
      rw [List.mem_range, List.length_cons, Nat.add_sub_cancel] at hj
      rw [(hR j hj).1, (hR j hj).2, gapFlags] at hb
      exact (List.mem_replicate.1 hb).2
  rw [npUnique, mapM'_filter (fun i => i ∈ ins), List.range_eq_range']
  have h0 : (0 : ℕ) ∉ ins := fun h => by have := (hi 0 h).1; omega
  have hL : ts.length + 1 ∉ ins := fun h => by have := (hi _ h).2; omega
  set g' : ℕ → Prog (List ℝ × Option (List Bool)) := fun i => if i ∈ ins then g i else .ret ([], none) with hg'
  rw [gapProg_blocks ts xs t0 x0 hlen 1 g' hsec]
  have hrange : List.range' 0 ((t0 :: ts).length + 1) = 0 :: (List.range' 1 ts.length ++ [ts.length + 1]) := by
    rw [List.length_cons, List.range'_succ]
    congr 1
    rw [List.range'_concat]
    simp [add_comm]
  rw [hrange]
  have happ : ∀ (l : List ℕ) (F : List (List ℝ × Option (List Bool)) → ℝ≥0∞), (Prog.mapM' g' (l ++ [ts.length + 1])).lexp (onOk F) = (Prog.mapM' g' l).lexp (onOk fun res => F (res ++ [([], none)])) := by
    intro l
    induction l with
    | nil =>
      intro F
      simp only [List.nil_append, Prog.mapM', hg', if_neg hL, Prog.ret_bind]
      rfl
    | cons i l ih =>
      intro F
      simp only [List.cons_append, Prog.mapM']
      rw [Prog.lexp_bind, Prog.lexp_bind]
      congr 1
      funext r
      rcases r with e | q
      · rfl
      rw [Prog.cont_ok, Prog.cont_ok, Prog.lexp_bind, Prog.lexp_bind]
      refine Eq.trans ?_ ((ih fun res => F (q :: res)).trans ?_)
      · congr 1
      · congr 1
  have hhead : ∀ (l : List ℕ) (F : List (List ℝ × Option (List Bool)) → ℝ≥0∞), (Prog.mapM' g' (0 :: l)).lexp (onOk F) = (Prog.mapM' g' l).lexp (onOk fun res => F (([], none) :: res)) := by
    intro l F
    simp only [Prog.mapM']
    rw [show g' 0 = .ret ([], none) from if_neg h0, Prog.ret_bind, Prog.lexp_bind]
    congr 1
  rw [hhead, happ]
  refine Prog.lexp_congr ?_
  rintro (e | res) hres
  · rfl
  simp only [onOk, hF0, List.map_cons, List.map_append, List.map_nil, List.flatten_cons, List.flatten_append, List.nil_append, List.flatten_nil, List.append_nil]
  have hF2 := Prog.out_mapM'_ok.1 hres
  have hl2 := hF2.length_eq
  rw [List.length_range'] at hl2
  rw [npInsert_assemble (by simp; omega) hsort hi]
  intro j hj
  rw [← hcount j (by omega)]
  have := (List.forall₂_iff_get.1 hF2).2 j (by simp; omega) (by omega)
  simp only [List.get_eq_getElem, List.getElem_range', one_mul] at this
  rw [hg'] at this
  simp only at this
  rw [hsec j (by omega)] at this
  have := secBr_length this
  rw [List.length_map] at this
  rw [← this, List.getD_eq_getElem _ _ (by simp; omega), List.getElem_map]

/-! ## times that are already known -/

theorem gapProg_newT {A B : List ℝ} : ∀ (ts xs : List ℝ) (s x : ℝ), (s :: ts).Pairwise (· < ·) → (∀ r, s < r → r ∉ ts → (r ∈ A ↔ r ∈ B)) → A.Pairwise (· < ·) → B.Pairwise (· < ·) →
    gapProg n k A m V s x (ts.zip xs) = gapProg n k B m V s x (ts.zip xs) ∧ weaveT A s ts = weaveT B s ts
  | [], _, _, _, _, _, _, _ => by simp [gapProg, weaveT]
  | t :: ts, xs, s, x, hs, h, hA, hB => by
    rw [List.pairwise_cons] at hs
    have hst := hs.1 t List.mem_cons_self
    have htl := (List.pairwise_cons.1 hs.2).1
    have hb : between A s t = between B s t := by
      refine sorted_ext (hA.filter _) (hB.filter _) fun r => ?_
      simp only [between, List.mem_filter, decide_eq_true_eq]
      refine and_congr_left fun hr => h r hr.1 fun hm => ?_
      rcases List.mem_cons.1 hm with rfl | hm
      · exact lt_irrefl _ hr.2
      · exact absurd (hr.2.trans (htl r hm)) (lt_irrefl _)
    have ih := fun xs x => gapProg_newT (A := A) (B := B) ts xs t x hs.2 (fun r hr hm => h r (hst.trans hr) (by simp [hm, hr.ne'])) hA hB
    refine ⟨?_, by rw [weaveT, weaveT, hb, (ih [] 0).2]⟩
    cases xs with
    | nil => simp [gapProg]
    | cons y xs => rw [List.zip_cons_cons, gapProg, gapProg, hb, (ih xs y).1]

theorem gapProg_nil : ∀ (ts xs : List ℝ) (s x : ℝ), xs.length = ts.length → gapProg n k [] m V s x (ts.zip xs) = .ret xs ∧ weaveT [] s ts = ts
  | [], [], _, _, _ => by simp [gapProg, weaveT]
  | [], _ :: _, _, _, h => by simp at h
  | _ :: _, [], _, _, h => by simp at h
  | t :: ts, y :: xs, s, x, h => by
    have ih := gapProg_nil ts xs t y (by simpa using h)
    refine ⟨?_, by rw [weaveT, ih.2]; rfl⟩
    rw [List.zip_cons_cons, gapProg, ih.1]
    simp [between, secBr, Prog.ret_bind]

/-- The new times of a round that are not among the old ones. -/
noncomputable def freshT (newT t : List ℝ) : List ℝ := newT.filter fun r => decide (r ∉ t)

/-- The skeleton that a round of filling in leads to, given the values after its start. -/
noncomputable def EaSkel.next (s : EaSkel) (newT ws : List ℝ) : EaSkel where
  t := s.t.take 1 ++ weaveT newT (s.t.headD 0) s.t.tail
  x := s.x.take 1 ++ ws
  tight := s.tight
  loose := s.loose
  hitX := s.hitX
  hitI := if newT = [] then s.hitI else if freshT newT s.t = [] then none else s.hitI.map fun _ => List.replicate (weaveT newT (s.t.headD 0) s.t.tail).length false

theorem interp_gaps {s : EaSkel} (hv : s.Valid) (hlt : s.tight < s.hitX ∧ s.hitX < s.loose) (hfree : s.NoHit) (hin : ∀ v ∈ s.x, s.tight ≤ v ∧ v < s.loose)
    (ht : s.t = t0 :: ts) (hx : s.x = x0 :: xs) (hN : newT.Pairwise (· < ·)) (hlo : ∀ r ∈ newT, 0 ≤ r) (hhi : ∀ r ∈ newT, ∃ f ∈ s.t, r ≤ f) (G : EaSkel → ℝ≥0∞) :
    (interpolateSkel n k s newT).lexp (onOk fun r => G r.1) = (gapProg n k newT s.tight s.bound t0 x0 (ts.zip xs)).lexp (onOk fun ws => G (s.next newT ws)) := by
  obtain ⟨t, x, m, U, H, hitI⟩ := s
  simp only at ht hx hlt hin hhi
  subst ht hx
  have hU : m < U := hlt.1.trans hlt.2
  have hs := hv.sorted
  have hstart : t0 = 0 := by simpa using hv.start
  have hlen : xs.length = ts.length := by simpa using hv.len
  simp only at hs
  have hpos : ∀ s ∈ t0 :: ts, 0 ≤ s := by
    intro s hm
    rcases List.mem_cons.1 hm with rfl | hm
    · rw [hstart]
    · rw [← hstart]; exact ((List.pairwise_cons.1 hs).1 s hm).le
  unfold interpolateSkel
  by_cases h0 : newT = []
  · subst h0
    rw [if_pos rfl]
    simp only
    rw [(gapProg_nil ts xs t0 x0 hlen).1, Prog.lexp_ret, Prog.lexp_ret]
    simp [onOk, EaSkel.next, (gapProg_nil (n := n) (k := k) (m := m) (V := U) ts xs t0 x0 hlen).2]
  rw [if_neg h0, if_pos hU]
  simp only
  have hlast : ∀ r ∈ newT, r ≤ (t0 :: ts).getLast (List.cons_ne_nil t0 ts) := by
    intro r hr
    obtain ⟨f, hf, hrf⟩ := hhi r hr
    exact hrf.trans ((hs.imp le_of_lt).rel_getLast hf)
  have hA : (∀ s ∈ t0 :: ts, 0 ≤ s) ∧ (∃ s ∈ t0 :: ts, ∀ r ∈ newT, s ≤ r) ∧ ∃ s ∈ t0 :: ts, ∀ r ∈ newT, r ≤ s :=
    ⟨hpos, ⟨t0, List.mem_cons_self, by rw [hstart]; exact hlo⟩, ⟨_, List.getLast_mem _, hlast⟩⟩
  have hL : ∀ v ∈ x0 :: xs, m ≤ v := fun v hv => (hin v hv).1
  have hU' : ∀ U', some U = some U' → ∀ v ∈ x0 :: xs, v < U' := by rintro _ ⟨⟩; exact fun v hv => (hin v hv).2
  have hH : ∀ U' H', some U = some U' → some H = some H' → m < H' ∧ H' < U' := by rintro _ _ ⟨⟩ ⟨⟩; exact hlt
  have hout : fillOuter n k (t0 :: ts) (x0 :: xs) newT m (some U) (some H) hitI =
      (fillInner n k (t0 :: ts) (x0 :: xs) (freshT newT (t0 :: ts)) m (some U) (some H) hitI).bind fun r => .ret (r.1, r.2.1, whereIn r.1 newT, r.2.2.2) := by
    unfold fillOuter
    rw [if_neg (by simp [h0])]
    simp only [if_neg (List.cons_ne_nil _ _), Prog.assert, if_pos hA, if_pos hL, if_pos hU', if_pos hH, Prog.ret_bind]
    rfl
  obtain ⟨g1, g2⟩ := gapProg_newT (A := freshT newT (t0 :: ts)) (B := newT) (n := n) (k := k) (m := m) (V := EaSkel.bound ⟨t0 :: ts, x0 :: xs, m, U, H, hitI⟩) ts xs t0 x0 hs
    (fun r hr hm => by simp [freshT, hr.ne', hm]) (hN.filter _) hN
  rw [hout, Prog.bind_assoc, Prog.lexp_bind, ← g1]
  refine Eq.trans (b := (fillInner n k (t0 :: ts) (x0 :: xs) (freshT newT (t0 :: ts)) m (some U) (some H) hitI).lexp
    (onOk fun r => (fun t' x' f' => G ⟨t', x', m, U, H, f'⟩) r.1 r.2.1 r.2.2.2)) ?_ ?_
  · congr 1
  by_cases hf : freshT newT (t0 :: ts) = []
  · rw [hf, (gapProg_nil ts xs t0 x0 hlen).1, Prog.lexp_ret]
    unfold fillInner
    rw [if_pos rfl, Prog.lexp_ret]
    rw [hf, (gapProg_nil (n := n) (k := k) (m := m) (V := U) ts xs t0 x0 hlen).2] at g2
    simp [onOk, EaSkel.next, h0, hf, ← g2]
  · have hfl : Fillable (t0 :: ts) (x0 :: xs) (freshT newT (t0 :: ts)) m U H hitI := by
      have hne : ∀ r ∈ freshT newT (t0 :: ts), r ∈ newT ∧ r ∉ t0 :: ts := fun r hr => by simpa [freshT] using hr
      refine ⟨hs, hv.len, hN.filter _, fun r hr => (hne r hr).2, hf, hpos, ⟨t0, List.mem_cons_self, fun r hr => ?_⟩, ⟨_, List.getLast_mem (List.cons_ne_nil t0 ts), fun r hr => ?_⟩,
        hL, fun v hv => (hin v hv).2, hlt, hv.flags⟩
      · refine lt_of_le_of_ne (by rw [hstart]; exact hlo r (hne r hr).1) ?_
        rintro rfl
        exact (hne _ hr).2 List.mem_cons_self
      · refine lt_of_le_of_ne (hlast r (hne r hr).1) ?_
        intro he
        exact (hne r hr).2 (he ▸ List.getLast_mem _)
    rw [fillInner_law hfl hfree (fun t' x' f' => G ⟨t', x', m, U, H, f'⟩), g2]
    congr 1
    funext r
    rcases r with e | r
    · rfl
    simp [onOk, EaSkel.next, h0, hf]

end Ctb
