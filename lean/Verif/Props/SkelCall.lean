import Verif.Model.SkelCall
import Verif.Props.Coin

set_option linter.unusedSectionVars false

/-! # C109: evaluating a skeleton -/

namespace Ctb

open Classical

variable {s : EaSkel} {ts vals : List ℝ} {n k : ℕ} {op : NormOp}

/-- The hitting level lies between the edges. -/
def EaSkel.HitWithin (s : EaSkel) : Prop := (s.tight < s.hitX ∧ s.hitX < s.loose) ∨ (s.loose < s.hitX ∧ s.hitX < s.tight)

/-- One value for each time asked, in the order of the times: a stored value at a stored time, a value between the edges elsewhere. -/
def ValuesAt (s : EaSkel) (ts vals : List ℝ) : Prop :=
  List.Forall₂ (fun r v => (∀ w, (r, w) ∈ s.t.zip s.x → v = w) ∧ min s.tight s.loose ≤ v ∧ v ≤ max s.tight s.loose) ts vals

theorem zip_fst_unique {t x : List ℝ} (h : t.Pairwise (· < ·)) {r v w : ℝ} (hv : (r, v) ∈ t.zip x) (hw : (r, w) ∈ t.zip x) : v = w := by
  obtain ⟨i, hi, ei⟩ := List.mem_iff_getElem.1 hv
  obtain ⟨j, hj, ej⟩ := List.mem_iff_getElem.1 hw
  rw [List.getElem_zip, Prod.mk.injEq] at ei ej
  have hi' : i < t.length := by rw [List.length_zip] at hi; omega
  have hj' : j < t.length := by rw [List.length_zip] at hj; omega
  have hn : t.Nodup := h.imp fun h => h.ne
  have : i = j := (hn.getElem_inj_iff).1 (ei.1.trans ej.1.symm)
  subst this
  exact ei.2.symm.trans ej.2

/-- Strictly increasing times: the values are those of one path through the stored points, between the edges. -/
theorem C109_values_partial (hv : s.Valid) (hw : s.Within) (hN : ts.Pairwise (· < ·)) (h : (skelCall n k s ts).Out (.ok vals)) :
    ValuesAt s ts vals := by
  unfold skelCall at h
  split at h
  · simp at h
  · split_ifs at h with hb
    · simp at h
    · rw [Prog.out_bind_ok] at h
      obtain ⟨⟨s', vals'⟩, h1, h2⟩ := h
      simp only [Prog.out_ret, Except.ok.injEq] at h2
      subst h2
      obtain ⟨hr, -, e1, e2, -⟩ := C45_refines hv hN h1
      have hw' := C45_within hv hN hw h1
      refine hr.new.imp fun r v hrv => ⟨fun w hrw => zip_fst_unique hr.sorted hrv (hr.old _ hrw), ?_⟩
      have hx := (List.of_mem_zip hrv).2
      by_cases hlt : s.tight < s.loose
      · have := hw'.1 (by rw [e1, e2]; exact hlt) v hx
        rw [e1, e2] at this
        rw [min_eq_left hlt.le, max_eq_right hlt.le]
        exact ⟨this.1, this.2.le⟩
      · have := hw'.2 (by rw [e1, e2]; exact hlt) v hx
        rw [e1, e2] at this
        rw [min_eq_right (not_lt.1 hlt), max_eq_left (not_lt.1 hlt)]
        exact ⟨this.1.le, this.2⟩

/-- A time beyond the horizon raises ValueError, always. -/
theorem C109_beyond {f : ℝ} (hf : s.t.getLast? = some f) (hb : ∃ r ∈ ts, f < r) : skelCall n k s ts = .err .value := by
  unfold skelCall
  rw [hf]
  exact if_pos hb

/-- So does a seed. -/
theorem C109_seed_beyond (hb : ∃ r ∈ ts, op.finT < r) : seedCall n k s ts op = .err .value := by
  unfold seedCall
  rw [if_pos (by simpa [NormOp.denorm] using hb)]

/-- A negative time is not answered. -/
theorem C109_before (hv : s.Valid) (hb : ∃ r ∈ ts, r < 0) : ¬ (skelCall n k s ts).Out (.ok vals) := by
  intro h
  obtain ⟨r, hr, hr0⟩ := hb
  have h0 : ts ≠ [] := by rintro rfl; simp at hr
  have ht : ∀ a ∈ s.t, 0 ≤ a := by
    intro a ha
    cases hs : s.t with
    | nil => rw [hs] at ha; simp at ha
    | cons b l =>
      have hst := hv.start
      have hso := hv.sorted
      rw [hs] at ha hst hso
      simp only [List.head?_cons, Option.some.injEq] at hst
      subst hst
      rcases List.mem_cons.1 ha with rfl | ha
      · exact le_rfl
      · exact ((List.pairwise_cons.1 hso).1 a ha).le
  unfold skelCall at h
  split at h
  · simp at h
  · rename_i f hf
    split_ifs at h with hb
    · simp at h
    · rw [Prog.out_bind_ok] at h
      obtain ⟨⟨s', vals'⟩, h1, -⟩ := h
      simp only [interpolateSkel] at h1
      rw [if_neg h0] at h1
      by_cases hlt : s.tight < s.loose
      · rw [if_pos hlt, Prog.out_bind_ok] at h1
        obtain ⟨q, h1, -⟩ := h1
        simp only [fillOuter] at h1
        split_ifs at h1 with h2 h3
        · simp at h1
        all_goals
          rw [Prog.out_bind_ok] at h1
          obtain ⟨_, h1, -⟩ := h1
          rw [Prog.out_assert_ok] at h1
          obtain ⟨a, ha, ha'⟩ := h1.2.1
          linarith [ht a ha, ha' r hr]
      · rw [if_neg hlt, Prog.out_bind_ok] at h1
        obtain ⟨s1, -, h1⟩ := h1
        rw [hf] at h1
        simp only [Prog.out_bind_ok] at h1
        obtain ⟨q, h1, -⟩ := h1
        rw [Prog.out_lift] at h1
        unfold reversePath at h1
        rw [if_pos] at h1
        · simp at h1
        · intro hall
          linarith [(hall r hr).1]

/-- No times, no values. -/
theorem C109_nothing (hv : s.Valid) : skelCall n k s [] = .ret [] := by
  unfold skelCall
  cases hs : s.t with
  | nil => have := hv.start; rw [hs] at this; simp at this
  | cons a l =>
    obtain ⟨f, hf⟩ : ∃ f, (a :: l).getLast? = some f := ⟨_, List.getLast?_eq_some_getLast (by simp)⟩
    rw [hf]
    simp [interpolateSkel, Prog.ret_bind]

theorem whereIn_vals {l x q : List ℝ} (h : x.length = l.length) :
    ((whereIn l q).map fun i : ℕ => x.getD i 0) = ((l.zip x).filter fun p => decide (p.1 ∈ q)).map Prod.snd := by
  have hz : l.zip x = (List.range l.length).map fun i : ℕ => (l.getD i 0, x.getD i 0) := by
    apply List.ext_getElem
    · simp [h]
    · intro i h1 h2
      simp only [List.length_map, List.length_range] at h2
      have h3 : i < x.length := h ▸ h2
      simp [h2, h3]
  rw [hz, List.filter_map, List.map_map]
  rfl

theorem whereIn_reverse {l q : List ℝ} {f : ℝ} :
    ((whereIn (l.reverse.map (f - ·)) (q.reverse.map (f - ·))).reverse.map fun i : ℕ => l.length - 1 - i) = whereIn l q := by
  have hr : (List.range l.length).reverse = (List.range l.length).map fun i : ℕ => l.length - 1 - i := by
    apply List.ext_getElem
    · simp
    · intro i h1 h2
      simp
  unfold whereIn
  rw [← List.filter_reverse]
  simp only [List.length_map, List.length_reverse]
  rw [hr, List.filter_map, List.map_map]
  have e : ((List.range l.length).filter ((fun i : ℕ => decide ((l.reverse.map (f - ·)).getD i 0 ∈ q.reverse.map (f - ·))) ∘ fun i : ℕ => l.length - 1 - i)) =
      (List.range l.length).filter fun i => decide (l.getD i 0 ∈ q) := by
    apply List.filter_congr
    intro i hi
    rw [List.mem_range] at hi
    have h2 : l.length - 1 - i < l.length := by omega
    have h3 : l.length - 1 - (l.length - 1 - i) = i := by omega
    simp only [Function.comp_apply, decide_eq_decide]
    rw [List.getD_eq_getElem _ _ (by simpa using h2), List.getElem_map, List.getElem_reverse, List.getD_eq_getElem _ _ hi]
    simp [h3]
  rw [e]
  refine (List.map_congr_left fun i hi => ?_).trans (List.map_id _)
  have := List.mem_range.1 (List.mem_of_mem_filter hi)
  simp only [Function.comp_apply, id]
  omega

/-- At stored times only the set of the times counts: the stored values come back in the order of time, one for each distinct time. -/
theorem C109_stored (hv : s.Valid) (hw : s.Within) (hh : s.HitWithin) (h0 : ts ≠ []) (hk : ∀ r ∈ ts, r ∈ s.t) :
    skelCall n k s ts = .ret (((s.t.zip s.x).filter fun p => decide (p.1 ∈ ts)).map Prod.snd) := by
  have key : ∀ (s : EaSkel) (ts : List ℝ), s.Valid → s.Within → s.HitWithin → s.tight < s.loose → ts ≠ [] → (∀ r ∈ ts, r ∈ s.t) →
      fillOuter n k s.t s.x ts s.tight (some s.loose) (some s.hitX) s.hitI = .ret (s.t, s.x, whereIn s.t ts, none) := by
    intro s ts hv hw hh hlt h0 hk
    obtain ⟨a, l, hs⟩ : ∃ a l, s.t = a :: l := by
      cases hs : s.t with
      | nil => have := hv.start; rw [hs] at this; simp at this
      | cons a l => exact ⟨a, l, rfl⟩
    have ht0 : s.t ≠ [] := by rw [hs]; simp
    have hx0 : s.x ≠ [] := by
      intro hx
      have := hv.len
      rw [hx, hs] at this
      simp at this
    have ha : (0 : ℝ) ∈ s.t ∧ ∀ b ∈ s.t, 0 ≤ b := by
      have hst := hv.start
      have hso := hv.sorted
      rw [hs] at hst hso ⊢
      simp only [List.head?_cons, Option.some.injEq] at hst
      subst hst
      refine ⟨by simp, fun b hb => ?_⟩
      rcases List.mem_cons.1 hb with rfl | hb
      · exact le_rfl
      · exact ((List.pairwise_cons.1 hso).1 b hb).le
    have hl : ∃ f ∈ s.t, ∀ b ∈ s.t, b ≤ f := by
      refine ⟨s.t.getLast ht0, List.getLast_mem ht0, fun b hb => ?_⟩
      obtain ⟨i, hi, rfl⟩ := List.mem_iff_getElem.1 hb
      rw [List.getLast_eq_getElem]
      rcases Nat.lt_or_ge i (s.t.length - 1) with h | h
      · exact (List.pairwise_iff_getElem.1 hv.sorted i (s.t.length - 1) hi (by omega) h).le
      · have : i = s.t.length - 1 := by omega
        subst this
        exact le_rfl
    obtain ⟨f, hf, hfm⟩ := hl
    unfold fillOuter
    rw [if_neg (by simp [ht0, h0]), Prog.assert, if_pos ⟨ha.2, ⟨0, ha.1, fun r hr => ha.2 r (hk r hr)⟩, ⟨f, hf, fun r hr => hfm r (hk r hr)⟩⟩, Prog.ret_bind, if_neg hx0,
      Prog.assert, if_pos fun v hv => (hw.1 hlt v hv).1, Prog.ret_bind, Prog.assert, if_pos, Prog.ret_bind, Prog.assert, if_pos, Prog.ret_bind]
    · have : ts.filter (fun r => decide (r ∉ s.t)) = [] := by
        rw [List.filter_eq_nil_iff]
        intro r hr
        simp [hk r hr]
      rw [this, fillInner, if_pos rfl, Prog.ret_bind]
    · rintro U H hU hH
      simp only [Option.some.injEq] at hU hH
      subst hU hH
      rcases hh with h | h
      · exact h
      · linarith
    · rintro U hU v hv
      simp only [Option.some.injEq] at hU
      subst hU
      exact (hw.1 hlt v hv).2
  obtain ⟨f, x0, x1, hf, hx0, hx1, hf0, hr, he⟩ := flipSkel_eq hv
  have hnb : ¬ ∃ r ∈ ts, f < r := by
    rintro ⟨r, h1, h2⟩
    linarith [(hr r (hk r h1)).2]
  unfold skelCall
  rw [hf]
  simp only [if_neg hnb, interpolateSkel, if_neg h0]
  by_cases hlt : s.tight < s.loose
  · rw [if_pos hlt, key s ts hv hw hh hlt h0 hk, Prog.ret_bind, Prog.ret_bind, ← whereIn_vals hv.len]
  · rw [if_neg hlt]
    have hlt' : s.loose < s.tight := by
      rcases hh with h | h
      · exact absurd (h.1.trans h.2) hlt
      · exact h.1.trans h.2
    set c := (x0 + x1) / 2 with hc
    have hv1 := (flipWith_valid hv hf c).1
    have hw1 : (flipWith f c s).Within := by
      constructor
      · intro _ v hv'
        simp only [flipWith] at hv' ⊢
        rw [mem_flipList] at hv'
        have := hw.2 hlt _ hv'
        constructor <;> linarith [this.1, this.2]
      · intro h
        simp only [flipWith] at h
        exact absurd (by linarith) h
    have hh1 : (flipWith f c s).HitWithin := by
      rcases hh with h | h
      · exact absurd (h.1.trans h.2) hlt
      · left
        simp only [flipWith]
        constructor <;> linarith [h.1, h.2]
    have hlt1 : (flipWith f c s).tight < (flipWith f c s).loose := by simp only [flipWith]; linarith
    have hk1 : ∀ r ∈ flipList f ts, r ∈ (flipWith f c s).t := by
      intro r h
      simp only [flipWith]
      rw [mem_flipList] at h ⊢
      exact hk _ h
    have hrev : reversePath ts [] f = .ok (flipList f ts, []) := by
      unfold reversePath
      rw [if_neg (not_not.2 fun r h => hr r (hk r h)), if_neg (not_not.2 hf0)]
      rfl
    have hback : flipSkel ⟨(flipWith f c s).t, (flipWith f c s).x, (flipWith f c s).tight, (flipWith f c s).loose, (flipWith f c s).hitX, none⟩ =
        .ok ⟨s.t, s.x, s.tight, s.loose, s.hitX, none⟩ := by
      have hv' : (⟨s.t, s.x, s.tight, s.loose, s.hitX, none⟩ : EaSkel).Valid := ⟨hv.sorted, hv.start, hv.len, by simp⟩
      obtain ⟨f', y0, y1, hf', hy0, hy1, -, -, he'⟩ := flipSkel_eq hv'
      obtain ⟨s2, e1, -, e2⟩ := C48_involution hv'
      rw [he'] at e1
      simp only at hf' hy0 hy1
      rw [hf, Option.some.injEq] at hf'
      rw [hx0, Option.some.injEq] at hy0
      rw [hx1, Option.some.injEq] at hy1
      subst hf' hy0 hy1
      simp only [Except.ok.injEq] at e1
      subst e1
      exact e2
    rw [he]
    simp only [Prog.lift, Prog.ret_bind, hf, hrev]
    rw [key _ _ hv1 hw1 hh1 hlt1 (by simpa [flipList] using h0) hk1, Prog.ret_bind]
    simp only
    rw [hback]
    simp only [Prog.lift, Prog.ret_bind]
    rw [← whereIn_vals hv.len, ← whereIn_reverse (l := s.t) (q := ts) (f := f)]
    rw [List.map_map]
    simp [flipWith, flipList, Function.comp_def]

/-- The order of the times is lost: asked for its values at 1 and 0, the path answers with those at 0 and 1. -/
theorem C109_order_violated : ∃ (s : EaSkel) (ts vals : List ℝ), s.Valid ∧ s.Within ∧ s.HitWithin ∧ ts.Nodup ∧ (∀ r ∈ ts, r ∈ s.t) ∧
    skelCall 1 1 s ts = .ret vals ∧ vals.length = ts.length ∧ ¬ ValuesAt s ts vals := by
  have hv : (⟨[0, 1], [0, 1], 0, 3, 2, none⟩ : EaSkel).Valid := ⟨by simp, rfl, rfl, by simp⟩
  have hw : (⟨[0, 1], [0, 1], 0, 3, 2, none⟩ : EaSkel).Within := by constructor <;> norm_num
  have hh : (⟨[0, 1], [0, 1], 0, 3, 2, none⟩ : EaSkel).HitWithin := Or.inl (by norm_num)
  refine ⟨_, [1, 0], [0, 1], hv, hw, hh, by simp, by simp, ?_, rfl, ?_⟩
  · rw [C109_stored hv hw hh (by simp) (by simp)]
    simp
  · intro h
    have := (List.forall₂_cons.1 h).1.1 1 (by simp)
    norm_num at this

/-- A repeated time is answered once. -/
theorem C109_repeat_violated : ∃ (s : EaSkel) (ts vals : List ℝ), s.Valid ∧ s.Within ∧ s.HitWithin ∧ ts.Pairwise (· ≤ ·) ∧ (∀ r ∈ ts, r ∈ s.t) ∧
    skelCall 1 1 s ts = .ret vals ∧ vals.length ≠ ts.length := by
  have hv : (⟨[0, 1], [0, 1], 0, 3, 2, none⟩ : EaSkel).Valid := ⟨by simp, rfl, rfl, by simp⟩
  have hw : (⟨[0, 1], [0, 1], 0, 3, 2, none⟩ : EaSkel).Within := by constructor <;> norm_num
  have hh : (⟨[0, 1], [0, 1], 0, 3, 2, none⟩ : EaSkel).HitWithin := Or.inl (by norm_num)
  refine ⟨_, [1, 1], [1], hv, hw, hh, by simp, by simp, ?_, by simp⟩
  rw [C109_stored hv hw hh (by simp) (by simp)]
  simp

/-! ## The path is drawn afresh by every call -/

theorem layerbr_through {v : ℝ} (h1 : 1 < v) (h3 : v < 3) :
    (sampleLayerbr 1 1 [1 / 2] 1 0 1 0 (some 3) (some 1)).Out (.ok ([v], some [true, true])) := by
  have hb : (sampleBesselbr [1 / 2] 1 1 3).Out (.ok [v]) := by
    unfold sampleBesselbr
    rw [if_neg (by simp)]
    simp only [Prog.out_bind_ok, Prog.out_assert_ok]
    refine ⟨(), by norm_num, (), by norm_num, [[(0 + 0) / 2], [(0 + 0) / 2], [((2 * v - 1) + 1) / 2]], ?_, ?_⟩
    · rw [Prog.out_mapM'_ok]
      refine List.Forall₂.cons (brownbr_one 0 0) (List.Forall₂.cons (brownbr_one 0 0) (List.Forall₂.cons (brownbr_one 1 (2 * v - 1)) List.Forall₂.nil))
    · have : √(v ^ 2) = v := Real.sqrt_sq (by linarith)
      simp [colNorm, this]
  have he : (proposeEdge 1 [1 / 2] 1 1 (some 3) (some 1)).Out (.ok ([v], [true, true])) := by
    simp only [proposeEdge, Prog.out_bind_ok, Prog.out_assert_ok]
    refine ⟨(), by norm_num, (), by norm_num, ?_⟩
    simp only [edgeLoop]
    rw [if_neg (by simp), Prog.out_bind_ok]
    refine ⟨_, hb, ?_⟩
    rw [Prog.out_bind_ok]
    refine ⟨false, ?_, ?_⟩
    · simp only [escAny, Prog.out_bind_ok]
      refine ⟨[false, false], ?_, by simp⟩
      unfold escGaps
      rw [Prog.out_mapM'_ok]
      refine List.Forall₂.cons ?_ (List.Forall₂.cons ?_ List.Forall₂.nil)
      · exact besEsc_false_reachable (by norm_num) le_rfl (by simp; linarith) (by norm_num) (by simpa using h3)
      · exact besEsc_false_reachable (by norm_num) (by simp; linarith) (by norm_num) (by simpa using h3) (by norm_num)
    · rw [if_neg (by simp), Prog.out_bind_ok]
      refine ⟨[true, true], ?_, rfl⟩
      simp only [hitFlags]
      unfold escGaps
      rw [Prog.out_mapM'_ok]
      refine List.Forall₂.cons ?_ (List.Forall₂.cons ?_ List.Forall₂.nil)
      · exact besEsc_true_reachable (by norm_num) le_rfl (by simp; linarith) (by simp; right; linarith)
      · exact besEsc_true_reachable (by norm_num) (by simp; linarith) (by norm_num) (by simp)
  have hp : (proposeLayer 1 (some 3) (some 1) [1 / 2] 1 0 1 0).Out (.ok ([v], [true, true])) := by
    unfold proposeLayer
    simp only [layerStep]
    simp only [Prog.out_bind_ok, Prog.out_assert_ok]
    refine ⟨(), by norm_num, (), by norm_num, (), by norm_num, ?_⟩
    rw [if_neg (by norm_num), if_pos (by simp), if_neg (by norm_num), Prog.out_bind_ok]
    refine ⟨([v], [true, true]), ?_, by simp⟩
    simpa using he
  unfold sampleLayerbr
  rw [if_neg (by simp)]
  simp only [Prog.out_bind_ok, Prog.out_assert_ok]
  refine ⟨(), by norm_num, (), by norm_num, (), by norm_num, (), by norm_num, (), by norm_num, ?_⟩
  simp only [layerbrLoop, Prog.out_bind_ok]
  exact ⟨_, hp, by simp⟩

/-- The skeleton at 0 and 1 with edges 0 and 3 may answer any value between 1 and 3 at the time 1/2. -/
theorem skelCall_through {v : ℝ} (h1v : 1 < v) (h3v : v < 3) : (skelCall 1 1 exSkel [1 / 2]).Out (.ok [v]) := by
  have h1 : searchLeft ([0, 1] : List ℝ) (1 / 2) = 1 := by norm_num [searchLeft]
  have hi : (fillInner 1 1 [0, 1] [0, 1] [1 / 2] 0 (some 3) (some 1) (some [true])).Out
      (.ok ([0, 1 / 2, 1], [0, v, 1], [1], some [true, true])) := by
    simp only [fillInner]
    rw [if_neg (by simp), if_neg (by simp)]
    simp only [Prog.out_bind_ok, Prog.out_assert_ok]
    refine ⟨(), by norm_num, ?_⟩
    rw [if_neg (by simp)]
    simp only [Prog.out_bind_ok, Prog.out_assert_ok]
    refine ⟨(), by norm_num, (), by norm_num, (), by norm_num, [([v], some [true, true])], ?_, ?_⟩
    · rw [Prog.out_mapM'_ok]
      simp only [List.map_cons, List.map_nil, h1]
      refine List.Forall₂.cons ?_ List.Forall₂.nil
      simp only [fillSector, pyGet, ueSec, hitSec]
      norm_num [h1]
      have := layerbr_through h1v h3v
      norm_num at this
      exact this
    · simp only [List.map_cons, List.map_nil, h1, Prog.out_ret, Except.ok.injEq]
      simp [npInsert, select, stackHits, splitFlag, npUnique, List.range_succ]
  have hc : ¬ ∃ r ∈ ([1 / 2] : List ℝ), (1 : ℝ) < r := by norm_num
  unfold skelCall
  rw [show exSkel.t.getLast? = some 1 from rfl]
  simp only [if_neg hc, Prog.out_bind_ok]
  refine ⟨(⟨[0, 1 / 2, 1], [0, v, 1], 0, 3, 1, some [true, true]⟩, [v]), ?_, rfl⟩
  simp only [interpolateSkel]
  rw [if_neg (by simp), if_pos (by norm_num [exSkel]), Prog.out_bind_ok]
  refine ⟨([0, 1 / 2, 1], [0, v, 1], [1], some [true, true]), ?_, by simp [exSkel]⟩
  show (fillOuter 1 1 [0, 1] [0, 1] [1 / 2] 0 (some 3) (some 1) (some [true])).Out _
  simp only [fillOuter]
  rw [if_neg (by simp)]
  simp only [Prog.out_bind_ok, Prog.out_assert_ok]
  refine ⟨(), by norm_num, ?_⟩
  rw [if_neg (by simp)]
  simp only [Prog.out_bind_ok, Prog.out_assert_ok]
  refine ⟨(), by norm_num, (), by norm_num, (), by norm_num, ([0, 1 / 2, 1], [0, v, 1], [1], some [true, true]), ?_, ?_⟩
  · have : ([1 / 2] : List ℝ).filter (fun r => decide (r ∉ ([0, 1] : List ℝ))) = [1 / 2] := by norm_num [List.filter]
    rw [this]
    exact hi
  · norm_num [whereIn, List.range_succ, List.filter]

/-- Two calls of the same skeleton at the same time may disagree: the value drawn by the first one is forgotten. -/
theorem C109_fresh_violated : ∃ (s : EaSkel) (r v w : ℝ), s.Valid ∧ s.Within ∧ v ≠ w ∧
    ((skelCall 1 1 s [r]).bind fun a => (skelCall 1 1 s [r]).bind fun b => .ret (a, b)).Out (.ok ([v], [w])) := by
  refine ⟨exSkel, 1 / 2, 3 / 2, 2, exSkel_valid, exSkel_within, by norm_num, ?_⟩
  rw [Prog.out_bind_ok]
  refine ⟨[3 / 2], skelCall_through (by norm_num) (by norm_num), ?_⟩
  rw [Prog.out_bind_ok]
  exact ⟨[2], skelCall_through (by norm_num) (by norm_num), rfl⟩

/-- The hypotheses of C109 can be met. -/
example : ValuesAt exSkel [1 / 2] [2] :=
  C109_values_partial exSkel_valid exSkel_within (by simp) (skelCall_through (by norm_num) (by norm_num))

/-! ## Seeds -/

/-- A seed asked at strictly increasing times: the values are those of the bridge that corresponds to one refinement of the seed. -/
theorem C109_seed_partial (hT : 0 < op.finT) (hv : s.Valid) (hN : ts.Pairwise (· < ·)) (h : (seedCall n k s ts op).Out (.ok vals)) :
    ∃ s' : EaSkel, s'.Valid ∧ (s.Within → s'.Within) ∧ (∀ p ∈ s.t.zip s.x, p ∈ s'.t.zip s'.x) ∧
      List.Forall₂ (fun τ x => ∃ w, (τ / op.finT, w) ∈ s'.t.zip s'.x ∧ x = pathVal op τ w) ts vals := by
  unfold seedCall at h
  split_ifs at h with hb
  · simp at h
  · rw [Prog.out_bind_ok] at h
    obtain ⟨⟨s', vals'⟩, h1, h2⟩ := h
    simp only [Prog.out_ret, Except.ok.injEq] at h2
    subst h2
    obtain ⟨a1, -, -, a4, a5, a6⟩ := interpolateSeed_out hT hv hN h1
    exact ⟨s', a1, a4, a5, a6⟩

/-- With times out of order the values are not even values of the path: the seed through -1 at the time 1/2, of a bridge from 0 to 4, gives 2 at
that time and 0 - 1 at the time 0. -/
theorem C109_seed_order_violated : ∃ (op : NormOp) (s : EaSkel) (ts vals : List ℝ), 0 < op.finT ∧ s.Valid ∧ s.Within ∧ s.HitWithin ∧ ts.Nodup ∧
    (∀ r ∈ ts, r / op.finT ∈ s.t) ∧ seedCall 1 1 s ts op = .ret vals ∧
    ∀ p ∈ ts.zip vals, ¬ ∃ w, (p.1 / op.finT, w) ∈ s.t.zip s.x ∧ p.2 = pathVal op p.1 w := by
  have hv : (⟨[0, 1 / 2, 1], [0, -1, 0], -1, 3, 2, none⟩ : EaSkel).Valid := ⟨by norm_num, rfl, rfl, by simp⟩
  have hw : (⟨[0, 1 / 2, 1], [0, -1, 0], -1, 3, 2, none⟩ : EaSkel).Within := by constructor <;> norm_num
  have hh : (⟨[0, 1 / 2, 1], [0, -1, 0], -1, 3, 2, none⟩ : EaSkel).HitWithin := Or.inl (by norm_num)
  have hs := C109_stored (n := 1) (k := 1) (ts := [1 / 2, 0]) hv hw hh (by simp) (by simp)
  have hs' : ∃ s', interpolateSkel 1 1 (⟨[0, 1 / 2, 1], [0, -1, 0], -1, 3, 2, none⟩ : EaSkel) [1 / 2, 0] = .ret (s', [0, -1]) := by
    have hc : ¬ ∃ r ∈ ([1 / 2, 0] : List ℝ), (1 : ℝ) < r := by norm_num
    unfold skelCall at hs
    rw [show (⟨[0, 1 / 2, 1], [0, -1, 0], -1, 3, 2, none⟩ : EaSkel).t.getLast? = some 1 from rfl] at hs
    simp only [if_neg hc] at hs
    norm_num [List.filter] at hs
    norm_num
    generalize interpolateSkel 1 1 _ _ = p at hs ⊢
    cases p with
    | ret q =>
      obtain ⟨s', v⟩ := q
      simp only [Prog.ret_bind, Prog.ret.injEq] at hs
      exact ⟨s', by rw [hs]⟩
    | err e => simp [Prog.err_bind] at hs
    | real d k => simp [Prog.real_bind] at hs
    | nat d k => simp [Prog.nat_bind] at hs
  obtain ⟨s', hs'⟩ := hs'
  refine ⟨⟨1, 1, 0, 4⟩, _, [1 / 2, 0], [2, -1], by norm_num, hv, hw, hh, by simp, by norm_num, ?_, ?_⟩
  · unfold seedCall
    rw [if_neg (by norm_num [NormOp.denorm]), interpolateSeed]
    have e : ([1 / 2, 0] : List ℝ).map (fun t => (NormOp.norm ⟨1, 1, 0, 4⟩ t none).1) = [1 / 2, 0] := by norm_num [NormOp.norm]
    simp only [e]
    rw [hs']
    norm_num [NormOp.denorm, Prog.ret_bind]
  · norm_num [pathVal]

end Ctb
