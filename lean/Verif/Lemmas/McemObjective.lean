import Verif.Model.McemObjective
import Verif.Spec.McemObjective
import Verif.Lemmas.AugLaw
import Verif.Props.Interp

set_option linter.unusedSectionVars false

/-! # Interpolating at stored times; the EM objective -/

namespace Ctb

open Classical

variable {s s' : EaSkel} {newT vals : List ℝ} {n k : ℕ}

/-- The bridge of a normalisation map. -/
noncomputable def NormOp.path (op : NormOp) (z : ℝ → ℝ) (u : ℝ) : ℝ := bridgeAt op.finT op.scale op.x0 op.x1 z u

theorem at_of_mem (hv : s.Valid) {r v : ℝ} (h : (r, v) ∈ s.t.zip s.x) : s.at r = v := by
  unfold EaSkel.at
  rw [lookup_zip hv.sorted (r, v) h]
  rfl

theorem mapM'_ret {α β : Type} {f : α → Prog β} {g : α → β} : ∀ {l : List α}, (∀ a ∈ l, f a = .ret (g a)) → Prog.mapM' f l = .ret (l.map g)
  | [], _ => rfl
  | a :: l, h => by
    simp only [Prog.mapM', h a (by simp), Prog.ret_bind, mapM'_ret (l := l) fun b hb => h b (by simp [hb]), List.map_cons]

theorem fillOuter_known {t x : List ℝ} {a b c : ℝ} {hi : Option (List Bool)} (hx : x.length = t.length) (h0 : newT ≠ []) (hpos : ∀ r ∈ t, 0 ≤ r)
    (hk : ∀ r ∈ newT, r ∈ t) (hw : ∀ v ∈ x, a ≤ v ∧ v < b) (hh : a < c ∧ c < b) (hN : newT.Pairwise (· < ·)) :
    fillOuter n k t x newT a (some b) (some c) hi = .ret (t, x, whereIn t newT, none) := by
  have htne : t ≠ [] := by
    obtain ⟨r, hr⟩ := List.exists_mem_of_ne_nil _ h0
    exact List.ne_nil_of_mem (hk r hr)
  have hxne : x ≠ [] := by
    intro h
    rw [h] at hx
    exact htne (List.length_eq_zero_iff.1 hx.symm)
  have hfil : newT.filter (fun r => decide (r ∉ t)) = [] := by
    rw [List.filter_eq_nil_iff]
    intro r hr
    simp [hk r hr]
  have hlo : ∃ s ∈ t, ∀ r ∈ newT, s ≤ r := by
    refine ⟨newT.head h0, hk _ (List.head_mem h0), ?_⟩
    intro r hr
    cases newT with
    | nil => exact absurd rfl h0
    | cons u N =>
      rcases List.mem_cons.1 hr with rfl | hr
      · exact le_rfl
      · exact ((List.pairwise_cons.1 hN).1 r hr).le
  have hup : ∃ s ∈ t, ∀ r ∈ newT, r ≤ s := by
    refine ⟨newT.getLast h0, hk _ (List.getLast_mem h0), ?_⟩
    intro r hr
    have e := List.dropLast_append_getLast h0
    rw [← e, List.pairwise_append] at hN
    rw [← e] at hr
    rcases List.mem_append.1 hr with hr | hr
    · exact (hN.2.2 r hr _ (by simp)).le
    · simp at hr; exact hr.le
  unfold fillOuter
  rw [if_neg (by simp [htne, h0])]
  unfold Prog.assert
  rw [if_pos ⟨hpos, hlo, hup⟩, Prog.ret_bind, if_neg hxne, if_pos fun v hv => (hw v hv).1, Prog.ret_bind,
    if_pos (by intro U hU v hv; cases hU; exact (hw v hv).2), Prog.ret_bind,
    if_pos (by intro U H hU hH; cases hU; cases hH; exact hh), Prog.ret_bind, hfil]
  unfold fillInner
  rw [if_pos rfl]
  rfl

theorem skel_nonneg (hv : s.Valid) : ∀ r ∈ s.t, 0 ≤ r := by
  obtain ⟨f, x0, x1, -, -, -, -, h, -⟩ := flipSkel_eq hv
  exact fun r hr => (h r hr).1

/-- Asked for stored values only, `interpolate_skeleton` makes no draw. -/
theorem interpolateSkel_known (hv : s.Valid) (hw : s.Within) (hh : s.HitInside) (hN : newT.Pairwise (· < ·)) (hk : ∀ r ∈ newT, r ∈ s.t) :
    ∃ s', interpolateSkel n k s newT = .ret (s', newT.map s.at) := by
  suffices h : ∃ s' vals, interpolateSkel n k s newT = .ret (s', vals) by
    obtain ⟨s', vals, h⟩ := h
    refine ⟨s', ?_⟩
    have ho : (interpolateSkel n k s newT).Out (.ok (s', vals)) := by rw [h]; exact rfl
    obtain ⟨-, -, -, -, -, hf, -⟩ := C46_known_partial hv hN hk ho
    have : vals = newT.map s.at := by
      clear ho h hN hk
      induction hf with
      | nil => rfl
      | cons h1 h2 ih => rw [List.map_cons, at_of_mem hv h1, ih]
    rw [h, this]
  by_cases h0 : newT = []
  · exact ⟨s, [], by unfold interpolateSkel; rw [if_pos h0]⟩
  unfold interpolateSkel
  rw [if_neg h0]
  by_cases ho : s.tight < s.loose
  · rw [if_pos ho, fillOuter_known hv.len h0 (skel_nonneg hv) hk (hw.1 ho) (by
      rcases hh with hh | hh
      · exact hh
      · exact absurd (hh.1.trans hh.2) (not_lt.2 ho.le)) hN]
    exact ⟨_, _, rfl⟩
  · rw [if_neg ho]
    obtain ⟨f, x0, x1, hf, hx0, hx1, hf0, hr, hfl⟩ := flipSkel_eq hv
    have hle : s.loose ≤ s.tight := not_lt.1 ho
    rw [hfl, hf]
    have hrev : reversePath newT [] f = .ok (flipList f newT, []) := by
      unfold reversePath
      rw [if_neg (not_not.2 fun r h => hr r (hk r h)), if_neg (not_not.2 hf0)]
      rfl
    simp only [Prog.lift, Prog.ret_bind, hrev]
    set c := (x0 + x1) / 2
    have hv' := (flipWith_valid hv hf c).1
    rw [fillOuter_known (hi := (flipWith f c s).hitI) hv'.len (by simpa [flipList] using h0) (skel_nonneg hv') ?_ ?_ ?_ (flipList_sorted hN)]
    · simp only [Prog.ret_bind]
      have hv'' : (⟨(flipWith f c s).t, (flipWith f c s).x, (flipWith f c s).tight, (flipWith f c s).loose, (flipWith f c s).hitX, none⟩ : EaSkel).Valid :=
        ⟨hv'.sorted, hv'.start, hv'.len, by intro hs h; cases h⟩
      obtain ⟨f', y0, y1, -, -, -, -, -, hfl'⟩ := flipSkel_eq hv''
      rw [hfl']
      exact ⟨_, _, rfl⟩
    · intro r hr'
      rw [mem_flipList] at hr'
      show r ∈ flipList f s.t
      rw [mem_flipList]
      exact hk _ hr'
    · intro v hv0
      have hv1 : v ∈ flipList (2 * c) s.x := hv0
      rw [mem_flipList] at hv1
      have := hw.2 ho _ hv1
      show 2 * c - s.tight ≤ v ∧ v < 2 * c - s.loose
      constructor <;> linarith [this.1, this.2]
    · show 2 * c - s.tight < 2 * c - s.hitX ∧ 2 * c - s.hitX < 2 * c - s.loose
      rcases hh with hh | hh
      · exact absurd (hh.1.trans hh.2) ho
      · constructor <;> linarith [hh.1, hh.2]

/-- A seed that can be interpolated. -/
structure SeedOk (s : EaSkel) : Prop where
  valid : s.Valid
  within : s.Within
  hit : s.HitInside

theorem interpolateSeed_known {op : NormOp} (hs : SeedOk s) (hT : 0 < op.finT) (hN : newT.Pairwise (· < ·)) (hk : ∀ u ∈ newT, u / op.finT ∈ s.t) :
    ∃ s', interpolateSeed n k op s newT = .ret (s', newT.map (op.path s.at)) := by
  have hN' : (newT.map fun t => (op.norm t none).1).Pairwise (· < ·) := by
    rw [List.pairwise_map]
    exact hN.imp fun h => by simpa [NormOp.norm] using div_lt_div_of_pos_right h hT
  obtain ⟨s', h⟩ := interpolateSkel_known (n := n) (k := k) hs.valid hs.within hs.hit hN' (by
    intro r hr
    rw [List.mem_map] at hr
    obtain ⟨u, hu, rfl⟩ := hr
    exact hk u hu)
  refine ⟨s', ?_⟩
  unfold interpolateSeed
  simp only [h, Prog.ret_bind, List.length_map, if_true, Prog.ret.injEq, Prod.mk.injEq, true_and]
  rw [List.map_map, List.zipWith_map, List.zipWith_self]
  apply List.map_congr_left
  intro u _
  simp only [NormOp.norm, NormOp.denorm, NormOp.path, bridgeAt, Function.comp, Option.map_some, Option.getD_some]
  ring

/-- An interpolation of a usable seed stores the new times and keeps it usable. -/
theorem interpolateSeed_stores {op : NormOp} (hs : SeedOk s) (hT : 0 < op.finT) (hN : newT.Pairwise (· < ·))
    (h : (interpolateSeed n k op s newT).Out (.ok (s', vals))) :
    SeedOk s' ∧ (∀ u ∈ newT, u / op.finT ∈ s'.t) ∧ vals = newT.map (op.path s'.at) := by
  have hN' : (newT.map fun t => (op.norm t none).1).Pairwise (· < ·) := by
    rw [List.pairwise_map]
    exact hN.imp fun h => by simpa [NormOp.norm] using div_lt_div_of_pos_right h hT
  unfold interpolateSeed at h
  simp only [Prog.out_bind_ok] at h
  obtain ⟨⟨s1, zs⟩, h1, h2⟩ := h
  by_cases hl : zs.length = (newT.map fun t => (op.norm t none).1).length
  · rw [if_pos hl, Prog.out_ret] at h2
    simp only [Except.ok.injEq, Prod.mk.injEq] at h2
    obtain ⟨rfl, rfl⟩ := h2
    obtain ⟨hr, hv, e1, e2, e3⟩ := C45_refines hs.valid hN' h1
    refine ⟨⟨hv, C45_within hs.valid hN' hs.within h1, ?_⟩, ?_, ?_⟩
    · have := hs.hit
      unfold EaSkel.HitInside at this ⊢
      rwa [e1, e2, e3]
    · intro u hu
      exact (hr.times _).2 (.inr (List.mem_map.2 ⟨u, hu, rfl⟩))
    · have hz : zs = (newT.map fun t => (op.norm t none).1).map s'.at := by
        have := hr.new
        clear h1 hl hr hN'
        generalize newT.map (fun t => (op.norm t none).1) = N at this
        induction this with
        | nil => rfl
        | cons h1 h2 ih => rw [List.map_cons, at_of_mem hv h1, ih]
      rw [hz, List.map_map, List.zipWith_map, List.zipWith_self]
      apply List.map_congr_left
      intro u _
      simp only [NormOp.norm, NormOp.denorm, NormOp.path, bridgeAt, Function.comp, Option.map_some, Option.getD_some]
      ring
  · rw [if_neg hl, Prog.out_err] at h2
    cases h2

theorem stDisc_ok {disc : ℝ → ℝ} {dt : ℝ} {ts : List ℝ} (h : ts ≠ []) (x : ℝ → ℝ) :
    stDisc disc dt (ts.map x) = .ok (-avgInt dt ts fun u => disc (x u)) := by
  unfold stDisc npMean avgInt
  rw [if_neg (by simpa using h)]
  simp only [Except.map, List.map_map, List.length_map, Function.comp_def]
  congr 1
  ring

theorem sum_map_neg {α : Type} (g : α → ℝ) (L : List α) : (L.map fun q => -g q).sum = -(L.map g).sum := by
  induction L with
  | nil => simp
  | cons a L ih => simp only [List.map_cons, List.sum_cons, ih]; ring

/-! ## `ito` -/

section Ito

variable {p : ℕ} {M : ItoFns p} {t vt : List ℝ} {thi : Fin p → ℝ} {supp : List (List ℝ)} {z : List EaSkel} {m : ℕ}

/-- The supports of a segment of length `dt` are stored in its seed. -/
structure SegOk (dt : ℝ) (ts : List ℝ) (s : EaSkel) : Prop where
  seed : SeedOk s
  sorted : ts.Pairwise (· < ·)
  ne : ts ≠ []
  stored : ∀ u ∈ ts, u / dt ∈ s.t

theorem itoNormops_length (h : vt.length = t.length) : (itoNormops M thi t vt).length = (npDiff t).length := by
  simp [itoNormops, npDiff_len, h]

theorem itoNormops_finT (j : ℕ) (hj : j < (itoNormops M thi t vt).length) (hj' : j < (npDiff t).length) :
    ((itoNormops M thi t vt)[j]).finT = (npDiff t)[j] := by
  simp [itoNormops]

theorem zip_finT {α : Type} (h : vt.length = t.length) (L : List (List ℝ × α × NormOp))
    (hL : L.map (fun q => q.2.2) = itoNormops M thi t vt) {β : Type} (g : List ℝ × α × NormOp → β) :
    (npDiff t).zip (L.map g) = L.map fun q => (q.2.2.finT, g q) := by
  have hlen : L.length = (npDiff t).length := by
    rw [← itoNormops_length (M := M) (thi := thi) h, ← hL, List.length_map]
  apply List.ext_getElem
  · simp [hlen]
  · intro j h1 h2
    simp only [List.length_zip, List.length_map] at h1
    have hj : j < L.length := by omega
    have hj' : j < (npDiff t).length := by omega
    have e : (L.map (fun q => q.2.2))[j]'(by simpa using hj) = (itoNormops M thi t vt)[j]'(by rw [itoNormops_length h]; exact hj') := by
      simp only [hL]
    simp only [List.getElem_map] at e
    simp only [List.getElem_zip, List.getElem_map, e, itoNormops_finT j _ hj']

/-- Segments with their supports, seeds and normalisation maps. -/
noncomputable def itoSegs {σ : Type} (M : ItoFns p) (thi : Fin p → ℝ) (t vt : List ℝ) (supp : List (List ℝ)) (z : List σ) : List (List ℝ × σ × NormOp) :=
  supp.zip (z.zip (itoNormops M thi t vt))

theorem itoSegs_ops {σ : Type} {z : List σ} (h : vt.length = t.length) (hsl : supp.length = (npDiff t).length) (hzl : z.length = (npDiff t).length) :
    (itoSegs M thi t vt supp z).map (fun q => q.2.2) = itoNormops M thi t vt := by
  have hol := itoNormops_length (M := M) (thi := thi) h
  have : (fun q : List ℝ × σ × NormOp => q.2.2) = Prod.snd ∘ Prod.snd := rfl
  rw [this, ← List.map_map, itoSegs, List.map_snd_zip (by simp [hsl, hzl, hol]), List.map_snd_zip (by simp [hzl, hol])]

theorem itoSegs_ok (h : vt.length = t.length) (hseg : ∀ q ∈ (npDiff t).zip (supp.zip z), SegOk q.1 q.2.1 q.2.2) :
    ∀ q ∈ itoSegs M thi t vt supp z, SegOk q.2.2.finT q.1 q.2.1 := by
  intro q hq
  obtain ⟨j, hj, rfl⟩ := List.mem_iff_getElem.1 hq
  have hol := itoNormops_length (M := M) (thi := thi) h
  have hj' := hj
  simp only [itoSegs, List.length_zip, hol] at hj'
  simp only [itoSegs, List.getElem_zip]
  rw [itoNormops_finT j (by omega) (by omega)]
  refine hseg ((npDiff t)[j]'(by omega), supp[j]'(by omega), z[j]'(by omega)) ?_
  rw [List.mem_iff_getElem]
  exact ⟨j, by simp only [List.length_zip]; omega, by simp⟩

theorem itoSegs_finT_pos (ht : ∀ d ∈ npDiff t, 0 < d) : ∀ q ∈ itoSegs M thi t vt supp z, 0 < q.2.2.finT := by
  intro q hq
  have h1 := (List.of_mem_zip (List.of_mem_zip hq).2).2
  unfold itoNormops at h1
  simp only [List.mem_map] at h1
  obtain ⟨r, hr, he⟩ := h1
  rw [← he]
  exact ht _ (List.of_mem_zip hr).1

/-- The sum of the discretised integrals. -/
noncomputable def discSum {σ : Type} (M : ItoFns p) (thi : Fin p → ℝ) (t vt : List ℝ) (supp : List (List ℝ)) (z : List σ) (x : σ → ℝ → ℝ) : ℝ :=
  ((itoSegs M thi t vt supp z).map fun q => avgInt q.2.2.finT q.1 fun u => M.disc thi (q.2.2.path (x q.2.1) u)).sum

theorem discSum_eq {σ : Type} (x : σ → ℝ → ℝ) : ∀ (t vt : List ℝ) (supp : List (List ℝ)) (z : List σ),
    discSum M thi t vt supp z x = emDisc (M.disc thi) (M.reduce thi) x t vt supp z
  | [], vt, supp, z => by simp [discSum, itoSegs, itoNormops, npDiff, emDisc]
  | [_], vt, supp, z => by simp [discSum, itoSegs, itoNormops, npDiff, emDisc]
  | t0 :: t1 :: t, [], supp, z => by simp [discSum, itoSegs, itoNormops, emDisc]
  | t0 :: t1 :: t, [_], supp, z => by simp [discSum, itoSegs, itoNormops, emDisc]
  | t0 :: t1 :: t, v0 :: v1 :: v, [], z => by simp [discSum, itoSegs, itoNormops, emDisc]
  | t0 :: t1 :: t, v0 :: v1 :: v, u :: us, [] => by simp [discSum, itoSegs, itoNormops, emDisc]
  | t0 :: t1 :: t, v0 :: v1 :: v, u :: us, z :: zs => by
    have := discSum_eq x (t1 :: t) (v1 :: v) us zs
    unfold emDisc
    rw [← this]
    simp only [discSum, itoSegs, itoNormops, npDiff, List.map_cons, List.tail_cons, List.zip_cons_cons, List.sum_cons]
    rfl

/-- `est_log_aug_lik` when every interpolation is known. -/
theorem itoEst_of_ret {σ : Type} {z : List σ} {interp : NormOp → σ → List ℝ → Prog (σ × List ℝ)} {x : σ → ℝ → ℝ} (h : vt.length = t.length)
    (h2 : 2 ≤ t.length) (hsl : supp.length = (npDiff t).length) (hzl : z.length = (npDiff t).length)
    (hne : ∀ ts ∈ supp, ts ≠ [])
    (hi : ∀ q ∈ itoSegs M thi t vt supp z, ∃ s', interp q.2.2 q.2.1 q.1 = .ret (s', q.1.map (q.2.2.path (x q.2.1)))) :
    ∃ z', itoEstLogAugLik interp M t vt thi supp z =
      (Prog.lift (itoBiasedLogLik M thi t vt)).bind fun l => .ret (l - discSum M thi t vt supp z x, z') := by
  have hops := itoSegs_ops (M := M) (thi := thi) h hsl hzl
  set L := itoSegs M thi t vt supp z with hL
  have hi' : ∀ q : List ℝ × σ × NormOp, ∃ s', q ∈ L → interp q.2.2 q.2.1 q.1 = .ret (s', q.1.map (q.2.2.path (x q.2.1))) := by
    intro q
    by_cases hq : q ∈ L
    · obtain ⟨s', e⟩ := hi q hq
      exact ⟨s', fun _ => e⟩
    · exact ⟨q.2.1, fun h => absurd h hq⟩
  choose nx hnx using hi'
  have hmap : Prog.mapM' (fun q : List ℝ × σ × NormOp => interp q.2.2 q.2.1 q.1) L =
      .ret (L.map fun q => (nx q, q.1.map (q.2.2.path (x q.2.1)))) := mapM'_ret hnx
  have hLne : L ≠ [] := by
    intro h0
    rw [h0] at hops
    have := itoNormops_length (M := M) (thi := thi) h
    rw [← hops, npDiff_len] at this
    simp at this
    omega
  unfold itoEstLogAugLik
  have hL' : supp.zip (z.zip (itoNormops M thi t vt)) = L := rfl
  simp only [hL', hmap, Prog.ret_bind, List.map_map]
  rw [if_neg (by simpa using hLne)]
  have hz := zip_finT (M := M) (thi := thi) h L hops (Prod.snd ∘ fun q : List ℝ × σ × NormOp => (nx q, q.1.map (q.2.2.path (x q.2.1))))
  rw [hz]
  have hst : (L.map fun q => (q.2.2.finT, (Prod.snd ∘ fun q : List ℝ × σ × NormOp => (nx q, q.1.map (q.2.2.path (x q.2.1)))) q)).mapM
      (fun q => stDisc (M.disc thi) q.1 q.2) =
      (.ok (L.map fun q => -avgInt q.2.2.finT q.1 fun u => M.disc thi (q.2.2.path (x q.2.1) u)) : Res (List ℝ)) := by
    rw [List.mapM_map]
    refine mapM_ok fun q hq => ?_
    exact stDisc_ok (hne _ (List.of_mem_zip hq).1) _
  rw [hst]
  have : (L.map fun q => -avgInt q.2.2.finT q.1 fun u => M.disc thi (q.2.2.path (x q.2.1) u)).sum = -discSum M thi t vt supp z x := by
    rw [discSum, ← hL]
    exact sum_map_neg _ L
  have e : Prog.lift (.ok (L.map fun q => -avgInt q.2.2.finT q.1 fun u => M.disc thi (q.2.2.path (x q.2.1) u)) : Res (List ℝ)) = .ret _ := rfl
  rw [e, Prog.ret_bind, this]
  simp only [← sub_eq_add_neg]
  exact ⟨_, rfl⟩

theorem itoEst_known (h : vt.length = t.length) (h2 : 2 ≤ t.length) (ht : ∀ d ∈ npDiff t, 0 < d)
    (hsl : supp.length = (npDiff t).length) (hzl : z.length = (npDiff t).length)
    (hseg : ∀ q ∈ (npDiff t).zip (supp.zip z), SegOk q.1 q.2.1 q.2.2) :
    ∃ z', itoEstLogAugLik (interpolateSeed n k) M t vt thi supp z =
      (Prog.lift (itoBiasedLogLik M thi t vt)).bind fun l => .ret (l - discSum M thi t vt supp z EaSkel.at, z') := by
  refine itoEst_of_ret h h2 hsl hzl ?_ fun q hq => ?_
  · intro ts hts
    obtain ⟨j, hj, rfl⟩ := List.mem_iff_getElem.1 hts
    refine (hseg ((npDiff t)[j]'(by omega), supp[j], z[j]'(by omega)) ?_).ne
    rw [List.mem_iff_getElem]
    exact ⟨j, by simp only [List.length_zip]; omega, by simp⟩
  · have := itoSegs_ok (M := M) (thi := thi) h hseg q hq
    exact interpolateSeed_known this.seed (itoSegs_finT_pos ht q hq) this.sorted this.stored

theorem forall₂_zip {α β : Type} {R : α → β → Prop} : ∀ {l : List α} {l' : List β}, List.Forall₂ R l l' → ∀ q ∈ l.zip l', R q.1 q.2
  | _, _, .nil, q, hq => by simp at hq
  | _, _, .cons h1 h2, q, hq => by
    rw [List.zip_cons_cons, List.mem_cons] at hq
    rcases hq with rfl | hq
    · exact h1
    · exact forall₂_zip h2 q hq

theorem itoEst_stores {v : ℝ} {z' : List EaSkel} (h : vt.length = t.length) (ht : ∀ d ∈ npDiff t, 0 < d)
    (hsl : supp.length = (npDiff t).length) (hzl : z.length = (npDiff t).length) (hz : ∀ s ∈ z, SeedOk s)
    (hsupp : ∀ ts ∈ supp, ts.Pairwise (· < ·) ∧ ts ≠ []) (ho : (itoEstLogAugLik (interpolateSeed n k) M t vt thi supp z).Out (.ok (v, z'))) :
    z'.length = (npDiff t).length ∧ ∀ q ∈ (npDiff t).zip (supp.zip z'), SegOk q.1 q.2.1 q.2.2 := by
  unfold itoEstLogAugLik at ho
  rw [Prog.out_bind_ok] at ho
  obtain ⟨r, hr, ho⟩ := ho
  rw [Prog.out_mapM'_ok] at hr
  by_cases h0 : r = []
  · rw [if_pos h0, Prog.out_err] at ho
    cases ho
  rw [if_neg h0, Prog.out_bind_ok] at ho
  obtain ⟨st, -, ho⟩ := ho
  rw [Prog.out_bind_ok] at ho
  obtain ⟨l, -, ho⟩ := ho
  rw [Prog.out_ret] at ho
  simp only [Except.ok.injEq, Prod.mk.injEq] at ho
  obtain ⟨-, rfl⟩ := ho
  have hol := itoNormops_length (M := M) (thi := thi) h
  have hrl : r.length = (npDiff t).length := by
    rw [← hr.length_eq]
    simp [hsl, hzl, hol]
  refine ⟨by simpa using hrl, ?_⟩
  intro q hq
  obtain ⟨j, hj, rfl⟩ := List.mem_iff_getElem.1 hq
  simp only [List.length_zip, List.length_map] at hj
  simp only [List.getElem_zip, List.getElem_map]
  have hrj := (List.forall₂_iff_get.1 hr).2 j (by simp [hsl, hzl, hol]; omega) (by omega)
  simp only [List.get_eq_getElem, List.getElem_zip] at hrj
  have hTj := itoNormops_finT (M := M) (thi := thi) (t := t) (vt := vt) j (by omega) (by omega)
  have hpos : 0 < ((itoNormops M thi t vt)[j]'(by omega)).finT := by
    rw [hTj]
    exact ht _ (List.getElem_mem _)
  have hs := hsupp _ (List.getElem_mem (show j < supp.length by omega))
  obtain ⟨a, b, -⟩ := interpolateSeed_stores (s' := r[j].1) (vals := r[j].2) (hz _ (List.getElem_mem (show j < z.length by omega))) hpos hs.1 hrj
  exact ⟨a, hs.1, hs.2, by rw [← hTj]; exact b⟩

/-- What is known of the supports drawn. -/
theorem drawSupports_out {dts : List ℝ} (h : (drawSupports m dts).Out (.ok supp)) :
    List.Forall₂ (fun dt ts => ts.length = m ∧ ts.Pairwise (· ≤ ·) ∧ ∀ u ∈ ts, u ∈ (RDist.uniform 0 dt).support) dts supp := by
  unfold drawSupports at h
  rw [Prog.out_mapM'_ok] at h
  refine h.imp ?_
  intro dt ts h
  rw [Prog.out_bind_ok] at h
  obtain ⟨us, h1, h2⟩ := h
  rw [Prog.out_ret] at h2
  cases h2
  rw [Prog.out_replicate_ok] at h1
  refine ⟨by rw [(npSort_perm us).length_eq, h1.1], npSort_sorted us, ?_⟩
  intro u hu
  rw [(npSort_perm us).mem_iff] at hu
  have := h1.2 u hu
  rw [Prog.out_draw] at this
  obtain ⟨x, hx, e⟩ := this
  cases e
  exact hx

/-- What `update_objective` captures. -/
theorem itoUpdate_out {zz zz' : List (List EaSkel)} (h : vt.length = t.length) (ht : ∀ d ∈ npDiff t, 0 < d) (hm : 1 ≤ m)
    (hz : ∀ z ∈ zz, z.length = (npDiff t).length ∧ ∀ s ∈ z, SeedOk s) (hd : ∀ ts ∈ supp, ts.Nodup)
    (ho : (itoUpdateObjective (interpolateSeed n k) M t vt m thi zz).Out (.ok (supp, zz'))) :
    supp.length = (npDiff t).length ∧ zz'.length = zz.length ∧ ∀ z' ∈ zz', z'.length = (npDiff t).length ∧
      ∀ q ∈ (npDiff t).zip (supp.zip z'), SegOk q.1 q.2.1 q.2.2 := by
  unfold itoUpdateObjective at ho
  rw [Prog.out_bind_ok] at ho
  obtain ⟨supp', hs, ho⟩ := ho
  rw [Prog.out_bind_ok] at ho
  obtain ⟨r, hr, ho⟩ := ho
  by_cases h0 : r = []
  · rw [if_pos h0, Prog.out_err] at ho
    cases ho
  rw [if_neg h0, Prog.out_ret] at ho
  simp only [Except.ok.injEq, Prod.mk.injEq] at ho
  obtain ⟨rfl, rfl⟩ := ho
  have hs' := drawSupports_out hs
  rw [Prog.out_mapM'_ok] at hr
  have hsupp : ∀ ts ∈ supp, ts.Pairwise (· < ·) ∧ ts ≠ [] := by
    intro ts hts
    obtain ⟨j, hj, rfl⟩ := List.mem_iff_getElem.1 hts
    have := (List.forall₂_iff_get.1 hs').2 j (by rw [hs'.length_eq]; exact hj) hj
    simp only [List.get_eq_getElem] at this
    refine ⟨?_, ?_⟩
    · exact (this.2.1.and (hd _ hts)).imp fun h => lt_of_le_of_ne h.1 h.2
    · intro h0
      rw [h0] at this
      simp at this
      omega
  refine ⟨hs'.length_eq.symm, by simp [hr.length_eq], ?_⟩
  intro z' hz'
  obtain ⟨q, hq, rfl⟩ := List.mem_map.1 hz'
  obtain ⟨j, hj, rfl⟩ := List.mem_iff_getElem.1 hq
  have := (List.forall₂_iff_get.1 hr).2 j (by rw [hr.length_eq]; exact hj) hj
  simp only [List.get_eq_getElem] at this
  have hzj := hz _ (List.getElem_mem (show j < zz.length by rw [hr.length_eq]; exact hj))
  exact itoEst_stores (v := r[j].1) (z' := r[j].2) h ht hs'.length_eq.symm hzj.1 hzj.2 hsupp this

end Ito

/-! ## `switching` -/

section Switching

variable {p : ℕ} {M : RegimeFns p} {S : SwitchFns p} {K : ℕ} {h : Anchorage ℝ ℝ} {thi : Thi p} {supp : List (List ℝ)} {z : List EaSkel} {m : ℕ}
  {rs : Option ℕ}

/-- Lengths of an anchorage agree. -/
structure Anchorage.LenOk (h : Anchorage ℝ ℝ) : Prop where
  yt : h.yt.length = h.t.length
  vt : h.vt.length = h.t.length

theorem swNormops_length (hl : h.LenOk) : (swNormops M thi h.t h.yt h.vt).length = (npDiff h.t).length := by
  simp [swNormops, npDiff_len, hl.yt, hl.vt]

theorem swNormops_finT (j : ℕ) (hj : j < (swNormops M thi h.t h.yt h.vt).length) (hj' : j < (npDiff h.t).length) :
    ((swNormops M thi h.t h.yt h.vt)[j]).finT = (npDiff h.t)[j] := by
  simp [swNormops]

/-- Segments with their supports, regimes, seeds and normalisation maps. -/
noncomputable def swSegs {σ : Type} (M : RegimeFns p) (thi : Thi p) (h : Anchorage ℝ ℝ) (supp : List (List ℝ)) (z : List σ) :
    List (List ℝ × ℕ × σ × NormOp) := supp.zip (h.yt.zip (z.zip (swNormops M thi h.t h.yt h.vt)))

theorem swSegs_length {σ : Type} {z : List σ} (hl : h.LenOk) (hsl : supp.length = (npDiff h.t).length) (hzl : z.length = (npDiff h.t).length) :
    (swSegs M thi h supp z).length = (npDiff h.t).length := by
  have := swNormops_length (M := M) (thi := thi) hl
  have h3 : (npDiff h.t).length ≤ h.t.length := by rw [npDiff_len]; omega
  simp only [swSegs, List.length_zip, hsl, hzl, hl.yt, this]
  omega

theorem swSegs_zip {σ : Type} {z : List σ} (hl : h.LenOk) (hsl : supp.length = (npDiff h.t).length) (hzl : z.length = (npDiff h.t).length) {β : Type}
    (g : List ℝ × ℕ × σ × NormOp → β) : (npDiff h.t).zip (h.yt.zip ((swSegs M thi h supp z).map g)) =
      (swSegs M thi h supp z).map fun q => (q.2.2.2.finT, q.2.1, g q) := by
  have hL := swSegs_length (M := M) (thi := thi) hl hsl hzl
  have hol := swNormops_length (M := M) (thi := thi) hl
  have h3 : (npDiff h.t).length ≤ h.yt.length := by rw [npDiff_len, hl.yt]; omega
  apply List.ext_getElem
  · simp only [List.length_zip, List.length_map, hL]
    omega
  · intro j h1 h2
    simp only [List.length_map, hL] at h2
    simp only [List.getElem_zip, List.getElem_map, swSegs]
    rw [swNormops_finT (M := M) (thi := thi) j (by omega) h2]

theorem swSegs_ok (hl : h.LenOk) (hseg : ∀ q ∈ (npDiff h.t).zip (supp.zip z), SegOk q.1 q.2.1 q.2.2) :
    ∀ q ∈ swSegs M thi h supp z, SegOk q.2.2.2.finT q.1 q.2.2.1 := by
  intro q hq
  obtain ⟨j, hj, rfl⟩ := List.mem_iff_getElem.1 hq
  have hol := swNormops_length (M := M) (thi := thi) hl
  have hj' := hj
  simp only [swSegs, List.length_zip, hol] at hj'
  simp only [swSegs, List.getElem_zip]
  rw [swNormops_finT j (by omega) (by omega)]
  refine hseg ((npDiff h.t)[j]'(by omega), supp[j]'(by omega), z[j]'(by omega)) ?_
  rw [List.mem_iff_getElem]
  exact ⟨j, by simp only [List.length_zip]; omega, by simp⟩

theorem swSegs_finT_pos {σ : Type} {z : List σ} (ht : ∀ d ∈ npDiff h.t, 0 < d) : ∀ q ∈ swSegs M thi h supp z, 0 < q.2.2.2.finT := by
  intro q hq
  have h1 := (List.of_mem_zip (List.of_mem_zip (List.of_mem_zip hq).2).2).2
  unfold swNormops at h1
  simp only [List.mem_map] at h1
  obtain ⟨r, hr, he⟩ := h1
  rw [← he]
  exact ht _ (List.of_mem_zip hr).1

/-- The sum of the discretised integrals over the segments that take part. -/
noncomputable def swDiscSum {σ : Type} (M : RegimeFns p) (thi : Thi p) (h : Anchorage ℝ ℝ) (rs : Option ℕ) (supp : List (List ℝ)) (z : List σ)
    (x : σ → ℝ → ℝ) : ℝ :=
  (((swSegs M thi h supp z).filter fun q => decide (takesPart rs q.2.1)).map fun q =>
    avgInt q.2.2.2.finT q.1 fun u => M.disc thi q.2.1 (q.2.2.2.path (x q.2.2.1) u)).sum

theorem swDiscSum_eq {σ : Type} (x : σ → ℝ → ℝ) : ∀ (t : List ℝ) (yt : List ℕ) (vt : List ℝ) (supp : List (List ℝ)) (z : List σ),
    yt.length = t.length → swDiscSum M thi ⟨t, yt, vt⟩ rs supp z x = emDiscSw (M.disc thi) (M.vol thi) M.reduce (takesPart rs) x t yt vt supp z
  | [], _, vt, supp, z, _ => by simp [swDiscSum, swSegs, swNormops, npDiff, emDiscSw]
  | [_], _, vt, supp, z, _ => by simp [swDiscSum, swSegs, swNormops, npDiff, emDiscSw]
  | t0 :: t1 :: t, [], vt, supp, z, h => by simp at h
  | t0 :: t1 :: t, [_], vt, supp, z, h => by simp at h
  | t0 :: t1 :: t, y0 :: y1 :: y, [], supp, z, h => by simp [swDiscSum, swSegs, swNormops, emDiscSw]
  | t0 :: t1 :: t, y0 :: y1 :: y, [_], supp, z, h => by simp [swDiscSum, swSegs, swNormops, emDiscSw]
  | t0 :: t1 :: t, y0 :: y1 :: y, v0 :: v1 :: v, [], z, h => by simp [swDiscSum, swSegs, swNormops, emDiscSw]
  | t0 :: t1 :: t, y0 :: y1 :: y, v0 :: v1 :: v, u :: us, [], h => by simp [swDiscSum, swSegs, swNormops, emDiscSw]
  | t0 :: t1 :: t, y0 :: y1 :: y, v0 :: v1 :: v, u :: us, z :: zs, h => by
    have := swDiscSum_eq x (t1 :: t) (y1 :: y) (v1 :: v) us zs (by simpa using h)
    unfold emDiscSw
    rw [← this]
    simp only [swDiscSum, swSegs, swNormops, npDiff, List.map_cons, List.tail_cons, List.zip_cons_cons, List.dropLast_cons₂]
    rw [List.filter_cons]
    by_cases hp : takesPart rs y0
    · simp only [hp, decide_true, if_true, List.map_cons, List.sum_cons]
      rfl
    · simp only [hp, decide_false, if_false, Bool.false_eq_true, zero_add]

/-- `est_log_aug_lik` when every interpolation is known. -/
theorem swEst_of_ret {σ : Type} {z : List σ} {interp : NormOp → σ → List ℝ → Prog (σ × List ℝ)} {x : σ → ℝ → ℝ} (hl : h.LenOk)
    (h2 : 2 ≤ h.t.length) (hsl : supp.length = (npDiff h.t).length) (hzl : z.length = (npDiff h.t).length) (hne : ∀ ts ∈ supp, ts ≠ [])
    (hi : ∀ q ∈ swSegs M thi h supp z, ∃ s', interp q.2.2.2 q.2.2.1 q.1 = .ret (s', q.1.map (q.2.2.2.path (x q.2.2.1)))) :
    ∃ z', swEstLogAugLik interp M S K thi h rs supp z =
      (Prog.lift (evalBiasedLogLik2 S K thi h rs)).bind fun l => .ret (l.1 - swDiscSum M thi h rs supp z x, z') := by
  have hlen := swSegs_length (M := M) (thi := thi) hl hsl hzl
  have hzip := fun {β : Type} (g : List ℝ × ℕ × σ × NormOp → β) => swSegs_zip (M := M) (thi := thi) hl hsl hzl g
  set L := swSegs M thi h supp z with hL
  have hi' : ∀ q : List ℝ × ℕ × σ × NormOp, ∃ s', q ∈ L → interp q.2.2.2 q.2.2.1 q.1 = .ret (s', q.1.map (q.2.2.2.path (x q.2.2.1))) := by
    intro q
    by_cases hq : q ∈ L
    · obtain ⟨s', e⟩ := hi q hq
      exact ⟨s', fun _ => e⟩
    · exact ⟨q.2.2.1, fun h => absurd h hq⟩
  choose nx hnx using hi'
  let g : List ℝ × ℕ × σ × NormOp → σ × List ℝ := fun q =>
    if takesPart rs q.2.1 then (nx q, q.1.map (q.2.2.2.path (x q.2.2.1))) else (q.2.2.1, [])
  have hmap : Prog.mapM' (fun q : List ℝ × ℕ × σ × NormOp => if takesPart rs q.2.1 then interp q.2.2.2 q.2.2.1 q.1 else .ret (q.2.2.1, [])) L =
      .ret (L.map g) := by
    refine mapM'_ret fun q hq => ?_
    by_cases hp : takesPart rs q.2.1
    · simp only [g, if_pos hp]
      exact hnx q hq
    · simp only [g, if_neg hp]
  have hLne : L ≠ [] := by
    intro h0
    rw [h0, npDiff_len] at hlen
    simp at hlen
    omega
  unfold swEstLogAugLik
  have hL' : supp.zip (h.yt.zip (z.zip (swNormops M thi h.t h.yt h.vt))) = L := rfl
  simp only [hL', hmap, Prog.ret_bind, List.map_map]
  rw [if_neg (by simpa using hLne), hzip (Prod.snd ∘ g), List.filter_map]
  have hst : ((L.filter ((fun q : ℝ × ℕ × List ℝ => decide (takesPart rs q.2.1)) ∘ fun q : List ℝ × ℕ × σ × NormOp =>
      (q.2.2.2.finT, q.2.1, (Prod.snd ∘ g) q))).map fun q => (q.2.2.2.finT, q.2.1, (Prod.snd ∘ g) q)).mapM
      (fun q => stDisc (M.disc thi q.2.1) q.1 q.2.2) =
      (.ok ((L.filter fun q => decide (takesPart rs q.2.1)).map fun q =>
        -avgInt q.2.2.2.finT q.1 fun u => M.disc thi q.2.1 (q.2.2.2.path (x q.2.2.1) u)) : Res (List ℝ)) := by
    rw [List.mapM_map]
    refine mapM_ok fun q hq => ?_
    rw [List.mem_filter] at hq
    have hp : takesPart rs q.2.1 := by simpa using hq.2
    simp only [Function.comp, g, if_pos hp]
    exact stDisc_ok (hne _ (List.of_mem_zip hq.1).1) _
  rw [hst]
  have : ((L.filter fun q => decide (takesPart rs q.2.1)).map fun q =>
        -avgInt q.2.2.2.finT q.1 fun u => M.disc thi q.2.1 (q.2.2.2.path (x q.2.2.1) u)).sum = -swDiscSum M thi h rs supp z x := by
    rw [swDiscSum, ← hL]
    exact sum_map_neg _ _
  have e : ∀ l : List ℝ, Prog.lift (.ok l : Res (List ℝ)) = .ret l := fun _ => rfl
  rw [e, Prog.ret_bind, this]
  simp only [← sub_eq_add_neg]
  exact ⟨_, rfl⟩

theorem swEst_known (hl : h.LenOk) (h2 : 2 ≤ h.t.length) (ht : ∀ d ∈ npDiff h.t, 0 < d)
    (hsl : supp.length = (npDiff h.t).length) (hzl : z.length = (npDiff h.t).length)
    (hseg : ∀ q ∈ (npDiff h.t).zip (supp.zip z), SegOk q.1 q.2.1 q.2.2) :
    ∃ z', swEstLogAugLik (interpolateSeed n k) M S K thi h rs supp z =
      (Prog.lift (evalBiasedLogLik2 S K thi h rs)).bind fun l => .ret (l.1 - swDiscSum M thi h rs supp z EaSkel.at, z') := by
  refine swEst_of_ret hl h2 hsl hzl ?_ fun q hq => ?_
  · intro ts hts
    obtain ⟨j, hj, rfl⟩ := List.mem_iff_getElem.1 hts
    refine (hseg ((npDiff h.t)[j]'(by omega), supp[j], z[j]'(by omega)) ?_).ne
    rw [List.mem_iff_getElem]
    exact ⟨j, by simp only [List.length_zip]; omega, by simp⟩
  · have := swSegs_ok (M := M) (thi := thi) hl hseg q hq
    exact interpolateSeed_known this.seed (swSegs_finT_pos ht q hq) this.sorted this.stored

theorem swEst_stores {v : ℝ} {z' : List EaSkel} (hl : h.LenOk) (ht : ∀ d ∈ npDiff h.t, 0 < d)
    (hsl : supp.length = (npDiff h.t).length) (hzl : z.length = (npDiff h.t).length) (hz : ∀ s ∈ z, SeedOk s)
    (hsupp : ∀ ts ∈ supp, ts.Pairwise (· < ·) ∧ ts ≠ []) (ho : (swEstLogAugLik (interpolateSeed n k) M S K thi h none supp z).Out (.ok (v, z'))) :
    z'.length = (npDiff h.t).length ∧ ∀ q ∈ (npDiff h.t).zip (supp.zip z'), SegOk q.1 q.2.1 q.2.2 := by
  unfold swEstLogAugLik at ho
  rw [Prog.out_bind_ok] at ho
  obtain ⟨r, hr, ho⟩ := ho
  rw [Prog.out_mapM'_ok] at hr
  by_cases h0 : r = []
  · rw [if_pos h0, Prog.out_err] at ho
    cases ho
  rw [if_neg h0, Prog.out_bind_ok] at ho
  obtain ⟨st, -, ho⟩ := ho
  rw [Prog.out_bind_ok] at ho
  obtain ⟨l, -, ho⟩ := ho
  rw [Prog.out_ret] at ho
  simp only [Except.ok.injEq, Prod.mk.injEq] at ho
  obtain ⟨-, rfl⟩ := ho
  have hol := swNormops_length (M := M) (thi := thi) hl
  have hLl := swSegs_length (M := M) (thi := thi) hl hsl hzl
  have h3 : (npDiff h.t).length ≤ h.yt.length := by rw [npDiff_len, hl.yt]; omega
  have hrl : r.length = (npDiff h.t).length := by
    rw [← hr.length_eq]
    exact hLl
  refine ⟨by simpa using hrl, ?_⟩
  intro q hq
  obtain ⟨j, hj, rfl⟩ := List.mem_iff_getElem.1 hq
  simp only [List.length_zip, List.length_map] at hj
  simp only [List.getElem_zip, List.getElem_map]
  have hrj := (List.forall₂_iff_get.1 hr).2 j (by rw [hr.length_eq]; omega) (by omega)
  simp only [List.get_eq_getElem, List.getElem_zip] at hrj
  rw [if_pos (.inl rfl)] at hrj
  have hTj := swNormops_finT (M := M) (thi := thi) (h := h) j (by omega) (by omega)
  have hpos : 0 < ((swNormops M thi h.t h.yt h.vt)[j]'(by omega)).finT := by
    rw [hTj]
    exact ht _ (List.getElem_mem _)
  have hs := hsupp _ (List.getElem_mem (show j < supp.length by omega))
  obtain ⟨a, b, -⟩ := interpolateSeed_stores (s' := r[j].1) (vals := r[j].2) (hz _ (List.getElem_mem (show j < z.length by omega))) hpos hs.1 hrj
  exact ⟨a, hs.1, hs.2, by rw [← hTj]; exact b⟩

theorem supports_sorted {dts : List ℝ} (hm : 1 ≤ m) (hd : ∀ ts ∈ supp, ts.Nodup) (hs : (drawSupports m dts).Out (.ok supp)) :
    supp.length = dts.length ∧ ∀ ts ∈ supp, ts.Pairwise (· < ·) ∧ ts ≠ [] := by
  have hs' := drawSupports_out hs
  refine ⟨hs'.length_eq.symm, fun ts hts => ?_⟩
  obtain ⟨j, hj, rfl⟩ := List.mem_iff_getElem.1 hts
  have := (List.forall₂_iff_get.1 hs').2 j (by rw [hs'.length_eq]; exact hj) hj
  simp only [List.get_eq_getElem] at this
  refine ⟨?_, ?_⟩
  · exact (this.2.1.and (hd _ hts)).imp fun h => lt_of_le_of_ne h.1 h.2
  · intro h0
    rw [h0] at this
    simp at this
    omega

/-- What `update_objective` captures. -/
theorem swUpdate_out {zh : List (List EaSkel × Anchorage ℝ ℝ)} {supps : List (List (List ℝ))} {zz' : List (List EaSkel)} (hm : 1 ≤ m)
    (hz : ∀ q ∈ zh, q.2.LenOk ∧ (∀ d ∈ npDiff q.2.t, 0 < d) ∧ q.1.length = (npDiff q.2.t).length ∧ ∀ s ∈ q.1, SeedOk s)
    (hd : ∀ supp ∈ supps, ∀ ts ∈ supp, ts.Nodup)
    (ho : (swUpdateObjective (interpolateSeed n k) M S K m thi zh).Out (.ok (supps, zz'))) :
    supps.length = zh.length ∧ zz'.length = zh.length ∧ ∀ q ∈ zz'.zip ((zh.map Prod.snd).zip supps),
      q.2.2.length = (npDiff q.2.1.t).length ∧ q.1.length = (npDiff q.2.1.t).length ∧
      ∀ r ∈ (npDiff q.2.1.t).zip (q.2.2.zip q.1), SegOk r.1 r.2.1 r.2.2 := by
  unfold swUpdateObjective at ho
  rw [Prog.out_bind_ok] at ho
  obtain ⟨supp', hs, ho⟩ := ho
  rw [Prog.out_bind_ok] at ho
  obtain ⟨r, hr, ho⟩ := ho
  by_cases h0 : r = []
  · rw [if_pos h0, Prog.out_err] at ho
    cases ho
  rw [if_neg h0, Prog.out_ret] at ho
  simp only [Except.ok.injEq, Prod.mk.injEq] at ho
  obtain ⟨rfl, rfl⟩ := ho
  rw [Prog.out_mapM'_ok] at hs hr
  have hsl := hs.length_eq
  have hrl := hr.length_eq
  rw [List.length_zip] at hrl
  refine ⟨hsl.symm, by simp; omega, ?_⟩
  intro q hq
  obtain ⟨j, hj, rfl⟩ := List.mem_iff_getElem.1 hq
  simp only [List.length_zip, List.length_map] at hj
  simp only [List.getElem_zip, List.getElem_map]
  have hrj := (List.forall₂_iff_get.1 hr).2 j (by rw [hr.length_eq]; omega) (by omega)
  have hsj := (List.forall₂_iff_get.1 hs).2 j (by omega) (by omega)
  simp only [List.get_eq_getElem, List.getElem_zip] at hrj hsj
  obtain ⟨a1, a2, a3, a4⟩ := hz _ (List.getElem_mem (show j < zh.length by omega))
  obtain ⟨b1, b2⟩ := supports_sorted hm (hd _ (List.getElem_mem (show j < supps.length by omega))) hsj
  exact ⟨b1, swEst_stores (v := r[j].1) (z' := r[j].2) a1 a2 b1 a3 a4 b2 hrj⟩

end Switching

end Ctb
