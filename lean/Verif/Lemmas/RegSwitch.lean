import Verif.Lemmas.RegMore
import Verif.Lemmas.MassJump
import Verif.Model.GenGibbs

/-!
# The updates of hidden regimes have measurable laws
-/

set_option linter.unusedSectionVars false

namespace Ctb

open MeasureTheory ProbabilityTheory Set Classical
open scoped ENNReal

variable {X Y Z α β γ ζ : Type} [MeasurableSpace X] [MeasurableSpace Y] [MeasurableSpace Z] [MeasurableSpace α] [MeasurableSpace β] [MeasurableSpace γ] [MeasurableSpace ζ] [Inhabited ζ]

/-! ## Anchorages and schedules -/

/-- The fields of an anchorage. -/
def Anchorage.tup (h : Anchorage ℝ ℝ) : List ℝ × List ℕ × List ℝ := (h.t, h.yt, h.vt)

instance : MeasurableSpace (Anchorage ℝ ℝ) := MeasurableSpace.comap Anchorage.tup inferInstance
instance : Inhabited (Anchorage ℝ ℝ) := ⟨⟨[], [], []⟩⟩

theorem measurable_anchTup : Measurable Anchorage.tup := comap_measurable _

@[fun_prop] theorem Measurable.anchT {h : X → Anchorage ℝ ℝ} (hh : Measurable h) : Measurable fun x => (h x).t := (measurable_anchTup.comp hh).fst
@[fun_prop] theorem Measurable.anchY {h : X → Anchorage ℝ ℝ} (hh : Measurable h) : Measurable fun x => (h x).yt := (measurable_anchTup.comp hh).snd.fst
@[fun_prop] theorem Measurable.anchV {h : X → Anchorage ℝ ℝ} (hh : Measurable h) : Measurable fun x => (h x).vt := (measurable_anchTup.comp hh).snd.snd

@[fun_prop] theorem Measurable.anchMk {t : X → List ℝ} {y : X → List ℕ} {v : X → List ℝ} (ht : Measurable t) (hy : Measurable y) (hv : Measurable v) :
    Measurable fun x => (⟨t x, y x, v x⟩ : Anchorage ℝ ℝ) := by
  refine measurable_comap_iff.2 ?_
  show Measurable fun x => (t x, y x, v x)
  fun_prop

/-- The fields of a schedule. -/
def Schedule.tup (s : Schedule) : List ℝ × List ℝ × List ℕ := (s.logScale, s.empProb, s.periods)

instance : MeasurableSpace Schedule := MeasurableSpace.comap Schedule.tup inferInstance
instance : Inhabited Schedule := ⟨⟨[], [], []⟩⟩

theorem measurable_schedTup : Measurable Schedule.tup := comap_measurable _

@[fun_prop] theorem Measurable.schedScale {s : X → Schedule} (hs : Measurable s) : Measurable fun x => (s x).logScale := (measurable_schedTup.comp hs).fst
@[fun_prop] theorem Measurable.schedEmp {s : X → Schedule} (hs : Measurable s) : Measurable fun x => (s x).empProb := (measurable_schedTup.comp hs).snd.fst
@[fun_prop] theorem Measurable.schedPeriods {s : X → Schedule} (hs : Measurable s) : Measurable fun x => (s x).periods := (measurable_schedTup.comp hs).snd.snd

@[fun_prop] theorem Measurable.schedMk {a b : X → List ℝ} {c : X → List ℕ} (ha : Measurable a) (hb : Measurable b) (hc : Measurable c) :
    Measurable fun x => Schedule.mk (a x) (b x) (c x) := by
  refine measurable_comap_iff.2 ?_
  show Measurable fun x => (a x, b x, c x)
  fun_prop

instance : MeasurableSpace (MjpAdaptive (Skel ℝ)) := MeasurableSpace.comap (fun s => (s.state, s.sched)) inferInstance
instance : Inhabited (MjpAdaptive (Skel ℝ)) := ⟨⟨default, default⟩⟩

theorem measurable_adaptTup : Measurable fun s : MjpAdaptive (Skel ℝ) => (s.state, s.sched) := comap_measurable _

@[fun_prop] theorem Measurable.adaptState {s : X → MjpAdaptive (Skel ℝ)} (hs : Measurable s) : Measurable fun x => (s x).state := (measurable_adaptTup.comp hs).fst
@[fun_prop] theorem Measurable.adaptSched {s : X → MjpAdaptive (Skel ℝ)} (hs : Measurable s) : Measurable fun x => (s x).sched := (measurable_adaptTup.comp hs).snd

@[fun_prop] theorem Measurable.adaptMk {a : X → Skel ℝ} {b : X → Schedule} (ha : Measurable a) (hb : Measurable b) : Measurable fun x => MjpAdaptive.mk (a x) (b x) := by
  refine measurable_comap_iff.2 ?_
  show Measurable fun x => (a x, b x)
  fun_prop

instance : MeasurableSpace (HiddenState ζ) := MeasurableSpace.comap (fun s => (s.z, s.h, s.sampler)) inferInstance
instance : Inhabited (HiddenState ζ) := ⟨⟨[], default, default⟩⟩

theorem measurable_hidTup : Measurable fun s : HiddenState ζ => (s.z, s.h, s.sampler) := comap_measurable _

@[fun_prop] theorem Measurable.hidZ {s : X → HiddenState ζ} (hs : Measurable s) : Measurable fun x => (s x).z := (measurable_hidTup.comp hs).fst
@[fun_prop] theorem Measurable.hidH {s : X → HiddenState ζ} (hs : Measurable s) : Measurable fun x => (s x).h := (measurable_hidTup.comp hs).snd.fst
@[fun_prop] theorem Measurable.hidS {s : X → HiddenState ζ} (hs : Measurable s) : Measurable fun x => (s x).sampler := (measurable_hidTup.comp hs).snd.snd

@[fun_prop] theorem Measurable.hidMk {a : X → List ζ} {b : X → Anchorage ℝ ℝ} {c : X → MjpAdaptive (Skel ℝ)} (ha : Measurable a) (hb : Measurable b) (hc : Measurable c) :
    Measurable fun x => HiddenState.mk (a x) (b x) (c x) := by
  refine measurable_comap_iff.2 ?_
  show Measurable fun x => (a x, b x, c x)
  fun_prop

/-! ## Adaptation -/

theorem meas_lastOf [Inhabited α] {l : X → List α} (hl : Measurable l) : Measurable fun x => lastOf (l x) := by
  unfold lastOf
  exact Measurable.optionCases (o := fun x => pyGet (l x) (-1)) (by fun_prop) (f := fun _ o => match o with
    | some a => (.ok a : Res α)
    | none => .error .index) measurable_const (by fun_prop)

theorem meas_secondLastOf [Inhabited α] {l : X → List α} (hl : Measurable l) : Measurable fun x => secondLastOf (l x) := by
  unfold secondLastOf
  exact Measurable.optionCases (o := fun x => pyGet (l x) (-2)) (by fun_prop) (f := fun _ o => match o with
    | some a => (.ok a : Res α)
    | none => .error .index) measurable_const (by fun_prop)

theorem meas_npMean {l : X → List ℝ} (hl : Measurable l) : Measurable fun x => npMean (l x) := by
  unfold npMean
  refine Measurable.ite' (Measurable.isNil hl) measurable_const (Measurable.resOk (Measurable.div (by fun_prop) ?_))
  exact Measurable.discrete (f := fun x => (l x).length) (by fun_prop) fun n : ℕ => (n : ℝ)

theorem meas_schedAdapt (b : Bool) (P : AdaptPar) {s : X → Schedule} {v : X → ℝ} (hs : Measurable s) (hv : Measurable v) : Measurable fun x => (s x).adapt b P (v x) := by
  have e : ∀ x, (s x).adapt b P (v x) = (lastOf (s x).periods).bind fun last => if ((s x).empProb ++ [v x]).length = last + 1 then
      (secondLastOf (s x).periods).bind fun prev => (if b then npMean (((s x).empProb ++ [v x]).drop prev) else .ok (v x)).bind fun m => (lastOf (s x).logScale).bind fun sc =>
      .ok ⟨(s x).logScale ++ [sc + 1 / ((s x).periods.length : ℝ) ^ P.decay * (m - P.optProb)], (s x).empProb ++ [v x], (s x).periods ++ [last + (s x).periods.length ^ P.air]⟩
      else .ok ⟨(s x).logScale, (s x).empProb ++ [v x], (s x).periods⟩ := fun x => by
    unfold Schedule.adapt
    cases b <;> rfl
  simp only [e]
  refine Measurable.resBind (meas_lastOf (by fun_prop)) (Measurable.ite' ?_ (Measurable.resBind (meas_secondLastOf (by fun_prop)) (Measurable.resBind ?_ (Measurable.resBind (meas_lastOf (by fun_prop)) ?_))) (by fun_prop))
  · exact Measurable.discrete (f := fun q : X × ℕ => (((s q.1).empProb ++ [v q.1]).length, q.2)) (by fun_prop) fun q => q.1 = q.2 + 1
  · cases b
    · simp only [Bool.false_eq_true, if_false]
      fun_prop
    · simp only [if_true]
      exact meas_npMean (Measurable.drop (by fun_prop) (by fun_prop))
  · refine Measurable.resOk (Measurable.schedMk ?_ (by fun_prop) ?_)
    · have h1 : Measurable fun q : (((X × ℕ) × ℕ) × ℝ) × ℝ => 1 / ((s q.1.1.1.1).periods.length : ℝ) ^ P.decay :=
        Measurable.discrete (f := fun q : (((X × ℕ) × ℕ) × ℝ) × ℝ => (s q.1.1.1.1).periods.length) (by fun_prop) fun n : ℕ => 1 / (n : ℝ) ^ P.decay
      fun_prop
    · have h1 : Measurable fun q : (((X × ℕ) × ℕ) × ℝ) × ℝ => q.1.1.1.2 + (s q.1.1.1.1).periods.length ^ P.air :=
        Measurable.discrete (f := fun q : (((X × ℕ) × ℕ) × ℝ) × ℝ => (q.1.1.1.2, (s q.1.1.1.1).periods.length)) (by fun_prop) fun n : ℕ × ℕ => n.1 + n.2 ^ P.air
      fun_prop

theorem meas_jumpAdapt (P : AdaptPar) {s : X → MjpAdaptive (Skel ℝ)} {y : X → Skel ℝ} {v : X → ℝ} (hs : Measurable s) (hy : Measurable y) (hv : Measurable v) :
    Measurable fun x => (s x).adapt P (y x) (v x) := by
  have e : ∀ x, (s x).adapt P (y x) (v x) = ((s x).sched.adapt false P (v x)).bind fun c => .ok ⟨y x, c⟩ := fun x => rfl
  simp only [e]
  exact Measurable.resBind (meas_schedAdapt false P (by fun_prop) (by fun_prop)) (by fun_prop)

/-! ## Cutting and pasting anchorages -/

theorem meas_prune {h : X → Anchorage ℝ ℝ} (hh : Measurable h) : Measurable fun x => pruneAnchorage (h x) := by
  have hk : Measurable fun x => true :: List.zipWith (fun a b => decide (a ≠ b)) (h x).yt.tail (h x).yt.dropLast :=
    Measurable.discrete (f := fun x => (h x).yt) (by fun_prop) fun l => true :: List.zipWith (fun a b => decide (a ≠ b)) l.tail l.dropLast
  unfold pruneAnchorage
  refine Measurable.ite' ?_ measurable_const ?_
  · exact Measurable.discrete (f := fun x => ((h x).t.length, (h x).yt.length, (true :: List.zipWith (fun a b => decide (a ≠ b)) (h x).yt.tail (h x).yt.dropLast).length))
      ((Measurable.length (by fun_prop)).prodMk ((Measurable.length (by fun_prop)).prodMk (Measurable.length hk))) fun q : ℕ × ℕ × ℕ => q.1 ≠ q.2.2 ∨ q.2.1 ≠ q.2.2
  · refine (congrArg Measurable (funext fun x => ?_)).mpr (Measurable.optionCases (o := fun x => (h x).t.getLast?) (Measurable.getLast? (by fun_prop)) (f := fun x o => match o with
      | none => (.error .index : Res (Skel ℝ))
      | some f => .ok ⟨select (h x).t (true :: List.zipWith (fun a b => decide (a ≠ b)) (h x).yt.tail (h x).yt.dropLast),
          select (h x).yt (true :: List.zipWith (fun a b => decide (a ≠ b)) (h x).yt.tail (h x).yt.dropLast), f⟩) measurable_const ?_)
    · cases (h x).t.getLast? <;> rfl
    have hk' : Measurable fun q : X × ℝ => true :: List.zipWith (fun a b => decide (a ≠ b)) (h q.1).yt.tail (h q.1).yt.dropLast := hk.comp measurable_fst
    exact Measurable.resOk (Measurable.jumpMk (Measurable.select (by fun_prop) hk') (Measurable.select (by fun_prop) hk') measurable_snd)

theorem meas_breakRows {t nt : X → List ℝ} (ht : Measurable t) (hn : Measurable nt) : Measurable fun x => breakRows (t x) (nt x) := by
  unfold breakRows
  have h1 : Measurable fun x => (pySlice (t x) 1 (-1)).zipIdx := by
    have h0 := Measurable.pySlice' ht 1 (-1)
    have e : ∀ x, (pySlice (t x) 1 (-1)).zipIdx = (pySlice (t x) 1 (-1)).zip (List.range (pySlice (t x) 1 (-1)).length) := fun x => by
      rw [List.zipIdx_eq_zip_range', List.range_eq_range']
    simp only [e]
    exact Measurable.zip h0 (Measurable.discrete (f := fun x => (pySlice (t x) 1 (-1)).length) (Measurable.length h0) List.range)
  have h2 : Measurable fun x => ((pySlice (t x) 1 (-1)).zipIdx.filter fun p => decide (p.1 ∈ nt x)).map fun p => (p.2 : ℤ) + 1 := by
    refine Measurable.listMap (f := fun _ (p : ℝ × ℕ) => (p.2 : ℤ) + 1) (Measurable.filter h1 (Measurable.decide ?_)) (Measurable.discrete (f := fun q : X × ℝ × ℕ => q.2.2) (by fun_prop) fun n : ℕ => (n : ℤ) + 1)
    have e : ∀ q : X × ℝ × ℕ, (q.2.1 ∈ nt q.1) = ∃ a ∈ nt q.1, a = q.2.1 := fun q => by simp
    simp only [e]
    exact Measurable.memEx (by fun_prop) (Measurable.eqReal (by fun_prop) (by fun_prop))
  have h3 : Measurable fun x => ((t x).length : ℤ) - 1 := Measurable.discrete (f := fun x => (t x).length) (by fun_prop) fun n : ℕ => (n : ℤ) - 1
  fun_prop

theorem meas_anchPiece {h : X → Anchorage ℝ ℝ} {r : X → ℤ × ℤ} (hh : Measurable h) (hr : Measurable r) : Measurable fun x => anchPiece (h x) (r x) := by
  have h0 : ∀ c : ℤ × ℤ, Measurable fun x => anchPiece (h x) c := fun c => by
    unfold anchPiece
    refine (congrArg Measurable (funext fun x => ?_)).mpr (Measurable.optionCases (o := fun x => pyGet (h x).t c.1) (by fun_prop) (f := fun x o => match o with
      | none => (.error .index : Res (Anchorage ℝ ℝ))
      | some t0 => .ok ⟨(pySlice (h x).t c.1 (c.2 + 1)).map (· - t0), pySlice (h x).yt c.1 (c.2 + 1), pySlice (h x).vt c.1 (c.2 + 1)⟩) measurable_const (Measurable.resOk (Measurable.anchMk ?_ ?_ ?_)))
    · cases pyGet (h x).t c.1 <;> rfl
    · exact Measurable.listMap (X := X × ℝ) (f := fun q a => a - q.2) (Measurable.pySlice' (by fun_prop) _ _) (by fun_prop)
    · exact Measurable.pySlice' (by fun_prop) _ _
    · exact Measurable.pySlice' (by fun_prop) _ _
  have h' : Measurable fun q : X × ℤ × ℤ => anchPiece (h q.1) q.2 := measurable_from_prod_countable_left h0
  exact h'.comp (measurable_id.prodMk hr)

theorem meas_splitHidden {z : X → List ζ} {h : X → Anchorage ℝ ℝ} {nt : X → List ℝ} (hz : Measurable z) (hh : Measurable h) (hn : Measurable nt) :
    Measurable fun x => splitHidden (z x) (h x) (nt x) := by
  have hb : Measurable fun x => breakRows (h x).t (nt x) := meas_breakRows (by fun_prop) hn
  have hr : Measurable fun x => (breakRows (h x).t (nt x)).zip (breakRows (h x).t (nt x)).tail := Measurable.zip hb (Measurable.tail hb)
  have e : ∀ x, splitHidden (z x) (h x) (nt x) = (((breakRows (h x).t (nt x)).zip (breakRows (h x).t (nt x)).tail).mapM (anchPiece (h x))).bind fun hp =>
      .ok (((breakRows (h x).t (nt x)).zip (breakRows (h x).t (nt x)).tail).map fun r => pySlice (z x) r.1 r.2, hp) := fun x => rfl
  simp only [e]
  refine Measurable.resBind (Measurable.resMapM (f := fun x => anchPiece (h x)) (meas_anchPiece (by fun_prop) measurable_snd) hr) (Measurable.resOk (Measurable.prodMk ?_ measurable_snd))
  exact (Measurable.listMap (f := fun x (r : ℤ × ℤ) => pySlice (z x) r.1 r.2) hr (meas_pySlice (by fun_prop) (by fun_prop) (by fun_prop))).comp measurable_fst

theorem meas_pasteStep {h h' : X → Anchorage ℝ ℝ} (hh : Measurable h) (hh' : Measurable h') : Measurable fun x => pasteStep (h x) (h' x) := by
  unfold pasteStep
  refine (congrArg Measurable (funext fun x => ?_)).mpr (Measurable.optionCases (o := fun x => (h x).t.getLast?) (Measurable.getLast? (by fun_prop)) (f := fun x o => match o with
    | none => (.error .index : Res (Anchorage ℝ ℝ))
    | some f => .ok ⟨(h x).t ++ (h' x).t.tail.map (· + f), (h x).yt ++ (h' x).yt.tail, (h x).vt ++ (h' x).vt.tail⟩) measurable_const (Measurable.resOk (Measurable.anchMk ?_ (by fun_prop) (by fun_prop))))
  · cases (h x).t.getLast? <;> rfl
  have h1 : Measurable fun q : X × ℝ => (h' q.1).t.tail.map (· + q.2) := Measurable.listMap (by fun_prop) (by fun_prop)
  fun_prop

/-- Folding a measurable step over a list. -/
theorem Measurable.resFoldlM [Inhabited α] [Inhabited β] {f : β → α → Res β} (hf : Measurable fun q : β × α => f q.1 q.2) {b : X → β} {l : X → List α} (hb : Measurable b)
    (hl : Measurable l) : Measurable fun x => (l x).foldlM f (b x) := by
  have h := measurable_listRec (X := Res β) (Y := Res β) (f := fun r (l : List α) => r.bind fun b => l.foldlM f b) (g := fun q => q.2.2.2) (h := fun q => q.1.bind fun b => f b q.2.1)
    (by fun_prop) (Measurable.resBind (r := fun q : Res β × α × List α => q.1) (f := fun q b => f b q.2.1) measurable_fst (hf.comp (by fun_prop : Measurable fun q : (Res β × α × List α) × β => (q.2, q.1.2.1))))
    (by
      refine (congrArg Measurable (funext fun r => ?_)).mpr measurable_id
      cases r <;> rfl)
    fun r a l => by
      cases r with
      | error e => rfl
      | ok b =>
        show List.foldlM f b (a :: l) = (f b a).bind fun b => l.foldlM f b
        rfl
  have h2 : Measurable fun x => ((.ok (b x) : Res β), l x) := by fun_prop
  exact h.comp h2

theorem meas_pasteHidden {zp : X → List (List ζ)} {hp : X → List (Anchorage ℝ ℝ)} (hz : Measurable zp) (hh : Measurable hp) : Measurable fun x => pasteHidden (zp x) (hp x) := by
  refine Measurable.listCases (f := fun x l => pasteHidden (zp x) l) hh measurable_const ?_
  have e : ∀ q : X × Anchorage ℝ ℝ × List (Anchorage ℝ ℝ), pasteHidden (zp q.1) (q.2.1 :: q.2.2) = (q.2.2.foldlM pasteStep q.2.1).bind fun h' => .ok ((zp q.1).flatten, h') := fun q => rfl
  simp only [e]
  exact Measurable.resBind (Measurable.resFoldlM (meas_pasteStep measurable_fst measurable_snd) (by fun_prop) (by fun_prop)) (by fun_prop)

/-! ## Augmentation -/

/-- Times of the augmented anchorage. -/
noncomputable def augT (y : Skel ℝ) (t : List ℝ) (tl : ℝ) : List ℝ := ((t.zip (partitionSkeleton y (pySlice t 1 (-1)))).map fun q => q.2.t.map (q.1 + ·)).flatten ++ [tl]

/-- Regimes of the augmented anchorage. -/
noncomputable def augY (y : Skel ℝ) (t : List ℝ) (yl : ℕ) : List ℕ := ((partitionSkeleton y (pySlice t 1 (-1))).map Skel.xt).flatten ++ [yl]

theorem reg_sampleAnchors {vol : X → ℕ → ℝ} (hv : ∀ y, Measurable fun x => vol x y) {p : X → Skel ℝ} {a b : X → ℝ} (hp : Measurable p) (ha : Measurable a) (hb : Measurable b) :
    Reg fun x => sampleAnchors (vol x) (p x) (a x) (b x) := by
  have hv' : Measurable fun q : X × ℕ => vol q.1 q.2 := measurable_from_prod_countable_left hv
  have hs : Measurable fun x => npCumsum (List.zipWith (fun d y => d * vol x y ^ 2) (npDiff ((p x).t ++ [(p x).fin])) (p x).xt) := by
    refine Measurable.npCumsum (Measurable.zipWith' (f := fun x d y => d * vol x y ^ 2) (Measurable.npDiff (by fun_prop)) (by fun_prop) ?_)
    have := hv'.comp (by fun_prop : Measurable fun q : X × ℝ × ℕ => (q.1, q.2.2))
    exact (by fun_prop : Measurable fun q : X × ℝ × ℕ => q.2.1).mul (Measurable.pow_const this 2)
  unfold sampleAnchors
  refine Reg.ite' (Measurable.discrete (f := fun x => (p x).t.length) (by fun_prop) (· = 1)) (Reg.ret (by fun_prop)) ?_
  refine Reg.optionCases (o := fun x => (npCumsum (List.zipWith (fun d y => d * vol x y ^ 2) (npDiff ((p x).t ++ [(p x).fin])) (p x).xt)).getLast?) (Measurable.getLast? hs) (p := fun x o => match o with
    | none => .err .index
    | some sl => (sampleBrownbr (npCumsum (List.zipWith (fun d y => d * vol x y ^ 2) (npDiff ((p x).t ++ [(p x).fin])) (p x).xt)).dropLast sl (a x) (b x)).bind fun xt => .ret (a x :: xt)) (Reg.err _) ?_
  have hs' : Measurable fun q : X × ℝ => (npCumsum (List.zipWith (fun d y => d * vol q.1 y ^ 2) (npDiff ((p q.1).t ++ [(p q.1).fin])) (p q.1).xt)).dropLast := (Measurable.dropLast hs).comp measurable_fst
  exact Reg.bind (reg_sampleBrownbr hs' measurable_snd (by fun_prop) (by fun_prop)) (Reg.ret (by fun_prop))

theorem reg_sampleAugOf {vol : X → ℕ → ℝ} (hv : ∀ y, Measurable fun x => vol x y) {red dered : ℝ → ℝ} (hr : Measurable red) (hd : Measurable dered)
    {raw : X → ℝ → ℕ → ℝ → ℝ → Prog ζ} (hw : Reg fun q : X × ℝ × ℕ × ℝ × ℝ => raw q.1 q.2.1 q.2.2.1 q.2.2.2.1 q.2.2.2.2) {y : X → Skel ℝ} {t vt : X → List ℝ}
    (hy : Measurable y) (ht : Measurable t) (hvt : Measurable vt) : Reg fun x => sampleAug (vol x) red dered (raw x) (y x) (t x) (vt x) := by
  have hp : Measurable fun x => partitionSkeleton (y x) (pySlice (t x) 1 (-1)) := meas_partitionSkeleton hy (Measurable.pySlice' ht _ _)
  have hx : Measurable fun x => (vt x).map red := Measurable.listMap (f := fun _ => red) hvt (hr.comp measurable_snd)
  have h1 : Reg fun x => Prog.mapM' (fun q : Skel ℝ × ℝ × ℝ => (sampleAnchors (vol x) q.1 q.2.1 q.2.2).bind fun l => .ret (l.map dered))
      ((partitionSkeleton (y x) (pySlice (t x) 1 (-1))).zip (((vt x).map red).zip ((vt x).map red).tail)) := by
    refine Reg.mapM' (f := fun x (q : Skel ℝ × ℝ × ℝ) => (sampleAnchors (vol x) q.1 q.2.1 q.2.2).bind fun l => .ret (l.map dered)) ?_ (Measurable.zip hp (Measurable.zip hx (Measurable.tail hx)))
    exact Reg.bind (reg_sampleAnchors (vol := fun q : X × Skel ℝ × ℝ × ℝ => vol q.1) (fun y => (hv y).comp measurable_fst) (by fun_prop) (by fun_prop) (by fun_prop))
      (Reg.ret (Measurable.listMap (f := fun _ => dered) measurable_snd (hd.comp measurable_snd)))
  have h2 : Reg fun q : X × List (List ℝ) × ℝ × ℝ × ℕ =>
      (Prog.mapM' (fun r => raw q.1 r.1 r.2.1 r.2.2.1 r.2.2.2) (segments (augT (y q.1) (t q.1) q.2.2.2.1) (augY (y q.1) (t q.1) q.2.2.2.2) (((q.2.1.flatten ++ [q.2.2.1]).map dered).map red))).bind fun z =>
        Prog.ret (z, (⟨augT (y q.1) (t q.1) q.2.2.2.1, augY (y q.1) (t q.1) q.2.2.2.2, (q.2.1.flatten ++ [q.2.2.1]).map dered⟩ : Anchorage ℝ ℝ)) := by
    have ht1 : Measurable fun q : X × List (List ℝ) × ℝ × ℝ × ℕ => augT (y q.1) (t q.1) q.2.2.2.1 := by
      unfold augT
      refine Measurable.append (Measurable.flatten ?_) (by fun_prop)
      exact (Measurable.listMap (f := fun _ (q : ℝ × Skel ℝ) => q.2.t.map (q.1 + ·)) (Measurable.zip ht hp) (Measurable.listMap (by fun_prop) (by fun_prop))).comp measurable_fst
    have hy1 : Measurable fun q : X × List (List ℝ) × ℝ × ℝ × ℕ => augY (y q.1) (t q.1) q.2.2.2.2 := by
      unfold augY
      refine Measurable.append (Measurable.flatten ?_) (by fun_prop)
      exact (Measurable.listMap (f := fun _ (q : Skel ℝ) => q.xt) hp (by fun_prop)).comp measurable_fst
    have hv1 : Measurable fun q : X × List (List ℝ) × ℝ × ℝ × ℕ => (q.2.1.flatten ++ [q.2.2.1]).map dered := Measurable.listMap (f := fun _ => dered) (by fun_prop) (hd.comp measurable_snd)
    have hx1 := Measurable.listMap (f := fun _ => red) hv1 (hr.comp measurable_snd)
    refine Reg.bind (Reg.mapM' (f := fun (q : X × List (List ℝ) × ℝ × ℝ × ℕ) (r : ℝ × ℕ × ℝ × ℝ) => raw q.1 r.1 r.2.1 r.2.2.1 r.2.2.2) ?_ (Measurable.segments ht1 hy1 hx1)) (Reg.ret ?_)
    · exact hw.comp (f := fun q : (X × List (List ℝ) × ℝ × ℝ × ℕ) × ℝ × ℕ × ℝ × ℝ => (q.1.1, q.2)) (by fun_prop)
    · exact measurable_snd.prodMk (Measurable.anchMk (ht1.comp measurable_fst) (hy1.comp measurable_fst) (hv1.comp measurable_fst))
  have e : ∀ x, sampleAug (vol x) red dered (raw x) (y x) (t x) (vt x) =
      (Prog.mapM' (fun q : Skel ℝ × ℝ × ℝ => (sampleAnchors (vol x) q.1 q.2.1 q.2.2).bind fun l => .ret (l.map dered))
        ((partitionSkeleton (y x) (pySlice (t x) 1 (-1))).zip (((vt x).map red).zip ((vt x).map red).tail))).bind fun xs =>
      (Prog.lift (optRes .index (vt x).getLast?)).bind fun vl =>
      if (t x).zip (partitionSkeleton (y x) (pySlice (t x) 1 (-1))) = [] then .err .value else
      (Prog.lift (optRes .index (t x).getLast?)).bind fun tl => (Prog.lift (optRes .index (y x).xt.getLast?)).bind fun yl =>
      (Prog.mapM' (fun r => raw x r.1 r.2.1 r.2.2.1 r.2.2.2) (segments (augT (y x) (t x) tl) (augY (y x) (t x) yl) (((xs.flatten ++ [vl]).map dered).map red))).bind fun z =>
        Prog.ret (z, (⟨augT (y x) (t x) tl, augY (y x) (t x) yl, (xs.flatten ++ [vl]).map dered⟩ : Anchorage ℝ ℝ)) := by
    intro x
    unfold sampleAug
    dsimp only
    congr 1
    funext xs
    cases (vt x).getLast? with
    | none => rfl
    | some vl =>
      simp only [List.isEmpty_iff]
      show _ = (if _ then _ else _)
      congr 1
      cases (t x).getLast? with
      | none => rfl
      | some tl =>
        cases (y x).xt.getLast? with
        | none => rfl
        | some yl => rfl
  refine (congrArg Reg (funext e)).mpr ?_
  refine Reg.bind h1 (Reg.bind (Reg.lift (Measurable.optRes (Measurable.getLast? (by fun_prop)) _)) (Reg.ite' (Measurable.isNil ((Measurable.zip ht hp).comp (by fun_prop))) (Reg.err _)
    (Reg.bind (Reg.lift (Measurable.optRes (Measurable.getLast? (by fun_prop)) _)) (Reg.bind (Reg.lift (Measurable.optRes (Measurable.getLast? (by fun_prop)) _)) ?_))))
  exact h2.comp (f := fun q : (((X × List (List ℝ)) × ℝ) × ℝ) × ℕ => (q.1.1.1.1, q.1.1.1.2, q.1.1.2, q.1.2, q.2)) (by fun_prop)

theorem mass_sampleAnchors (vol : ℕ → ℝ) (p : Skel ℝ) (a b : ℝ) : Mass1 (sampleAnchors vol p a b) := by
  unfold sampleAnchors
  refine .ite (fun _ => .ret _) fun _ => ?_
  dsimp only
  split
  · exact .err _
  · exact (mass_brownbr ..).bind fun _ _ => .ret _

theorem mass_sampleAugOf {ζ : Type} (vol : ℕ → ℝ) (red dered : ℝ → ℝ) {raw : ℝ → ℕ → ℝ → ℝ → Prog ζ} (hw : ∀ a b c d, Mass1 (raw a b c d)) (y : Skel ℝ) (t vt : List ℝ) :
    Mass1 (sampleAug vol red dered raw y t vt) := by
  unfold sampleAug
  refine (Mass1.mapM' fun _ _ => (mass_sampleAnchors ..).bind fun _ _ => .ret _).bind fun _ _ => ?_
  split
  · exact .err _
  · refine .ite (fun _ => .err _) fun _ => ?_
    split
    · exact (Mass1.mapM' fun _ _ => hw ..).bind fun _ _ => .ret _
    · exact .err _

/-! ## The update of the hidden state -/

/-- Operations that depend measurably on parameters. -/
structure MeasOps (O : X → HiddenOps ζ) : Prop where
  aug : Reg fun q : X × Skel ℝ => (O q.1).aug q.2
  weight : Measurable fun q : X × List ζ × Anchorage ℝ ℝ => (O q.1).weight q.2.1 q.2.2
  red : Measurable fun q : X × ℝ => (O q.1).red q.2
  flip : Reg fun q : X × (ℝ × ℕ × ℝ × ℝ) × ζ => (O q.1).flip q.2.1 q.2.2

theorem MeasOps.comp {O : X → HiddenOps ζ} (hO : MeasOps O) {f : Y → X} (hf : Measurable f) : MeasOps fun y => O (f y) where
  aug := hO.aug.comp (f := fun q : Y × Skel ℝ => (f q.1, q.2)) (by fun_prop)
  weight := hO.weight.comp (by fun_prop : Measurable fun q : Y × List ζ × Anchorage ℝ ℝ => (f q.1, q.2))
  red := hO.red.comp (by fun_prop : Measurable fun q : Y × ℝ => (f q.1, q.2))
  flip := hO.flip.comp (f := fun q : Y × (ℝ × ℕ × ℝ × ℝ) × ζ => (f q.1, q.2)) (by fun_prop)

theorem reg_flipHiddenCoins {O : X → HiddenOps ζ} (hO : MeasOps O) {z : X → List ζ} {h : X → Anchorage ℝ ℝ} (hz : Measurable z) (hh : Measurable h) :
    Reg fun x => flipHiddenCoins (O x) (z x) (h x) := by
  have hl : Measurable fun x => (z x).zip (segments (h x).t (h x).yt ((h x).vt.map (O x).red)) :=
    Measurable.zip hz (Measurable.segments (by fun_prop) (by fun_prop) (Measurable.listMap (f := fun x => (O x).red) (by fun_prop) hO.red))
  unfold flipHiddenCoins
  refine Reg.ite' ?_ (Reg.err _) (Reg.bind (Reg.mapM' (f := fun x (q : ζ × ℝ × ℕ × ℝ × ℝ) => (O x).flip q.2 q.1) ?_ hl) (Reg.ret (Measurable.prodMk (Measurable.allFst measurable_snd) ?_)))
  · simp only [List.isEmpty_iff]
    exact Measurable.isNil hl
  · exact hO.flip.comp (f := fun q : X × ζ × ℝ × ℕ × ℝ × ℝ => (q.1, q.2.2, q.2.1)) (by fun_prop)
  · exact Measurable.listMap (f := fun _ (r : Bool × ζ) => r.2) (by fun_prop) (by fun_prop)

theorem reg_flipPrecoin {a b : X → ℝ} (ha : Measurable a) (hb : Measurable b) : Reg fun x => flipPrecoin (a x) (b x) :=
  Reg.real (DMeas.uniform measurable_const measurable_const) (Reg.ret (Measurable.decide (by fun_prop)))

theorem reg_updateHiddenSection (C : McmcControls) {O : X → HiddenOps ζ} (hO : MeasOps O) {zN zP : X → List ζ} {hN hP : X → Anchorage ℝ ℝ} (h1 : Measurable zN) (h2 : Measurable hN)
    (h3 : Measurable zP) (h4 : Measurable hP) : Reg fun x => updateHiddenSection C (O x) (zN x) (hN x) (zP x) (hP x) := by
  have c1 : Reg fun q : X × List ζ × List ζ => (flipHiddenCoins (O q.1) q.2.1 (hP q.1)).bind fun r => .ret (r.1, r.2, (r.2, q.2.2)) :=
    Reg.bind (reg_flipHiddenCoins (hO.comp measurable_fst) (by fun_prop) (by fun_prop)) (Reg.ret (by fun_prop))
  have c2 : Reg fun q : X × List ζ × List ζ => (flipHiddenCoins (O q.1) q.2.2 (hN q.1)).bind fun r => .ret (r.1, r.2, (q.2.1, r.2)) :=
    Reg.bind (reg_flipHiddenCoins (hO.comp measurable_fst) (by fun_prop) (by fun_prop)) (Reg.ret (by fun_prop))
  have hf : ∀ {w1 w2 : X → ℝ}, Measurable w1 → Measurable w2 → Reg fun x => (sampleTwocoin (w1 x) (w2 x) (fun s : List ζ × List ζ => (flipHiddenCoins (O x) s.1 (hP x)).bind fun r => .ret (r.1, r.2, (r.2, s.2)))
      (fun s : List ζ × List ζ => (flipHiddenCoins (O x) s.2 (hN x)).bind fun r => .ret (r.1, r.2, (s.1, r.2))) C.prPortkey (zN x) C.maxProps (zP x, zN x)).bind fun v =>
      Prog.ret (v.1.1, v.1.2.2, if v.1.1 then hP x else hN x) := by
    intro w1 w2 hw1 hw2
    refine Reg.bind (reg_sampleTwocoin hw1 hw2 (c1 := fun x s => (flipHiddenCoins (O x) s.1 (hP x)).bind fun r => .ret (r.1, r.2, (r.2, s.2)))
      (c2 := fun x s => (flipHiddenCoins (O x) s.2 (hN x)).bind fun r => .ret (r.1, r.2, (s.1, r.2))) c1 c2 _ h1 _ (by fun_prop)) (Reg.ret ?_)
    refine Measurable.prodMk (by fun_prop) (Measurable.prodMk (by fun_prop) (Measurable.ite' ?_ (by fun_prop) (by fun_prop)))
    exact Measurable.discrete (f := fun q : X × Verdict (List ζ × List ζ) (List ζ) => q.2.1.1) (by fun_prop) fun b : Bool => b = true
  have hw1 : Measurable fun x => (O x).weight (zP x) (hP x) := hO.weight.comp (by fun_prop : Measurable fun x => (x, zP x, hP x))
  have hw2 : Measurable fun x => (O x).weight (zN x) (hN x) := hO.weight.comp (by fun_prop : Measurable fun x => (x, zN x, hN x))
  unfold updateHiddenSection
  dsimp only
  split_ifs
  · refine Reg.bind (reg_flipPrecoin hw1 hw2) (Reg.ite' ?_ ((hf measurable_const measurable_const).comp measurable_fst) (Reg.ret (by fun_prop)))
    exact Measurable.discrete (f := fun q : X × Bool => q.2) (by fun_prop) fun b : Bool => b = true
  · exact hf hw1 hw2

theorem reg_updateHiddenWith (A : AdaptPar) (C : McmcControls) {O : X → HiddenOps ζ} (hO : MeasOps O) {s : X → HiddenState ζ} {y : X → Skel ℝ} {tc : X → List ℝ} (hs : Measurable s)
    (hy : Measurable y) (ht : Measurable tc) : Reg fun x => updateHiddenWith A C (O x) (s x) (y x) (tc x) := by
  unfold updateHiddenWith
  refine Reg.bind (hO.aug.comp (f := fun x => (x, y x)) (by fun_prop)) (Reg.bind (Reg.lift (meas_splitHidden (by fun_prop) (by fun_prop) (by fun_prop)))
    (Reg.bind (Reg.lift (meas_splitHidden (by fun_prop) (by fun_prop) (by fun_prop))) (Reg.bind (Reg.mapM' ?_ ?_) (Reg.ite' ?_ (Reg.err _) (Reg.bind (Reg.lift (meas_pasteHidden ?_ ?_))
      (Reg.bind (Reg.lift (meas_prune (by fun_prop))) (Reg.bind (Reg.lift (meas_npMean ?_)) (Reg.bind (Reg.lift (meas_jumpAdapt A (by fun_prop) (by fun_prop) (by fun_prop))) (Reg.ret (by fun_prop)))))))) ))
  · exact reg_updateHiddenSection C (hO.comp (f := fun q : (((X × List ζ × Anchorage ℝ ℝ) × List (List ζ) × List (Anchorage ℝ ℝ)) × List (List ζ) × List (Anchorage ℝ ℝ)) × (List ζ × Anchorage ℝ ℝ) × List ζ × Anchorage ℝ ℝ => q.1.1.1.1) (by fun_prop)) (by fun_prop) (by fun_prop) (by fun_prop) (by fun_prop)
  · exact Measurable.zip (Measurable.zip (by fun_prop) (by fun_prop)) (Measurable.zip (by fun_prop) (by fun_prop))
  · simp only [List.isEmpty_iff]
    exact Measurable.isNil measurable_snd
  · exact Measurable.listMap (f := fun _ (a : Bool × List ζ × Anchorage ℝ ℝ) => a.2.1) measurable_snd (by fun_prop)
  · exact Measurable.listMap (f := fun _ (a : Bool × List ζ × Anchorage ℝ ℝ) => a.2.2) measurable_snd (by fun_prop)
  · refine Measurable.listMap (f := fun _ (a : Bool × List ζ × Anchorage ℝ ℝ) => if a.1 then (1 : ℝ) else 0) (by fun_prop) ?_
    exact (Measurable.discrete (f := fun a : Bool => a) measurable_id fun b : Bool => if b then (1 : ℝ) else 0).comp (by fun_prop)

theorem reg_updateHidden (fuel d : ℕ) [NeZero d] (A : AdaptPar) (C : McmcControls) {O : X → HiddenOps ζ} (hO : MeasOps O) {t : X → List ℝ} {g : X → Mat} {s : X → HiddenState ζ}
    (ht : Measurable t) (hg : Measurable g) (hs : Measurable s) : Reg fun x => updateHidden fuel d A C (O x) (t x) (g x) (s x) := by
  unfold updateHidden
  refine Reg.bind (Reg.lift (meas_lastOf (by fun_prop))) (Reg.bind (reg_mjpPropose fuel (by fun_prop) (by fun_prop) (by fun_prop) (Measurable.pySlice' (by fun_prop) _ _)) ?_)
  exact reg_updateHiddenWith A C (hO.comp (f := fun q : (X × ℝ) × Skel ℝ × List ℝ => q.1.1) (by fun_prop)) (by fun_prop) (by fun_prop) (by fun_prop)

theorem reg_initHidden (fuel d : ℕ) [NeZero d] (A : AdaptPar) {O : X → HiddenOps ζ} (hO : MeasOps O) {T : X → ℝ} {g : X → Mat} (hT : Measurable T) (hg : Measurable g) :
    Reg fun x => initHidden fuel d A (O x) (T x) (g x) := by
  unfold initHidden
  refine Reg.bind (reg_sampleForwards fuel d hg hT measurable_const) (Reg.bind (hO.aug.comp (f := fun q : X × Skel ℝ => (q.1, q.2)) (by fun_prop)) (Reg.ret ?_))
  unfold MjpAdaptive.init Schedule.init
  fun_prop

/-! ## Mass -/

/-- Operations whose draws have mass one. -/
structure MassOps {ζ : Type} (O : HiddenOps ζ) : Prop where
  aug : ∀ y, Mass1 (O.aug y)
  flip : ∀ s z, Mass1 (O.flip s z)

theorem mass_flipHiddenCoins {ζ : Type} {O : HiddenOps ζ} (hO : MassOps O) (z : List ζ) (h : Anchorage ℝ ℝ) : Mass1 (flipHiddenCoins O z h) :=
  .ite (fun _ => .err _) fun _ => (Mass1.mapM' fun _ _ => hO.flip ..).bind fun _ _ => .ret _

theorem mass_updateHiddenSection {ζ : Type} (C : McmcControls) {O : HiddenOps ζ} (hO : MassOps O) (zN : List ζ) (hN : Anchorage ℝ ℝ) (zP : List ζ) (hP : Anchorage ℝ ℝ) :
    Mass1 (updateHiddenSection C O zN hN zP hP) := by
  have h : ∀ w1 w2 : ℝ, Mass1 ((sampleTwocoin w1 w2 (fun s : List ζ × List ζ => (flipHiddenCoins O s.1 hP).bind fun r => .ret (r.1, r.2, (r.2, s.2)))
      (fun s : List ζ × List ζ => (flipHiddenCoins O s.2 hN).bind fun r => .ret (r.1, r.2, (s.1, r.2))) C.prPortkey zN C.maxProps (zP, zN)).bind fun v =>
      Prog.ret (v.1.1, v.1.2.2, if v.1.1 then hP else hN)) := fun w1 w2 =>
    (mass_twocoinLoop _ (fun _ => (mass_flipHiddenCoins hO ..).bind fun _ _ => .ret _) (fun _ => (mass_flipHiddenCoins hO ..).bind fun _ _ => .ret _) ..).bind fun _ _ => .ret _
  unfold updateHiddenSection
  dsimp only
  split_ifs
  · exact (Mass1.real _ _ (mass_uniform ..) fun _ _ => .ret _).bind fun _ _ => .ite (fun _ => h _ _) fun _ => .ret _
  · exact h _ _

theorem mass_updateHidden {ζ : Type} (fuel d : ℕ) [NeZero d] (A : AdaptPar) (C : McmcControls) {O : HiddenOps ζ} (hO : MassOps O) (t : List ℝ) (g : Mat) (s : HiddenState ζ) :
    Mass1 (updateHidden fuel d A C O t g s) := by
  unfold updateHidden updateHiddenWith
  exact Mass1.lift.bind fun _ _ => (mass_mjpPropose ..).bind fun _ _ => (hO.aug _).bind fun _ _ => Mass1.lift.bind fun _ _ => Mass1.lift.bind fun _ _ =>
    (Mass1.mapM' fun _ _ => mass_updateHiddenSection C hO ..).bind fun _ _ => .ite (fun _ => .err _) fun _ => Mass1.lift.bind fun _ _ => Mass1.lift.bind fun _ _ =>
      Mass1.lift.bind fun _ _ => Mass1.lift.bind fun _ _ => .ret _

theorem mass_initHidden {ζ : Type} (fuel d : ℕ) [NeZero d] (A : AdaptPar) {O : HiddenOps ζ} (hO : MassOps O) (T : ℝ) (g : Mat) : Mass1 (initHidden fuel d A O T g) :=
  (mass_sampleForwards ..).bind fun _ _ => (hO.aug _).bind fun _ _ => .ret _

/-! ## The draw of the generator -/

theorem meas_nan2 {f : ℝ → ℝ → ℝ} (hf : Measurable fun q : ℝ × ℝ => f q.1 q.2) {a b : X → Option ℝ} (ha : Measurable a) (hb : Measurable b) : Measurable fun x => nan2 f (a x) (b x) := by
  have e : ∀ x, nan2 f (a x) (b x) = (a x).bind fun u => (b x).map fun v => f u v := fun x => by cases a x <;> cases b x <;> rfl
  simp only [e]
  refine Measurable.optionCases (o := a) ha (f := fun x o => o.bind fun u => (b x).map fun v => f u v) measurable_const ?_
  refine Measurable.optionCases (o := fun q : X × ℝ => b q.1) (by fun_prop) (f := fun q o => o.map fun v => f q.2 v) measurable_const ?_
  exact Measurable.some (hf.comp (by fun_prop : Measurable fun q : (X × ℝ) × ℝ => (q.1.2, q.2)))

theorem meas_holdTime {s : X → Skel ℝ} (hs : Measurable s) (i : ℕ) : Measurable fun x => holdTime (s x) i := by
  unfold holdTime
  refine Measurable.listSum (Measurable.select (Measurable.append (Measurable.npDiff (by fun_prop)) measurable_const) ?_)
  exact Measurable.discrete (f := fun x => (s x).xt) (by fun_prop) fun l : List ℕ => l.map fun y => decide (y = i)

theorem meas_mjpUpdate {s : X → Skel ℝ} {a b : X → NMat} (hs : Measurable s) (ha : Measurable a) (hb : Measurable b) : Measurable fun x => mjpUpdate (s x) (a x) (b x) := by
  unfold mjpUpdate
  refine Measurable.prodMk (measurable_pi_lambda _ fun i => measurable_pi_lambda _ fun j => meas_nan2 (by fun_prop) ?_ (meas_entry ha i j))
    (measurable_pi_lambda _ fun i => measurable_pi_lambda _ fun j => meas_nan2 (by fun_prop) (Measurable.some (meas_holdTime hs i)) (meas_entry hb i j))
  dsimp only
  split_ifs
  · exact measurable_const
  · exact Measurable.discrete (f := fun x => (s x).xt) (by fun_prop) fun l : List ℕ => (some (transCount l i j : ℝ) : Option ℝ)

theorem reg_gibbsGenerator (d : ℕ) {h : X → Anchorage ℝ ℝ} {a b : X → NMat} (hh : Measurable h) (ha : Measurable a) (hb : Measurable b) : Reg fun x => gibbsGenerator d (h x) (a x) (b x) := by
  unfold gibbsGenerator
  have hu : Measurable fun q : X × Skel ℝ => mjpUpdate q.2 (a q.1) (b q.1) := meas_mjpUpdate measurable_snd (by fun_prop) (by fun_prop)
  exact Reg.bind (Reg.lift (meas_prune hh)) (reg_sampleParam d hu.fst hu.snd)

end Ctb
