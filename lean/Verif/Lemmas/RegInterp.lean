import Verif.Lemmas.RegPaths

/-!
# Interpolations and coins have measurable laws
-/

set_option linter.unusedSectionVars false

namespace Ctb

open MeasureTheory Set Classical

variable {X Y Z α β γ : Type} [MeasurableSpace X] [MeasurableSpace Y] [MeasurableSpace Z] [MeasurableSpace α] [MeasurableSpace β] [MeasurableSpace γ]

variable {T a b m x0 x1 : X → ℝ} {U L ue hitX : X → Option ℝ} {t x newT : X → List ℝ} {hitI : X → Option (List Bool)}

/-! ## Interpolation -/

@[fun_prop] theorem Measurable.range {c : X → ℕ} (hc : Measurable c) : Measurable fun x => List.range (c x) := Measurable.discrete hc List.range

@[fun_prop] theorem Measurable.npInsert [Inhabited α] {l v : X → List α} {idx : X → List ℕ} (hl : Measurable l) (hi : Measurable idx) (hv : Measurable v) :
    Measurable fun x => Ctb.npInsert (l x) (idx x) (v x) := by
  unfold Ctb.npInsert
  refine Measurable.flatMap (Measurable.range (by fun_prop)) (Measurable.append (Measurable.select (by fun_prop) ?_) (by fun_prop))
  refine Measurable.listMap (by fun_prop) (Measurable.decide ?_)
  exact Measurable.discrete (f := fun p : (X × ℕ) × ℕ => (p.2, p.1.2)) (by fun_prop) (fun q => q.1 = q.2)

@[fun_prop] theorem Measurable.npUnique {c : X → ℕ} {idx : X → List ℕ} (hc : Measurable c) (hi : Measurable idx) : Measurable fun x => Ctb.npUnique (c x) (idx x) :=
  Measurable.discrete (f := fun x => (c x, idx x)) (by fun_prop) (fun q => Ctb.npUnique q.1 q.2)

@[fun_prop] theorem Measurable.ueSec {c : X → ℕ} (hc : Measurable c) (hu : Measurable ue) (hx : Measurable hitX) (hi : Measurable hitI) :
    Measurable fun x => Ctb.ueSec (c x) (ue x) (hitX x) (hitI x) := by
  refine Measurable.optionCases hi (f := fun x h => Ctb.ueSec (c x) (ue x) (hitX x) h) ?_ ?_
  · have : Measurable fun x => (List.range (c x - 1)).map fun _ => ue x := Measurable.listMap (Measurable.discrete hc fun n => List.range (n - 1)) (by fun_prop)
    refine (congrArg Measurable (funext fun x => ?_)).mpr this
    simp [Ctb.ueSec, List.map_const']
  · exact Measurable.listMap (by fun_prop) (by fun_prop)

@[fun_prop] theorem Measurable.hitSec {c : X → ℕ} (hc : Measurable c) (hx : Measurable hitX) (hi : Measurable hitI) :
    Measurable fun x => Ctb.hitSec (c x) (hitX x) (hitI x) := by
  refine Measurable.optionCases hi (f := fun x h => Ctb.hitSec (c x) (hitX x) h) ?_ ?_
  · exact Measurable.discrete hc fun n => List.replicate (n - 1) none
  · exact Measurable.listMap (by fun_prop) (by fun_prop)

theorem fillSector_binds (n k : ℕ) (t x newT : List ℝ) (minX : ℝ) (ues hits : List (Option ℝ)) (i : ℕ) : fillSector n k t x newT minX ues hits i =
    (Prog.lift (optRes .index (pyGet t ((i : ℤ) - 1)))).bind fun t0 => (Prog.lift (optRes .index (pyGet t i))).bind fun t1 =>
    (Prog.lift (optRes .index (pyGet x ((i : ℤ) - 1)))).bind fun x0 => (Prog.lift (optRes .index (pyGet x i))).bind fun x1 =>
    (Prog.lift (optRes .index (pyGet ues ((i : ℤ) - 1)))).bind fun u => (Prog.lift (optRes .index (pyGet hits ((i : ℤ) - 1)))).bind fun h =>
    sampleLayerbr n k ((newT.filter fun r => decide (searchLeft t r = i)).map (· - t0)) (t1 - t0) x0 x1 minX u h := by
  unfold fillSector
  generalize pyGet t ((i : ℤ) - 1) = o1
  generalize pyGet t i = o2
  generalize pyGet x ((i : ℤ) - 1) = o3
  generalize pyGet x i = o4
  generalize pyGet ues ((i : ℤ) - 1) = o5
  generalize pyGet hits ((i : ℤ) - 1) = o6
  cases o1 <;> cases o2 <;> cases o3 <;> cases o4 <;> cases o5 <;> cases o6 <;> rfl

theorem reg_fillSector {ues hits : X → List (Option ℝ)} {i : X → ℕ} (n k : ℕ) (ht : Measurable t) (hx : Measurable x) (hn : Measurable newT) (hm : Measurable m) (hu : Measurable ues)
    (hh : Measurable hits) (hi : Measurable i) : Reg fun y => fillSector n k (t y) (x y) (newT y) (m y) (ues y) (hits y) (i y) := by
  simp only [fillSector_binds]
  have i0 : Measurable fun y => (i y : ℤ) := Measurable.discrete hi _
  have i1 : Measurable fun y => (i y : ℤ) - 1 := Measurable.discrete hi (fun n => (n : ℤ) - 1)
  refine Reg.bind (Reg.lift (by fun_prop)) (Reg.bind (Reg.lift (by fun_prop)) (Reg.bind (Reg.lift (by fun_prop)) (Reg.bind (Reg.lift (by fun_prop)) (Reg.bind (Reg.lift (by fun_prop))
    (Reg.bind (Reg.lift (by fun_prop)) (reg_sampleLayerbr n k ?_ (by fun_prop) (by fun_prop) (by fun_prop) (by fun_prop) (by fun_prop) (by fun_prop)))))))
  refine Measurable.listMap (Measurable.filter (by fun_prop) (Measurable.decide ?_)) (by fun_prop)
  exact Measurable.discrete (f := fun p : ((((((X × ℝ) × ℝ) × ℝ) × ℝ) × Option ℝ) × Option ℝ) × ℝ => (searchLeft (t p.1.1.1.1.1.1.1) p.2, i p.1.1.1.1.1.1.1)) (by fun_prop) (fun q => q.1 = q.2)

theorem stackHits_lengths (res : List (ℕ × List ℝ × Option (List Bool))) (hs : List Bool) :
    stackHits res hs = (List.range hs.length).flatMap fun j : ℕ => match (res.map fun r => (r.1, r.2.1.length, r.2.2)).find? fun r => decide (r.1 = j + 1) with
      | none => [hs.getD j false]
      | some (_, l, none) => List.replicate (l + 1) (hs.getD j false)
      | some (_, _, some a) => a := by
  unfold stackHits splitFlag
  congr 1
  funext j
  rw [List.find?_map]
  have : ((fun r : ℕ × ℕ × Option (List Bool) => decide (r.1 = j + 1)) ∘ fun r : ℕ × List ℝ × Option (List Bool) => (r.1, r.2.1.length, r.2.2)) = fun r => decide (r.1 = j + 1) := rfl
  rw [this]
  rcases res.find? _ with _ | ⟨_, xs, _ | a⟩ <;> rfl

theorem meas_stackHits {res : X → List (ℕ × List ℝ × Option (List Bool))} {hs : X → List Bool} (hr : Measurable res) (hh : Measurable hs) :
    Measurable fun x => stackHits (res x) (hs x) := by
  simp only [stackHits_lengths]
  have h1 : Measurable fun x => (res x).map fun r => (r.1, r.2.1.length, r.2.2) := Measurable.listMap hr (by fun_prop)
  exact Measurable.discrete (f := fun x => ((res x).map fun r => (r.1, r.2.1.length, r.2.2), hs x)) (by fun_prop)
    (fun q : List (ℕ × ℕ × Option (List Bool)) × List Bool => (List.range q.2.length).flatMap fun j : ℕ => match q.1.find? fun r => decide (r.1 = j + 1) with
      | none => [q.2.getD j false]
      | some (_, l, none) => List.replicate (l + 1) (q.2.getD j false)
      | some (_, _, some a) => a)

theorem meas_ueHit (hm : Measurable m) (hu : Measurable ue) (hh : Measurable hitX) :
    Measurable fun y => ∀ U H, ue y = some U → hitX y = some H → m y < H ∧ H < U := by
  have h' : Measurable fun y => ∀ U, ue y = some U → ∀ H, hitX y = some H → m y < H ∧ H < U :=
    Measurable.optionAll hu (Measurable.optionAll (by fun_prop) (by fun_prop))
  refine (congrArg Measurable (funext fun q => ?_)).mpr h'
  simp only [eq_iff_iff]
  exact ⟨fun h u hu l hl => h u l hu hl, fun h u l hu hl => h u hu l hl⟩

theorem meas_ueAll (hx : Measurable x) (hu : Measurable ue) : Measurable fun y => ∀ U, ue y = some U → ∀ v ∈ x y, v < U :=
  Measurable.optionAll hu (Measurable.memAll (by fun_prop) (by fun_prop))

theorem reg_fillInner (n k : ℕ) (ht : Measurable t) (hx : Measurable x) (hn : Measurable newT) (hm : Measurable m) (hu : Measurable ue) (hh : Measurable hitX) (hi : Measurable hitI) :
    Reg fun y => fillInner n k (t y) (x y) (newT y) (m y) (ue y) (hitX y) (hitI y) := by
  unfold fillInner
  dsimp only
  refine Reg.ite' (Measurable.isNil hn) (Reg.ret (by fun_prop)) (Reg.ite' (Measurable.isNil ht) (Reg.err _) (Reg.bind (Reg.assert' ?_) (Reg.ite' (Measurable.isNil (by fun_prop)) (Reg.err _)
    (Reg.bind (Reg.assert' (Measurable.memAll (by fun_prop) (by fun_prop))) (Reg.bind (Reg.assert' (meas_ueAll (by fun_prop) (by fun_prop))) (Reg.bind (Reg.assert' (meas_ueHit (by fun_prop) (by fun_prop) (by fun_prop)))
    (Reg.bind (Reg.mapM' ?_ ?_) (Reg.ret ?_))))))))
  · exact (Measurable.memAll ht (by fun_prop)).and ((Measurable.memEx ht (Measurable.memAll (by fun_prop) (by fun_prop))).and (Measurable.memEx ht (Measurable.memAll (by fun_prop) (by fun_prop))))
  · exact reg_fillSector n k (by fun_prop) (by fun_prop) (by fun_prop) (by fun_prop) (by fun_prop) (by fun_prop) (by fun_prop)
  · exact Measurable.npUnique (by fun_prop) (Measurable.listMap (by fun_prop) (by fun_prop))
  · have hins : ∀ (V : Type) [MeasurableSpace V] (f : V → X), Measurable f → Measurable fun v => (newT (f v)).map (searchLeft (t (f v))) :=
      fun V _ f hf => Measurable.listMap (by fun_prop) (by fun_prop)
    have hins1 := hins (((((X × Unit) × Unit) × Unit) × Unit) × List (List ℝ × Option (List Bool))) (fun y => y.1.1.1.1.1) (by fun_prop)
    refine Measurable.prodMk (Measurable.npInsert (by fun_prop) hins1 (by fun_prop)) (Measurable.prodMk (Measurable.npInsert (by fun_prop) hins1 ?_) (Measurable.prodMk ?_ ?_))
    · exact Measurable.flatten (Measurable.listMap (by fun_prop) (by fun_prop))
    · exact Measurable.discrete hins1 (fun ins : List ℕ => List.zipWith (· + ·) ins (List.range ins.length))
    · refine Measurable.optionMap (by fun_prop) (meas_stackHits (Measurable.zip (Measurable.npUnique (by fun_prop) ?_) (by fun_prop)) (by fun_prop))
      exact hins ((((((X × Unit) × Unit) × Unit) × Unit) × List (List ℝ × Option (List Bool))) × List Bool) (fun y => y.1.1.1.1.1.1) (by fun_prop)

@[fun_prop] theorem Measurable.whereIn (ht : Measurable t) (hx : Measurable x) : Measurable fun y => Ctb.whereIn (t y) (x y) := by
  unfold Ctb.whereIn
  exact Measurable.filter (by fun_prop) (by fun_prop)

theorem reg_fillOuter (n k : ℕ) (ht : Measurable t) (hx : Measurable x) (hn : Measurable newT) (hm : Measurable m) (hu : Measurable ue) (hh : Measurable hitX) (hi : Measurable hitI) :
    Reg fun y => fillOuter n k (t y) (x y) (newT y) (m y) (ue y) (hitX y) (hitI y) := by
  unfold fillOuter
  refine Reg.ite' ((Measurable.isNil ht).or (Measurable.isNil hn)) (Reg.err _) (Reg.bind (Reg.assert' ?_) (Reg.ite' (Measurable.isNil (by fun_prop)) (Reg.err _)
    (Reg.bind (Reg.assert' (Measurable.memAll (by fun_prop) (by fun_prop))) (Reg.bind (Reg.assert' (meas_ueAll (by fun_prop) (by fun_prop))) (Reg.bind (Reg.assert' (meas_ueHit (by fun_prop) (by fun_prop) (by fun_prop)))
    (Reg.bind (reg_fillInner n k (by fun_prop) (by fun_prop) ?_ (by fun_prop) (by fun_prop) (by fun_prop) (by fun_prop)) (Reg.ret (by fun_prop))))))))
  · exact (Measurable.memAll ht (by fun_prop)).and ((Measurable.memEx ht (Measurable.memAll (by fun_prop) (by fun_prop))).and (Measurable.memEx ht (Measurable.memAll (by fun_prop) (by fun_prop))))
  · exact Measurable.filter (by fun_prop) (by fun_prop)

theorem reg_interpolateSkel (n k : ℕ) {s : X → EaSkel} (hs : Measurable s) (hn : Measurable newT) : Reg fun y => interpolateSkel n k (s y) (newT y) := by
  unfold interpolateSkel
  refine Reg.ite' (Measurable.isNil hn) (Reg.ret (by fun_prop)) (Reg.ite' (by fun_prop) (Reg.bind (reg_fillOuter n k (by fun_prop) (by fun_prop) (by fun_prop) (by fun_prop) (by fun_prop)
    (by fun_prop) (by fun_prop)) (Reg.ret ?_)) (Reg.bind (Reg.lift (meas_flipSkel hs)) ?_))
  · exact Measurable.prodMk (by fun_prop) (Measurable.listMap (by fun_prop) (by fun_prop))
  · refine Reg.optionCases (X := X × EaSkel) (o := fun y => (s y.1).t.getLast?) (p := fun y o => match o with
      | none => .err .index
      | some f =>
        (Prog.lift (reversePath (newT y.1) [] f)).bind fun q =>
        (fillOuter n k y.2.t y.2.x q.1 y.2.tight (some y.2.loose) (some y.2.hitX) y.2.hitI).bind fun r =>
        (Prog.lift (flipSkel ⟨r.1, r.2.1, y.2.tight, y.2.loose, y.2.hitX, r.2.2.2⟩)).bind fun s'' =>
        .ret (s'', r.2.2.1.reverse.map fun i : ℕ => s''.x.getD (r.1.length - 1 - i) 0)) (by fun_prop) (Reg.err _) ?_
    refine Reg.bind (Reg.lift (meas_reversePath (by fun_prop) (by fun_prop) (by fun_prop))) (Reg.bind (reg_fillOuter n k (by fun_prop) (by fun_prop) (by fun_prop) (by fun_prop) (by fun_prop)
      (by fun_prop) (by fun_prop)) (Reg.bind (Reg.lift (meas_flipSkel (by fun_prop))) (Reg.ret ?_)))
    refine Measurable.prodMk (by fun_prop) (Measurable.listMap (by fun_prop) (Measurable.listGetD (by fun_prop) ?_ (by fun_prop)))
    exact Measurable.discrete (f := fun p : (((((X × EaSkel) × ℝ) × List ℝ × List ℝ) × Filled) × EaSkel) × ℕ => (p.1.1.2.1.length, p.2)) (by fun_prop) (fun q : ℕ × ℕ => q.1 - 1 - q.2)

/-! ## Coins -/

theorem reg_drawRow {bs : X → List ℝ} (hb : Measurable bs) : Reg fun x => drawRow (bs x) := by
  unfold drawRow
  exact Reg.mapM' (Reg.unif (by fun_prop) (by fun_prop)) hb

theorem reg_pppBatch (n i : ℕ) {b0 lb : X → ℝ} {bs : X → List ℝ} (h0 : Measurable b0) (hb : Measurable bs) (hl : Measurable lb) :
    Reg fun x => pppBatch n (b0 x) (bs x) (lb x) i := by
  unfold pppBatch
  dsimp only
  refine Reg.real (DMeas.const _) (Reg.bind (Reg.ite' (by fun_prop) (Reg.ret (by fun_prop)) (Reg.bind (Reg.replicate _ (Reg.unif (by fun_prop) (by fun_prop))) (Reg.ret ?_)))
    (Reg.bind (Reg.replicate _ (reg_drawRow (by fun_prop))) (Reg.ret ?_)))
  · unfold npSort
    exact Measurable.append (Measurable.insertionSort (by fun_prop) (by fun_prop)) (by fun_prop)
  · exact Measurable.prodMk (by fun_prop) (Measurable.zipWith' (by fun_prop) (by fun_prop) (by fun_prop))

@[fun_prop] theorem Measurable.byTime {rows : X → List (List ℝ)} (hr : Measurable rows) : Measurable fun x => Ctb.byTime (rows x) := by
  unfold Ctb.byTime
  refine Measurable.insertionSort (r := fun a b : ℝ × ℝ => a.2 ≤ b.2) (by fun_prop) (Measurable.listMap hr ?_)
  unfold rowPoint
  fun_prop

theorem reg_coinLoop {σ : Type} [MeasurableSpace σ] {step : X → σ → List (ℝ × ℝ) → Prog (Bool × σ)} (hstep : Reg fun q : X × σ × List (ℝ × ℝ) => step q.1 q.2.1 q.2.2)
    (k : ℕ) {h : X → ℝ} (hh : Measurable h) (hT : Measurable T) (is : List ℕ) : Reg fun q : X × σ × ℝ => coinLoop (step q.1) k (h q.1) (T q.1) q.2.1 q.2.2 is := by
  induction is with
  | nil => exact Reg.ret (by fun_prop)
  | cons i is ih =>
    simp only [coinLoop]
    refine Reg.bind (reg_pppBatch k i (by fun_prop) (by fun_prop) (by fun_prop)) (Reg.bind
      (hstep.comp (f := fun y : (X × σ × ℝ) × ℝ × List (List ℝ) => (y.1.1, y.1.2.1, byTime y.2.2)) (by fun_prop)) (Reg.ite' (by fun_prop) (Reg.ret (by fun_prop)) ?_))
    exact ih.comp (f := fun y : ((X × σ × ℝ) × ℝ × List (List ℝ)) × Bool × σ => (y.1.1.1, y.2.2, y.1.2.1)) (by fun_prop)

theorem reg_batchCoin {σ : Type} [MeasurableSpace σ] {step : X → σ → List (ℝ × ℝ) → Prog (Bool × σ)} (hstep : Reg fun q : X × σ × List (ℝ × ℝ) => step q.1 q.2.1 q.2.2)
    {h : X → ℝ} (hh : Measurable h) (hT : Measurable T) (size : ℤ) {s : X → σ} (hs : Measurable s) : Reg fun x => batchCoin (step x) (h x) (T x) size (s x) := by
  unfold batchCoin
  refine Reg.bind (Reg.assert' (Measurable.memAll (by fun_prop) (by fun_prop))) (Reg.bind (Reg.assert' (by fun_prop)) (Reg.poisson ?_ fun k => ?_))
  · simp only [List.prod_cons, List.prod_nil]; fun_prop
  · exact (reg_coinLoop hstep k hh hT (batchSizes k size.toNat)).comp (f := fun y : (X × Unit) × Unit => (y.1.1, s y.1.1, 0)) (by fun_prop)

theorem reg_skelStep {σ : Type} [MeasurableSpace σ] {interp : X → σ → List ℝ → Prog (σ × List ℝ)} (hi : Reg fun q : X × σ × List ℝ => interp q.1 q.2.1 q.2.2)
    {disc : X → ℝ → ℝ} (hd : Measurable fun q : X × ℝ => disc q.1 q.2) {c : X → ℝ} (hc : Measurable c) :
    Reg fun q : X × σ × List (ℝ × ℝ) => skelStep (interp q.1) (disc q.1) (c q.1) q.2.1 q.2.2 := by
  unfold skelStep
  have h1 : Measurable fun q : X × σ × List (ℝ × ℝ) => q.2.2.map Prod.snd := Measurable.listMap (by fun_prop) (by fun_prop)
  refine Reg.bind (hi.comp (f := fun q : X × σ × List (ℝ × ℝ) => (q.1, q.2.1, q.2.2.map Prod.snd)) (by fun_prop)) (Reg.ite' ?_ (Reg.err _) (Reg.ret ?_))
  · exact Measurable.discrete (f := fun y : (X × σ × List (ℝ × ℝ)) × σ × List ℝ => (y.2.2.length, y.1.2.2.length)) (by fun_prop) (fun q => ¬ q.1 = q.2)
  · refine Measurable.prodMk (Measurable.anyBool (Measurable.zipWith' (by fun_prop) (by fun_prop) (Measurable.decide ?_))) (by fun_prop)
    have : Measurable fun p : ((X × σ × List (ℝ × ℝ)) × σ × List ℝ) × (ℝ × ℝ) × ℝ => disc p.1.1.1 p.2.2 :=
      hd.comp (by fun_prop : Measurable fun p : ((X × σ × List (ℝ × ℝ)) × σ × List ℝ) × (ℝ × ℝ) × ℝ => (p.1.1.1, p.2.2))
    fun_prop

end Ctb
