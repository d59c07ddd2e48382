import Verif.Lemmas.RegHitting
import Verif.Model.Seed

/-!
# The samplers of bridges, interpolations and coins have measurable laws
-/

set_option linter.unusedSectionVars false

namespace Ctb

open MeasureTheory Set Classical

variable {X Y Z α β γ : Type} [MeasurableSpace X] [MeasurableSpace Y] [MeasurableSpace Z] [MeasurableSpace α] [MeasurableSpace β] [MeasurableSpace γ]

variable {T a b m x0 x1 : X → ℝ} {U L : X → Option ℝ} {t x newT : X → List ℝ}

/-! ## Wiener process and bridges -/

@[fun_prop] theorem Measurable.ediffBegin (ht : Measurable t) : Measurable fun x => Ctb.ediffBegin (t x) := by
  have h : Measurable fun x => if t x = [] then [] else (t x).headD 0 :: Ctb.npDiff (t x) := Measurable.ite' (Measurable.isNil ht) (by fun_prop) (by fun_prop)
  refine (congrArg Measurable (funext fun x => ?_)).mpr h
  cases t x <;> simp [Ctb.ediffBegin]

theorem reg_normals {c : X → ℕ} (hc : Measurable c) : Reg fun x => Prog.replicate (c x) (.draw (.normal 0 1)) :=
  Reg.natCases hc (p := fun _ n => Prog.replicate n (.draw (.normal 0 1))) fun n => Reg.replicate n (p := fun _ => .draw (.normal 0 1)) (Reg.draw (DMeas.const _))

theorem reg_sampleWiener (ht : Measurable t) (h0 : Measurable x0) (h1 : Measurable x1) : Reg fun x => sampleWiener (t x) (x0 x) (x1 x) := by
  unfold sampleWiener
  refine Reg.ite' (Measurable.isNil ht) (Reg.err _) (Reg.bind (Reg.assert' (Measurable.memAll ht (by fun_prop))) (Reg.ite' ?_ (Reg.err _)
    (Reg.bind (reg_normals (by fun_prop)) (Reg.ret ?_))))
  · exact (Measurable.memAll (by fun_prop) (by fun_prop)).not
  · refine Measurable.listMap ?_ (by fun_prop)
    refine Measurable.npCumsum ?_
    unfold wienerIncs
    exact Measurable.zipWith' (by fun_prop) (by fun_prop) (by fun_prop)

theorem reg_sampleBrownbr (ht : Measurable t) (hT : Measurable T) (h0 : Measurable x0) (h1 : Measurable x1) : Reg fun x => sampleBrownbr (t x) (T x) (x0 x) (x1 x) := by
  unfold sampleBrownbr
  dsimp only
  refine Reg.ite' (Measurable.isNil ht) (Reg.err _) (Reg.bind (Reg.assert' (Measurable.memAll ht (by fun_prop))) (Reg.bind (reg_sampleWiener ?_ (by fun_prop) (by fun_prop)) (Reg.ret ?_)))
  · exact Measurable.listMap (Measurable.listMap (by fun_prop) (by fun_prop)) (by fun_prop)
  · refine Measurable.listMap (Measurable.zipWith' (Measurable.listMap (by fun_prop) (by fun_prop)) (by fun_prop) (by fun_prop)) (by fun_prop)

theorem meas_colNorm {ws : X → List (List ℝ)} {j : X → ℕ} (hw : Measurable ws) (hj : Measurable j) : Measurable fun x => colNorm (ws x) (j x) := by
  unfold colNorm
  have : Measurable fun x => ((ws x).map fun w => (w.getD (j x) 0) ^ 2).sum := Measurable.listSum (Measurable.listMap hw (by fun_prop))
  fun_prop

theorem reg_sampleBesselbr (ht : Measurable t) (hT : Measurable T) (h1 : Measurable x1) (dim : ℕ) : Reg fun x => sampleBesselbr (t x) (T x) (x1 x) dim := by
  unfold sampleBesselbr
  refine Reg.ite' (Measurable.isNil ht) (Reg.err _) (Reg.bind (Reg.assert' (Measurable.memAll ht (by fun_prop))) (Reg.bind (Reg.assert' (by fun_prop))
    (Reg.bind (Reg.mapM' ?_ (by fun_prop)) (Reg.ret ?_))))
  · exact reg_sampleBrownbr (by fun_prop) (by fun_prop) (by fun_prop) (by fun_prop)
  refine Measurable.listMap (Measurable.discrete (f := fun y : ((X × Unit) × Unit) × List (List ℝ) => (t y.1.1.1).length) (by fun_prop) List.range) ?_
  exact meas_colNorm (by fun_prop) (by fun_prop)

/-! ## Bridges in a layer -/

@[fun_prop] theorem Measurable.gapsOf (ht : Measurable t) (hx : Measurable x) : Measurable fun y => Ctb.gapsOf (t y) (x y) := by
  unfold Ctb.gapsOf
  fun_prop

theorem reg_escGaps {K : X → ℝ} {B : X → Option ℝ} (ht : Measurable t) (hx : Measurable x) (hK : Measurable K) (hB : Measurable B) :
    Reg fun y => escGaps (t y) (x y) (K y) (B y) := by
  unfold escGaps
  refine Reg.mapM' ?_ (by fun_prop)
  exact reg_besEsc (by fun_prop) (by fun_prop) (by fun_prop) (by fun_prop) (by fun_prop) (by fun_prop)

theorem reg_escAny (ht : Measurable t) (hx : Measurable x) (hU : Measurable U) : Reg fun y => escAny (t y) (x y) (U y) := by
  refine Reg.optionCases hU (p := fun y U => escAny (t y) (x y) U) (Reg.ret (by fun_prop)) ?_
  exact Reg.bind (reg_escGaps (by fun_prop) (by fun_prop) (by fun_prop) (by fun_prop)) (Reg.ret (Measurable.anyBool (by fun_prop)))

theorem reg_hitFlags (ht : Measurable t) (hx : Measurable x) (hU : Measurable U) (hL : Measurable L) : Reg fun y => hitFlags (t y) (x y) (U y) (L y) := by
  refine Reg.optionCases hL (p := fun y L => hitFlags (t y) (x y) (U y) L) (Reg.ret (by fun_prop)) ?_
  exact reg_escGaps (by fun_prop) (by fun_prop) (by fun_prop) (by fun_prop)

theorem reg_edgeLoop (ht : Measurable t) (hT : Measurable T) (h1 : Measurable x1) (hU : Measurable U) (hL : Measurable L) (n : ℕ) :
    Reg fun y => edgeLoop (t y) (T y) (x1 y) (U y) (L y) n := by
  induction n with
  | zero => exact Reg.err _
  | succ n ih =>
    simp only [edgeLoop]
    refine Reg.bind (Reg.ite' (Measurable.isNil ht) (Reg.ret (by fun_prop)) (reg_sampleBesselbr ht hT h1 3)) (Reg.bind (reg_escAny (by fun_prop) (by fun_prop) (by fun_prop))
      (Reg.ite' (by fun_prop) ?_ (Reg.bind (reg_hitFlags (by fun_prop) (by fun_prop) (by fun_prop) (by fun_prop)) (Reg.ret (by fun_prop)))))
    exact ih.comp (f := fun y : (X × List ℝ) × Bool => y.1.1) (by fun_prop)

theorem reg_proposeEdge (n : ℕ) (ht : Measurable t) (hT : Measurable T) (h1 : Measurable x1) (hU : Measurable U) (hL : Measurable L) :
    Reg fun y => proposeEdge n (t y) (T y) (x1 y) (U y) (L y) := by
  unfold proposeEdge
  exact Reg.bind (Reg.assert' (Measurable.memAll ht (by fun_prop))) (Reg.bind (Reg.assert' (Measurable.optionAll (by fun_prop) (by fun_prop)))
    (reg_edgeLoop (by fun_prop) (by fun_prop) (by fun_prop) (by fun_prop) (by fun_prop) n))

/-- A measurable family of samplers of the kind of `propose_layerbr`. -/
def RegLayer (p : Y → LayerProp) : Prop := Reg fun q : Y × List ℝ × ℝ × ℝ × ℝ × ℝ => p q.1 q.2.1 q.2.2.1 q.2.2.2.1 q.2.2.2.2.1 q.2.2.2.2.2

theorem joinFlags_none_or (i0 i1 : List Bool) (xs : List ℝ) : (match joinFlags i0 i1 with
    | some i => .ret (xs, i)
    | none => .err .index : Prog (List ℝ × List Bool)) = Prog.lift ((optRes .index (joinFlags i0 i1)).bind fun i => .ok (xs, i)) := by
  cases joinFlags i0 i1 <;> rfl

theorem reg_layerStep (n : ℕ) (hU : Measurable U) (hL : Measurable L) {rec : X → LayerProp} (hr : RegLayer rec) : RegLayer fun x => layerStep n (U x) (L x) (rec x) := by
  unfold RegLayer layerStep
  refine Reg.bind (Reg.assert' (Measurable.memAll (by fun_prop) (by fun_prop))) (Reg.bind (Reg.assert' (by fun_prop)) (Reg.bind (Reg.assert' (Measurable.optionAll (by fun_prop) (by fun_prop)))
    (Reg.ite' ?_ (Reg.err _) (Reg.ite' (by fun_prop) (Reg.ite' (by fun_prop) (Reg.bind (reg_proposeEdge n ?_ (by fun_prop) (by fun_prop) ?_ ?_) (Reg.ret ?_))
      (Reg.bind (reg_proposeEdge n ?_ (by fun_prop) (by fun_prop) ?_ ?_) (Reg.ret ?_)))
      (Reg.bind (reg_sampleLayerMin n (by fun_prop) (by fun_prop) (by fun_prop) (by fun_prop) (by fun_prop) (by fun_prop)) ?_)))))
  · have h : Measurable fun q : Option ℝ × Option ℝ => ∃ U' L', q.1 = some U' ∧ q.2 = some L' ∧ ¬ L' < U' := by
      have h' : Measurable fun q : Option ℝ × Option ℝ => ∃ U', q.1 = some U' ∧ ∃ L', q.2 = some L' ∧ ¬ L' < U' :=
        Measurable.optionEx (by fun_prop) (Measurable.optionEx (by fun_prop) (by fun_prop))
      refine (congrArg Measurable (funext fun q => ?_)).mpr h'
      simp only [eq_iff_iff]
      constructor
      · rintro ⟨u, l, h1, h2, h3⟩; exact ⟨u, h1, l, h2, h3⟩
      · rintro ⟨u, h1, l, h2, h3⟩; exact ⟨u, l, h1, h2, h3⟩
    exact h.comp (f := fun y : (((X × List ℝ × ℝ × ℝ × ℝ × ℝ) × Unit) × Unit) × Unit => (U y.1.1.1.1, L y.1.1.1.1)) (by fun_prop)
  · exact Measurable.listMap (by fun_prop) (by fun_prop)
  · exact Measurable.optionMap (by fun_prop) (by fun_prop)
  · exact Measurable.optionMap (by fun_prop) (by fun_prop)
  · exact Measurable.prodMk (Measurable.listMap (by fun_prop) (by fun_prop)) (by fun_prop)
  · fun_prop
  · exact Measurable.optionMap (by fun_prop) (by fun_prop)
  · exact Measurable.optionMap (by fun_prop) (by fun_prop)
  · exact Measurable.prodMk (Measurable.listMap (by fun_prop) (by fun_prop)) (by fun_prop)
  · dsimp only
    have m1 : Measurable fun y : ((((X × List ℝ × ℝ × ℝ × ℝ × ℝ) × Unit) × Unit) × Unit) × ℝ × ℝ => searchLeft y.1.1.1.1.2.1 y.2.1 := by fun_prop
    have m2 : Measurable fun y : (((((X × List ℝ × ℝ × ℝ × ℝ × ℝ) × Unit) × Unit) × Unit) × ℝ × ℝ) × List ℝ × List Bool =>
        (y.1.1.1.1.1.2.1.drop (searchLeft y.1.1.1.1.1.2.1 y.1.2.1)).map (· - y.1.2.1) := Measurable.listMap (by fun_prop) (by fun_prop)
    refine Reg.bind (hr.comp (f := fun y : ((((X × List ℝ × ℝ × ℝ × ℝ × ℝ) × Unit) × Unit) × Unit) × ℝ × ℝ =>
      (y.1.1.1.1.1, y.1.1.1.1.2.1.take (searchLeft y.1.1.1.1.2.1 y.2.1), y.2.1, y.1.1.1.1.2.2.2.1, y.2.2, y.2.2)) (by fun_prop)) ?_
    refine Reg.bind (hr.comp (f := fun y : (((((X × List ℝ × ℝ × ℝ × ℝ × ℝ) × Unit) × Unit) × Unit) × ℝ × ℝ) × List ℝ × List Bool =>
      (y.1.1.1.1.1.1, (y.1.1.1.1.1.2.1.drop (searchLeft y.1.1.1.1.1.2.1 y.1.2.1)).map (· - y.1.2.1), y.1.1.1.1.1.2.2.1 - y.1.2.1, y.1.2.2, y.1.1.1.1.1.2.2.2.2.1, y.1.2.2)) (by fun_prop)) ?_
    refine Reg.optionCases (X := ((((((X × List ℝ × ℝ × ℝ × ℝ × ℝ) × Unit) × Unit) × Unit) × ℝ × ℝ) × List ℝ × List Bool) × List ℝ × List Bool) (o := fun y => L y.1.1.1.1.1.1.1)
      (p := fun y o => match o with
        | none => .ret (y.1.2.1 ++ y.2.1, [])
        | some _ => match joinFlags y.1.2.2 y.2.2 with
          | some i => .ret (y.1.2.1 ++ y.2.1, i)
          | none => .err .index) (by fun_prop) (Reg.ret (by fun_prop)) ?_
    simp only [joinFlags_none_or]
    have m3 : Measurable fun q : List Bool × List Bool => joinFlags q.1 q.2 := Measurable.of_discrete
    refine Reg.lift (Measurable.resBind (Measurable.optRes ?_ _) (by fun_prop))
    exact m3.comp (f := fun y : (((((((X × List ℝ × ℝ × ℝ × ℝ × ℝ) × Unit) × Unit) × Unit) × ℝ × ℝ) × List ℝ × List Bool) × List ℝ × List Bool) × ℝ => (y.1.1.2.2, y.1.2.2)) (by fun_prop)

theorem reg_proposeLayer (n : ℕ) (hU : Measurable U) (hL : Measurable L) : RegLayer fun x => proposeLayer n (U x) (L x) := by
  unfold proposeLayer
  exact reg_layerStep n hU hL (reg_layerStep n hU hL (Reg.err _))

theorem reg_layerbrLoop (n : ℕ) (ht : Measurable t) (hT : Measurable T) (ha : Measurable a) (hb : Measurable b) (hm : Measurable m) (hU : Measurable U) (hL : Measurable L) (k : ℕ) :
    Reg fun x => layerbrLoop n (t x) (T x) (a x) (b x) (m x) (U x) (L x) k := by
  induction k with
  | zero => exact Reg.err _
  | succ k ih =>
    simp only [layerbrLoop]
    refine Reg.bind ((reg_proposeLayer n hU hL).comp (f := fun x => (x, t x, T x, a x, b x, m x)) (by fun_prop)) ?_
    refine Reg.optionCases (X := X × List ℝ × List Bool) (o := fun y => L y.1) (p := fun y o => match o with
      | none => .ret (y.2.1, none)
      | some _ => if y.2.2.any id then .ret (y.2.1, some y.2.2) else layerbrLoop n (t y.1) (T y.1) (a y.1) (b y.1) (m y.1) (U y.1) (L y.1) k) (by fun_prop) (Reg.ret (by fun_prop)) ?_
    have h1 : Measurable fun y : (X × List ℝ × List Bool) × ℝ => y.1.2.2.any id := Measurable.anyBool (by fun_prop)
    exact Reg.ite' (by fun_prop) (Reg.ret (by fun_prop)) (ih.comp (f := fun y : (X × List ℝ × List Bool) × ℝ => y.1.1) (by fun_prop))

theorem reg_sampleLayerbr (n k : ℕ) (ht : Measurable t) (hT : Measurable T) (ha : Measurable a) (hb : Measurable b) (hm : Measurable m) (hU : Measurable U) (hL : Measurable L) :
    Reg fun x => sampleLayerbr n k (t x) (T x) (a x) (b x) (m x) (U x) (L x) := by
  unfold sampleLayerbr
  refine Reg.ite' (Measurable.isNil ht) (Reg.err _) (Reg.bind (Reg.assert' (Measurable.memAll ht (by fun_prop))) (Reg.bind (Reg.assert' (by fun_prop)) (Reg.bind (Reg.assert' (by fun_prop))
    (Reg.bind (Reg.assert' (Measurable.optionAll (by fun_prop) (by fun_prop))) (Reg.bind (Reg.assert' ?_)
    (reg_layerbrLoop n (by fun_prop) (by fun_prop) (by fun_prop) (by fun_prop) (by fun_prop) (by fun_prop) (by fun_prop) k))))))
  have h : Measurable fun q : Option ℝ × Option ℝ => ∀ U' L', q.1 = some U' → q.2 = some L' → L' < U' := by
    have h' : Measurable fun q : Option ℝ × Option ℝ => ∀ U', q.1 = some U' → ∀ L', q.2 = some L' → L' < U' :=
      Measurable.optionAll (by fun_prop) (Measurable.optionAll (by fun_prop) (by fun_prop))
    refine (congrArg Measurable (funext fun q => ?_)).mpr h'
    simp only [eq_iff_iff]
    exact ⟨fun h u hu l hl => h u l hu hl, fun h u l hu hl => h u hu l hl⟩
  exact h.comp (f := fun y : (((X × Unit) × Unit) × Unit) × Unit => (U y.1.1.1.1, L y.1.1.1.1)) (by fun_prop)

end Ctb
