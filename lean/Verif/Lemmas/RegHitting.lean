import Verif.Lemmas.MeasFun
import Verif.Model.RawSkel

/-!
# The samplers of minima, escapes, layers and raw skeletons have measurable laws
-/

set_option linter.unusedSectionVars false

namespace Ctb

open MeasureTheory Set Classical

variable {X Y Z α β γ : Type} [MeasurableSpace X] [MeasurableSpace Y] [MeasurableSpace Z] [MeasurableSpace α] [MeasurableSpace β] [MeasurableSpace γ]

/-! ## Minima -/

variable {T a b m K u U : X → ℝ} {lb ub B lvl seed : X → Option ℝ}

theorem meas_minBoundsOk {c : X → ℝ} (ha : Measurable a) (hb : Measurable b) (hl : Measurable lb) (hc : Measurable c) :
    Measurable fun x => MinBoundsOk (a x) (b x) (lb x) (c x) := by
  unfold MinBoundsOk
  have : Measurable fun x => ∀ l, lb x = some l → l < c x := Measurable.optionAll hl (by fun_prop)
  fun_prop

theorem meas_cdfMinBase (hT : Measurable T) (ha : Measurable a) (hb : Measurable b) (hl : Measurable lvl) : Measurable fun x => cdfMinBase (T x) (a x) (b x) (lvl x) :=
  Measurable.optionCases hl (f := fun x l => cdfMinBase (T x) (a x) (b x) l) (by simp only [cdfMinBase]; fun_prop) (by simp only [cdfMinBase]; fun_prop)

theorem meas_ppfMinBase {p : X → ℝ} (hT : Measurable T) (ha : Measurable a) (hb : Measurable b) (hp : Measurable p) : Measurable fun x => ppfMinBase (T x) (a x) (b x) (p x) := by
  unfold ppfMinBase; fun_prop

theorem meas_ppfBridgeMin {p : X → ℝ} (hp : Measurable p) (hT : Measurable T) (ha : Measurable a) (hb : Measurable b) (hl : Measurable lb) (hu : Measurable ub) :
    Measurable fun x => ppfBridgeMin (p x) (T x) (a x) (b x) (lb x) (ub x) := by
  unfold ppfBridgeMin
  have h1 := meas_cdfMinBase hT ha hb hl
  have h2 : Measurable fun x => cdfMinBase (T x) (a x) (b x) (some ((ub x).getD (min (a x) (b x)))) := meas_cdfMinBase hT ha hb (by fun_prop)
  have h3 := meas_ppfMinBase hT ha hb hp
  have h4 := meas_ppfMinBase hT ha hb (p := fun x => p x * (cdfMinBase (T x) (a x) (b x) (some ((ub x).getD (min (a x) (b x)))) - cdfMinBase (T x) (a x) (b x) (lb x)) +
    cdfMinBase (T x) (a x) (b x) (lb x)) (by fun_prop)
  have h5 : Measurable fun x => MinBoundsOk (a x) (b x) (lb x) ((ub x).getD (min (a x) (b x))) := meas_minBoundsOk ha hb hl (by fun_prop)
  fun_prop

theorem meas_cdfBridgeMin (hm : Measurable lvl) (hT : Measurable T) (ha : Measurable a) (hb : Measurable b) (hl : Measurable lb) (hu : Measurable ub) :
    Measurable fun x => cdfBridgeMin (lvl x) (T x) (a x) (b x) (lb x) (ub x) := by
  unfold cdfBridgeMin
  have h1 := meas_cdfMinBase hT ha hb hl
  have h3 := meas_cdfMinBase hT ha hb hm
  have h2 : Measurable fun x => cdfMinBase (T x) (a x) (b x) (some ((ub x).getD (min (a x) (b x)))) := meas_cdfMinBase hT ha hb (by fun_prop)
  have h5 : Measurable fun x => MinBoundsOk (a x) (b x) (lb x) ((ub x).getD (min (a x) (b x))) := meas_minBoundsOk ha hb hl (by fun_prop)
  fun_prop

theorem reg_sampleMinTime (hT : Measurable T) (ha : Measurable a) (hb : Measurable b) (hm : Measurable m) : Reg fun x => sampleMinTime (T x) (a x) (b x) (m x) := by
  have h : ∀ p1 p2 p3 : X → ℝ, Measurable p1 → Measurable p2 → Measurable p3 → Reg fun x => (Prog.draw (.uniform 0 1)).bind fun v =>
      if v < 1 / (1 + p3 x) then (Prog.draw (.wald (p3 x) (2 * p1 x))).bind fun w => .ret (T x / (1 + w))
      else (Prog.draw (.wald (1 / p3 x) (2 * p2 x))).bind fun w => .ret (T x / (1 + 1 / w)) := by
    intro p1 p2 p3 h1 h2 h3
    refine Reg.bind (Reg.unif (by fun_prop) (by fun_prop)) (Reg.ite' (by fun_prop) ?_ ?_)
    · exact Reg.bind (Reg.waldDraw (by fun_prop) (by fun_prop)) (Reg.ret (by fun_prop))
    · exact Reg.bind (Reg.waldDraw (by fun_prop) (by fun_prop)) (Reg.ret (by fun_prop))
  exact h (fun x => (b x - m x) ^ 2 / (2 * T x)) (fun x => (m x - a x) ^ 2 / (2 * T x)) (fun x => √(((b x - m x) ^ 2 / (2 * T x)) / ((m x - a x) ^ 2 / (2 * T x))))
    (by fun_prop) (by fun_prop) (by fun_prop)

theorem reg_sampleBridgeMin (hT : Measurable T) (ha : Measurable a) (hb : Measurable b) (hl : Measurable lb) (hu : Measurable ub) :
    Reg fun x => sampleBridgeMin (T x) (a x) (b x) (lb x) (ub x) := by
  unfold sampleBridgeMin
  refine Reg.bind (Reg.assert' (by fun_prop)) (Reg.bind (Reg.assert' ?_) (Reg.bind (Reg.unif (by fun_prop) (by fun_prop)) (Reg.bind ?_ ?_)))
  · exact meas_minBoundsOk (by fun_prop) (by fun_prop) (by fun_prop) (by fun_prop)
  · exact Reg.lift <| meas_ppfBridgeMin (by fun_prop) (by fun_prop) (by fun_prop) (by fun_prop) (by fun_prop) (by fun_prop)
  · refine Reg.optionCases (X := (((X × Unit) × Unit) × ℝ) × Option ℝ) (o := fun y => y.2) (p := fun y o => match o with
      | none => .err .nan
      | some m => (sampleMinTime (T y.1.1.1.1) (a y.1.1.1.1) (b y.1.1.1.1) m).bind fun t => .ret (t, m)) (by fun_prop) (Reg.err _) ?_
    exact Reg.bind (reg_sampleMinTime (by fun_prop) (by fun_prop) (by fun_prop) (by fun_prop)) (Reg.ret (by fun_prop))

/-! ## Escapes -/

/-- The first index with a property. -/
noncomputable def firstHit (P : ℕ → Prop) : Option ℕ := if h : ∃ i, P i then some (Nat.find h) else none

theorem meas_firstHit {P : X → ℕ → Prop} (hP : ∀ i, Measurable fun x => P x i) : Measurable fun x => firstHit (P x) := by
  refine measurable_to_countable' fun o => ?_
  have key : ∀ x i, firstHit (P x) = some i ↔ P x i ∧ ∀ j, j < i → ¬ P x j := by
    intro x i
    unfold firstHit
    split_ifs with h
    · rw [Option.some_inj, Nat.find_eq_iff]
    · simp only [reduceCtorEq, false_iff]
      exact fun h' => h ⟨i, h'.1⟩
  cases o with
  | none =>
    have : (fun x => firstHit (P x)) ⁻¹' {none} = {x | ¬ ∃ i, P x i} := by
      ext x
      simp only [mem_preimage, mem_singleton_iff, firstHit, mem_setOf_eq]
      split_ifs with h <;> simp [h]
    rw [this]
    exact measurableSet_setOfPred.2 (by fun_prop)
  | some i =>
    have : (fun x => firstHit (P x)) ⁻¹' {some i} = {x | P x i ∧ ∀ j, j < i → ¬ P x j} := by
      ext x
      simp only [mem_preimage, mem_singleton_iff, key, mem_setOf_eq]
    rw [this]
    exact measurableSet_setOfPred.2 (by fun_prop)

theorem escSearch_firstHit (s : ℕ → ℝ) (v : ℝ) (i0 : ℕ) : escSearch s v i0 = (firstHit fun i => i0 ≤ i ∧ EscStops s v i).map fun i => decide (i % 2 = 0) := by
  unfold escSearch firstHit
  split_ifs
  · simp only [Option.map_some]; congr!
  · rfl

theorem fastForward_firstHit (s : ℕ → ℝ) : fastForward s = (firstHit fun i => 1 ≤ i ∧ FastStops s i).map (· + 1) := by
  unfold fastForward firstHit
  split_ifs
  · simp only [Option.map_some]; congr!
  · rfl

theorem meas_escSearch {s : X → ℕ → ℝ} (hs : ∀ i, Measurable fun x => s x i) (hu : Measurable u) (i0 : ℕ) : Measurable fun x => escSearch (s x) (u x) i0 := by
  simp only [escSearch_firstHit]
  refine Measurable.discrete (meas_firstHit fun i => ?_) (fun o => o.map fun i => decide (i % 2 = 0))
  unfold EscStops
  fun_prop

theorem meas_fastForward {s : X → ℕ → ℝ} (hs : ∀ i, Measurable fun x => s x i) : Measurable fun x => fastForward (s x) := by
  simp only [fastForward_firstHit]
  refine Measurable.discrete (meas_firstHit fun i => ?_) (fun o => o.map (· + 1))
  unfold FastStops
  fun_prop

theorem reg_searchResult {o : X → Option Bool} (ho : Measurable o) : Reg fun x => searchResult (o x) :=
  Reg.optionCases ho (p := fun _ o => searchResult o) (Reg.err _) (Reg.ret (by fun_prop))

theorem meas_partialSum {f : X → ℕ → ℝ} (hf : ∀ i, Measurable fun x => f x i) (i : ℕ) : Measurable fun x => partialSum (f x) i := by
  induction i with
  | zero => exact measurable_const
  | succ i ih => simp only [partialSum]; fun_prop

theorem meas_brownSeries (hT : Measurable T) (ha : Measurable a) (hb : Measurable b) (hK : Measurable K) (i : ℕ) : Measurable fun x => brownSeries (T x) (a x) (b x) (K x) i := by
  refine meas_partialSum (f := fun x => brownTerm (T x) (a x) (b x) (K x)) (fun i => ?_) i
  unfold brownTerm escUp escDown
  fun_prop

theorem meas_brownEscSeries (hT : Measurable T) (ha : Measurable a) (hb : Measurable b) (hK : Measurable K) (hB : Measurable B) (i : ℕ) :
    Measurable fun x => brownEscSeries (T x) (a x) (b x) (K x) (B x) i := by
  refine Measurable.optionCases hB (f := fun x B => brownEscSeries (T x) (a x) (b x) (K x) B i) (meas_brownSeries hT ha hb hK i) ?_
  simp only [brownEscSeries, boundedSeries]
  have h1 : Measurable fun y : X × ℝ => brownSeries (T y.1) (a y.1) (b y.1) (K y.1) i := meas_brownSeries (by fun_prop) (by fun_prop) (by fun_prop) (by fun_prop) i
  have h2 : Measurable fun y : X × ℝ => brownSeries (T y.1) (a y.1) (b y.1) y.2 (i + 1) := meas_brownSeries (by fun_prop) (by fun_prop) (by fun_prop) (by fun_prop) _
  fun_prop

theorem meas_besSeries (hT : Measurable T) (ha : Measurable a) (hb : Measurable b) (hK : Measurable K) (i : ℕ) : Measurable fun x => besSeries (T x) (a x) (b x) (K x) i := by
  unfold besSeries
  have h1 : Measurable fun x => brownSeries (T x) (a x - K x / 2) (b x - K x / 2) (K x / 2) i := meas_brownSeries (by fun_prop) (by fun_prop) (by fun_prop) (by fun_prop) i
  have h2 : Measurable fun x => partialSum (besTerm (T x) (b x) (K x)) i := by
    refine meas_partialSum (f := fun x => besTerm (T x) (b x) (K x)) (fun i => ?_) i
    unfold besTerm besInc
    fun_prop
  fun_prop

theorem meas_besEscSeries (hT : Measurable T) (ha : Measurable a) (hb : Measurable b) (hK : Measurable K) (hB : Measurable B) (i : ℕ) :
    Measurable fun x => besEscSeries (T x) (a x) (b x) (K x) (B x) i := by
  refine Measurable.optionCases hB (f := fun x B => besEscSeries (T x) (a x) (b x) (K x) B i) (meas_besSeries hT ha hb hK i) ?_
  simp only [besEscSeries, boundedSeries]
  have h1 : Measurable fun y : X × ℝ => besSeries (T y.1) (a y.1) (b y.1) (K y.1) i := meas_besSeries (by fun_prop) (by fun_prop) (by fun_prop) (by fun_prop) i
  have h2 : Measurable fun y : X × ℝ => besSeries (T y.1) (a y.1) (b y.1) y.2 (i + 1) := meas_besSeries (by fun_prop) (by fun_prop) (by fun_prop) (by fun_prop) _
  fun_prop

theorem reg_brownEscSeeded (hT : Measurable T) (ha : Measurable a) (hb : Measurable b) (hK : Measurable K) (hB : Measurable B) (hu : Measurable u) :
    Reg fun x => brownEscSeeded (T x) (a x) (b x) (K x) (B x) (u x) := by
  unfold brownEscSeeded
  refine Reg.bind (Reg.assert' (by fun_prop)) (Reg.bind (Reg.assert' (by fun_prop)) (Reg.ite' (by fun_prop) (Reg.ret (by fun_prop)) (Reg.ite' ?_ (Reg.ret (by fun_prop)) (reg_searchResult ?_))))
  · exact Measurable.optionEx (by fun_prop) (by fun_prop)
  · exact meas_escSearch (fun i => meas_brownEscSeries (by fun_prop) (by fun_prop) (by fun_prop) (by fun_prop) (by fun_prop) i) (by fun_prop) _

theorem reg_brownEsc (hT : Measurable T) (ha : Measurable a) (hb : Measurable b) (hK : Measurable K) (hB : Measurable B) (hs : Measurable seed) :
    Reg fun x => brownEsc (T x) (a x) (b x) (K x) (B x) (seed x) := by
  refine Reg.optionCases hs (p := fun x s => brownEsc (T x) (a x) (b x) (K x) (B x) s) ?_ ?_
  · exact Reg.bind (Reg.unif (by fun_prop) (by fun_prop)) (reg_brownEscSeeded (by fun_prop) (by fun_prop) (by fun_prop) (by fun_prop) (by fun_prop) (by fun_prop))
  · exact reg_brownEscSeeded (by fun_prop) (by fun_prop) (by fun_prop) (by fun_prop) (by fun_prop) (by fun_prop)

theorem reg_besEscSeeded (hT : Measurable T) (ha : Measurable a) (hb : Measurable b) (hK : Measurable K) (hB : Measurable B) (hu : Measurable u) :
    Reg fun x => besEscSeeded (T x) (a x) (b x) (K x) (B x) (u x) := by
  unfold besEscSeeded
  refine Reg.bind (Reg.assert' (by fun_prop)) (Reg.bind (Reg.assert' (by fun_prop)) (Reg.bind (Reg.assert' (by fun_prop)) (Reg.bind (Reg.assert' (by fun_prop))
    (Reg.ite' (by fun_prop) (Reg.ret (by fun_prop)) (Reg.ite' ?_ (Reg.ret (by fun_prop)) (Reg.ite' (by fun_prop) (reg_searchResult ?_) ?_))))))
  · exact Measurable.optionEx (by fun_prop) (by fun_prop)
  · exact meas_escSearch (fun i => meas_besEscSeries (by fun_prop) (by fun_prop) (by fun_prop) (by fun_prop) (by fun_prop) i) (by fun_prop) _
  · have h : Reg fun x => match fastForward (besEscSeries (T x) (a x) (b x) (K x) (B x)) with
        | some i0 => searchResult (escSearch (besEscSeries (T x) (a x) (b x) (K x) (B x)) (u x) i0)
        | none => .err .fuel := by
      refine Reg.countable (fun (o : Option ℕ) x => match o with
        | some i0 => searchResult (escSearch (besEscSeries (T x) (a x) (b x) (K x) (B x)) (u x) i0)
        | none => .err .fuel) (c := fun x => fastForward (besEscSeries (T x) (a x) (b x) (K x) (B x))) (fun o => ?_) (fun o => ?_) fun x => ?_
      · exact (meas_fastForward fun i => meas_besEscSeries hT ha hb hK hB i) (MeasurableSet.of_discrete (s := {o}))
      · cases o with
        | none => exact Reg.err _
        | some i => exact reg_searchResult (meas_escSearch (fun i => meas_besEscSeries hT ha hb hK hB i) hu _)
      · rfl
    exact h.comp (f := fun y : (((X × Unit) × Unit) × Unit) × Unit => y.1.1.1.1) (by fun_prop)

theorem reg_besEsc (hT : Measurable T) (ha : Measurable a) (hb : Measurable b) (hK : Measurable K) (hB : Measurable B) (hs : Measurable seed) :
    Reg fun x => besEsc (T x) (a x) (b x) (K x) (B x) (seed x) := by
  refine Reg.optionCases hs (p := fun x s => besEsc (T x) (a x) (b x) (K x) (B x) s) ?_ ?_
  · exact Reg.bind (Reg.unif (by fun_prop) (by fun_prop)) (reg_besEscSeeded (by fun_prop) (by fun_prop) (by fun_prop) (by fun_prop) (by fun_prop) (by fun_prop))
  · exact reg_besEscSeeded (by fun_prop) (by fun_prop) (by fun_prop) (by fun_prop) (by fun_prop) (by fun_prop)

/-! ## Minima of layered bridges -/

theorem reg_layerMinLoop (hT : Measurable T) (ha : Measurable a) (hb : Measurable b) (hU : Measurable U) (hl : Measurable lb) (hu : Measurable ub) (n : ℕ) :
    Reg fun x => layerMinLoop (T x) (a x) (b x) (U x) (lb x) (ub x) n := by
  induction n with
  | zero => exact Reg.err _
  | succ n ih =>
    simp only [layerMinLoop]
    refine Reg.bind (reg_sampleBridgeMin hT ha hb hl hu) (Reg.bind (reg_besEsc (by fun_prop) (by fun_prop) (by fun_prop) (by fun_prop) (by fun_prop) (by fun_prop))
      (Reg.bind (reg_besEsc (by fun_prop) (by fun_prop) (by fun_prop) (by fun_prop) (by fun_prop) (by fun_prop)) (Reg.ite' (by fun_prop) (Reg.ret (by fun_prop)) ?_)))
    exact ih.comp (f := fun y : ((X × ℝ × ℝ) × Bool) × Bool => y.1.1.1) (by fun_prop)

theorem reg_sampleLayerMin {UO : X → Option ℝ} (n : ℕ) (hT : Measurable T) (ha : Measurable a) (hb : Measurable b) (hU : Measurable UO) (hl : Measurable lb) (hu : Measurable ub) :
    Reg fun x => sampleLayerMin n (T x) (a x) (b x) (UO x) (lb x) (ub x) := by
  unfold sampleLayerMin
  refine Reg.bind (Reg.assert' (by fun_prop)) (Reg.bind (Reg.assert' (Measurable.optionAll (by fun_prop) (by fun_prop))) ?_)
  refine Reg.optionCases (o := fun y : (X × Unit) × Unit => UO y.1.1) (p := fun y o => match o with
    | none => if n = 0 then .err .budget else sampleBridgeMin (T y.1.1) (a y.1.1) (b y.1.1) (lb y.1.1) (ub y.1.1)
    | some U' => layerMinLoop (T y.1.1) (a y.1.1) (b y.1.1) U' (lb y.1.1) (ub y.1.1) n) (by fun_prop) ?_ ?_
  · exact Reg.ite' (by fun_prop) (Reg.err _) (reg_sampleBridgeMin (by fun_prop) (by fun_prop) (by fun_prop) (by fun_prop) (by fun_prop))
  · exact reg_layerMinLoop (by fun_prop) (by fun_prop) (by fun_prop) (by fun_prop) (by fun_prop) (by fun_prop) n

/-! ## Layers -/

theorem meas_computeEdges (i pow : ℕ) (hT : Measurable T) (ha : Measurable a) (hb : Measurable b) (hl : Measurable lb) (hu : Measurable ub) :
    Measurable fun x => computeEdges i (T x) (a x) (b x) (lb x) (ub x) pow := by
  have m1 : Measurable fun x => ∀ l, lb x = some l → l < min (a x) (b x) := Measurable.optionAll hl (by fun_prop)
  have m2 : Measurable fun x => ∀ l, ub x = some l → max (a x) (b x) < l := Measurable.optionAll hu (by fun_prop)
  have r1 : Measurable fun x => ppfBridgeMin (1 / ((i : ℝ) ^ pow + 1)) (T x) (a x) (b x) (lb x) none := meas_ppfBridgeMin (by fun_prop) hT ha hb hl (by fun_prop)
  have mb : Measurable fun x => mirrorBound ((a x + b x) / 2) (ub x) := Measurable.optionMap hu (f := fun x u => (a x + b x) / 2 - u) (by fun_prop)
  have r2 : Measurable fun x => ppfBridgeMin (1 / ((i : ℝ) ^ pow + 1)) (T x) ((a x + b x) / 2 - a x) ((a x + b x) / 2 - b x) (mirrorBound ((a x + b x) / 2) (ub x)) none :=
    meas_ppfBridgeMin (by fun_prop) hT (by fun_prop) (by fun_prop) mb (by fun_prop)
  have e : ∀ (c : ℝ) (r1 r2 : Res (Option ℝ)), (match r1, r2 with
      | .ok (some l), .ok (some u) => .ok (l, c - u)
      | .error e, _ => .error e
      | _, .error e => .error e
      | _, _ => .error .nan : Res (ℝ × ℝ)) = r1.bind fun o1 => r2.bind fun o2 => (optRes .nan o1).bind fun l => (optRes .nan o2).bind fun u => .ok (l, c - u) := by
    rintro c (_ | _ | l) (_ | _ | u) <;> rfl
  unfold computeEdges
  refine Measurable.ite' (by fun_prop) (by fun_prop) (Measurable.ite' (by fun_prop) (by fun_prop) (Measurable.ite' (by fun_prop) (by fun_prop) (Measurable.ite' (by fun_prop) (by fun_prop) ?_)))
  dsimp only
  refine (congrArg Measurable (funext fun x => e _ _ _)).mpr ?_
  refine Measurable.resBind r1 (Measurable.resBind (r2.comp measurable_fst) (Measurable.resBind (by fun_prop) (Measurable.resBind (by fun_prop) ?_)))
  fun_prop

theorem reg_layerSeedLoop {l : X → ℝ} (hT : Measurable T) (ha : Measurable a) (hb : Measurable b) (hl : Measurable l) (hu : Measurable u) (n : ℕ) :
    Reg fun x => layerSeedLoop (T x) (a x) (b x) (l x) (u x) n := by
  induction n with
  | zero => exact Reg.err _
  | succ n ih =>
    simp only [layerSeedLoop]
    refine Reg.bind (Reg.unif (by fun_prop) (by fun_prop)) (Reg.bind (reg_brownEsc (by fun_prop) (by fun_prop) (by fun_prop) (by fun_prop) (by fun_prop) (by fun_prop))
      (Reg.ite' (by fun_prop) (Reg.ret (by fun_prop)) ?_))
    exact ih.comp (f := fun y : (X × ℝ) × Bool => y.1.1) (by fun_prop)

theorem reg_layerSeed (n : ℕ) (hT : Measurable T) (ha : Measurable a) (hb : Measurable b) (hl : Measurable lb) (hu : Measurable ub) :
    Reg fun x => layerSeed n (T x) (a x) (b x) (lb x) (ub x) := by
  refine Reg.optionCases hl (p := fun x l => layerSeed n (T x) (a x) (b x) l (ub x)) ?_ ?_
  · refine Reg.optionCases hu (p := fun x u => layerSeed n (T x) (a x) (b x) none u) ?_ ?_
    · exact Reg.unif (by fun_prop) (by fun_prop)
    · refine Reg.bind (Reg.lift (meas_cdfBridgeMin (by fun_prop) (by fun_prop) (by fun_prop) (by fun_prop) (by fun_prop) (by fun_prop))) (Reg.unif (by fun_prop) (by fun_prop))
  · refine Reg.optionCases (o := fun y : X × ℝ => ub y.1) (by fun_prop) (p := fun y u => layerSeed n (T y.1) (a y.1) (b y.1) (some y.2) u) ?_ ?_
    · refine Reg.bind (Reg.lift (meas_cdfBridgeMin (by fun_prop) (by fun_prop) (by fun_prop) (by fun_prop) (by fun_prop) (by fun_prop))) (Reg.unif (by fun_prop) (by fun_prop))
    · exact reg_layerSeedLoop (by fun_prop) (by fun_prop) (by fun_prop) (by fun_prop) (by fun_prop) n

theorem reg_layerSearch (hT : Measurable T) (ha : Measurable a) (hb : Measurable b) (hl : Measurable lb) (hu : Measurable ub) {v : X → ℝ} (hv : Measurable v) (F l : ℕ) :
    Reg fun x => layerSearch (T x) (a x) (b x) (lb x) (ub x) (v x) F l := by
  induction F generalizing l with
  | zero => exact Reg.err _
  | succ F ih =>
    simp only [layerSearch]
    refine Reg.bind (Reg.lift (meas_computeEdges _ _ hT ha hb hl hu)) (Reg.bind (reg_brownEsc (by fun_prop) (by fun_prop) (by fun_prop) (by fun_prop) (by fun_prop) (by fun_prop))
      (Reg.ite' (by fun_prop) (Reg.ret (by fun_prop)) ?_))
    exact (ih (l + 1)).comp (f := fun y : (X × ℝ × ℝ) × Bool => y.1.1) (by fun_prop)

theorem reg_sampleLayer (n F : ℕ) (hT : Measurable T) (ha : Measurable a) (hb : Measurable b) (hl : Measurable lb) (hu : Measurable ub) :
    Reg fun x => sampleLayer n F (T x) (a x) (b x) (lb x) (ub x) := by
  unfold sampleLayer
  exact Reg.bind (Reg.assert' (by fun_prop)) (Reg.bind (reg_layerSeed n (by fun_prop) (by fun_prop) (by fun_prop) (by fun_prop) (by fun_prop))
    (reg_layerSearch (by fun_prop) (by fun_prop) (by fun_prop) (by fun_prop) (by fun_prop) (by fun_prop) F 1))

theorem meas_sectorProbs {lo hi : X → ℝ × ℝ} (hT : Measurable T) (ha : Measurable a) (hb : Measurable b) (hlo : Measurable lo) (hhi : Measurable hi) :
    Measurable fun x => sectorProbs (T x) (a x) (b x) (lo x) (hi x) := by
  have r1 : Measurable fun x => cdfBridgeMin (some (lo x).2) (T x) (a x) (b x) (some (lo x).1) none :=
    meas_cdfBridgeMin (by fun_prop) hT ha hb (by fun_prop) (by fun_prop)
  have r2 : Measurable fun x => cdfBridgeMin (some (-(hi x).1)) (T x) (-b x) (-a x) (some (-(hi x).2)) none :=
    meas_cdfBridgeMin (by fun_prop) hT (by fun_prop) (by fun_prop) (by fun_prop) (by fun_prop)
  have e : ∀ r1 r2 : Res ℝ, (match r1, r2 with
      | .ok p, .ok q => .ok (p, q)
      | .error e, _ => .error e
      | _, .error e => .error e : Res (ℝ × ℝ)) = r1.bind fun p => r2.bind fun q => .ok (p, q) := by
    rintro (_ | _) (_ | _) <;> rfl
  unfold sectorProbs
  refine (congrArg Measurable (funext fun x => e _ _)).mpr ?_
  exact Measurable.resBind r1 (Measurable.resBind (r2.comp measurable_fst) (by fun_prop))

theorem reg_sampleAnchor (n F : ℕ) (hT : Measurable T) (ha : Measurable a) (hb : Measurable b) (hl : Measurable lb) (hu : Measurable ub) :
    Reg fun x => sampleAnchor n F (T x) (a x) (b x) (lb x) (ub x) := by
  unfold sampleAnchor
  refine Reg.bind (Reg.assert' (by fun_prop)) (Reg.bind (reg_sampleLayer n F (by fun_prop) (by fun_prop) (by fun_prop) (by fun_prop) (by fun_prop)) ?_)
  refine Reg.natCases (c := fun y : (X × Unit) × ℕ => y.2) (by fun_prop) (p := fun y l => (Prog.lift (computeEdges l (T y.1.1) (a y.1.1) (b y.1.1) (lb y.1.1) (ub y.1.1) 2)).bind fun inn =>
    (Prog.lift (computeEdges (l - 1) (T y.1.1) (a y.1.1) (b y.1.1) (lb y.1.1) (ub y.1.1) 2)).bind fun ou =>
    (Prog.lift (sectorProbs (T y.1.1) (a y.1.1) (b y.1.1) (inn.1, ou.1) (ou.2, inn.2))).bind fun p =>
    (Prog.draw (.uniform 0 1)).bind fun u =>
    .ret (decide (u < p.1 / (p.1 + p.2)), (inn.1, ou.1), (ou.2, inn.2))) fun l => ?_
  refine Reg.bind (Reg.lift (meas_computeEdges _ _ (by fun_prop) (by fun_prop) (by fun_prop) (by fun_prop) (by fun_prop)))
    (Reg.bind (Reg.lift (meas_computeEdges _ _ (by fun_prop) (by fun_prop) (by fun_prop) (by fun_prop) (by fun_prop)))
    (Reg.bind (Reg.lift (meas_sectorProbs (by fun_prop) (by fun_prop) (by fun_prop) (by fun_prop) (by fun_prop)))
    (Reg.bind (Reg.unif (by fun_prop) (by fun_prop)) (Reg.ret ?_))))
  fun_prop

theorem reg_edgesLoop {inf sup : X → ℝ × ℝ} (k : ℕ) (hT : Measurable T) (ha : Measurable a) (hb : Measurable b) (hi : Measurable inf) (hs : Measurable sup) (n : ℕ) :
    Reg fun x => edgesLoop k (T x) (a x) (b x) (inf x) (sup x) n := by
  induction n with
  | zero => exact Reg.err _
  | succ n ih =>
    simp only [edgesLoop]
    refine Reg.bind (reg_sampleLayerMin k (by fun_prop) (by fun_prop) (by fun_prop) (by fun_prop) (by fun_prop) (by fun_prop))
      (Reg.ite' (by fun_prop) (Reg.ret (by fun_prop))
      (Reg.bind (reg_besEsc (by fun_prop) (by fun_prop) (by fun_prop) (by fun_prop) (by fun_prop) (by fun_prop))
      (Reg.bind (reg_besEsc (by fun_prop) (by fun_prop) (by fun_prop) (by fun_prop) (by fun_prop) (by fun_prop))
      (Reg.ite' (by fun_prop) (Reg.ret (by fun_prop)) (Reg.bind (Reg.unif (by fun_prop) (by fun_prop)) (Reg.ite' (by fun_prop) (Reg.ret (by fun_prop)) ?_))))))
    exact ih.comp (f := fun y : (((X × ℝ × ℝ) × Bool) × Bool) × ℝ => y.1.1.1.1) (by fun_prop)

theorem reg_sampleEdges {inf sup : X → ℝ × ℝ} (k n : ℕ) (hT : Measurable T) (ha : Measurable a) (hb : Measurable b) (hi : Measurable inf) (hs : Measurable sup) :
    Reg fun x => sampleEdges k n (T x) (a x) (b x) (inf x) (sup x) := by
  unfold sampleEdges
  exact Reg.bind (Reg.assert' (by fun_prop)) (Reg.bind (Reg.assert' (by fun_prop)) (reg_edgesLoop k (by fun_prop) (by fun_prop) (by fun_prop) (by fun_prop) (by fun_prop) n))

/-! ## Skeletons -/

/-- The fields of a skeleton. -/
def EaSkel.tup (s : EaSkel) : List ℝ × List ℝ × ℝ × ℝ × ℝ × Option (List Bool) := (s.t, s.x, s.tight, s.loose, s.hitX, s.hitI)

instance : MeasurableSpace EaSkel := MeasurableSpace.comap EaSkel.tup inferInstance

instance : Inhabited EaSkel := ⟨⟨[], [], 0, 0, 0, none⟩⟩

theorem measurable_tup : Measurable EaSkel.tup := comap_measurable _

@[fun_prop] theorem Measurable.skelT {s : X → EaSkel} (hs : Measurable s) : Measurable fun x => (s x).t := (measurable_tup.comp hs).fst
@[fun_prop] theorem Measurable.skelX {s : X → EaSkel} (hs : Measurable s) : Measurable fun x => (s x).x := (measurable_tup.comp hs).snd.fst
@[fun_prop] theorem Measurable.skelTight {s : X → EaSkel} (hs : Measurable s) : Measurable fun x => (s x).tight := (measurable_tup.comp hs).snd.snd.fst
@[fun_prop] theorem Measurable.skelLoose {s : X → EaSkel} (hs : Measurable s) : Measurable fun x => (s x).loose := (measurable_tup.comp hs).snd.snd.snd.fst
@[fun_prop] theorem Measurable.skelHitX {s : X → EaSkel} (hs : Measurable s) : Measurable fun x => (s x).hitX := (measurable_tup.comp hs).snd.snd.snd.snd.fst
@[fun_prop] theorem Measurable.skelHitI {s : X → EaSkel} (hs : Measurable s) : Measurable fun x => (s x).hitI := (measurable_tup.comp hs).snd.snd.snd.snd.snd

@[fun_prop] theorem Measurable.skelMk {t x : X → List ℝ} {c l h : X → ℝ} {i : X → Option (List Bool)} (ht : Measurable t) (hx : Measurable x) (hc : Measurable c)
    (hl : Measurable l) (hh : Measurable h) (hi : Measurable i) : Measurable fun y => EaSkel.mk (t y) (x y) (c y) (l y) (h y) (i y) := by
  refine measurable_comap_iff.2 ?_
  show Measurable fun y => (t y, x y, c y, l y, h y, i y)
  fun_prop

theorem meas_reversePath {t x : X → List ℝ} {f : X → ℝ} (ht : Measurable t) (hx : Measurable x) (hf : Measurable f) : Measurable fun y => reversePath (t y) (x y) (f y) := by
  unfold reversePath
  have h1 : Measurable fun y => ∀ s ∈ t y, 0 ≤ s ∧ s ≤ f y := Measurable.memAll ht (by fun_prop)
  have h2 : Measurable fun y => (t y).reverse.map (f y - ·) := Measurable.listMap (by fun_prop) (by fun_prop)
  fun_prop

theorem meas_reflectPath {t x : X → List ℝ} {c : X → ℝ} (ht : Measurable t) (hx : Measurable x) (hc : Measurable c) : Measurable fun y => reflectPath (t y) (x y) (c y) := by
  unfold reflectPath
  have h1 : Measurable fun y => ∀ s ∈ t y, 0 ≤ s := Measurable.memAll ht (by fun_prop)
  have h2 : Measurable fun y => (x y).map (2 * c y - ·) := Measurable.listMap (by fun_prop) (by fun_prop)
  have h3 : Measurable fun y => t y = [] := Measurable.isNil ht
  fun_prop

theorem flipSkel_binds (s : EaSkel) : flipSkel s = (optRes .index s.x.head?).bind fun x0 => (optRes .index s.x.getLast?).bind fun x1 => (optRes .index s.t.getLast?).bind fun f =>
    (reversePath s.t s.x f).bind fun q => (reflectPath q.1 q.2 ((x0 + x1) / 2)).bind fun q =>
    .ok ⟨q.1, q.2, 2 * ((x0 + x1) / 2) - s.tight, 2 * ((x0 + x1) / 2) - s.loose, 2 * ((x0 + x1) / 2) - s.hitX, s.hitI.map List.reverse⟩ := by
  unfold flipSkel
  cases s.x.head? <;> cases s.x.getLast? <;> cases s.t.getLast? <;> try rfl
  simp only [optRes, Except.bind]
  cases reversePath s.t s.x _ with
  | error e => rfl
  | ok q =>
    simp only
    cases reflectPath q.1 q.2 _ <;> rfl

@[fun_prop] theorem Measurable.revFlags {o : X → Option (List Bool)} (ho : Measurable o) : Measurable fun x => (o x).map List.reverse :=
  Measurable.discrete ho (·.map List.reverse)

theorem meas_flipSkel {s : X → EaSkel} (hs : Measurable s) : Measurable fun x => flipSkel (s x) := by
  simp only [flipSkel_binds]
  refine Measurable.resBind (by fun_prop) (Measurable.resBind (by fun_prop) (Measurable.resBind (by fun_prop) (Measurable.resBind ?_ (Measurable.resBind ?_ ?_))))
  · exact meas_reversePath (by fun_prop) (by fun_prop) (by fun_prop)
  · exact meas_reflectPath (by fun_prop) (by fun_prop) (by fun_prop)
  · fun_prop

theorem reg_sampleRawSkel (n F : ℕ) (hT : Measurable T) (ha : Measurable a) (hb : Measurable b) (hl : Measurable lb) (hu : Measurable ub) :
    Reg fun x => sampleRawSkel n F (T x) (a x) (b x) (lb x) (ub x) := by
  unfold sampleRawSkel
  dsimp only
  refine Reg.bind (reg_sampleAnchor n F hT ha hb hl hu) (Reg.bind (reg_sampleEdges n n (by fun_prop) (by fun_prop) (by fun_prop) (by fun_prop) (by fun_prop))
    (Reg.bind (Reg.unif (by fun_prop) (by fun_prop)) (Reg.ite' (by fun_prop) (Reg.ret (by fun_prop)) (Reg.lift (meas_flipSkel (by fun_prop))))))

end Ctb
