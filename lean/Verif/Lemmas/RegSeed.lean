import Verif.Lemmas.RegSde
import Verif.Model.SeedBridge

/-!
# Samplers of path seeds have measurable laws
-/

set_option linter.unusedSectionVars false

namespace Ctb

open MeasureTheory Set Classical

variable {X Y Z α β γ : Type} [MeasurableSpace X] [MeasurableSpace Y] [MeasurableSpace Z] [MeasurableSpace α] [MeasurableSpace β] [MeasurableSpace γ]

variable {T a b m x0 x1 : X → ℝ} {t x newT : X → List ℝ}

theorem reg_interpolateSeed (n k : ℕ) (op : NormOp) {s : X → EaSkel} (hs : Measurable s) (hn : Measurable newT) : Reg fun y => interpolateSeed n k op (s y) (newT y) := by
  have h1 : Measurable fun y => (newT y).map fun t => (op.norm t none).1 := by
    refine Measurable.listMap hn ?_
    simp only [NormOp.norm]
    fun_prop
  have h2 : Measurable fun y : X × EaSkel × List ℝ => (newT y.1).map fun t => (op.norm t none).1 := h1.comp measurable_fst
  unfold interpolateSeed
  dsimp only
  refine Reg.bind (reg_interpolateSkel n k hs h1) (Reg.ite' ?_ (Reg.ret (Measurable.prodMk (by fun_prop) ?_)) (Reg.err _))
  · exact Measurable.discrete (f := fun y : X × EaSkel × List ℝ => (y.2.2.length, ((newT y.1).map fun t => (op.norm t none).1).length)) (Measurable.prodMk (by fun_prop) (Measurable.length h2)) (fun q => q.1 = q.2)
  · refine Measurable.zipWith' h2 (by fun_prop) ?_
    simp only [NormOp.denorm, Option.map_some, Option.getD_some]
    fun_prop

/-! ## Bounds along the path -/

theorem boundDiscPath_one (ebd : ℝ → ℝ → Res DiscBounds) (op : NormOp) (z : EaSkel) : boundDiscPath ebd op z (.pieces 1) =
    (ebd (min (min z.tight z.loose * op.scale + op.x1) (min z.tight z.loose * op.scale + op.x0))
      (max (max z.tight z.loose * op.scale + op.x1) (max z.tight z.loose * op.scale + op.x0))).bind
      fun b => .ok ([0, op.finT], [b.2.1], [b.2.2]) := by
  have e : (if z.tight < z.loose then (z.tight, z.loose) else (z.loose, z.tight)) = (min z.tight z.loose, max z.tight z.loose) := by
    split_ifs with h
    · rw [min_eq_left h.le, max_eq_right h.le]
    · rw [min_eq_right (not_lt.1 h), max_eq_left (not_lt.1 h)]
  unfold boundDiscPath
  rw [e]
  have e1 : ∀ c : ℝ, c + (op.x1 - op.x0) = c - op.x0 + op.x1 := fun c => by ring
  simp only [Grid.normed, List.range_succ, List.range_zero, NormOp.denorm, List.nil_append, List.cons_append, List.map_cons, List.map_nil, Nat.cast_zero, Nat.cast_one, zero_div, div_one,
    zero_mul, one_mul, add_zero, Option.map_some, Option.getD_some, List.tail_cons, List.dropLast_cons₂, List.dropLast_singleton, List.zipWith_cons_cons, List.zipWith_nil_left, listOk]
  have e2 : min z.tight z.loose * op.scale + op.x0 + (op.x1 - op.x0) = min z.tight z.loose * op.scale + op.x1 := by ring
  have e3 : max z.tight z.loose * op.scale + op.x0 + (op.x1 - op.x0) = max z.tight z.loose * op.scale + op.x1 := by ring
  rw [e2, e3]
  cases ebd (min (min z.tight z.loose * op.scale + op.x1) (min z.tight z.loose * op.scale + op.x0)) (max (max z.tight z.loose * op.scale + op.x1) (max z.tight z.loose * op.scale + op.x0)) with
  | error e => rfl
  | ok b => rfl

/-- The coin of a seed with its one pair of bounds. -/
theorem flipPoissonCoin_one (n k : ℕ) (disc : ℝ → ℝ) (ebd : ℝ → ℝ → Res DiscBounds) (op : NormOp) (size : ℤ) (z : EaSkel) : flipPoissonCoin n k disc ebd op size z =
    (Prog.lift (ebd (min (min z.tight z.loose * op.scale + op.x1) (min z.tight z.loose * op.scale + op.x0))
      (max (max z.tight z.loose * op.scale + op.x1) (max z.tight z.loose * op.scale + op.x0)))).bind fun b =>
    match (b.2.2 : Option ℝ) with
    | none => .ret (false, stLbDisc [0, op.finT] [b.2.1], z)
    | some u => (batchCoin (poissonStep (interpolateSeed n k op) disc [0, op.finT] [b.2.1]) (u - b.2.1) (1 * op.finT) size z).bind fun r => .ret (r.1, stLbDisc [0, op.finT] [b.2.1], r.2) := by
  unfold flipPoissonCoin seedCoin
  rw [boundDiscPath_one]
  cases ebd (min (min z.tight z.loose * op.scale + op.x1) (min z.tight z.loose * op.scale + op.x0)) (max (max z.tight z.loose * op.scale + op.x1) (max z.tight z.loose * op.scale + op.x0)) with
  | error e => rfl
  | ok b =>
    obtain ⟨c, l, u⟩ := b
    cases u with
    | top => rfl
    | coe u => rfl

instance : Inhabited (Res α) := ⟨.error .value⟩

@[fun_prop] theorem Measurable.listOk [Inhabited α] {l : X → List (Res α)} (hl : Measurable l) : Measurable fun x => Ctb.listOk (l x) := by
  refine Measurable.listRec hl (f := fun _ l => Ctb.listOk l) (h := fun p => p.1) (g := fun p => p.2.1.bind fun a => p.2.2.2.bind fun as => .ok (a :: as)) ?_ (by fun_prop) measurable_const
    (fun _ _ _ => rfl)
  refine Measurable.resBind (by fun_prop) (Measurable.resBind (X := (X × Res α × List (Res α) × Res (List α)) × α) (by fun_prop) (by fun_prop))

@[fun_prop] theorem Measurable.searchRight {l : X → List ℝ} {v : X → ℝ} (hl : Measurable l) (hv : Measurable v) {dec : ∀ a b : ℝ, Decidable (a ≤ b)} :
    Measurable fun x => @Ctb.searchRight ℝ _ dec (l x) (v x) := by
  unfold Ctb.searchRight
  exact Measurable.length (Measurable.takeWhile (P := fun x a => @Decidable.decide (a ≤ v x) (dec _ _)) hl (Measurable.decide (by fun_prop)))

theorem meas_isBelow {disc : ℝ → ℝ} (hd : Measurable disc) {t le : X → List ℝ} (ht : Measurable t) (hl : Measurable le) :
    Measurable fun q : X × (ℝ × ℝ) × ℝ => isBelow disc (t q.1) (le q.1) q.2.1 q.2.2 := by
  have h1 : Measurable fun q : X × (ℝ × ℝ) × ℝ => lowerAt (t q.1) (le q.1) q.2.1.2 := by
    unfold lowerAt
    refine Measurable.pyGet (by fun_prop) ?_
    exact Measurable.discrete (f := fun q : X × (ℝ × ℝ) × ℝ => Ctb.searchRight (t q.1) q.2.1.2) (by fun_prop) (fun n : ℕ => (n : ℤ) - 1)
  refine Measurable.optionCases h1 (f := fun q o => match o with
    | some l => (.ok (decide (q.2.1.1 < disc q.2.2 - l)) : Res Bool)
    | none => .error .index) measurable_const (Measurable.resOk (Measurable.decide ?_))
  fun_prop

theorem meas_anyBelow {disc : ℝ → ℝ} (hd : Measurable disc) {t le xs : X → List ℝ} {ps : X → List (ℝ × ℝ)} (ht : Measurable t) (hl : Measurable le) (hp : Measurable ps) (hx : Measurable xs) :
    Measurable fun q => anyBelow disc (t q) (le q) (ps q) (xs q) := by
  have h1 : Measurable fun q => Ctb.listOk (List.zipWith (isBelow disc (t q) (le q)) (ps q) (xs q)) := Measurable.listOk (Measurable.zipWith' hp hx (meas_isBelow hd ht hl))
  refine Measurable.resCases h1 (f := fun q r => match r with
    | .error e => (.error e : Res Bool)
    | .ok bs => .ok (bs.any id)) (fun _ => measurable_const) (Measurable.resOk (Measurable.anyBool measurable_snd))

theorem reg_poissonStep {σ : Type} [MeasurableSpace σ] {interp : X → σ → List ℝ → Prog (σ × List ℝ)} (hi : Reg fun q : X × σ × List ℝ => interp q.1 q.2.1 q.2.2)
    {disc : ℝ → ℝ} (hd : Measurable disc) {t le : X → List ℝ} (ht : Measurable t) (hl : Measurable le) :
    Reg fun q : X × σ × List (ℝ × ℝ) => poissonStep (interp q.1) disc (t q.1) (le q.1) q.2.1 q.2.2 := by
  unfold poissonStep
  have h1 : Measurable fun q : X × σ × List (ℝ × ℝ) => q.2.2.map Prod.snd := Measurable.listMap (by fun_prop) (by fun_prop)
  refine Reg.bind (hi.comp (f := fun q : X × σ × List (ℝ × ℝ) => (q.1, q.2.1, q.2.2.map Prod.snd)) (by fun_prop)) (Reg.bind (Reg.lift ?_) (Reg.ret (by fun_prop)))
  exact meas_anyBelow hd (by fun_prop) (by fun_prop) (by fun_prop) (by fun_prop)

theorem reg_flipPoissonCoin (n k : ℕ) {disc : ℝ → ℝ} (hd : Measurable disc) {ebd : ℝ → ℝ → Res DiscBounds} (he : Measurable fun q : ℝ × ℝ => ebd q.1 q.2) (op : NormOp) (size : ℤ)
    {z : X → EaSkel} (hz : Measurable z) : Reg fun x => flipPoissonCoin n k disc ebd op size (z x) := by
  simp only [flipPoissonCoin_one]
  refine Reg.bind (Reg.lift (he.comp (Measurable.prodMk (by fun_prop) (by fun_prop)))) ?_
  have hst : Measurable fun b : DiscBounds => stLbDisc [0, op.finT] [b.2.1] := by
    simp only [stLbDisc, npDiff, List.zipWith_cons_cons, List.zipWith_nil_left, List.sum_cons, List.sum_nil]
    fun_prop
  refine Reg.optionCases (X := X × DiscBounds) (p := fun y o => match o with
    | none => .ret (false, stLbDisc [0, op.finT] [y.2.2.1], z y.1)
    | some u => (batchCoin (poissonStep (interpolateSeed n k op) disc [0, op.finT] [y.2.2.1]) (u - y.2.2.1) (1 * op.finT) size (z y.1)).bind
        fun r => .ret (r.1, stLbDisc [0, op.finT] [y.2.2.1], r.2)) (o := fun y => (y.2.2.2 : Option ℝ)) (by show Measurable fun y : X × DiscBounds => y.2.2.2; fun_prop) (Reg.ret ?_) (Reg.bind ?_ (Reg.ret ?_))
  · exact measurable_const.prodMk ((hst.comp measurable_snd).prodMk (hz.comp measurable_fst))
  · refine reg_batchCoin (X := (X × DiscBounds) × ℝ) (step := fun y => poissonStep (interpolateSeed n k op) disc [0, op.finT] [y.1.2.2.1]) (h := fun y => y.2 - y.1.2.2.1) (T := fun _ => 1 * op.finT)
      (s := fun y => z y.1.1) ?_ (by fun_prop) (by fun_prop) size (by fun_prop)
    exact reg_poissonStep (X := (X × DiscBounds) × ℝ) (interp := fun _ => interpolateSeed n k op) (t := fun _ => [0, op.finT]) (le := fun y => [y.1.2.2.1]) (reg_interpolateSeed n k op (by fun_prop) (by fun_prop)) hd
      (by fun_prop) (by fun_prop)
  · exact measurable_snd.fst.prodMk ((hst.comp measurable_fst.fst.snd).prodMk measurable_snd.snd)

/-! ## Rejection -/

theorem reg_seedRound {ζ : Type} [MeasurableSpace ζ] {raw : X → Prog ζ} (hr : Reg raw) {flip : X → ζ → Prog (Bool × ℝ × ζ)} (hf : Reg fun q : X × ζ => flip q.1 q.2) :
    Reg fun x => seedRound (raw x) (flip x) := by
  refine Reg.bind hr (Reg.bind hf (Reg.ite' (by fun_prop) ?_ (Reg.ret (by fun_prop))))
  refine Reg.real (DMeas.const _) (Reg.ret (Measurable.prodMk (Measurable.decide ?_) (by fun_prop)))
  unfold npLogLt
  fun_prop

theorem reg_seedTry {ζ : Type} [MeasurableSpace ζ] {raw : X → Prog ζ} (hr : Reg raw) {flip : X → ζ → Prog (Bool × ℝ × ζ)} (hf : Reg fun q : X × ζ => flip q.1 q.2) (k : ℕ) :
    Reg fun x => seedTry (raw x) (flip x) k := by
  induction k with
  | zero => exact Reg.err _
  | succ k ih => exact Reg.bind (reg_seedRound hr hf) (Reg.ite' (by fun_prop) (Reg.ret (by fun_prop)) (ih.comp measurable_fst))

theorem reg_sampleSeedBridge (n F k : ℕ) {disc : ℝ → ℝ} (hd : Measurable disc) {ebd : ℝ → ℝ → Res DiscBounds} (he : Measurable fun q : ℝ × ℝ => ebd q.1 q.2) (op : NormOp) (lb ub : Option ℝ)
    (maxProps : ℤ) (m : ℕ) : Reg fun _ : X => sampleSeedBridge n F k disc ebd op lb ub maxProps m := by
  refine Reg.ite' (by fun_prop) (Reg.ret (by fun_prop)) (Reg.bind (Reg.assert' (by fun_prop)) (Reg.bind (Reg.assert' (by fun_prop)) (Reg.replicate m ?_)))
  refine reg_seedTry (X := (X × Unit) × Unit) (flip := fun _ => flipPoissonCoin n k disc ebd op 2) ?_ ?_ _
  · exact reg_sampleRawSkel n F (by fun_prop) (by fun_prop) (by fun_prop) (by fun_prop) (by fun_prop)
  · exact reg_flipPoissonCoin n k hd he op 2 (by fun_prop)

end Ctb
