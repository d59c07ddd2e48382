import Verif.Lemmas.RegInterp
import Verif.Model.SampleSde

/-!
# Rejection samplers of diffusions have measurable laws
-/

set_option linter.unusedSectionVars false

namespace Ctb

open MeasureTheory Set Classical

variable {X Y Z α β γ : Type} [MeasurableSpace X] [MeasurableSpace Y] [MeasurableSpace Z] [MeasurableSpace α] [MeasurableSpace β] [MeasurableSpace γ]

variable {T a b m x0 x1 : X → ℝ} {t x newT : X → List ℝ}

/-! ## Bounds -/

instance : MeasurableSpace (WithTop ℝ) := inferInstanceAs (MeasurableSpace (Option ℝ))
instance : Inhabited (WithTop ℝ) := ⟨⊤⟩

@[fun_prop] theorem Measurable.coeTop {f : X → ℝ} (hf : Measurable f) : Measurable fun x => ((f x : ℝ) : WithTop ℝ) := Measurable.some hf

theorem Measurable.resErrConst (e : PyErr) : Measurable fun _ : X => (.error e : Res α) := measurable_const

theorem Measurable.ouBounds {disc : X → ℝ → ℝ} (hd : Measurable fun q : X × ℝ => disc q.1 q.2) {inf le ue : X → ℝ} (hi : Measurable inf) (hl : Measurable le) (hu : Measurable ue) :
    Measurable fun x => ouBoundsDisc (disc x) (inf x) (le x) (ue x) := by
  unfold ouBoundsDisc
  have h : ∀ {f : X → ℝ}, Measurable f → Measurable fun x => disc x (f x) := fun hf => hd.comp (measurable_id.prodMk hf)
  have h1 := h (f := fun _ => 0) (by fun_prop)
  have h2 := h (f := fun x => min |le x| |ue x|) (by fun_prop)
  have h3 := h (f := fun x => max |le x| |ue x|) (by fun_prop)
  refine Measurable.prodMk (by fun_prop) (Measurable.prodMk (Measurable.ite' ?_ h1 h2) (Measurable.coeTop h3))
  fun_prop

/-! ## The coin of a skeleton -/

theorem reg_skelCoin {σ : Type} [MeasurableSpace σ] {interp : X → σ → List ℝ → Prog (σ × List ℝ)} (hi : Reg fun q : X × σ × List ℝ => interp q.1 q.2.1 q.2.2)
    {disc : X → ℝ → ℝ} (hd : Measurable fun q : X × ℝ => disc q.1 q.2) {bd : X → DiscBounds} (hb : Measurable bd) (hT : Measurable T) (size : ℤ) {s : X → σ} (hs : Measurable s) :
    Reg fun x => skelCoin (interp x) (disc x) (bd x) (T x) size (s x) := by
  refine Reg.optionCases (p := fun x o => skelCoin (interp x) (disc x) (o, (bd x).2) (T x) size (s x)) (o := fun x => (bd x).1) (by fun_prop) ?_ ?_
  · simp only [skelCoin]
    exact Reg.err _
  · refine Reg.optionCases (X := X × ℝ) (p := fun x o => skelCoin (interp x.1) (disc x.1) (some x.2, (bd x.1).2.1, (o : WithTop ℝ)) (T x.1) size (s x.1)) (o := fun x => (bd x.1).2.2)
      (by show Measurable fun x : X × ℝ => (bd x.1).2.2; fun_prop) ?_ ?_
    · show Reg fun x : X × ℝ => if 0 < T x.1 ∧ 0 < size then .err .value else .err .assertion
      exact Reg.ite' (by fun_prop) (Reg.err _) (Reg.err _)
    · show Reg fun x : (X × ℝ) × ℝ => batchCoin (skelStep (interp x.1.1) (disc x.1.1) x.1.2) (x.2 - x.1.2) (T x.1.1) size (s x.1.1)
      refine reg_batchCoin (X := (X × ℝ) × ℝ) (step := fun x => skelStep (interp x.1.1) (disc x.1.1) x.1.2) (h := fun x => x.2 - x.1.2) (T := fun x => T x.1.1) (s := fun x => s x.1.1) ?_ (by fun_prop) (by fun_prop) size (by fun_prop)
      refine reg_skelStep (X := (X × ℝ) × ℝ) (interp := fun x => interp x.1.1) (disc := fun x => disc x.1.1) ?_ ?_ (c := fun x => x.1.2) (by fun_prop)
      · exact hi.comp (f := fun q : ((X × ℝ) × ℝ) × σ × List ℝ => (q.1.1.1, q.2)) (by fun_prop)
      · exact hd.comp (by fun_prop : Measurable fun q : ((X × ℝ) × ℝ) × ℝ => (q.1.1.1, q.2))

theorem reg_flipSkelCoin (n k : ℕ) {disc : X → ℝ → ℝ} (hd : Measurable fun q : X × ℝ => disc q.1 q.2) {ebd : X → ℝ → ℝ → Res DiscBounds}
    (he : Measurable fun q : X × ℝ × ℝ => ebd q.1 q.2.1 q.2.2) (size : ℤ) {s : X → EaSkel} (hs : Measurable s) :
    Reg fun x => flipSkelCoin n k (disc x) (ebd x) size (s x) := by
  unfold flipSkelCoin
  refine Reg.bind (Reg.lift (he.comp (by fun_prop : Measurable fun x => (x, min (s x).loose (s x).tight, max (s x).loose (s x).tight)))) ?_
  refine Reg.optionCases (X := X × DiscBounds) (p := fun y o => match o with
    | none => .err .index
    | some T => skelCoin (interpolateSkel n k) (disc y.1) y.2 T size (s y.1)) (o := fun y => (s y.1).t.getLast?) (by fun_prop) (Reg.err _) ?_
  refine reg_skelCoin (X := (X × DiscBounds) × ℝ) (interp := fun _ => interpolateSkel n k) (disc := fun y => disc y.1.1) ?_ ?_ (by fun_prop) (by fun_prop) size (by fun_prop)
  · exact reg_interpolateSkel n k (by fun_prop) (by fun_prop)
  · exact hd.comp (by fun_prop : Measurable fun q : ((X × DiscBounds) × ℝ) × ℝ => (q.1.1.1, q.2))

/-! ## The loops of `sample_skeleton` -/

theorem reg_skelTry {σ : Type} [MeasurableSpace σ] {next : X → σ → Prog (ℝ × σ)} (hn : Reg fun q : X × σ => next q.1 q.2) {raw : X → ℝ → Prog EaSkel}
    (hr : Reg fun q : X × ℝ => raw q.1 q.2) {flip : X → EaSkel → Prog (Bool × EaSkel)} (hf : Reg fun q : X × EaSkel => flip q.1 q.2) (k : ℕ) :
    Reg fun q : X × σ => skelTry (next q.1) (raw q.1) (flip q.1) k q.2 := by
  induction k with
  | zero => exact Reg.err _
  | succ k ih =>
    simp only [skelTry, skelRound]
    refine Reg.bind hn (Reg.bind (Reg.bind ?_ ?_) (Reg.ite' (by fun_prop) (Reg.ret (by fun_prop)) ?_))
    · exact hr.comp (f := fun y : (X × σ) × ℝ × σ => (y.1.1, y.2.1)) (by fun_prop)
    · exact hf.comp (f := fun y : ((X × σ) × ℝ × σ) × EaSkel => (y.1.1.1, y.2)) (by fun_prop)
    · exact ih.comp (f := fun y : ((X × σ) × ℝ × σ) × Bool × EaSkel => (y.1.1.1, y.1.2.2)) (by fun_prop)

theorem reg_skelStream {σ : Type} [MeasurableSpace σ] [Inhabited β] {next : X → σ → Prog (ℝ × σ)} (hn : Reg fun q : X × σ => next q.1 q.2) {raw : X → ℝ → Prog EaSkel}
    (hr : Reg fun q : X × ℝ => raw q.1 q.2) {flip : X → EaSkel → Prog (Bool × EaSkel)} (hf : Reg fun q : X × EaSkel => flip q.1 q.2)
    {post : X → EaSkel → Prog β} (hp : Reg fun q : X × EaSkel => post q.1 q.2) (maxProps m : ℕ) :
    Reg fun q : X × σ => skelStream (next q.1) (raw q.1) (flip q.1) (post q.1) maxProps m q.2 := by
  induction m with
  | zero => exact Reg.ret measurable_const
  | succ m ih =>
    simp only [skelStream]
    refine Reg.bind (reg_skelTry hn hr hf maxProps) (Reg.bind ?_ (Reg.bind ?_ (Reg.ret ?_)))
    · exact hp.comp (f := fun y : (X × σ) × EaSkel × σ => (y.1.1, y.2.1)) (by fun_prop)
    · exact ih.comp (f := fun y : ((X × σ) × EaSkel × σ) × β => (y.1.1.1, y.1.2.2)) (by fun_prop)
    · fun_prop

/-- What a model has to satisfy: its functions are measurable, jointly in the parameters. -/
structure MeasModel {p : ℕ} (M : ItoFns p) (ebd : (Fin p → ℝ) → ℝ → ℝ → Res DiscBounds) : Prop where
  disc : Measurable fun q : (Fin p → ℝ) × ℝ => M.disc q.1 q.2
  reduce : Measurable fun q : (Fin p → ℝ) × ℝ => M.reduce q.1 q.2
  dereduce : Measurable fun q : (Fin p → ℝ) × ℝ => M.dereduce q.1 q.2
  bounds : Measurable fun q : (Fin p → ℝ) × ℝ × ℝ => ebd q.1 q.2.1 q.2.2

theorem reg_sdeValues {p : ℕ} {M : ItoFns p} {ebd : (Fin p → ℝ) → ℝ → ℝ → Res DiscBounds} (hM : MeasModel M ebd) (B : SdeBudget) {thi : X → Fin p → ℝ} (hth : Measurable thi)
    (ht : Measurable t) {s : X → EaSkel} (hs : Measurable s) : Reg fun x => sdeValues M B (thi x) (t x) (s x) := by
  unfold sdeValues
  refine Reg.bind (reg_interpolateSkel B.n B.k hs ht) (Reg.ret (Measurable.listMap (by fun_prop) ?_))
  exact hM.dereduce.comp (by fun_prop : Measurable fun y : (X × EaSkel × List ℝ) × ℝ => (thi y.1.1, y.2))

/-- `sample_sde` with a given end. -/
theorem reg_sampleSde {p : ℕ} {M : ItoFns p} {ebd : (Fin p → ℝ) → ℝ → ℝ → Res DiscBounds} (hM : MeasModel M ebd) (lb ub : EReal) (B : SdeBudget) {mode : X → ℝ} {thi : X → Fin p → ℝ}
    (hth : Measurable thi) (ht : Measurable t) {v0 v1 : X → ℝ} (hT : Measurable T) (h0 : Measurable v0) (h1 : Measurable v1) (m : ℕ) :
    Reg fun x => sampleSde M ebd lb ub B (mode x) (thi x) (t x) (T x) (v0 x) (some (v1 x)) m := by
  have r0 : Measurable fun x => M.reduce (thi x) (v0 x) := hM.reduce.comp (hth.prodMk h0)
  have r1 : Measurable fun x => M.reduce (thi x) (v1 x) := hM.reduce.comp (hth.prodMk h1)
  simp only [sampleSde, sdeStream]
  refine (reg_skelStream (X := X) (next := fun x => repeatNext (M.reduce (thi x) (v1 x))) (raw := fun x x1 => sampleRawSkel B.n B.F (T x) (M.reduce (thi x) (v0 x)) x1 (optBound lb) (optBound ub))
    (flip := fun x => flipSkelCoin B.n B.k (M.disc (thi x)) (ebd (thi x)) 2) (post := fun x => sdeValues M B (thi x) (t x)) ?_ ?_ ?_ ?_ B.props m).comp (f := fun x => (x, ())) (by fun_prop)
  · exact Reg.ret ((r1.comp measurable_fst).prodMk measurable_const)
  · exact reg_sampleRawSkel _ _ (by fun_prop) (r0.comp measurable_fst) (by fun_prop) (by fun_prop) (by fun_prop)
  · refine reg_flipSkelCoin (X := X × EaSkel) _ _ (disc := fun q => M.disc (thi q.1)) (ebd := fun q => ebd (thi q.1)) ?_ ?_ _ (by fun_prop)
    · exact hM.disc.comp (by fun_prop : Measurable fun q : (X × EaSkel) × ℝ => (thi q.1.1, q.2))
    · exact hM.bounds.comp (by fun_prop : Measurable fun q : (X × EaSkel) × ℝ × ℝ => (thi q.1.1, q.2))
  · exact reg_sdeValues (X := X × EaSkel) (thi := fun q => thi q.1) hM B (by fun_prop) (by fun_prop) (by fun_prop)

/-! ## The models of the library -/

theorem measModel_ou : MeasModel itoOu (fun thi le ue => .ok (itoOuBounds thi le ue)) := by
  have hd : Measurable fun q : (Fin 2 → ℝ) × ℝ => itoOu.disc q.1 q.2 := by simp only [ItoFns.disc, itoOu]; fun_prop
  refine ⟨hd, by simp only [itoOu]; fun_prop, by simp only [itoOu]; fun_prop, Measurable.resOk ?_⟩
  unfold itoOuBounds
  refine Measurable.ouBounds (X := (Fin 2 → ℝ) × ℝ × ℝ) (disc := fun q => itoOu.disc q.1) ?_ (by fun_prop) (by fun_prop) (by fun_prop)
  exact hd.comp (by fun_prop : Measurable fun q : ((Fin 2 → ℝ) × ℝ × ℝ) × ℝ => (q.1.1, q.2))

theorem Measurable.uncurried {D : Y → Z → α} (hD : Measurable fun q : Y × Z => D q.1 q.2) {f : X → Y} {g : X → Z} (hf : Measurable f) (hg : Measurable g) :
    Measurable fun x => D (f x) (g x) := hD.comp (hf.prodMk hg)

theorem meas_cirDisc : Measurable fun q : (Fin 3 → ℝ) × ℝ => itoCir.disc q.1 q.2 := by
  simp only [ItoFns.disc, itoCir]; fun_prop

theorem meas_cirArgmin : Measurable cirArgmin := by unfold cirArgmin; fun_prop

theorem cirBounds_eq (thi : Fin 3 → ℝ) (le ue : ℝ) : itoCirBounds thi le ue = if le = 0 ∨ ue = 0 then .error .nan else
    if 4 * thi 0 * thi 1 < 3 * thi 2 ^ 2 then .ok (none, min (itoCir.disc thi le) (itoCir.disc thi ue), ((max (itoCir.disc thi le) (itoCir.disc thi ue) : ℝ) : WithTop ℝ))
    else if le < 0 then (if cirArgmin thi = 0 then (.error .nan : Res DiscBounds) else .ok (some (itoCir.disc thi (cirArgmin thi)), itoCir.disc thi (cirArgmin thi), ⊤))
    else if cirArgmin thi ≤ le then .ok (if cirArgmin thi = 0 then none else some (itoCir.disc thi (cirArgmin thi)), itoCir.disc thi le, (itoCir.disc thi ue : WithTop ℝ))
    else if ue ≤ cirArgmin thi then .ok (if cirArgmin thi = 0 then none else some (itoCir.disc thi (cirArgmin thi)), itoCir.disc thi ue, (itoCir.disc thi le : WithTop ℝ))
    else .ok (if cirArgmin thi = 0 then none else some (itoCir.disc thi (cirArgmin thi)), itoCir.disc thi (cirArgmin thi),
      ((max (itoCir.disc thi le) (itoCir.disc thi ue) : ℝ) : WithTop ℝ)) := by
  unfold itoCirBounds
  dsimp only
  split_ifs <;> rfl

theorem meas_cirDisc_at {f : X → ℝ} {thi : X → Fin 3 → ℝ} (ht : Measurable thi) (hf : Measurable f) : Measurable fun q => itoCir.disc (thi q) (f q) :=
  Measurable.uncurried meas_cirDisc ht hf

theorem meas_cirBounds : Measurable fun q : (Fin 3 → ℝ) × ℝ × ℝ => itoCirBounds q.1 q.2.1 q.2.2 := by
  have ha : Measurable fun q : (Fin 3 → ℝ) × ℝ × ℝ => cirArgmin q.1 := meas_cirArgmin.comp measurable_fst
  have h : ∀ {f : (Fin 3 → ℝ) × ℝ × ℝ → ℝ}, Measurable f → Measurable fun q : (Fin 3 → ℝ) × ℝ × ℝ => itoCir.disc q.1 (f q) := fun hf => meas_cirDisc_at measurable_fst hf
  have h1 := h (f := fun q => q.2.1) (by fun_prop)
  have h2 := h (f := fun q => q.2.2) (by fun_prop)
  have h3 := h ha
  have h0 : Measurable fun q : (Fin 3 → ℝ) × ℝ × ℝ => cirArgmin q.1 = 0 := Measurable.eqReal ha measurable_const
  have h4 : Measurable fun q : (Fin 3 → ℝ) × ℝ × ℝ => if cirArgmin q.1 = 0 then none else some (itoCir.disc q.1 (cirArgmin q.1)) :=
    Measurable.ite' h0 measurable_const (Measurable.some h3)
  have h5 : Measurable fun q : (Fin 3 → ℝ) × ℝ × ℝ => if cirArgmin q.1 = 0 then (.error .nan : Res DiscBounds) else .ok (some (itoCir.disc q.1 (cirArgmin q.1)), itoCir.disc q.1 (cirArgmin q.1), ⊤) :=
    Measurable.ite' h0 measurable_const (Measurable.resOk ((Measurable.some h3).prodMk (h3.prodMk measurable_const)))
  simp only [cirBounds_eq]
  refine Measurable.ite' (by fun_prop) measurable_const (Measurable.ite' (by fun_prop) ?_ (Measurable.ite' (by fun_prop) h5 (Measurable.ite' (Measurable.leReal ha (by fun_prop)) ?_
    (Measurable.ite' (Measurable.leReal (by fun_prop) ha) ?_ ?_))))
  · exact Measurable.resOk (measurable_const.prodMk ((h1.min h2).prodMk (Measurable.coeTop (h1.max h2))))
  · exact Measurable.resOk (h4.prodMk (h1.prodMk (Measurable.coeTop h2)))
  · exact Measurable.resOk (h4.prodMk (h2.prodMk (Measurable.coeTop h1)))
  · exact Measurable.resOk (h4.prodMk (h3.prodMk (Measurable.coeTop (h1.max h2))))

theorem measModel_cir : MeasModel itoCir itoCirBounds :=
  ⟨meas_cirDisc, by simp only [itoCir]; fun_prop, by simp only [itoCir]; fun_prop, meas_cirBounds⟩

end Ctb
