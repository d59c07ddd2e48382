import Verif.Lemmas.RetroCoin
import Verif.Lemmas.RegOps
import Verif.Lemmas.RegUpdate
import Verif.Lemmas.McemObjective
import Verif.Props.Coin

set_option linter.unusedSectionVars false

/-! # The coins of seeds, batch by batch -/

namespace Ctb

open Classical MeasureTheory ProbabilityTheory Set Filter Topology
open scoped ENNReal

variable {s s' z : EaSkel} {A : List ℝ} {n k : ℕ} {T : ℝ} {bad : ℝ × ℝ → ℝ → Prop} {ps : List (ℝ × ℝ)} {disc disc0 disc1 : ℝ → ℝ} {l : ℝ} {op op0 op1 : NormOp}

/-- The condition on points whose times are divided by `T`. -/
def normBad (T : ℝ) (bad : ℝ × ℝ → ℝ → Prop) (q : ℝ × ℝ) (w : ℝ) : Prop := bad (q.1, q.2 * T) w

theorem meas_normBad (h : MeasBad bad) : MeasBad (normBad T bad) := Measurable.comp (g := fun z : (ℝ × ℝ) × ℝ => bad z.1 z.2) h (f := fun z : (ℝ × ℝ) × ℝ => ((z.1.1, z.1.2 * T), z.2)) (by fun_prop)

theorem clear_norm (hT : 0 < T) {t x : List ℝ} : ClearOf (normBad T bad) (scaled T⁻¹ ps) t x ↔ ∀ p ∈ ps, ∀ w, (p.2 / T, w) ∈ t.zip x → ¬ bad p w := by
  have e : ∀ p : ℝ × ℝ, T⁻¹ * p.2 = p.2 / T := fun p => by field_simp
  simp only [ClearOf, scaled, List.mem_map, forall_exists_index, and_imp, forall_apply_eq_imp_iff₂, normBad, e, div_mul_cancel₀ _ hT.ne']
  constructor
  · intro h p hp w hw
    exact h _ hw p hp rfl
  · rintro h ⟨r, w⟩ hq p hp rfl
    exact h p hp w hq

theorem clearSup_norm (hT : 0 < T) (rows : List (List ℝ)) : clearSup k (normBad T bad) s (ptsOf T⁻¹ rows) = ⨆ n, seedClearProb n k T bad s (rows.map pointOf) := by
  unfold clearSup roundSup
  refine iSup_congr fun n => ?_
  unfold roundVal seedClearProb
  have e : scaled T⁻¹ (rows.map rowPoint) = (rows.map pointOf).map fun p => (p.1, p.2 / T) := by
    rw [scaled]
    refine List.map_congr_left fun p _ => ?_
    congr 1
    field_simp
  have h : ∀ t x, clr (normBad T bad) (ptsOf T⁻¹ rows) t x = if ∀ p ∈ rows.map pointOf, ∀ w, (p.2 / T, w) ∈ t.zip x → ¬ bad p w then 1 else 0 := fun t x => if_congr (clear_norm hT) rfl rfl
  simp only [h]
  rw [ptsOf, e]

theorem norm_times (op : NormOp) (ps : List (ℝ × ℝ)) : ((ps.map Prod.snd).map fun t => (op.norm t none).1) = (scaled op.finT⁻¹ ps).map Prod.snd := by
  simp only [scaled, List.map_map]
  refine List.map_congr_left fun p _ => ?_
  simp [NormOp.norm, div_eq_inv_mul]

theorem norm_sorted (hT : 0 < T) (h : (ps.map Prod.snd).Pairwise (· < ·)) : ((scaled T⁻¹ ps).map Prod.snd).Pairwise (· < ·) := by
  simp only [scaled, List.map_map, List.pairwise_map, Function.comp_apply] at h ⊢
  exact h.imp fun h => mul_lt_mul_of_pos_left h (by positivity)

theorem zipWith_denorm (op : NormOp) : ∀ (ps : List (ℝ × ℝ)) (vals : List ℝ), List.zipWith (fun s z => (op.denorm s (some z)).2.getD 0) ((scaled op.finT⁻¹ ps).map Prod.snd) vals =
    List.zipWith (fun (p : ℝ × ℝ) w => pathVal op p.2 w) ps vals
  | [], vals => by simp [scaled]
  | _ :: _, [] => by simp [scaled]
  | p :: ps, v :: vals => by
    have := zipWith_denorm op ps vals
    simp only [scaled, List.map_cons, List.zipWith_cons_cons, denorm_val] at this ⊢
    rw [this, pathVal]
    congr 1
    ring

theorem zipWith_same {α β γ δ : Type} (f : α → γ → δ) (g : α → β → γ) : ∀ (l : List α) (m : List β), List.zipWith f l (List.zipWith g l m) = List.zipWith (fun a b => f a (g a b)) l m
  | [], _ => by simp
  | _ :: _, [] => by simp
  | a :: l, b :: m => by simp [zipWith_same f g l m]

theorem zipWith_two {α β γ δ ε : Type} (f : γ → δ → ε) (g : α → β → γ) (h : α → β → δ) : ∀ (l : List α) (m : List β),
    List.zipWith f (List.zipWith g l m) (List.zipWith h l m) = List.zipWith (fun a b => f (g a b) (h a b)) l m
  | [], _ => by simp
  | _ :: _, [] => by simp
  | a :: l, b :: m => by simp [zipWith_two f g h l m]

/-- Whether a point is bad, on the scale of the skeleton. -/
theorem any_norm (hT : 0 < T) {vals : List ℝ} (hst : SkelStep s ((scaled T⁻¹ ps).map Prod.snd) s' vals) :
    (List.zipWith (fun (p : ℝ × ℝ) w => decide (bad p w)) ps vals).any id = false ↔ ClearOf (normBad T bad) (scaled T⁻¹ ps) s'.t s'.x := by
  rw [← any_iff hst.refines.sorted hst.refines.new, scaled, List.zipWith_map_left]
  have : (fun (p : ℝ × ℝ) w => decide (normBad T bad (p.1, T⁻¹ * p.2) w)) = fun (p : ℝ × ℝ) w => decide (bad p w) := by
    funext p w
    rw [normBad]
    simp only [mul_comm T⁻¹, inv_mul_cancel_right₀ hT.ne']
  rw [this]

/-- What a step of a coin contributes. -/
theorem step_val {b : Bool} {C : Prop} (h : b = false ↔ C) (K : Prog (Bool × EaSkel)) (u : EaSkel) : ((if b then .ret (false, u) else K : Prog (Bool × EaSkel)).prob IsTrue) = (if C then 1 else 0) * K.prob IsTrue := by
  cases b with
  | true =>
    have : ¬ C := fun hC => by simpa using h.2 hC
    rw [if_pos rfl, if_neg this, zero_mul, Prog.prob, Prog.lexp_ret, if_neg]
    rintro ⟨_, h⟩
    simp at h
  | false => rw [if_neg (by simp), if_pos (h.1 rfl), one_mul]

/-! ## The coin of a seed -/

/-- A point lies below the discriminant of the path of the seed. -/
def seedBad (op : NormOp) (disc : ℝ → ℝ) (l : ℝ) (p : ℝ × ℝ) (w : ℝ) : Prop := p.1 < disc (pathVal op p.2 w) - l

theorem meas_seedBad (hd : Measurable disc) : MeasBad (seedBad op disc l) := by
  unfold MeasBad seedBad
  have : Measurable fun z : (ℝ × ℝ) × ℝ => disc (pathVal op z.1.2 z.2) := hd.comp (by unfold pathVal; fun_prop)
  exact measurableSet_setOf.1 (measurableSet_lt (by fun_prop) (this.sub_const _))

theorem seed_value (hT : 0 < op.finT) (hv : s.Valid) (hs : (ps.map Prod.snd).Pairwise (· < ·)) (h0 : ps ≠ []) (hp : ∀ p ∈ ps, 0 ≤ p.2 ∧ p.2 < op.finT) (K : Bool → EaSkel → Prog (Bool × EaSkel)) :
    ((poissonStep (interpolateSeed n k op) disc [0, op.finT] [l] s ps).bind fun q => K q.1 q.2).prob IsTrue =
      (interpolateSkel n k s ((scaled op.finT⁻¹ ps).map Prod.snd)).lexp (onOk fun r => (K ((List.zipWith (fun (p : ℝ × ℝ) w => decide (seedBad op disc l p w)) ps r.2).any id) r.1).prob IsTrue) := by
  unfold poissonStep interpolateSeed
  simp only [Prog.bind_assoc, norm_times]
  rw [Prog.prob, Prog.lexp_bind]
  refine Prog.lexp_congr ?_
  rintro (e | ⟨s', vals⟩) hq
  · simp [onOk, IsTrue]
  have hst := interpolateSkel_out hv (norm_sorted hT hs) (by simpa [scaled] using h0) hq
  have hlen : vals.length = ((scaled op.finT⁻¹ ps).map Prod.snd).length := hst.refines.new.length_eq.symm
  rw [Prog.cont_ok]
  simp only [onOk]
  rw [if_pos hlen, Prog.ret_bind, anyBelow_one hp, Prog.lift, Prog.ret_bind, Prog.ret_bind, zipWith_denorm, zipWith_same]
  simp only [seedBad]
  rfl

theorem seedCoin_step (hT : 0 < op.finT) (hd : Measurable disc) : RoundStep k (normBad op.finT (seedBad op disc l)) op.finT⁻¹ op.finT (fun _ => True) fun n => poissonStep (interpolateSeed n k op) disc [0, op.finT] [l] where
  reg n := reg_poissonStep (X := Unit) (interp := fun _ => interpolateSeed n k op) (t := fun _ => [0, op.finT]) (le := fun _ => [l]) (reg_interpolateSeed n k op (by fun_prop) (by fun_prop)) hd measurable_const measurable_const
  mass n s ps := (mass_interpolateSeed ..).bind fun _ _ => Mass1.lift.bind fun _ _ => .ret _
  keep _ _ := trivial
  val {n s ps} hv _ hs h0 hp K := by
    rw [seed_value hT hv hs h0 hp fun b u => if b then .ret (false, u) else K u]
    refine Prog.lexp_congr ?_
    rintro (e | ⟨s', vals⟩) hq
    · simp [onOk]
    have hst := interpolateSkel_out hv (norm_sorted hT hs) (by simpa [scaled] using h0) hq
    exact step_val (any_norm hT hst) _ _

theorem seedCoin_end (hT : 0 < op.finT) : EndStep k op.finT⁻¹ op.finT (fun _ => True) fun n => poissonStep (interpolateSeed n k op) disc [0, op.finT] [l] := by
  intro n s ps hv _ hs h0 hp K
  exact seed_value hT hv hs h0 hp fun _ u => K u

/-! ## The coin of a parameter -/

/-- A point lies below the positive part of the difference of the discriminants. -/
def dualBad (op0 op1 : NormOp) (disc0 disc1 : ℝ → ℝ) (upside : Bool) (p : ℝ × ℝ) (w : ℝ) : Prop := p.1 < dualGap upside (disc0 (pathVal op0 p.2 w)) (disc1 (pathVal op1 p.2 w))

theorem meas_dualBad (h0 : Measurable disc0) (h1 : Measurable disc1) (upside : Bool) : MeasBad (dualBad op0 op1 disc0 disc1 upside) := by
  unfold MeasBad dualBad
  have e0 : Measurable fun z : (ℝ × ℝ) × ℝ => disc0 (pathVal op0 z.1.2 z.2) := h0.comp (by unfold pathVal; fun_prop)
  have e1 : Measurable fun z : (ℝ × ℝ) × ℝ => disc1 (pathVal op1 z.1.2 z.2) := h1.comp (by unfold pathVal; fun_prop)
  have := meas_dualGap (u := upside) e0 e1
  exact measurableSet_setOf.1 (measurableSet_lt (by fun_prop) this)

/-- What the coin of a parameter needs of the skeleton. -/
structure HitInv (z s : EaSkel) : Prop where
  hit : s.HitInside
  tight : s.tight = z.tight
  loose : s.loose = z.loose

/-- The skeleton without its flags. -/
def EaSkel.drop (s : EaSkel) : EaSkel := ⟨s.t, s.x, s.tight, s.loose, s.hitX, none⟩

theorem drop_none (h : s.hitI = none) : s.drop = s := by
  cases s
  simp only at h
  subst h
  rfl

theorem HitInv.step {vals : List ℝ} (h : HitInv z s) (hs : SkelStep s A s' vals) : HitInv z s' := by
  refine ⟨?_, hs.tight.trans h.tight, hs.loose.trans h.loose⟩
  have := h.hit
  unfold EaSkel.HitInside at this ⊢
  rwa [hs.tight, hs.loose, hs.hitX]

/-- What the positive claim on that coin needs: no flags. -/
def DualInv (z s : EaSkel) : Prop := HitInv z s ∧ s.hitI = none

theorem interp_again {vals : List ℝ} (h : HitInv z s) (hs : SkelStep s A s' vals) (hA : A.Pairwise (· < ·)) (h0 : A ≠ []) : interpolateSkel n k s' A = .ret (s'.drop, vals) := by
  have h' := h.step hs
  have hk : ∀ r ∈ A, r ∈ s'.t := fun r hr => by
    obtain ⟨i, hi, rfl⟩ := List.mem_iff_getElem.1 hr
    have := (List.forall₂_iff_get.1 hs.refines.new).2 i hi (by rw [← hs.refines.new.length_eq]; exact hi)
    exact (List.of_mem_zip this).1
  obtain ⟨s'', e⟩ := interpolateSkel_known (n := n) (k := k) hs.valid hs.within h'.hit hA hk
  have ho : (interpolateSkel n k s' A).Out (.ok (s'', A.map s'.at)) := by rw [e]; exact rfl
  have hsame : s'' = s'.drop := by
    obtain ⟨h1, h2, h3, h4, h5, -⟩ := C46_known_partial hs.valid hA hk ho
    have h6 := C46_flags_lost hs.valid hA h0 hk ho
    cases s''
    simp only at h1 h2 h3 h4 h5 h6
    rw [EaSkel.drop, h1, h2, h3, h4, h5, h6]
  have hvals : vals = A.map s'.at := by
    have hf := hs.refines.new
    have hv' := hs.valid
    clear ho e hA hk hs h0
    induction hf with
    | nil => rfl
    | cons h1 h2 ih => rw [List.map_cons, at_of_mem hv' h1, ← ih]
  rw [e, hsame, ← hvals]

variable {guard upside : Bool} {h : ℝ}

theorem dual_value (hT : 0 < op0.finT) (hTT : op1.finT = op0.finT)
    (hb : ∀ t, 0 ≤ t → t ≤ op0.finT → ∀ w ∈ Set.uIcc z.loose z.tight, dualGap upside (disc0 (pathVal op0 t w)) (disc1 (pathVal op1 t w)) ≤ h)
    (hv : s.Valid) (hI : HitInv z s) (hs : (ps.map Prod.snd).Pairwise (· < ·)) (h0 : ps ≠ []) (hp : ∀ p ∈ ps, 0 ≤ p.2 ∧ p.2 < op0.finT) (K : Bool → EaSkel → Prog (Bool × EaSkel)) :
    ((dualStep guard (interpolateSeed n k op0) (interpolateSeed n k op1) disc0 disc1 h upside s ps).bind fun q => K q.1 q.2).prob IsTrue =
      (interpolateSkel n k s ((scaled op0.finT⁻¹ ps).map Prod.snd)).lexp (onOk fun r => (K ((List.zipWith (fun (p : ℝ × ℝ) w => decide (dualBad op0 op1 disc0 disc1 upside p w)) ps r.2).any id) r.1.drop).prob IsTrue) := by
  unfold dualStep interpolateSeed
  simp only [Prog.bind_assoc, norm_times, hTT]
  rw [Prog.prob, Prog.lexp_bind]
  refine Prog.lexp_congr ?_
  rintro (e | ⟨s', vals⟩) hq
  · simp [onOk, IsTrue]
  have hst := interpolateSkel_out hv (norm_sorted hT hs) (by simpa [scaled] using h0) hq
  have hlen : vals.length = ((scaled op0.finT⁻¹ ps).map Prod.snd).length := hst.refines.new.length_eq.symm
  have hz0 := zipWith_denorm op0 ps vals
  have hz1 := zipWith_denorm op1 ps vals
  rw [hTT] at hz1
  rw [Prog.cont_ok]
  simp only [onOk]
  rw [if_pos hlen, Prog.ret_bind]
  simp only
  rw [interp_again hI hst (norm_sorted hT hs) (by simpa [scaled] using h0), Prog.ret_bind, if_pos hlen, Prog.ret_bind, hz0, hz1]
  simp only
  rw [if_neg (by simp), zipWith_two, zipWith_same]
  have hgap : ¬ ∃ g ∈ List.zipWith (fun (p : ℝ × ℝ) w => dualGap upside (disc0 (pathVal op0 p.2 w)) (disc1 (pathVal op1 p.2 w))) ps vals, h < g := by
    rintro ⟨g, hg, hlt⟩
    obtain ⟨i, hi, rfl⟩ := List.mem_iff_getElem.1 hg
    simp only [List.length_zipWith] at hi
    rw [List.getElem_zipWith] at hlt
    have hp' := hp _ (List.getElem_mem (show i < ps.length by omega))
    have hw := (List.forall₂_iff_get.1 hst.refines.new).2 i (by rw [← hlen]; omega) (by omega)
    have := within_uIcc hst.within hw
    rw [hst.loose, hst.tight, hI.tight, hI.loose] at this
    exact absurd hlt (not_lt.2 (hb _ hp'.1 hp'.2.le _ this))
  have ha : (if guard then Prog.assert (¬ ∃ g ∈ List.zipWith (fun (p : ℝ × ℝ) w => dualGap upside (disc0 (pathVal op0 p.2 w)) (disc1 (pathVal op1 p.2 w))) ps vals, h < g) else .ret () : Prog Unit) = .ret () := by
    cases guard
    · rfl
    · rw [if_pos rfl, Prog.assert, if_pos hgap]
  rw [ha, Prog.ret_bind, Prog.ret_bind]
  simp only [dualBad]
  rfl

theorem dualCoin_step (hT : 0 < op0.finT) (hTT : op1.finT = op0.finT) (h0 : Measurable disc0) (h1 : Measurable disc1)
    (hb : ∀ t, 0 ≤ t → t ≤ op0.finT → ∀ w ∈ Set.uIcc z.loose z.tight, dualGap upside (disc0 (pathVal op0 t w)) (disc1 (pathVal op1 t w)) ≤ h) :
    RoundStep k (normBad op0.finT (dualBad op0 op1 disc0 disc1 upside)) op0.finT⁻¹ op0.finT (DualInv z) fun n => dualStep guard (interpolateSeed n k op0) (interpolateSeed n k op1) disc0 disc1 h upside where
  reg n := reg_dualStep (X := Unit) (op0 := fun _ => op0) (op1 := fun _ => op1) (disc0 := fun _ => disc0) (disc1 := fun _ => disc1) guard n k (h := fun _ => h) measurable_const measurable_const measurable_const (h0.comp measurable_snd) (h1.comp measurable_snd) upside
  mass n s ps := by
    refine (mass_interpolateSeed ..).bind fun _ _ => (mass_interpolateSeed ..).bind fun _ _ => .ite (fun _ => .err _) fun _ => Mass1.bind ?_ fun _ _ => .ret _
    cases guard
    · exact .ret _
    · exact Mass1.assert
  keep h hs := ⟨h.1.step hs, hs.noFlags h.2⟩
  val {n s ps} hv hI hs h0 hp K := by
    rw [dual_value hT hTT hb hv hI.1 hs h0 hp fun b u => if b then .ret (false, u) else K u]
    refine Prog.lexp_congr ?_
    rintro (e | ⟨s', vals⟩) hq
    · simp [onOk]
    have hst := interpolateSkel_out hv (norm_sorted hT hs) (by simpa [scaled] using h0) hq
    simp only [onOk]
    rw [drop_none (hst.noFlags hI.2)]
    exact step_val (any_norm hT hst) _ _

theorem dualCoin_end (hT : 0 < op0.finT) (hTT : op1.finT = op0.finT)
    (hb : ∀ t, 0 ≤ t → t ≤ op0.finT → ∀ w ∈ Set.uIcc z.loose z.tight, dualGap upside (disc0 (pathVal op0 t w)) (disc1 (pathVal op1 t w)) ≤ h) :
    EndStep k op0.finT⁻¹ op0.finT (DualInv z) fun n => dualStep guard (interpolateSeed n k op0) (interpolateSeed n k op1) disc0 disc1 h upside := by
  intro n s ps hv hI hs h0 hp K
  rw [dual_value hT hTT hb hv hI.1 hs h0 hp fun _ u => K u]
  refine Prog.lexp_congr ?_
  rintro (e | ⟨s', vals⟩) hq
  · simp [onOk]
  have hst := interpolateSkel_out hv (norm_sorted hT hs) (by simpa [scaled] using h0) hq
  simp only [onOk]
  rw [drop_none (hst.noFlags hI.2)]

end Ctb
