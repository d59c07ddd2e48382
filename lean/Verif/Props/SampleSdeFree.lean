import Verif.Lemmas.ArsNext
import Verif.Props.SampleSde
import Verif.Props.ItoStatic

/-! # C97: paths of diffusions whose end is drawn by adaptive rejection sampling -/

set_option linter.unusedSectionVars false

namespace Ctb

open Set MeasureTheory Filter ProbabilityTheory
open scoped ENNReal Topology

section
variable {σ β : Type} {next : σ → Prog (ℝ × σ)} {raw : ℝ → Prog EaSkel} {flip : EaSkel → Prog (Bool × EaSkel)} {post : EaSkel → Prog β}

/-- From every state in `I` the next value has the law `ν` up to the probability `1 - c` of an exception, whatever follows. -/
def NearLaw (I : Set σ) (next : σ → Prog (ℝ × σ)) (ν : Measure ℝ) (c : ℝ≥0∞) : Prop :=
  ∀ (h : ℝ → ℝ≥0∞), Measurable h → ∀ lo : ℝ≥0∞, lo ≠ ∞ → ∀ G : ℝ × σ → ℝ≥0∞, (∀ x, ∀ s ∈ I, lo * h x ≤ G (x, s) ∧ G (x, s) ≤ h x) → ∀ s ∈ I,
    lo * c * ∫⁻ x, h x ∂ν ≤ (next s).lexp (onOk G) ∧ (next s).lexp (onOk G) ≤ ∫⁻ x, h x ∂ν

/-- Mean of `F` over accepted proposals with an end drawn from `ν`. -/
noncomputable def accMean (round : ℝ → Prog (Bool × EaSkel)) (ν : Measure ℝ) (F : EaSkel → ℝ≥0∞) : ℝ≥0∞ :=
  ∫⁻ x, (round x).lexp (onOk fun r => if r.1 then F r.2 else 0) ∂ν

/-- Probability that a proposal with an end drawn from `ν` is rejected. -/
noncomputable def rejProb (round : ℝ → Prog (Bool × EaSkel)) (ν : Measure ℝ) : ℝ≥0∞ := ∫⁻ x, (round x).prob (fun r => ∃ y, r = .ok (false, y)) ∂ν

theorem round_split {round : ℝ → Prog (Bool × EaSkel)} (h : Reg round) (ν : Measure ℝ) {F : EaSkel → ℝ≥0∞} (hF : Measurable F) (c : ℝ≥0∞) :
    (Measurable fun x => (round x).lexp (onOk fun r => if r.1 then F r.2 else c)) ∧
    ∫⁻ x, (round x).lexp (onOk fun r => if r.1 then F r.2 else c) ∂ν = accMean round ν F + rejProb round ν * c := by
  have m : ∀ c, Measurable fun r : Bool × EaSkel => if r.1 then F r.2 else c := fun c =>
    Measurable.ite (measurable_fst (measurableSet_singleton true)) (hF.comp measurable_snd) measurable_const
  refine ⟨h.meas' (m c), ?_⟩
  have e : ∀ x, (round x).lexp (onOk fun r => if r.1 then F r.2 else c) =
      (round x).lexp (onOk fun r => if r.1 then F r.2 else 0) + (round x).prob (fun r => ∃ y, r = .ok (false, y)) * c := by
    intro x
    rw [h.verdict x hF c, h.acc_lintegral x hF]
  have hp : Measurable fun x => (round x).prob (fun r => ∃ y, r = .ok (false, y)) := by
    have e2 : ∀ x, (round x).prob (fun r => ∃ y, r = .ok (false, y)) = (round x).lexp (onOk fun r => if r.1 then 0 else 1) := by
      intro x
      refine Prog.lexp_congr fun r _ => ?_
      match r with
      | .error e => simp [onOk]
      | .ok (true, y) => simp [onOk]
      | .ok (false, y) => simp [onOk]
    simp only [e2]
    exact h.meas' (Measurable.ite (measurable_fst (measurableSet_singleton true)) measurable_const measurable_const)
  simp only [e]
  rw [lintegral_add_left (h.meas' (m 0)), lintegral_mul_const _ hp]
  rfl

theorem try_bounds {I : Set σ} {ν : Measure ℝ} {c : ℝ≥0∞} (hc : c ≤ 1) (hn : NearLaw I next ν c) (hr : Reg (skelRound raw flip)) {lo : ℝ≥0∞} (hlo : lo ≠ ∞)
    {G : EaSkel × σ → ℝ≥0∞} {F : EaSkel → ℝ≥0∞} (hF : Measurable F) (hG : ∀ x, ∀ s ∈ I, lo * F x ≤ G (x, s) ∧ G (x, s) ≤ F x) (k : ℕ) {s : σ} (hs : s ∈ I) :
    lo * c ^ k * (accMean (skelRound raw flip) ν F * ∑ j ∈ Finset.range k, rejProb (skelRound raw flip) ν ^ j) ≤ (skelTry next raw flip k s).lexp (onOk G) ∧
      (skelTry next raw flip k s).lexp (onOk G) ≤ accMean (skelRound raw flip) ν F * ∑ j ∈ Finset.range k, rejProb (skelRound raw flip) ν ^ j := by
  induction k generalizing s with
  | zero => simp [skelTry, onOk]
  | succ k ih =>
    set V := accMean (skelRound raw flip) ν F * ∑ j ∈ Finset.range k, rejProb (skelRound raw flip) ν ^ j with hV
    obtain ⟨hm, hsum⟩ := round_split hr ν hF V
    have eV : accMean (skelRound raw flip) ν F * ∑ j ∈ Finset.range (k + 1), rejProb (skelRound raw flip) ν ^ j =
        ∫⁻ x, (skelRound raw flip x).lexp (onOk fun r => if r.1 then F r.2 else V) ∂ν := by
      rw [hsum, geom_sum_succ, hV]; ring
    rw [eV]
    have e : (skelTry next raw flip (k + 1) s).lexp (onOk G) = (next s).lexp (onOk fun e => (skelRound raw flip e.1).lexp
        (onOk fun r => if r.1 then G (r.2, e.2) else (skelTry next raw flip k e.2).lexp (onOk G))) := by
      rw [skelTry, Prog.lexp_bind]
      refine Prog.lexp_congr fun r _ => ?_
      cases r with
      | error e => rfl
      | ok e =>
        simp only [Prog.cont_ok, Prog.lexp_bind, onOk]
        refine Prog.lexp_congr fun r _ => ?_
        match r with
        | .error e => rfl
        | .ok (true, y) => rfl
        | .ok (false, y) => rfl
    rw [e]
    have hc' : c ^ k ≤ 1 := pow_le_one' hc k
    have hl : lo * c ^ k ≠ ∞ := ENNReal.mul_ne_top hlo (ne_top_of_le_ne_top ENNReal.one_ne_top hc')
    have := hn _ hm (lo * c ^ k) hl (fun e => (skelRound raw flip e.1).lexp
        (onOk fun r => if r.1 then G (r.2, e.2) else (skelTry next raw flip k e.2).lexp (onOk G))) ?_ s hs
    · rwa [pow_succ, ← mul_assoc lo]
    · intro x s' hs'
      obtain ⟨i1, i2⟩ := ih hs'
      constructor
      · rw [← Prog.lexp_const_mul _ _ hl]
        refine Prog.lexp_mono _ fun r => ?_
        match r with
        | .error e => simp [onOk]
        | .ok (true, y) =>
          simp only [onOk, if_true]
          refine le_trans ?_ (hG y s' hs').1
          calc lo * c ^ k * F y ≤ lo * 1 * F y := by gcongr
            _ = _ := by rw [mul_one]
        | .ok (false, y) => exact i1
      · refine Prog.lexp_mono _ fun r => ?_
        match r with
        | .error e => exact zero_le
        | .ok (true, y) => exact (hG y s' hs').2
        | .ok (false, y) => exact i2

/-- A stream of paths whose ends have nearly a given law is nearly one of independent paths. -/
theorem stream_bounds {I : Set σ} {ν : Measure ℝ} {c : ℝ≥0∞} (hc : c ≤ 1) (hn : NearLaw I next ν c) (hr : Reg (skelRound raw flip)) (maxProps : ℕ)
    (Fs : List (β → ℝ≥0∞)) (hM : ∀ F ∈ Fs, Measurable fun x => (post x).lexp (onOk F)) (hfin : ∀ F ∈ Fs, ∀ b, F b ≠ ∞) {P : (β → ℝ≥0∞) → ℝ≥0∞}
    (hP : ∀ F ∈ Fs, P F = accMean (skelRound raw flip) ν (fun x => (post x).lexp (onOk F)) * ∑ j ∈ Finset.range maxProps, rejProb (skelRound raw flip) ν ^ j)
    (hPf : ∀ F ∈ Fs, P F ≠ ∞) {s : σ} (hs : s ∈ I) :
    (c ^ maxProps) ^ Fs.length * (Fs.map P).prod ≤ (skelStream next raw flip post maxProps Fs.length s).lexp (onOk (prodVal Fs)) ∧
      (skelStream next raw flip post maxProps Fs.length s).lexp (onOk (prodVal Fs)) ≤ (Fs.map P).prod := by
  induction Fs generalizing s with
  | nil => simp [skelStream, onOk, prodVal]
  | cons F Fs ih =>
    have ih := fun s hs => ih (fun F hF' => hM F (List.mem_cons_of_mem _ hF')) (fun F hF' => hfin F (List.mem_cons_of_mem _ hF'))
      (fun F hF' => hP F (List.mem_cons_of_mem _ hF')) (fun F hF' => hPf F (List.mem_cons_of_mem _ hF')) (s := s) hs
    set R := (Fs.map P).prod with hR
    have hRf : R ≠ ∞ := by
      rw [hR]
      refine list_prod_ne_top fun x hx => ?_
      obtain ⟨G, hG, rfl⟩ := List.mem_map.1 hx
      exact hPf G (List.mem_cons_of_mem _ hG)
    set lo := (c ^ maxProps) ^ Fs.length with hlo
    have hlo1 : lo ≤ 1 := pow_le_one' (pow_le_one' hc _) _
    have hlof : lo ≠ ∞ := ne_top_of_le_ne_top ENNReal.one_ne_top hlo1
    rw [List.length_cons, skelStream, Prog.lexp_bind, List.map_cons, List.prod_cons]
    have e : (skelTry next raw flip maxProps s).lexp (Prog.cont (fun r => (post r.1).bind fun b =>
          (skelStream next raw flip post maxProps Fs.length r.2).bind fun l => .ret (b :: l)) (onOk (prodVal (F :: Fs))) Prog.lexp) =
        (skelTry next raw flip maxProps s).lexp (onOk fun r => (post r.1).lexp (onOk fun b => F b *
          (skelStream next raw flip post maxProps Fs.length r.2).lexp (onOk (prodVal Fs)))) := by
      refine Prog.lexp_congr fun r _ => ?_
      cases r with
      | error e => rfl
      | ok r =>
        simp only [Prog.cont_ok, Prog.lexp_bind, onOk]
        refine Prog.lexp_congr fun q _ => ?_
        cases q with
        | error e => rfl
        | ok b =>
          simp only [Prog.cont_ok]
          show _ = F b * _
          rw [Prog.lexp_bind, ← Prog.lexp_const_mul _ _ (hfin F (by simp) b)]
          refine Prog.lexp_congr fun q _ => ?_
          cases q <;> simp [onOk, prodVal]
    rw [e]
    have key := try_bounds (next := next) (raw := raw) (flip := flip) hc hn hr hlof (F := fun x => (post x).lexp (onOk F) * R) ((hM F (by simp)).mul_const R)
      (G := fun r => (post r.1).lexp (onOk fun b => F b * (skelStream next raw flip post maxProps Fs.length r.2).lexp (onOk (prodVal Fs)))) ?_ maxProps hs
    · have hacc : accMean (skelRound raw flip) ν (fun x => (post x).lexp (onOk F) * R) = accMean (skelRound raw flip) ν (fun x => (post x).lexp (onOk F)) * R := by
        rw [accMean, accMean, ← lintegral_mul_const' _ _ hRf]
        refine lintegral_congr fun x => ?_
        rw [mul_comm, ← Prog.lexp_const_mul _ _ hRf]
        refine Prog.lexp_congr fun r _ => ?_
        match r with
        | .error e => simp [onOk]
        | .ok (true, y) => simp [onOk, mul_comm]
        | .ok (false, y) => simp [onOk]
      have e2 : accMean (skelRound raw flip) ν (fun x => (post x).lexp (onOk F) * R) * ∑ j ∈ Finset.range maxProps, rejProb (skelRound raw flip) ν ^ j = P F * R := by
        rw [hacc, hP F (by simp)]; ring
      rw [e2] at key
      rw [pow_succ]
      exact key
    · intro x s' hs'
      obtain ⟨i1, i2⟩ := ih s' hs'
      constructor
      · rw [← mul_assoc, mul_right_comm, mul_comm (lo * R), mul_comm _ (lo * R), ← Prog.lexp_const_mul _ _ (ENNReal.mul_ne_top hlof hRf)]
        refine Prog.lexp_mono _ fun r => ?_
        cases r with
        | error e => simp [onOk]
        | ok b =>
          simp only [onOk]
          rw [mul_comm]
          gcongr
      · rw [mul_comm, ← Prog.lexp_const_mul _ _ hRf]
        refine Prog.lexp_mono _ fun r => ?_
        cases r with
        | error e => simp [onOk]
        | ok b =>
          simp only [onOk]
          rw [mul_comm R]
          gcongr
end

variable {p : ℕ} {M : ItoFns p} {ebd : (Fin p → ℝ) → ℝ → ℝ → Res DiscBounds} {lb ub : EReal}

theorem reg_sdeRoundEnd (hM : MeasModel M ebd) (lb ub : EReal) (B : SdeBudget) (thi : Fin p → ℝ) (finT x0 : ℝ) :
    Reg fun x1 : ℝ => sdeRound M ebd lb ub B thi finT x0 x1 := by
  unfold sdeRound
  refine Reg.bind (reg_sampleRawSkel _ _ (by fun_prop) (by fun_prop) (by fun_prop) (by fun_prop) (by fun_prop)) ?_
  refine reg_flipSkelCoin (X := ℝ × EaSkel) _ _ (disc := fun _ => M.disc thi) (ebd := fun _ => ebd thi) ?_ ?_ _ (by fun_prop)
  · exact hM.disc.comp (by fun_prop : Measurable fun q : (ℝ × EaSkel) × ℝ => (thi, q.2))
  · exact hM.bounds.comp (by fun_prop : Measurable fun q : (ℝ × EaSkel) × ℝ × ℝ => (thi, q.2))

/-- Mean of `F` over the values of an accepted proposal whose end has the law `ν`, times the expected number of rounds. -/
noncomputable def freeMean (M : ItoFns p) (ebd : (Fin p → ℝ) → ℝ → ℝ → Res DiscBounds) (lb ub : EReal) (B : SdeBudget) (thi : Fin p → ℝ) (t : List ℝ) (finT x0 : ℝ)
    (ν : Measure ℝ) (F : List ℝ → ℝ≥0∞) : ℝ≥0∞ :=
  (∫⁻ x, (sdeRound M ebd lb ub B thi finT x0 x).lexp (onOk fun r => if r.1 then (sdeValues M B thi t r.2).lexp (onOk F) else 0) ∂ν) *
    ∑ j ∈ Finset.range B.props, (∫⁻ x, (sdeRound M ebd lb ub B thi finT x0 x).prob (fun r => ∃ y, r = .ok (false, y)) ∂ν) ^ j

/-- Without a given end, `sample_sde` yields independent paths, each distributed as the values of an accepted proposal whose end has the density in
proportion to `exp(A(x) - (x - x0)^2 / 2T)`: in the limit of unbounded passes of the adaptive rejection sampler. -/
theorem C97_free_iid (hM : MeasModel M ebd) (B : SdeBudget) (mode : ℝ) (thi : Fin p → ℝ) (t : List ℝ) (finT v0 : ℝ)
    (hf : StrictDiff (convF M thi finT (M.reduce thi v0)) (convDf M thi finT (M.reduce thi v0)) (supp lb ub))
    (hH : (Hull.init (convF M thi finT (M.reduce thi v0)) (convDf M thi finT (M.reduce thi v0)) (convInit lb ub mode)).Good
      (convF M thi finT (M.reduce thi v0)) (convDf M thi finT (M.reduce thi v0)) lb ub)
    (Fs : List (List ℝ → ℝ≥0∞)) (hF : ∀ F ∈ Fs, Measurable F) (hb : ∀ F ∈ Fs, ∃ c : NNReal, ∀ b, F b ≤ c) :
    Tendsto (fun a => (sampleSde M ebd lb ub { B with ars := a } mode thi t finT v0 none Fs.length).lexp (onOk (prodVal Fs))) atTop
      (𝓝 (Fs.map (freeMean M ebd lb ub B thi t finT (M.reduce thi v0) (expLaw (convF M thi finT (M.reduce thi v0)) (supp lb ub)))).prod) := by
  set x0 := M.reduce thi v0 with hx0
  set f := convF M thi finT x0 with hfd
  set df := convDf M thi finT x0 with hdf
  set ν := expLaw f (supp lb ub) with hν
  have hprob : IsProbabilityMeasure ν := expLaw_prob hf hH
  obtain ⟨Z0, hT⟩ := hH.tight hf
  have hr := reg_sdeRoundEnd hM lb ub B thi finT x0
  have hv : ∀ F ∈ Fs, Measurable fun x => (sdeValues M B thi t x).lexp (onOk F) := by
    intro F h1
    exact (reg_sdeValues hM B (thi := fun _ : EaSkel => thi) (t := fun _ => t) (by fun_prop) (by fun_prop) (s := fun x => x) measurable_id).meas' (hF F h1)
  have hfin : ∀ F ∈ Fs, ∀ b, F b ≠ ∞ := by
    intro F h1 b
    obtain ⟨c, hc⟩ := hb F h1
    exact ne_top_of_le_ne_top ENNReal.coe_ne_top (hc b)
  have hPf : ∀ F ∈ Fs, freeMean M ebd lb ub B thi t finT x0 ν F ≠ ∞ := by
    intro F h1
    obtain ⟨c, hc⟩ := hb F h1
    refine ENNReal.mul_ne_top ?_ (ENNReal.sum_ne_top.2 fun j _ => ENNReal.pow_ne_top ?_)
    · refine ne_top_of_le_ne_top (b := (c : ℝ≥0∞)) (by simp) ?_
      calc _ ≤ ∫⁻ _, (c : ℝ≥0∞) ∂ν := by
            refine lintegral_mono fun x => ?_
            rw [← (mass_sdeRound (M := M) (ebd := ebd) lb ub B thi finT x0 x).lexp_const c]
            refine Prog.lexp_mono _ fun r => ?_
            match r with
            | .error e => exact zero_le
            | .ok (false, y) => exact zero_le
            | .ok (true, y) =>
              simp only [onOk, if_true]
              have m1 : Mass1 (sdeValues M B thi t y) := (mass_interpolateSkel ..).bind fun _ _ => .ret _
              rw [← m1.lexp_const c]
              refine Prog.lexp_mono _ fun r => ?_
              cases r with
              | error e => exact zero_le
              | ok b => exact hc b
        _ = c := by simp
    · refine ne_top_of_le_ne_top (b := 1) (by simp) ?_
      calc _ ≤ ∫⁻ _, (1 : ℝ≥0∞) ∂ν := by
            refine lintegral_mono fun x => ?_
            rw [← (mass_sdeRound (M := M) (ebd := ebd) lb ub B thi finT x0 x).lexp_const 1]
            refine Prog.lexp_mono _ fun r => ?_
            split_ifs <;> simp
        _ = 1 := by simp
  have hbd : ∀ a, (passProb f lb ub Z0 a ^ B.props) ^ Fs.length * (Fs.map (freeMean M ebd lb ub B thi t finT x0 ν)).prod ≤
      (sampleSde M ebd lb ub { B with ars := a } mode thi t finT v0 none Fs.length).lexp (onOk (prodVal Fs)) ∧
      (sampleSde M ebd lb ub { B with ars := a } mode thi t finT v0 none Fs.length).lexp (onOk (prodVal Fs)) ≤
        (Fs.map (freeMean M ebd lb ub B thi t finT x0 ν)).prod := by
    intro a
    exact stream_bounds (next := arsNext f df lb ub a) (raw := fun x1 => sampleRawSkel B.n B.F finT x0 x1 (optBound lb) (optBound ub))
      (flip := flipSkelCoin B.n B.k (M.disc thi) (ebd thi) 2) (post := sdeValues M B thi t) (I := Tight f df lb ub Z0) (ν := ν) (c := passProb f lb ub Z0 a)
      tsub_le_self (fun h hh lo hlo G hG s hs => arsNext_bounds hf hh hlo hG a hs) hr B.props Fs hv hfin (fun F _ => rfl) hPf hT
  refine tendsto_of_tendsto_of_tendsto_of_le_of_le ?_ tendsto_const_nhds (fun a => (hbd a).1) fun a => (hbd a).2
  have h1 := passProb_tendsto hf hT
  have h2 : Tendsto (fun a => (passProb f lb ub Z0 a ^ B.props) ^ Fs.length) atTop (𝓝 1) := by
    have h3 := ((ENNReal.continuous_pow (B.props * Fs.length)).tendsto 1).comp h1
    simp only [one_pow] at h3
    refine h3.congr fun a => ?_
    simp only [Function.comp, pow_mul]
  have h4 := ENNReal.Tendsto.mul_const (b := (Fs.map (freeMean M ebd lb ub B thi t finT x0 ν)).prod) h2 (.inl one_ne_zero)
  rwa [one_mul] at h4

/-! ## The models of the library -/

theorem expLaw_apply (f : ℝ → ℝ) (lb ub : EReal) {A : Set ℝ} (hA : MeasurableSet A) : expLaw f (supp lb ub) A = expMass f (supp lb ub) A / expMass f (supp lb ub) univ := by
  rw [expLaw, Measure.smul_apply, withDensity_apply _ hA, Measure.restrict_restrict hA, smul_eq_mul, ENNReal.div_eq_inv_mul]
  rfl

/-- The end of an Ornstein-Uhlenbeck proposal is normal. -/
theorem expLaw_ou {thi : Fin 2 → ℝ} {finT : ℝ} (hT : 0 < finT) (hb : 0 < 1 + thi 0 * finT) (x0 : ℝ) :
    expLaw (convF itoOu thi finT x0) (supp ⊥ ⊤) = gaussianReal (x0 / (1 + thi 0 * finT)) (finT / (1 + thi 0 * finT)).toNNReal := by
  ext A hA
  have hr : 0 < Real.exp (convF itoOu thi finT x0 (ouMode thi finT x0)) * Real.sqrt (2 * Real.pi * (finT / (1 + thi 0 * finT))) :=
    mul_pos (Real.exp_pos _) (Real.sqrt_pos.2 (by have := Real.pi_pos; positivity))
  rw [expLaw_apply _ _ _ hA, ou_expMass hT hb x0 hA, ou_expMass hT hb x0 MeasurableSet.univ, measure_univ, mul_one, mul_comm, ENNReal.mul_div_cancel_right (by simpa using hr) ENNReal.ofReal_ne_top]
  rfl

/-- Ornstein-Uhlenbeck paths with a free end: independent, each distributed as an accepted proposal whose end is normal with mean `x0 / (1 + bT)` and
variance `T / (1 + bT)`. -/
theorem C97_free_ou (B : SdeBudget) {thi : Fin 2 → ℝ} (t : List ℝ) {finT : ℝ} (hT : 0 < finT) (hb : 0 < 1 + thi 0 * finT) {mode v0 : ℝ}
    (hm : |mode - itoOu.reduce thi v0 / (1 + thi 0 * finT)| < 1) (Fs : List (List ℝ → ℝ≥0∞)) (hF : ∀ F ∈ Fs, Measurable F) (hB : ∀ F ∈ Fs, ∃ c : NNReal, ∀ b, F b ≤ c) :
    Tendsto (fun a => (sampleSde itoOu (fun thi le ue => .ok (itoOuBounds thi le ue)) ⊥ ⊤ { B with ars := a } mode thi t finT v0 none Fs.length).lexp (onOk (prodVal Fs))) atTop
      (𝓝 (Fs.map (freeMean itoOu (fun thi le ue => .ok (itoOuBounds thi le ue)) ⊥ ⊤ B thi t finT (itoOu.reduce thi v0)
        (gaussianReal (itoOu.reduce thi v0 / (1 + thi 0 * finT)) (finT / (1 + thi 0 * finT)).toNNReal))).prod) := by
  rw [← expLaw_ou hT hb]
  exact C97_free_iid measModel_ou B mode thi t finT v0 (C96_ou_concave hT hb _).1 (ou_good hT hb hm) Fs hF hB

/-- Cox-Ingersoll-Ross paths with a free end, for `s^2 <= 4 k m`: the end has the density in proportion to `exp(convF)` on the positive numbers. -/
theorem C97_free_cir {thi : Fin 3 → ℝ} (h0 : 0 ≤ thi 0) (h2 : 0 < thi 2) (hc : thi 2 ^ 2 ≤ 4 * thi 0 * thi 1) {finT v0 mode : ℝ} (hT : 0 < finT)
    (hx : 0 < itoCir.reduce thi v0) (hm0 : 0 < mode) (hm1 : mode / 2 < cirMode thi finT (itoCir.reduce thi v0)) (hm2 : cirMode thi finT (itoCir.reduce thi v0) < mode + 1)
    (B : SdeBudget) (t : List ℝ) (Fs : List (List ℝ → ℝ≥0∞)) (hF : ∀ F ∈ Fs, Measurable F) (hB : ∀ F ∈ Fs, ∃ c : NNReal, ∀ b, F b ≤ c) :
    Tendsto (fun a => (sampleSde itoCir itoCirBounds 0 ⊤ { B with ars := a } mode thi t finT v0 none Fs.length).lexp (onOk (prodVal Fs))) atTop
      (𝓝 (Fs.map (freeMean itoCir itoCirBounds 0 ⊤ B thi t finT (itoCir.reduce thi v0) (expLaw (convF itoCir thi finT (itoCir.reduce thi v0)) (Ioi 0)))).prod) := by
  have hs : (Ioi 0 : Set ℝ) = supp 0 ⊤ := by ext t; rw [mem_supp_zero]; rfl
  rw [hs]
  exact C97_free_iid measModel_cir B mode thi t finT v0 (C96_cir_concave h0 h2 hc hT hx).1 (cir_good h0 h2 hc hT hx hm0 hm1 hm2) Fs hF hB

/-- The probability that one path of the Ornstein-Uhlenbeck process from 3 ends above 2, the optimiser stopping at 1.4. -/
example (B : SdeBudget) : Tendsto (fun a => (sampleSde itoOu (fun thi le ue => .ok (itoOuBounds thi le ue)) ⊥ ⊤ { B with ars := a } (7 / 5) ![1 / 2, 1] [2] 2 3 none 1).lexp
      (onOk (prodVal [fun l => if 2 < l.headD 0 then 1 else 0]))) atTop
    (𝓝 (freeMean itoOu (fun thi le ue => .ok (itoOuBounds thi le ue)) ⊥ ⊤ B ![1 / 2, 1] [2] 2 3 (gaussianReal (3 / 2) 1) (fun l => if 2 < l.headD 0 then 1 else 0))) := by
  have hd : Measurable fun l : List ℝ => if 2 < l.headD 0 then (1 : ℝ≥0∞) else 0 := Measurable.ite' (by fun_prop) measurable_const measurable_const
  have h0 : itoOu.reduce ![1 / 2, 1] 3 = 3 := by simp [itoOu]
  have := C97_free_ou B (thi := ![1 / 2, 1]) [2] (finT := 2) (by norm_num) (by norm_num) (mode := 7 / 5) (v0 := 3) (by rw [h0]; norm_num [abs_lt])
    [fun l => if 2 < l.headD 0 then 1 else 0] (by intro F hF; rw [List.mem_singleton.1 hF]; exact hd)
    (by intro F hF; rw [List.mem_singleton.1 hF]; exact ⟨1, fun b => by dsimp only; split_ifs <;> simp⟩)
  rw [h0] at this
  norm_num at this
  simpa using this

theorem cir_demo_reduce : itoCir.reduce ![1, 1, 1] (1 / 4) = 1 := by
  have e2 : ![(1 : ℝ), 1, 1] 2 = 1 := rfl
  have : Real.sqrt (1 / 4) = 1 / 2 := by rw [show (1 / 4 : ℝ) = (1 / 2) ^ 2 by norm_num, Real.sqrt_sq (by norm_num)]
  simp only [itoCir, e2, this]
  norm_num

/-- The default parameters of the Cox-Ingersoll-Ross model, a unit of time from 1/4, which is 1 after the transformation; the optimiser stops at 4/3. -/
example (B : SdeBudget) (t : List ℝ) (Fs : List (List ℝ → ℝ≥0∞)) (hF : ∀ F ∈ Fs, Measurable F) (hB : ∀ F ∈ Fs, ∃ c : NNReal, ∀ b, F b ≤ c) :
    Tendsto (fun a => (sampleSde itoCir itoCirBounds 0 ⊤ { B with ars := a } (4 / 3) ![1, 1, 1] t 1 (1 / 4) none Fs.length).lexp (onOk (prodVal Fs))) atTop
      (𝓝 (Fs.map (freeMean itoCir itoCirBounds 0 ⊤ B ![1, 1, 1] t 1 1 (expLaw (convF itoCir ![1, 1, 1] 1 1) (Ioi 0)))).prod) := by
  have e : cirMode ![1, 1, 1] 1 1 = (1 + Real.sqrt 10) / 3 := by
    simp only [cirMode, cirExpo, Matrix.cons_val_zero, Matrix.cons_val_one, Matrix.cons_val]
    norm_num
  have h1 : Real.sqrt 10 < 4 := by rw [Real.sqrt_lt' (by norm_num)]; norm_num
  have h2 : 3 < Real.sqrt 10 := by rw [Real.lt_sqrt (by norm_num)]; norm_num
  have e2 : ![(1 : ℝ), 1, 1] 2 = 1 := rfl
  have := C97_free_cir (thi := ![1, 1, 1]) (by norm_num) (by rw [e2]; norm_num) (by rw [e2]; norm_num) (finT := 1) (v0 := 1 / 4) (mode := 4 / 3) one_pos
    (by rw [cir_demo_reduce]; norm_num) (by norm_num) (by rw [cir_demo_reduce, e]; linarith) (by rw [cir_demo_reduce, e]; linarith) B t Fs hF hB
  rwa [cir_demo_reduce] at this

end Ctb
