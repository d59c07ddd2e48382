import Verif.Spec.ProgLaw
import Verif.Lemmas.RegLaw
import Verif.Lemmas.RegSeed
import Verif.Lemmas.RegSde
import Verif.Lemmas.MassOne

set_option linter.unusedSectionVars false

/-! # C114: samplers have laws -/

namespace Ctb

open MeasureTheory ProbabilityTheory Set
open scoped ENNReal

variable {X α : Type} [MeasurableSpace X] [MeasurableSpace α]

theorem hasLaw {p : X → Prog α} (h : Reg p) (hm : ∀ x, Mass1 (p x)) : HasLaw p := by
  refine ⟨h.kernel, ⟨h.markov hm, fun x F hF => h.lexp_eq x hF⟩, ?_⟩
  rintro κ ⟨-, hκ⟩
  refine Kernel.ext fun x => Measure.ext fun S hS => ?_
  have h1 := hκ x (S.indicator fun _ => 1) (measurable_const.indicator hS)
  rw [lintegral_indicator_const hS, one_mul] at h1
  rw [← h1, h.kernel_apply, h.law_apply x hS]

/-! ## Minima, escapes and layers -/

theorem C114_minimum : HasLaw fun q : ℝ × ℝ × ℝ × Option ℝ × Option ℝ => sampleBridgeMin q.1 q.2.1 q.2.2.1 q.2.2.2.1 q.2.2.2.2 :=
  hasLaw (reg_sampleBridgeMin (by fun_prop) (by fun_prop) (by fun_prop) (by fun_prop) (by fun_prop)) fun _ => mass_bridgeMin ..

theorem C114_brownEsc : HasLaw fun q : (ℝ × ℝ × ℝ × ℝ) × Option ℝ × Option ℝ => brownEsc q.1.1 q.1.2.1 q.1.2.2.1 q.1.2.2.2 q.2.1 q.2.2 :=
  hasLaw (reg_brownEsc (by fun_prop) (by fun_prop) (by fun_prop) (by fun_prop) (by fun_prop) (by fun_prop)) fun _ => mass_brownEsc ..

theorem C114_besEsc : HasLaw fun q : (ℝ × ℝ × ℝ × ℝ) × Option ℝ × Option ℝ => besEsc q.1.1 q.1.2.1 q.1.2.2.1 q.1.2.2.2 q.2.1 q.2.2 :=
  hasLaw (reg_besEsc (by fun_prop) (by fun_prop) (by fun_prop) (by fun_prop) (by fun_prop) (by fun_prop)) fun _ => mass_besEsc ..

theorem C114_layerMin (n : ℕ) : HasLaw fun q : (ℝ × ℝ × ℝ) × Option ℝ × Option ℝ × Option ℝ => sampleLayerMin n q.1.1 q.1.2.1 q.1.2.2 q.2.1 q.2.2.1 q.2.2.2 :=
  hasLaw (reg_sampleLayerMin n (by fun_prop) (by fun_prop) (by fun_prop) (by fun_prop) (by fun_prop) (by fun_prop)) fun _ => mass_layerMin ..

theorem C114_layer (n F : ℕ) : HasLaw fun q : (ℝ × ℝ × ℝ) × Option ℝ × Option ℝ => sampleLayer n F q.1.1 q.1.2.1 q.1.2.2 q.2.1 q.2.2 :=
  hasLaw (reg_sampleLayer n F (by fun_prop) (by fun_prop) (by fun_prop) (by fun_prop) (by fun_prop)) fun _ => mass_layer ..

theorem C114_edges (m n : ℕ) : HasLaw fun q : (ℝ × ℝ × ℝ) × (ℝ × ℝ) × ℝ × ℝ => sampleEdges m n q.1.1 q.1.2.1 q.1.2.2 q.2.1 q.2.2 :=
  hasLaw (reg_sampleEdges m n (by fun_prop) (by fun_prop) (by fun_prop) (by fun_prop) (by fun_prop)) fun _ => mass_edges ..

/-! ## Paths -/

theorem C114_wiener : HasLaw fun q : List ℝ × ℝ × ℝ => sampleWiener q.1 q.2.1 q.2.2 :=
  hasLaw (reg_sampleWiener (by fun_prop) (by fun_prop) (by fun_prop)) fun _ => mass_wiener ..

theorem C114_brownbr : HasLaw fun q : List ℝ × ℝ × ℝ × ℝ => sampleBrownbr q.1 q.2.1 q.2.2.1 q.2.2.2 :=
  hasLaw (reg_sampleBrownbr (by fun_prop) (by fun_prop) (by fun_prop) (by fun_prop)) fun _ => mass_brownbr ..

theorem C114_besselbr (dim : ℕ) : HasLaw fun q : List ℝ × ℝ × ℝ => sampleBesselbr q.1 q.2.1 q.2.2 dim :=
  hasLaw (reg_sampleBesselbr (by fun_prop) (by fun_prop) (by fun_prop) dim) fun _ => mass_besselbr ..

theorem C114_layerbr (n k : ℕ) : HasLaw fun q : List ℝ × (ℝ × ℝ × ℝ × ℝ) × Option ℝ × Option ℝ =>
    sampleLayerbr n k q.1 q.2.1.1 q.2.1.2.1 q.2.1.2.2.1 q.2.1.2.2.2 q.2.2.1 q.2.2.2 :=
  hasLaw (reg_sampleLayerbr n k (by fun_prop) (by fun_prop) (by fun_prop) (by fun_prop) (by fun_prop) (by fun_prop) (by fun_prop)) fun _ => mass_layerbr ..

/-! ## Skeletons and seeds -/

theorem C114_rawSkel (n F : ℕ) : HasLaw fun q : (ℝ × ℝ × ℝ) × Option ℝ × Option ℝ => sampleRawSkel n F q.1.1 q.1.2.1 q.1.2.2 q.2.1 q.2.2 :=
  hasLaw (reg_sampleRawSkel n F (by fun_prop) (by fun_prop) (by fun_prop) (by fun_prop) (by fun_prop)) fun _ => mass_rawSkel ..

theorem C114_interpolate (n k : ℕ) : HasLaw fun q : EaSkel × List ℝ => interpolateSkel n k q.1 q.2 :=
  hasLaw (reg_interpolateSkel n k (by fun_prop) (by fun_prop)) fun _ => mass_interpolateSkel ..

theorem C114_interpolateSeed (n k : ℕ) (op : NormOp) : HasLaw fun q : EaSkel × List ℝ => interpolateSeed n k op q.1 q.2 :=
  hasLaw (reg_interpolateSeed n k op (by fun_prop) (by fun_prop)) fun _ => mass_interpolateSeed ..

/-- The coin of a skeleton, jointly in the parameters of the model. -/
theorem C114_skelCoin {p : ℕ} {M : ItoFns p} {ebd : (Fin p → ℝ) → ℝ → ℝ → Res DiscBounds} (hM : MeasModel M ebd) (n k : ℕ) (size : ℤ) :
    HasLaw fun q : (Fin p → ℝ) × EaSkel => flipSkelCoin n k (M.disc q.1) (ebd q.1) size q.2 := by
  refine hasLaw (reg_flipSkelCoin (X := (Fin p → ℝ) × EaSkel) n k (disc := fun q => M.disc q.1) (ebd := fun q => ebd q.1) ?_ ?_ size (by fun_prop)) fun _ => mass_flipSkelCoin ..
  · exact hM.disc.comp (by fun_prop : Measurable fun q : ((Fin p → ℝ) × EaSkel) × ℝ => (q.1.1, q.2))
  · exact hM.bounds.comp (by fun_prop : Measurable fun q : ((Fin p → ℝ) × EaSkel) × ℝ × ℝ => (q.1.1, q.2))

theorem C114_seedCoin {p : ℕ} {M : ItoFns p} {ebd : (Fin p → ℝ) → ℝ → ℝ → Res DiscBounds} (hM : MeasModel M ebd) (thi : Fin p → ℝ) (n k : ℕ) (op : NormOp) (size : ℤ) :
    HasLaw fun z : EaSkel => flipPoissonCoin n k (M.disc thi) (ebd thi) op size z :=
  hasLaw (reg_flipPoissonCoin n k (hM.disc.comp (by fun_prop : Measurable fun x : ℝ => (thi, x))) (hM.bounds.comp (by fun_prop : Measurable fun q : ℝ × ℝ => (thi, q))) op size measurable_id)
    fun _ => mass_flipPoissonCoin ..

/-! ## Diffusions -/

/-- `sample_sde` with a given end, jointly in the parameters, the times and the values. -/
theorem C114_sde {p : ℕ} {M : ItoFns p} {ebd : (Fin p → ℝ) → ℝ → ℝ → Res DiscBounds} (hM : MeasModel M ebd) (lb ub : EReal) (B : SdeBudget) (mode : ℝ) (m : ℕ) :
    HasLaw fun q : (Fin p → ℝ) × List ℝ × ℝ × ℝ × ℝ => sampleSde M ebd lb ub B mode q.1 q.2.1 q.2.2.1 q.2.2.2.1 (some q.2.2.2.2) m :=
  hasLaw (reg_sampleSde hM lb ub B (mode := fun _ => mode) (by fun_prop) (by fun_prop) (by fun_prop) (by fun_prop) (by fun_prop) m) fun _ => mass_sampleSde ..

theorem C114_seedBridge {p : ℕ} {M : ItoFns p} {ebd : (Fin p → ℝ) → ℝ → ℝ → Res DiscBounds} (hM : MeasModel M ebd) (thi : Fin p → ℝ) (n F k : ℕ) (op : NormOp) (lb ub : Option ℝ)
    (maxProps : ℤ) (m : ℕ) : HasLaw fun _ : Unit => sampleSeedBridge n F k (M.disc thi) (ebd thi) op lb ub maxProps m :=
  hasLaw (reg_sampleSeedBridge n F k (hM.disc.comp (by fun_prop : Measurable fun x : ℝ => (thi, x))) (hM.bounds.comp (by fun_prop : Measurable fun q : ℝ × ℝ => (thi, q))) op lb ub maxProps m)
    fun _ => mass_sampleSeedBridge ..

/-! ## What a law gives: complements, sequences of events -/

theorem prob_eq {p : X → Prog α} {κ : Kernel X (Res α)} (h : IsLawOf p κ) (x : X) {S : Set (Res α)} (hS : MeasurableSet S) : (p x).prob (· ∈ S) = κ x S := by
  rw [← lintegral_indicator_one hS, ← h x _ (measurable_one.indicator hS)]
  refine Prog.lexp_congr fun r _ => ?_
  simp [indicator]

/-- Probabilities of an event and of its complement add up to one. -/
theorem C114_compl {p : X → Prog α} (h : HasLaw p) (x : X) {S : Set (Res α)} (hS : MeasurableSet S) : (p x).prob (· ∈ S) + (p x).prob (· ∉ S) = 1 := by
  obtain ⟨κ, ⟨hm, hκ⟩, -⟩ := h
  have := prob_eq hκ x hS.compl
  simp only [mem_compl_iff] at this
  rw [prob_eq hκ x hS, this, measure_add_measure_compl hS, measure_univ]

/-- Probabilities of disjoint events add up. -/
theorem C114_union {p : X → Prog α} (h : HasLaw p) (x : X) {S : ℕ → Set (Res α)} (hS : ∀ n, MeasurableSet (S n)) (hd : Pairwise (Function.onFun Disjoint S)) :
    (p x).prob (fun r => ∃ n, r ∈ S n) = ∑' n, (p x).prob (· ∈ S n) := by
  obtain ⟨κ, ⟨hm, hκ⟩, -⟩ := h
  have := prob_eq hκ x (MeasurableSet.iUnion hS)
  simp only [mem_iUnion] at this
  simp only [this, prob_eq hκ x (hS _)]
  exact measure_iUnion hd hS

/-- The law of the composition of two samplers is the composition of their laws. -/
theorem C114_bind {β : Type} [MeasurableSpace β] {p : X → Prog α} {q : X × α → Prog β} {κ : Kernel X (Res α)} {η : Kernel (X × α) (Res β)} (hp : IsLawOf p κ) (hq : IsLawOf q η) (x : X)
    {F : β → ℝ≥0∞} (hF : Measurable F) :
    ((p x).bind fun a => q (x, a)).lexp (onOk F) = ∫⁻ r, onOk (fun a => ∫⁻ s, onOk F s ∂η (x, a)) r ∂κ x := by
  have hm : Measurable fun a => ∫⁻ s, onOk F s ∂η (x, a) := ((measurable_onOk hF).lintegral_kernel (κ := η)).comp (measurable_const.prodMk measurable_id)
  rw [← hp x _ (measurable_onOk hm), Prog.lexp_bind]
  refine Prog.lexp_congr fun r _ => ?_
  cases r with
  | error e => rfl
  | ok a => exact hq (x, a) _ (measurable_onOk hF)

/-- The loose edge of the raw skeleton of a bridge of length one is below -1, or not. -/
example (n F : ℕ) : (sampleRawSkel n F 1 0 0 none none).prob (fun r => ∃ s : EaSkel, r = .ok s ∧ s.loose < -1) +
    (sampleRawSkel n F 1 0 0 none none).prob (fun r => ¬ ∃ s : EaSkel, r = .ok s ∧ s.loose < -1) = 1 := by
  refine C114_compl (S := {r | ∃ s : EaSkel, r = .ok s ∧ s.loose < -1}) (C114_rawSkel n F) ((1, 0, 0), none, none) ?_
  have : MeasurableSet {s : EaSkel | s.loose < -1} := measurableSet_lt (by fun_prop) measurable_const
  have e : {s : EaSkel | s.loose < -1} = Except.ok ⁻¹' {r : Res EaSkel | ∃ s : EaSkel, r = .ok s ∧ s.loose < -1} := by ext s; simp
  rw [e] at this
  exact this

/-- Filling in a raw skeleton. -/
example (n F k : ℕ) : ∃ (κ : Kernel ((ℝ × ℝ × ℝ) × Option ℝ × Option ℝ) (Res EaSkel)) (η : Kernel (EaSkel × List ℝ) (Res (EaSkel × List ℝ))),
    ∀ G : EaSkel × List ℝ → ℝ≥0∞, Measurable G → ((sampleRawSkel n F 1 0 0 none none).bind fun s => interpolateSkel n k s [1 / 2]).lexp (onOk G) =
      ∫⁻ r, onOk (fun s => ∫⁻ y, onOk G y ∂η (s, [1 / 2])) r ∂κ ((1, 0, 0), none, none) := by
  obtain ⟨κ, ⟨-, h1⟩, -⟩ := C114_rawSkel n F
  obtain ⟨η, ⟨-, h2⟩, -⟩ := C114_interpolate n k
  refine ⟨κ, η, fun G hG => ?_⟩
  exact C114_bind (q := fun y => interpolateSkel n k y.2 [1 / 2]) (η := η.comap (fun y => (y.2, [1 / 2])) (by fun_prop)) h1 (fun y => h2 (y.2, [1 / 2])) ((1, 0, 0), none, none) hG

/-- Both models of the library. -/
example (B : SdeBudget) : HasLaw fun q : (Fin 2 → ℝ) × List ℝ × ℝ × ℝ × ℝ => sampleSde itoOu (fun thi le ue => .ok (itoOuBounds thi le ue)) ⊥ ⊤ B 0 q.1 q.2.1 q.2.2.1 q.2.2.2.1 (some q.2.2.2.2) 3 :=
  C114_sde measModel_ou ⊥ ⊤ B 0 3
example (B : SdeBudget) : HasLaw fun q : (Fin 3 → ℝ) × List ℝ × ℝ × ℝ × ℝ => sampleSde itoCir itoCirBounds 0 ⊤ B 1 q.1 q.2.1 q.2.2.1 q.2.2.2.1 (some q.2.2.2.2) 3 :=
  C114_sde measModel_cir 0 ⊤ B 1 3

end Ctb
