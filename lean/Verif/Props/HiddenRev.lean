import Verif.Props.ItoHidden
import Verif.Props.SwitchHidden
import Mathlib.MeasureTheory.Constructions.Pi

set_option linter.unusedSectionVars false

/-! # C100: the update of regimes and bridges of a switching diffusion is reversible -/

namespace Ctb

open Classical MeasureTheory
open scoped ENNReal

variable {ζ : Type}

/-! ### one section -/

/-- The coin of a section. -/
noncomputable def sectionCoin (O : HiddenOps ζ) (h : Anchorage ℝ ℝ) : Coin (List ζ) (List ζ) := fun z =>
  (flipHiddenCoins O z h).bind fun r => .ret (r.1, r.2, r.2)

/-- Accepted seeds come from the proposed ones, others from the current ones. -/
theorem search_class2 {τ : Type} {cP cN : Coin τ τ} {IP IN : Set τ} (hP : ∀ z ∈ IP, ∀ r, (cP z).Out (.ok r) → r.2.2 ∈ IP)
    (hN : ∀ z ∈ IN, ∀ r, (cN z).Out (.ok r) → r.2.2 ∈ IN) (hrP : ∀ z r, (cP z).Out (.ok r) → r.2.1 = r.2.2)
    (hrN : ∀ z r, (cN z).Out (.ok r) → r.2.1 = r.2.2) {v1 prk : ℝ} {zN : τ} (hz : zN ∈ IN) (n : ℕ) {s : τ × τ} (hs : s.1 ∈ IP ∧ s.2 ∈ IN)
    {v : Verdict (τ × τ) τ} (h : (twocoinLoop v1 (fun s => (cP s.1).bind fun r => .ret (r.1, r.2.1, (r.2.2, s.2)))
      (fun s => (cN s.2).bind fun r => .ret (r.1, r.2.1, (s.1, r.2.2))) prk zN n s).Out (.ok v)) :
    if v.1.1 then v.1.2.2 ∈ IP else v.1.2.2 ∈ IN := by
  induction n generalizing s with
  | zero => simp [twocoinLoop] at h
  | succ n ih =>
    simp only [twocoinLoop, Prog.out_real] at h
    obtain ⟨u, -, h⟩ := h
    have key : ∀ (b : Bool) (r : Bool × τ × (τ × τ)), (r.2.2.1 ∈ IP ∧ r.2.2.2 ∈ IN) → (if b then r.2.1 ∈ IP else r.2.1 ∈ IN) →
        (if r.1 then Prog.ret ((b, false, r.2.1), r.2.2) else Prog.real (.uniform 0 1) fun u' =>
          if u' < prk then .ret ((false, true, zN), r.2.2) else twocoinLoop v1 (fun s => (cP s.1).bind fun r => .ret (r.1, r.2.1, (r.2.2, s.2)))
      (fun s => (cN s.2).bind fun r => .ret (r.1, r.2.1, (s.1, r.2.2))) prk zN n r.2.2).Out (.ok v) → if v.1.1 then v.1.2.2 ∈ IP else v.1.2.2 ∈ IN := by
      intro b r h1 h2 h3
      split_ifs at h3 with hb
      · simp only [Prog.out_ret, Except.ok.injEq] at h3
        subst h3
        exact h2
      · simp only [Prog.out_real] at h3
        obtain ⟨u', -, h3⟩ := h3
        split_ifs at h3
        · simp only [Prog.out_ret, Except.ok.injEq] at h3
          subst h3
          simpa using hz
        · exact ih h1 h3
    split_ifs at h
    · rw [Prog.out_bind_ok] at h
      obtain ⟨r, h1, h2⟩ := h
      rw [Prog.out_bind_ok] at h1
      obtain ⟨q, hq, h1⟩ := h1
      simp only [Prog.out_ret, Except.ok.injEq] at h1
      subst h1
      exact key true _ ⟨hP _ hs.1 _ hq, hs.2⟩ (by simpa [hrP _ _ hq] using hP _ hs.1 _ hq) h2
    · rw [Prog.out_bind_ok] at h
      obtain ⟨r, h1, h2⟩ := h
      rw [Prog.out_bind_ok] at h1
      obtain ⟨q, hq, h1⟩ := h1
      simp only [Prog.out_ret, Except.ok.injEq] at h1
      subst h1
      exact key false _ ⟨hs.1, hN _ hs.2 _ hq⟩ (by simpa [hrN _ _ hq] using hN _ hs.2 _ hq) h2

theorem isCoin_left {τ : Type} {c : Coin τ τ} {IP IN : Set τ} {p : ℝ≥0∞} (h : IsCoin IP c p) :
    IsCoin (IP ×ˢ IN) (fun s : τ × τ => (c s.1).bind fun r => .ret (r.1, r.2.1, (r.2.2, s.2))) p := by
  intro s hs
  obtain ⟨h1, h2⟩ := h s.1 hs.1
  refine ⟨fun a b e => ?_, fun r hr => ?_⟩
  · rw [← h1 a b e, Prog.lexp_bind]
    congr 1; ext r
    rcases r with e' | ⟨b', x⟩
    · rfl
    · cases b' <;> simp [coinVal]
  · simp only [Prog.out_bind_ok, Prog.out_ret, Except.ok.injEq] at hr
    obtain ⟨q, hq, rfl⟩ := hr
    exact ⟨h2 _ hq, hs.2⟩

theorem isCoin_right {τ : Type} {c : Coin τ τ} {IP IN : Set τ} {p : ℝ≥0∞} (h : IsCoin IN c p) :
    IsCoin (IP ×ˢ IN) (fun s : τ × τ => (c s.2).bind fun r => .ret (r.1, r.2.1, (s.1, r.2.2))) p := by
  intro s hs
  obtain ⟨h1, h2⟩ := h s.2 hs.2
  refine ⟨fun a b e => ?_, fun r hr => ?_⟩
  · rw [← h1 a b e, Prog.lexp_bind]
    congr 1; ext r
    rcases r with e' | ⟨b', x⟩
    · rfl
    · cases b' <;> simp [coinVal]
  · simp only [Prog.out_bind_ok, Prog.out_ret, Except.ok.injEq] at hr
    obtain ⟨q, hq, rfl⟩ := hr
    exact ⟨hs.1, h2 _ hq⟩

theorem sectionCoin_ret {O : HiddenOps ζ} {h : Anchorage ℝ ℝ} {z : List ζ} {r : Bool × List ζ × List ζ} (hr : (sectionCoin O h z).Out (.ok r)) :
    r.2.1 = r.2.2 := by
  simp only [sectionCoin, Prog.out_bind_ok, Prog.out_ret, Except.ok.injEq] at hr
  obtain ⟨q, -, rfl⟩ := hr
  rfl

/-- The two-coin search of a section. -/
noncomputable def sectionSearch (C : McmcControls) (O : HiddenOps ζ) (w' w : ℝ) (zN : List ζ) (hN : Anchorage ℝ ℝ) (zP : List ζ) (hP : Anchorage ℝ ℝ) :
    Prog (Bool × List ζ × Anchorage ℝ ℝ) :=
  (sampleTwocoin w' w (fun s => (sectionCoin O hP s.1).bind fun r => .ret (r.1, r.2.1, (r.2.2, s.2)))
    (fun s => (sectionCoin O hN s.2).bind fun r => .ret (r.1, r.2.1, (s.1, r.2.2))) C.prPortkey zN C.maxProps (zP, zN)).bind fun v =>
    .ret (v.1.1, v.1.2.2, if v.1.1 then hP else hN)

theorem section_eq (C : McmcControls) (O : HiddenOps ζ) (zN : List ζ) (hN : Anchorage ℝ ℝ) (zP : List ζ) (hP : Anchorage ℝ ℝ) :
    updateHiddenSection C O zN hN zP hP =
      if C.precoin then (flipPrecoin (O.weight zP hP) (O.weight zN hN)).bind fun ok =>
        if ok then sectionSearch C O 0 0 zN hN zP hP else .ret (false, zN, hN)
      else sectionSearch C O (O.weight zP hP) (O.weight zN hN) zN hN zP hP := by
  unfold updateHiddenSection sectionSearch sectionCoin
  simp only [Prog.bind_assoc, Prog.ret_bind]

theorem search_exp {C : McmcControls} (hk : 0 ≤ C.prPortkey ∧ C.prPortkey ≤ 1) {O : HiddenOps ζ} (w' w : ℝ) {zN zP : List ζ} {hN hP : Anchorage ℝ ℝ}
    {IN IP : Set (List ζ)} (hzN : zN ∈ IN) (hzP : zP ∈ IP) {pP pN : ℝ≥0∞} (hcP : IsCoin IP (sectionCoin O hP) pP) (hcN : IsCoin IN (sectionCoin O hN) pN)
    {F : Bool × List ζ × Anchorage ℝ ℝ → ℝ≥0∞} {a b : ℝ≥0∞} (ha : ∀ z ∈ IP, F (true, z, hP) = a) (hb : ∀ z ∈ IN, F (false, z, hN) = b) :
    (sectionSearch C O w' w zN hN zP hP).lexp (onOk F) =
      ENNReal.ofReal (sideProb w' w) * pP * (∑ k ∈ Finset.range C.maxProps, failProb (sideProb w' w) pP pN C.prPortkey ^ k) * a +
        rejQ C (sideProb w' w) pP pN * b := by
  unfold sectionSearch
  rw [Prog.lexp_bind]
  have hout : ∀ v, (sampleTwocoin w' w (fun s => (sectionCoin O hP s.1).bind fun r => .ret (r.1, r.2.1, (r.2.2, s.2)))
      (fun s => (sectionCoin O hN s.2).bind fun r => .ret (r.1, r.2.1, (s.1, r.2.2))) C.prPortkey zN C.maxProps (zP, zN)).Out (.ok v) →
      if v.1.1 then v.1.2.2 ∈ IP else v.1.2.2 ∈ IN := fun v hv =>
    search_class2 (fun z hz r hr => (hcP z hz).2 r hr) (fun z hz r hr => (hcN z hz).2 r hr) (fun z r => sectionCoin_ret) (fun z r => sectionCoin_ret)
      hzN _ ⟨hzP, hzN⟩ hv
  have k1 := isCoin_left (IN := IN) hcP
  have k2 := isCoin_right (IP := IP) hcN
  set c1 : Coin (List ζ × List ζ) (List ζ) := fun s => (sectionCoin O hP s.1).bind fun r => .ret (r.1, r.2.1, (r.2.2, s.2))
  set c2 : Coin (List ζ × List ζ) (List ζ) := fun s => (sectionCoin O hN s.2).bind fun r => .ret (r.1, r.2.1, (s.1, r.2.2))
  have e : (sampleTwocoin w' w c1 c2 C.prPortkey zN C.maxProps (zP, zN)).lexp
      (Prog.cont (fun v => .ret (v.1.1, v.1.2.2, if v.1.1 then hP else hN)) (onOk F) Prog.lexp) =
      (sampleTwocoin w' w c1 c2 C.prPortkey zN C.maxProps (zP, zN)).lexp (verdictVal a b b 0) := by
    refine Prog.lexp_congr fun r hr => ?_
    match r, hr with
    | .error e, _ => rfl
    | .ok ((true, x, z), s), hr =>
      have := hout _ hr
      simp only [if_true] at this
      simp [verdictVal, onOk, ha _ this]
    | .ok ((false, false, z), s), hr =>
      have := hout _ hr
      simp only [Bool.false_eq_true, if_false] at this
      simp [verdictVal, onOk, hb _ this]
    | .ok ((false, true, z), s), hr =>
      have := hout _ hr
      simp only [Bool.false_eq_true, if_false] at this
      simp [verdictVal, onOk, hb _ this]
  rw [e, sampleTwocoin, twocoinLoop_eq, genLoop_lexp (by rw [exp_v1]; exact (sideProb_lt_one _ _).le)
    (c := fun b => if b then c1 else c2) (I := IP ×ˢ IN) (by simpa using k1) (by simpa using k2) hk _ _ _ _ _ _ (s := (zP, zN)) ⟨hzP, hzN⟩, exp_v1]
  simp only [rejQ, mul_zero, add_zero]
  ring

/-- The law of one section, with and without precoin. -/
theorem section_exp {C : McmcControls} (hk : 0 ≤ C.prPortkey ∧ C.prPortkey ≤ 1) {O : HiddenOps ζ} {zN zP : List ζ} {hN hP : Anchorage ℝ ℝ}
    {IN IP : Set (List ζ)} (hzN : zN ∈ IN) (hzP : zP ∈ IP) {pP pN : ℝ≥0∞} (hcP : IsCoin IP (sectionCoin O hP) pP) (hcN : IsCoin IN (sectionCoin O hN) pN)
    {F : Bool × List ζ × Anchorage ℝ ℝ → ℝ≥0∞} {a b : ℝ≥0∞} (ha : ∀ z ∈ IP, F (true, z, hP) = a) (hb : ∀ z ∈ IN, F (false, z, hN) = b) :
    (updateHiddenSection C O zN hN zP hP).lexp (onOk F) =
      accF C (O.weight zP hP) (O.weight zN hN) pP pN * a + rejF C (O.weight zP hP) (O.weight zN hN) pP pN * b := by
  have hq : sideProb 0 0 = 1 / 2 := by unfold sideProb; norm_num
  rw [section_eq]
  unfold accF rejF
  split_ifs with hp
  · rw [Prog.lexp_bind, flipPrecoin_lexp]
    simp only [Prog.cont_ok, if_true, Bool.false_eq_true, if_false, Prog.lexp_ret]
    rw [search_exp hk 0 0 hzN hzP hcP hcN ha hb, hq]
    simp only [onOk, hb zN hzN]
    ring
  · exact search_exp hk _ _ hzN hzP hcP hcN ha hb

/-! ### all sections -/

/-- Section `k` of `y` where `S` accepts, of `x` elsewhere. -/
def mixSec {X : Type} {K : ℕ} (S : Fin K → Bool) (x y : Fin K → X) : Fin K → X := fun k => if S k then y k else x k

/-- Exchange of two tuples at the coordinates in `S`. -/
theorem mix_preserving {X : Type} [MeasurableSpace X] {K : ℕ} (ρ : Fin K → Measure X) [∀ k, SigmaFinite (ρ k)] (S : Fin K → Bool) :
    MeasurePreserving (fun q : (Fin K → X) × (Fin K → X) => (mixSec S q.1 q.2, mixSec S q.2 q.1)) ((Measure.pi ρ).prod (Measure.pi ρ))
      ((Measure.pi ρ).prod (Measure.pi ρ)) := by
  have e := measurePreserving_arrowProdEquivProdArrow X X (Fin K) ρ ρ
  have hs : ∀ k, MeasurePreserving (fun q : X × X => if S k then q.swap else q) ((ρ k).prod (ρ k)) ((ρ k).prod (ρ k)) := by
    intro k
    split
    · exact Measure.measurePreserving_swap
    · exact MeasurePreserving.id _
  have hp := measurePreserving_pi (fun k => (ρ k).prod (ρ k)) (fun k => (ρ k).prod (ρ k)) hs
  have := (e.comp hp).comp (e.symm)
  convert this using 1
  funext q
  refine Prod.ext ?_ ?_
  · funext k
    change mixSec S q.1 q.2 k = ((if S k = true then (q.1 k, q.2 k).swap else (q.1 k, q.2 k)) : X × X).1
    unfold mixSec
    split <;> rfl
  · funext k
    change mixSec S q.2 q.1 k = ((if S k = true then (q.1 k, q.2 k).swap else (q.1 k, q.2 k)) : X × X).2
    unfold mixSec
    split <;> rfl

theorem mixSec_mix {X : Type} {K : ℕ} (S : Fin K → Bool) (x y : Fin K → X) : mixSec S (mixSec S x y) (mixSec S y x) = x := by
  funext k
  unfold mixSec
  cases S k <;> rfl

theorem mixSec_measurable {X : Type} [MeasurableSpace X] {K : ℕ} (S : Fin K → Bool) :
    Measurable fun q : (Fin K → X) × (Fin K → X) => mixSec S q.1 q.2 := by
  refine measurable_pi_iff.2 fun k => ?_
  unfold mixSec
  split <;> fun_prop

theorem lintegral_expand {Z ι : Type} [MeasurableSpace Z] [Fintype ι] {μ : Measure Z} [SFinite μ] {E : Z → ℝ≥0∞} (hE : Measurable E)
    {W H : ι → Z × Z → ℝ≥0∞} (hW : ∀ S, Measurable (W S)) (hH : ∀ S, Measurable (H S)) :
    ∫⁻ x, E x * ∫⁻ y, (∑ S, W S (x, y) * H S (x, y)) ∂μ ∂μ = ∑ S, ∫⁻ q, E q.1 * (W S q * H S q) ∂(μ.prod μ) := by
  have hE1 : Measurable fun q : Z × Z => E q.1 := hE.comp measurable_fst
  have hterm : ∀ S, Measurable fun q : Z × Z => E q.1 * (W S q * H S q) := fun S => hE1.mul ((hW S).mul (hH S))
  have hsum : Measurable fun q : Z × Z => ∑ S, E q.1 * (W S q * H S q) := Finset.measurable_sum _ fun S _ => hterm S
  have hin0 : Measurable fun q : Z × Z => ∑ S, W S q * H S q := Finset.measurable_sum _ fun S _ => (hW S).mul (hH S)
  rw [← lintegral_finsetSum _ fun S _ => hterm S, lintegral_prod _ hsum.aemeasurable]
  refine lintegral_congr fun x => ?_
  have hin : Measurable fun y : Z => ∑ S, W S (x, y) * H S (x, y) := hin0.comp measurable_prodMk_left
  rw [← lintegral_const_mul _ hin]
  refine lintegral_congr fun y => ?_
  rw [Finset.mul_sum]

/-- Independent decisions on all coordinates: balance in every coordinate is reversibility of the whole. -/
theorem indep_mh_pi {X : Type} [MeasurableSpace X] {K : ℕ} {ρ : Fin K → Measure X} [∀ k, SigmaFinite (ρ k)] {D : X → ℝ≥0∞} (hD : Measurable D)
    {a b : X → X → ℝ≥0∞} (ha : Measurable fun q : X × X => a q.1 q.2) (hb : Measurable fun q : X × X => b q.1 q.2)
    (key : ∀ x y, D x * a x y = D y * a y x) {G : (Fin K → X) → (Fin K → X) → ℝ≥0∞} (hG : Measurable fun q : (Fin K → X) × (Fin K → X) => G q.1 q.2) :
    ∫⁻ x, (∏ k, D (x k)) * ∫⁻ y, (∑ S : Fin K → Bool, (∏ k, if S k then a (x k) (y k) else b (x k) (y k)) * G x (mixSec S x y)) ∂Measure.pi ρ ∂Measure.pi ρ =
      ∫⁻ x, (∏ k, D (x k)) * ∫⁻ y, (∑ S : Fin K → Bool, (∏ k, if S k then a (x k) (y k) else b (x k) (y k)) * G (mixSec S x y) x)
        ∂Measure.pi ρ ∂Measure.pi ρ := by
  have hw : ∀ S : Fin K → Bool, Measurable fun q : (Fin K → X) × (Fin K → X) => ∏ k, if S k then a (q.1 k) (q.2 k) else b (q.1 k) (q.2 k) := by
    intro S
    refine Finset.measurable_prod _ fun k _ => ?_
    have hk : Measurable fun q : (Fin K → X) × (Fin K → X) => (q.1 k, q.2 k) := by fun_prop
    split
    · exact ha.comp hk
    · exact hb.comp hk
  have hDp : Measurable fun q : (Fin K → X) × (Fin K → X) => ∏ k, D (q.1 k) :=
    Finset.measurable_prod _ fun k _ => hD.comp ((measurable_pi_apply k).comp measurable_fst)
  have hG' : Measurable fun q : (Fin K → X) × (Fin K → X) => G q.2 q.1 := hG.comp (measurable_snd.prodMk measurable_fst)
  have m1 : ∀ S : Fin K → Bool, Measurable fun q : (Fin K → X) × (Fin K → X) => G q.1 (mixSec S q.1 q.2) := fun S =>
    hG.comp (measurable_fst.prodMk (mixSec_measurable S))
  have m2 : ∀ S : Fin K → Bool, Measurable fun q : (Fin K → X) × (Fin K → X) => G (mixSec S q.1 q.2) q.1 := fun S =>
    hG.comp ((mixSec_measurable S).prodMk measurable_fst)
  have hD1 : Measurable fun x : Fin K → X => ∏ k, D (x k) := Finset.measurable_prod _ fun k _ => hD.comp (measurable_pi_apply k)
  have e1 := lintegral_expand (μ := Measure.pi ρ) hD1 hw m1
  have e2 := lintegral_expand (μ := Measure.pi ρ) hD1 hw m2
  refine e1.trans (Eq.trans ?_ e2.symm)
  refine Finset.sum_congr rfl fun S _ => ?_
  have hf : Measurable fun q : (Fin K → X) × (Fin K → X) =>
      (∏ k, D (q.1 k)) * ((∏ k, if S k then a (q.1 k) (q.2 k) else b (q.1 k) (q.2 k)) * G q.1 (mixSec S q.1 q.2)) := hDp.mul ((hw S).mul (m1 S))
  rw [← (mix_preserving ρ S).lintegral_comp hf]
  refine lintegral_congr fun q => ?_
  simp only [mixSec_mix]
  rw [← mul_assoc, ← mul_assoc, ← Finset.prod_mul_distrib, ← Finset.prod_mul_distrib]
  congr 1
  refine Finset.prod_congr rfl fun k _ => ?_
  unfold mixSec
  by_cases hS : S k
  · simp only [hS, if_true]
    exact key _ _
  · simp [hS]

/-- The sections of a hidden state are updated independently; this is the middle of `update_hidden`. -/
noncomputable def sectionsUpdate (C : McmcControls) (O : HiddenOps ζ) (nil prime : List (List ζ × Anchorage ℝ ℝ)) :
    Prog (List (Bool × List ζ × Anchorage ℝ ℝ)) :=
  Prog.mapM' (fun q => updateHiddenSection C O q.1.1 q.1.2 q.2.1 q.2.2) (nil.zip prime)

theorem sections_exp {X : Type} {C : McmcControls} (hk : 0 ≤ C.prPortkey ∧ C.prPortkey ≤ 1) {O : HiddenOps ζ} {cls : List ζ × Anchorage ℝ ℝ → X}
    {rep : X → List ζ × Anchorage ℝ ℝ} {I : X → Set (List ζ)} (hI : ∀ x, (rep x).1 ∈ I x) (hr : ∀ x, ∀ z ∈ I x, cls (z, (rep x).2) = x) {p : X → ℝ≥0∞}
    (hc : ∀ x, IsCoin (I x) (sectionCoin O (rep x).2) (p x)) {K : ℕ} (x y : Fin K → X) (F : List (X × Anchorage ℝ ℝ) → ℝ≥0∞) :
    (sectionsUpdate C O (List.ofFn fun k => rep (x k)) (List.ofFn fun k => rep (y k))).lexp (onOk fun r => F (r.map fun v => (cls v.2, v.2.2))) =
      ∑ S : Fin K → Bool, (∏ k, if S k then
          accF C (O.weight (rep (y k)).1 (rep (y k)).2) (O.weight (rep (x k)).1 (rep (x k)).2) (p (y k)) (p (x k))
        else rejF C (O.weight (rep (y k)).1 (rep (y k)).2) (O.weight (rep (x k)).1 (rep (x k)).2) (p (y k)) (p (x k))) *
        F (List.ofFn fun k => (mixSec S x y k, (rep (mixSec S x y k)).2)) := by
  induction K generalizing F with
  | zero => simp [sectionsUpdate, Prog.mapM', onOk]
  | succ K ih =>
    unfold sectionsUpdate at ih ⊢
    rw [List.ofFn_succ, List.ofFn_succ, List.zip_cons_cons]
    simp only [Prog.mapM']
    rw [Prog.lexp_bind]
    have e : ∀ r : Res (Bool × List ζ × Anchorage ℝ ℝ), Prog.cont (fun b => (Prog.mapM' (fun q => updateHiddenSection C O q.1.1 q.1.2 q.2.1 q.2.2)
        ((List.ofFn fun k : Fin K => rep (x k.succ)).zip (List.ofFn fun k : Fin K => rep (y k.succ)))).bind fun bs => Prog.ret (b :: bs))
        (onOk fun r => F (r.map fun v => (cls v.2, v.2.2))) Prog.lexp r =
        onOk (fun v => ∑ S : Fin K → Bool, (∏ k : Fin K, if S k then
            accF C (O.weight (rep (y k.succ)).1 (rep (y k.succ)).2) (O.weight (rep (x k.succ)).1 (rep (x k.succ)).2) (p (y k.succ)) (p (x k.succ))
          else rejF C (O.weight (rep (y k.succ)).1 (rep (y k.succ)).2) (O.weight (rep (x k.succ)).1 (rep (x k.succ)).2) (p (y k.succ)) (p (x k.succ))) *
          F ((cls v.2, v.2.2) :: List.ofFn fun k => (mixSec S (fun k : Fin K => x k.succ) (fun k : Fin K => y k.succ) k,
            (rep (mixSec S (fun k : Fin K => x k.succ) (fun k : Fin K => y k.succ) k)).2))) r := by
      intro r
      cases r with
      | error e => rfl
      | ok v =>
        rw [Prog.cont_ok, Prog.lexp_bind]
        simp only [onOk]
        rw [← ih (fun k => x k.succ) (fun k => y k.succ) fun l => F ((cls v.2, v.2.2) :: l)]
        refine Prog.lexp_congr fun r _ => ?_
        cases r <;> simp [onOk]
    rw [funext e, section_exp hk (IN := I (x 0)) (IP := I (y 0)) (hI _) (hI _)
      (hc (y 0)) (hc (x 0)) (F := fun v => ∑ S : Fin K → Bool, (∏ k : Fin K, if S k then
            accF C (O.weight (rep (y k.succ)).1 (rep (y k.succ)).2) (O.weight (rep (x k.succ)).1 (rep (x k.succ)).2) (p (y k.succ)) (p (x k.succ))
          else rejF C (O.weight (rep (y k.succ)).1 (rep (y k.succ)).2) (O.weight (rep (x k.succ)).1 (rep (x k.succ)).2) (p (y k.succ)) (p (x k.succ))) *
          F ((cls v.2, v.2.2) :: List.ofFn fun k => (mixSec S (fun k : Fin K => x k.succ) (fun k : Fin K => y k.succ) k,
            (rep (mixSec S (fun k : Fin K => x k.succ) (fun k : Fin K => y k.succ) k)).2)))
      (fun z hz => by simp only [hr (y 0) z hz]; rfl)
      (fun z hz => by simp only [hr (x 0) z hz]; rfl)]
    rw [← (Fin.consEquiv fun _ : Fin (K + 1) => Bool).sum_comp, Fintype.sum_prod_type, Fintype.sum_bool, Finset.mul_sum, Finset.mul_sum]
    congr 1
    · refine Finset.sum_congr rfl fun S _ => ?_
      rw [Fin.prod_univ_succ, List.ofFn_succ, ← mul_assoc]
      rfl
    · refine Finset.sum_congr rfl fun S _ => ?_
      rw [Fin.prod_univ_succ, List.ofFn_succ, ← mul_assoc]
      rfl

/-- The sections of `update_hidden` are these. -/
theorem updateHidden_sections {A : AdaptPar} {C : McmcControls} {O : HiddenOps ζ} {s : HiddenState ζ} {y' : Skel ℝ} {tc : List ℝ} {p : List ζ × Anchorage ℝ ℝ}
    {nil prime : List (List ζ) × List (Anchorage ℝ ℝ)} (ha : O.aug y' = .ret p) (hn : splitHidden s.z s.h tc = .ok nil)
    (hp : splitHidden p.1 p.2 tc = .ok prime) :
    updateHiddenWith A C O s y' tc = (sectionsUpdate C O (nil.1.zip nil.2) (prime.1.zip prime.2)).bind fun acc =>
      if acc.isEmpty then .err .value
      else
        (Prog.lift (pasteHidden (acc.map fun a => a.2.1) (acc.map fun a => a.2.2))).bind fun new =>
        (Prog.lift (pruneAnchorage new.2)).bind fun y =>
        (Prog.lift (npMean (acc.map fun a => if a.1 then 1 else 0))).bind fun m =>
        (Prog.lift (s.sampler.adapt A y m)).bind fun sampler => .ret ⟨new.1, new.2, sampler⟩ := by
  unfold updateHiddenWith sectionsUpdate
  rw [ha, Prog.ret_bind, hn, hp]
  rfl

/-! ### C100 -/

/-- One section: the chance of a move times the weight of its start is the same both ways. -/
theorem C100_section {C : McmcControls} (hk : 0 ≤ C.prPortkey ∧ C.prPortkey ≤ 1) {O : HiddenOps ζ} {zN zP : List ζ} {hN hP : Anchorage ℝ ℝ}
    {IN IP : Set (List ζ)} (hzN : zN ∈ IN) (hzP : zP ∈ IP) {pP pN : ℝ≥0∞} (hcP : IsCoin IP (sectionCoin O hP) pP) (hcN : IsCoin IN (sectionCoin O hN) pN) :
    (updateHiddenSection C O zN hN zP hP).prob (fun r => ∃ z ∈ IP, r = .ok (true, z, hP)) * (ENNReal.ofReal (Real.exp (O.weight zN hN)) * pN) =
      (updateHiddenSection C O zP hP zN hN).prob (fun r => ∃ z ∈ IN, r = .ok (true, z, hN)) * (ENNReal.ofReal (Real.exp (O.weight zP hP)) * pP) := by
  have h : ∀ (q : Prog (Bool × List ζ × Anchorage ℝ ℝ)) (I : Set (List ζ)) (h : Anchorage ℝ ℝ), q.prob (fun r => ∃ z ∈ I, r = .ok (true, z, h)) =
      q.lexp (onOk fun v => if v.1 = true ∧ v.2.1 ∈ I ∧ v.2.2 = h then 1 else 0) := by
    intro q I h
    refine Prog.lexp_congr fun r _ => ?_
    rcases r with e | ⟨b, z, h'⟩
    · simp [onOk]
    · simp only [onOk, Except.ok.injEq, Prod.mk.injEq]
      congr 1
      exact propext ⟨fun ⟨z', h1, h2, h3, h4⟩ => ⟨h2, h3 ▸ h1, h4⟩, fun ⟨h1, h2, h3⟩ => ⟨z, h2, h1, rfl, h3⟩⟩
  rw [h, h, section_exp hk hzN hzP hcP hcN (a := 1) (b := 0) (fun z hz => by simp [hz]) (fun z hz => by simp),
    section_exp hk hzP hzN hcN hcP (a := 1) (b := 0) (fun z hz => by simp [hz]) (fun z hz => by simp)]
  simp only [mul_one, mul_zero, add_zero]
  exact accF_balance C _ _ _ _

/-- All sections: reversible for the product over sections of `e^weight` times the coin probability, relative to the law of the
proposals. -/
theorem C100_reversible {X : Type} [MeasurableSpace X] {K : ℕ} {ρ : Fin K → Measure X} [∀ k, SigmaFinite (ρ k)] {C : McmcControls}
    (hk : 0 ≤ C.prPortkey ∧ C.prPortkey ≤ 1) {O : HiddenOps ζ} {cls : List ζ × Anchorage ℝ ℝ → X} {rep : X → List ζ × Anchorage ℝ ℝ} {I : X → Set (List ζ)}
    (hI : ∀ x, (rep x).1 ∈ I x) (hr : ∀ x, ∀ z ∈ I x, cls (z, (rep x).2) = x) {w : X → ℝ} (hw : Measurable w) (hwt : ∀ x, O.weight (rep x).1 (rep x).2 = w x)
    {p : X → ℝ≥0∞} (hp : Measurable p) (hc : ∀ x, IsCoin (I x) (sectionCoin O (rep x).2) (p x)) {G : List X → List X → ℝ≥0∞}
    (hG : Measurable fun q : (Fin K → X) × (Fin K → X) => G (List.ofFn q.1) (List.ofFn q.2)) :
    ∫⁻ x : Fin K → X, (∏ k, ENNReal.ofReal (Real.exp (w (x k))) * p (x k)) *
        ∫⁻ y : Fin K → X, (sectionsUpdate C O (List.ofFn fun k => rep (x k)) (List.ofFn fun k => rep (y k))).lexp
          (onOk fun r => G (List.ofFn x) (r.map fun v => cls v.2)) ∂Measure.pi ρ ∂Measure.pi ρ =
      ∫⁻ x : Fin K → X, (∏ k, ENNReal.ofReal (Real.exp (w (x k))) * p (x k)) *
        ∫⁻ y : Fin K → X, (sectionsUpdate C O (List.ofFn fun k => rep (x k)) (List.ofFn fun k => rep (y k))).lexp
          (onOk fun r => G (r.map fun v => cls v.2) (List.ofFn x)) ∂Measure.pi ρ ∂Measure.pi ρ := by
  have e : ∀ (F : List X → ℝ≥0∞) (x y : Fin K → X), (sectionsUpdate C O (List.ofFn fun k => rep (x k)) (List.ofFn fun k => rep (y k))).lexp
      (onOk fun r => F (r.map fun v => cls v.2)) = ∑ S : Fin K → Bool, (∏ k, if S k then accF C (w (y k)) (w (x k)) (p (y k)) (p (x k))
        else rejF C (w (y k)) (w (x k)) (p (y k)) (p (x k))) * F (List.ofFn (mixSec S x y)) := by
    intro F x y
    have := sections_exp hk hI hr hc x y fun l => F (l.map Prod.fst)
    simp only [List.map_map, List.map_ofFn, hwt] at this
    exact this
  have e1 := fun x : Fin K → X => e (fun l => G (List.ofFn x) l) x
  have e2 := fun x : Fin K → X => e (fun l => G l (List.ofFn x)) x
  simp only [e1, e2]
  exact indep_mh_pi (ρ := ρ) (D := fun x => ENNReal.ofReal (Real.exp (w x)) * p x) ((ENNReal.measurable_ofReal.comp (Real.measurable_exp.comp hw)).mul hp)
    (a := fun x y => accF C (w y) (w x) (p y) (p x)) (b := fun x y => rejF C (w y) (w x) (p y) (p x))
    (accF_measurable' _ (hw.comp measurable_snd) (hw.comp measurable_fst) (hp.comp measurable_snd) (hp.comp measurable_fst))
    (rejF_measurable' _ (hw.comp measurable_snd) (hw.comp measurable_fst) (hp.comp measurable_snd) (hp.comp measurable_fst))
    (fun x y => by
      have := accF_balance C (w y) (w x) (p y) (p x)
      rw [mul_comm, this, mul_comm]) (G := fun x y => G (List.ofFn x) (List.ofFn y)) hG

/-- The value of `F` at the anchorage pasted from sections, 0 if they do not fit together. -/
noncomputable def pastedVal (F : Anchorage ℝ ℝ → ℝ≥0∞) (hs : List (Anchorage ℝ ℝ)) : ℝ≥0∞ :=
  match pasteHidden ([] : List (List ζ)) hs with
  | .error _ => 0
  | .ok q => match pruneAnchorage q.2 with
    | .error _ => 0
    | .ok _ => F q.2

theorem paste_snd (zs zs' : List (List ζ)) (hs : List (Anchorage ℝ ℝ)) :
    (pasteHidden zs hs).map Prod.snd = (pasteHidden zs' hs).map Prod.snd := by
  cases hs with
  | nil => rfl
  | cons h hs =>
    simp only [pasteHidden]
    cases hs.foldlM pasteStep h <;> rfl

/-- The law of the new anchorage, given the proposed one: a mixture over the accepted sections of the pasted anchorages. -/
theorem C100_update {X : Type} {A : AdaptPar} {C : McmcControls}
    (hk : 0 ≤ C.prPortkey ∧ C.prPortkey ≤ 1) {O : HiddenOps ζ} {cls : List ζ × Anchorage ℝ ℝ → X} {rep : X → List ζ × Anchorage ℝ ℝ} {I : X → Set (List ζ)}
    (hI : ∀ x, (rep x).1 ∈ I x) (hr : ∀ x, ∀ z ∈ I x, cls (z, (rep x).2) = x)
    {p : X → ℝ≥0∞} (hc : ∀ x, IsCoin (I x) (sectionCoin O (rep x).2) (p x)) {s : HiddenState ζ} {m k : ℕ} (hsched : SchedInv A m k s.sampler.sched)
    {y' : Skel ℝ} {tc : List ℝ} {pr : List ζ × Anchorage ℝ ℝ} (ha : O.aug y' = .ret pr) {K : ℕ} (hK : K ≠ 0) {x y : Fin K → X}
    (hn : splitHidden s.z s.h tc = .ok (List.ofFn fun k => (rep (x k)).1, List.ofFn fun k => (rep (x k)).2))
    (hp : splitHidden pr.1 pr.2 tc = .ok (List.ofFn fun k => (rep (y k)).1, List.ofFn fun k => (rep (y k)).2)) (F : Anchorage ℝ ℝ → ℝ≥0∞) :
    (updateHiddenWith A C O s y' tc).lexp (onOk fun s' => F s'.h) =
      ∑ S : Fin K → Bool, (∏ k, if S k then
          accF C (O.weight (rep (y k)).1 (rep (y k)).2) (O.weight (rep (x k)).1 (rep (x k)).2) (p (y k)) (p (x k))
        else rejF C (O.weight (rep (y k)).1 (rep (y k)).2) (O.weight (rep (x k)).1 (rep (x k)).2) (p (y k)) (p (x k))) *
        pastedVal (ζ := ζ) F (List.ofFn fun k => (rep (mixSec S x y k)).2) := by
  have hz : ∀ v : Fin K → X, (List.ofFn fun k => (rep (v k)).1).zip (List.ofFn fun k => (rep (v k)).2) = List.ofFn fun k => rep (v k) := by
    intro v
    refine List.ext_getElem (by simp) fun i h1 h2 => by simp
  rw [updateHidden_sections ha hn hp, hz, hz, Prog.lexp_bind]
  have := sections_exp hk hI hr hc x y fun l => if l = [] then 0 else pastedVal (ζ := ζ) F (l.map Prod.snd)
  have hne : ∀ S, (List.ofFn fun k => (mixSec S x y k, (rep (mixSec S x y k)).2)) ≠ [] := fun S => by simpa [List.ofFn_eq_nil_iff] using hK
  simp only [hne, if_false, List.map_ofFn] at this
  refine Eq.trans ?_ this
  refine Prog.lexp_congr fun r _ => ?_
  cases r with
  | error e => rfl
  | ok acc =>
    rw [Prog.cont_ok]
    simp only [onOk, List.map_eq_nil_iff, List.map_map]
    by_cases hacc : acc = []
    · simp [hacc, onOk]
    · rw [if_neg hacc, if_neg (by simpa using hacc)]
      have hmean : ∃ v, npMean (acc.map fun a => if a.1 then 1 else 0) = .ok v := ⟨_, by rw [npMean, if_neg (by simpa using hacc)]⟩
      obtain ⟨v, hv⟩ := hmean
      have hps := paste_snd (acc.map fun a => a.2.1) [] (acc.map fun a => a.2.2)
      unfold pastedVal
      have hfun : (Prod.snd ∘ fun v : Bool × List ζ × Anchorage ℝ ℝ => (cls v.2, v.2.2)) = fun a => a.2.2 := rfl
      rw [hfun]
      revert hps
      cases h1 : pasteHidden (acc.map fun a => a.2.1) (acc.map fun a => a.2.2) with
      | error e =>
        cases h2 : pasteHidden ([] : List (List ζ)) (acc.map fun a => a.2.2) with
        | error e' => intro _; simp [Prog.lift, onOk]
        | ok q => intro h; cases h
      | ok q =>
        cases h2 : pasteHidden ([] : List (List ζ)) (acc.map fun a => a.2.2) with
        | error e' => intro h; cases h
        | ok q' =>
          intro h
          have hq : q.2 = q'.2 := by injection h
          simp only [Prog.lift, Prog.ret_bind, ← hq]
          cases h3 : pruneAnchorage q.2 with
          | error e => simp [onOk]
          | ok sk =>
            obtain ⟨sc, hsc, -⟩ := hsched.step false v
            simp [hv, MjpAdaptive.adapt, hsc, onOk, Bind.bind, Except.bind, pure, Except.pure]

/-! ### a chain to which the theorems apply -/

/-- One real seed per section of length 1: weight `-z²/2`, coin of probability `e^(-z)/(1+e^(-z))`. -/
noncomputable def demoHiddenOps (pr : List ℝ × Anchorage ℝ ℝ) : HiddenOps ℝ where
  aug _ := .ret pr
  weight z _ := -(z.headD 0) ^ 2 / 2
  red := id
  flip _ z := (uniformCoin (sideProb (-z) 0) ()).bind fun r => .ret (r.1, z)

noncomputable def demoRep (x : ℝ) : List ℝ × Anchorage ℝ ℝ := ([x], ⟨[0, 1], [0, 0], [0, 0]⟩)

theorem demoHidden_coin (pr : List ℝ × Anchorage ℝ ℝ) (x : ℝ) : IsCoin {z : List ℝ | z = [x]} (sectionCoin (demoHiddenOps pr) (demoRep x).2)
    (ENNReal.ofReal (sideProb (-x) 0)) := by
  have hseg : segments [0, 1] [0, 0] [id 0, id 0] = [(1, 0, 0, 0)] := by simp [segments, npDiff]
  have e : sectionCoin (demoHiddenOps pr) (demoRep x).2 [x] = (uniformCoin (sideProb (-x) 0) ()).bind fun r => .ret (r.1, [x], [x]) := by
    simp only [sectionCoin, flipHiddenCoins, demoRep, demoHiddenOps, List.map_cons, List.map_nil, hseg, List.zip_cons_cons, List.zip_nil_left, List.isEmpty_cons, Bool.false_eq_true,
      if_false, Prog.mapM', Prog.bind_assoc, Prog.ret_bind, List.all_cons, List.all_nil, Bool.and_true]
  rintro z rfl
  rw [e]
  refine ⟨fun a b ne => ?_, fun r hr => ?_⟩
  · rw [← (uniformCoin_isCoin (sideProb_pos (-x) 0).le (sideProb_lt_one _ _).le () trivial).1 a b ne]
    rw [Prog.lexp_bind]
    congr 1; ext r
    rcases r with e' | ⟨b', x⟩
    · rfl
    · cases b' <;> simp [coinVal]
  · simp only [Prog.out_bind_ok, Prog.out_ret, Except.ok.injEq] at hr
    obtain ⟨q, -, rfl⟩ := hr
    rfl

/-- Moves between the seeds 1 and 3. -/
example (pr : List ℝ × Anchorage ℝ ℝ) : (updateHiddenSection ⟨0.01, true, 100⟩ (demoHiddenOps pr) [1] (demoRep 1).2 [3] (demoRep 3).2).prob
        (fun r => ∃ z ∈ {z : List ℝ | z = [3]}, r = .ok (true, z, (demoRep 3).2)) *
        (ENNReal.ofReal (Real.exp ((demoHiddenOps pr).weight [1] (demoRep 1).2)) * ENNReal.ofReal (sideProb (-1) 0)) =
      (updateHiddenSection ⟨0.01, true, 100⟩ (demoHiddenOps pr) [3] (demoRep 3).2 [1] (demoRep 1).2).prob
        (fun r => ∃ z ∈ {z : List ℝ | z = [1]}, r = .ok (true, z, (demoRep 1).2)) *
        (ENNReal.ofReal (Real.exp ((demoHiddenOps pr).weight [3] (demoRep 3).2)) * ENNReal.ofReal (sideProb (-3) 0)) :=
  C100_section (C := ⟨0.01, true, 100⟩) (IN := {z | z = [1]}) (IP := {z | z = [3]}) (by norm_num) rfl rfl (demoHidden_coin pr 3) (demoHidden_coin pr 1)

/-- Three sections of real seeds, proposed from Lebesgue measure. -/
example (pr : List ℝ × Anchorage ℝ ℝ) {G : List ℝ → List ℝ → ℝ≥0∞}
    (hG : Measurable fun q : (Fin 3 → ℝ) × (Fin 3 → ℝ) => G (List.ofFn q.1) (List.ofFn q.2)) :
    ∫⁻ x : Fin 3 → ℝ, (∏ k, ENNReal.ofReal (Real.exp (-(x k) ^ 2 / 2)) * ENNReal.ofReal (sideProb (-(x k)) 0)) *
        ∫⁻ y : Fin 3 → ℝ, (sectionsUpdate ⟨0.01, true, 100⟩ (demoHiddenOps pr) (List.ofFn fun k => demoRep (x k)) (List.ofFn fun k => demoRep (y k))).lexp
          (onOk fun r => G (List.ofFn x) (r.map fun v => v.2.1.headD 0)) ∂Measure.pi (fun _ => volume) ∂Measure.pi (fun _ => volume) =
      ∫⁻ x : Fin 3 → ℝ, (∏ k, ENNReal.ofReal (Real.exp (-(x k) ^ 2 / 2)) * ENNReal.ofReal (sideProb (-(x k)) 0)) *
        ∫⁻ y : Fin 3 → ℝ, (sectionsUpdate ⟨0.01, true, 100⟩ (demoHiddenOps pr) (List.ofFn fun k => demoRep (x k)) (List.ofFn fun k => demoRep (y k))).lexp
          (onOk fun r => G (r.map fun v => v.2.1.headD 0) (List.ofFn x)) ∂Measure.pi (fun _ => volume) ∂Measure.pi (fun _ => volume) :=
  C100_reversible (X := ℝ) (ρ := fun _ => volume) (cls := fun v => v.1.headD 0) (rep := demoRep) (I := fun x => {z | z = [x]}) (by norm_num)
    (fun _ => rfl) (fun x z hz => by rw [show z = [x] from hz]; rfl) (w := fun x => -x ^ 2 / 2) (by fun_prop) (fun x => rfl)
    (p := fun x => ENNReal.ofReal (sideProb (-x) 0)) (ENNReal.measurable_ofReal.comp (sideProb_measurable.comp (f := fun x : ℝ => (-x, (0 : ℝ))) (by fun_prop)))
    (demoHidden_coin pr) hG

/-- Two sections: the splits of a current and a proposed state. -/
theorem demoHidden_split (a b : ℝ) : splitHidden [a, b] (⟨[0, 1, 2], [0, 0, 0], [0, 0, 0]⟩ : Anchorage ℝ ℝ) [1] =
    .ok (List.ofFn fun k : Fin 2 => (demoRep (![a, b] k)).1, List.ofFn fun k : Fin 2 => (demoRep (![a, b] k)).2) := by
  have h1 : breakRows [(0 : ℝ), 1, 2] [1] = [0, 1, 2] := by 
    norm_num [breakRows, pySlice, pyClip, show Int.toNat 2 = 2 from rfl, List.zipIdx, List.filter]
  unfold splitHidden
  rw [h1]
  norm_num [anchPiece, pyGet, pySlice, pyClip, show Int.toNat 2 = 2 from rfl, show Int.toNat 3 = 3 from rfl, demoRep, List.ofFn_succ, Bind.bind, Except.bind, pure, Except.pure]

example (A : AdaptPar) (C : McmcControls) (hk : 0 ≤ C.prPortkey ∧ C.prPortkey ≤ 1) (y : Skel ℝ) (F : Anchorage ℝ ℝ → ℝ≥0∞) :
    (updateHiddenWith A C (demoHiddenOps ([1, 2], ⟨[0, 1, 2], [0, 0, 0], [0, 0, 0]⟩)) ⟨[3, 4], ⟨[0, 1, 2], [0, 0, 0], [0, 0, 0]⟩, ⟨y, .init 0 A⟩⟩ y [1]).lexp
      (onOk fun s' => F s'.h) = ∑ S : Fin 2 → Bool, (∏ k, if S k then
          accF C (-(![1, 2] k) ^ 2 / 2) (-(![3, 4] k) ^ 2 / 2) (ENNReal.ofReal (sideProb (-(![1, 2] k)) 0)) (ENNReal.ofReal (sideProb (-(![3, 4] k)) 0))
        else rejF C (-(![1, 2] k) ^ 2 / 2) (-(![3, 4] k) ^ 2 / 2) (ENNReal.ofReal (sideProb (-(![1, 2] k)) 0)) (ENNReal.ofReal (sideProb (-(![3, 4] k)) 0))) *
        pastedVal (ζ := ℝ) F (List.ofFn fun k => (demoRep (mixSec S ![3, 4] ![1, 2] k)).2) :=
  C100_update (X := ℝ) (cls := fun v => v.1.headD 0) (rep := demoRep) (I := fun x => {z | z = [x]}) hk (fun _ => rfl)
    (fun x z hz => by rw [show z = [x] from hz]; rfl) (p := fun x => ENNReal.ofReal (sideProb (-x) 0)) (demoHidden_coin _) (SchedInv.init 0 A) (pr := ([1, 2], ⟨[0, 1, 2], [0, 0, 0], [0, 0, 0]⟩)) rfl
    (by norm_num) (x := ![3, 4]) (y := ![1, 2]) (demoHidden_split 3 4) (demoHidden_split 1 2) F

end Ctb
