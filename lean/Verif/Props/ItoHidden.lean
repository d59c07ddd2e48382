import Verif.Model.ItoHidden
import Verif.Props.SampleSde
import Verif.Props.RwLaw
import Verif.Lemmas.Partition

set_option linter.unusedSectionVars false

/-! # C98: the update of the bridges of a diffusion -/

namespace Ctb

open Classical MeasureTheory
open scoped ENNReal

variable {ζ : Type}

/-! ### the model of one bridge -/

theorem slice_two {α : Type} {l : List α} {i : ℕ} (h : i + 1 < l.length) : pySlice l (i : ℤ) ((i : ℤ) + 2) = [l[i], l[i + 1]] := by
  have := pySlice_nat l i (i + 2) (by omega) (by omega)
  push_cast at this
  rw [this, List.drop_take, show i + 2 - i = 2 by omega, List.drop_eq_getElem_cons (by omega), List.drop_eq_getElem_cons h]
  rfl

theorem npDiff_getElem? : ∀ (t : List ℝ) (i : ℕ) (d : ℝ), (npDiff t)[i]? = some d → ∃ h : i + 1 < t.length, d = t[i + 1] - t[i]
  | [], i, d, h => by simp [npDiff] at h
  | [_], i, d, h => by simp [npDiff] at h
  | a :: b :: l, 0, d, h => by
    simp only [npDiff, List.getElem?_cons_zero, Option.some.injEq] at h
    exact ⟨by simp, by simp [h]⟩
  | a :: b :: l, i + 1, d, h => by
    simp only [npDiff, List.getElem?_cons_succ] at h
    obtain ⟨h1, h2⟩ := npDiff_getElem? (b :: l) i d h
    exact ⟨by simpa using h1, by simpa using h2⟩

theorem sub_ok {t vt : List ℝ} {i : ℕ} (h : i + 1 < t.length) (h' : i + 1 < vt.length) :
    subModel t vt i = .ok ([t[i] - t[i], t[i + 1] - t[i]], [vt[i], vt[i + 1]]) := by
  have e : pyGet t (i : ℤ) = some t[i] := by
    unfold pyGet
    rw [if_pos (by positivity), Int.toNat_natCast, List.getElem?_eq_getElem (by omega)]
  unfold subModel
  rw [e, slice_two h, slice_two h']
  rfl

/-- The model of bridge `i`, with times starting in zero, has one normalising operation: the `i`-th of the whole model. -/
theorem C98_submodel {p : ℕ} {M : ItoFns p} {thi : Fin p → ℝ} {t vt : List ℝ} {i : ℕ} {op : NormOp} (h : (itoNormops M thi t vt)[i]? = some op) :
    ∃ m, subModel t vt i = .ok m ∧ itoNormops M thi m.1 m.2 = [op] := by
  unfold itoNormops at h
  simp only [List.getElem?_map, Option.map_eq_some_iff, List.getElem?_zip_eq_some] at h
  obtain ⟨⟨d, x0, x1⟩, ⟨h1, h2, h3⟩, rfl⟩ := h
  simp only at h1 h2 h3
  obtain ⟨g1, rfl⟩ := npDiff_getElem? t i d h1
  simp only [List.getElem?_tail, List.getElem?_map, Option.map_eq_some_iff] at h2 h3
  obtain ⟨v0, e0, rfl⟩ := h2
  obtain ⟨v1, e1, rfl⟩ := h3
  obtain ⟨g2, rfl⟩ := List.getElem?_eq_some_iff.1 e1
  obtain ⟨g3, rfl⟩ := List.getElem?_eq_some_iff.1 e0
  refine ⟨_, sub_ok g1 g2, ?_⟩
  simp [itoNormops, npDiff]

example : (itoNormops itoOu ![1, 1] [0, 1, 3] [0, 1, 5])[1]? = some ⟨2, Real.sqrt 2, 1, 5⟩ := by norm_num [itoNormops, itoOu, npDiff]

/-! ### one bridge -/

/-- The coin of one bridge. -/
noncomputable def bridgeCoin (O : SdeOps ζ) (op : NormOp) : Coin ζ ζ := fun z => (O.flip op z).bind fun r => .ret (r.1, r.2.2, r.2.2)

theorem sdeCoin_one {O : SdeOps ζ} {t vt : List ℝ} {op : NormOp} (h : O.ops t vt = [op]) : sdeCoin O t vt = bridgeCoin O op := by
  funext z
  simp [sdeCoin, flipSdeCoins, h, bridgeCoin, Prog.mapM', Prog.bind_assoc, Prog.ret_bind]

theorem sdeWeight_one {O : SdeOps ζ} {t vt : List ℝ} {op : NormOp} (h : O.ops t vt = [op]) (z : ζ) : evalSdeWeight O t vt [z] = O.weight op z := by
  unfold evalSdeWeight
  cases hw : O.weight op z <;> simp [h, listOk, hw, Except.bind]

/-- The search between the proposed and the current seed. -/
noncomputable def bridgeSearch (C : McmcControls) (O : SdeOps ζ) (op : NormOp) (wP wN : ℝ) (zN zP : ζ) : Prog (Verdict (ζ × ζ) ζ) :=
  sampleTwocoin wP wN (fun s => (bridgeCoin O op s.1).bind fun r => .ret (r.1, r.2.1, (r.2.2, s.2)))
    (fun s => (bridgeCoin O op s.2).bind fun r => .ret (r.1, r.2.1, (s.1, r.2.2))) C.prPortkey zN C.maxProps (zP, zN)

theorem bridge_eq {C : McmcControls} {O : SdeOps ζ} {t vt : List ℝ} {i : ℕ} {m : List ℝ × List ℝ} {op : NormOp} (hm : subModel t vt i = .ok m)
    (ho : O.ops m.1 m.2 = [op]) (zN zP : ζ) :
    updateSdeBridge C O t vt i zN zP = (Prog.lift (O.weight op zN)).bind fun wN => (Prog.lift (O.weight op zP)).bind fun wP =>
      (bridgeSearch C O op wP wN zN zP).bind fun v => .ret v.1.2.2 := by
  unfold updateSdeBridge
  rw [hm]
  simp only [Prog.lift, Prog.ret_bind, sdeWeight_one ho, sdeCoin_one ho]
  rfl

/-- Accepted seeds come from the proposed one, others from the current one. -/
theorem search_class {c : Coin ζ ζ} {IP IN : Set ζ} (hP : ∀ z ∈ IP, ∀ r, (c z).Out (.ok r) → r.2.2 ∈ IP) (hN : ∀ z ∈ IN, ∀ r, (c z).Out (.ok r) → r.2.2 ∈ IN)
    (hr : ∀ z r, (c z).Out (.ok r) → r.2.1 = r.2.2) {v1 prk : ℝ} {zN : ζ} (hz : zN ∈ IN) (n : ℕ) {s : ζ × ζ} (hs : s.1 ∈ IP ∧ s.2 ∈ IN)
    {v : Verdict (ζ × ζ) ζ} (h : (twocoinLoop v1 (fun s => (c s.1).bind fun r => .ret (r.1, r.2.1, (r.2.2, s.2)))
      (fun s => (c s.2).bind fun r => .ret (r.1, r.2.1, (s.1, r.2.2))) prk zN n s).Out (.ok v)) :
    if v.1.1 then v.1.2.2 ∈ IP else v.1.2.2 ∈ IN := by
  induction n generalizing s with
  | zero => simp [twocoinLoop] at h
  | succ n ih =>
    simp only [twocoinLoop, Prog.out_real] at h
    obtain ⟨u, -, h⟩ := h
    have key : ∀ (b : Bool) (r : Bool × ζ × (ζ × ζ)), (r.2.2.1 ∈ IP ∧ r.2.2.2 ∈ IN) → (if b then r.2.1 ∈ IP else r.2.1 ∈ IN) →
        (if r.1 then Prog.ret ((b, false, r.2.1), r.2.2) else Prog.real (.uniform 0 1) fun u' =>
          if u' < prk then .ret ((false, true, zN), r.2.2) else twocoinLoop v1 (fun s => (c s.1).bind fun r => .ret (r.1, r.2.1, (r.2.2, s.2)))
      (fun s => (c s.2).bind fun r => .ret (r.1, r.2.1, (s.1, r.2.2))) prk zN n r.2.2).Out (.ok v) → if v.1.1 then v.1.2.2 ∈ IP else v.1.2.2 ∈ IN := by
      intro b r h1 h2 h3
      split_ifs at h3 with hb
      · simp only [Prog.out_ret, Except.ok.injEq] at h3
        subst h3
        exact h2
      · simp only [Prog.out_real] at h3
        obtain ⟨u', -, h3⟩ := h3
        split_ifs at h3
        · simp only [Prog.out_ret, Except.ok.injEq] at h3
          subst h3
          simpa using hz
        · exact ih h1 h3
    split_ifs at h
    · rw [Prog.out_bind_ok] at h
      obtain ⟨r, h1, h2⟩ := h
      rw [Prog.out_bind_ok] at h1
      obtain ⟨q, hq, h1⟩ := h1
      simp only [Prog.out_ret, Except.ok.injEq] at h1
      subst h1
      exact key true _ ⟨hP _ hs.1 _ hq, hs.2⟩ (by simpa [hr _ _ hq] using hP _ hs.1 _ hq) h2
    · rw [Prog.out_bind_ok] at h
      obtain ⟨r, h1, h2⟩ := h
      rw [Prog.out_bind_ok] at h1
      obtain ⟨q, hq, h1⟩ := h1
      simp only [Prog.out_ret, Except.ok.injEq] at h1
      subst h1
      exact key false _ ⟨hs.1, hN _ hs.2 _ hq⟩ (by simpa [hr _ _ hq] using hN _ hs.2 _ hq) h2

theorem bridgeCoin_ret {O : SdeOps ζ} {op : NormOp} {z : ζ} {r : Bool × ζ × ζ} (h : (bridgeCoin O op z).Out (.ok r)) : r.2.1 = r.2.2 := by
  simp only [bridgeCoin, Prog.out_bind_ok, Prog.out_ret, Except.ok.injEq] at h
  obtain ⟨q, -, rfl⟩ := h
  rfl

/-- `C` without the precoin, which the update of bridges does not have. -/
def McmcControls.plain (C : McmcControls) : McmcControls := { C with precoin := false }

theorem isCoin_fst {O : SdeOps ζ} {op : NormOp} {IP IN : Set ζ} {p : ℝ≥0∞} (h : IsCoin IP (bridgeCoin O op) p) :
    IsCoin (IP ×ˢ IN) (fun s : ζ × ζ => (bridgeCoin O op s.1).bind fun r => .ret (r.1, r.2.1, (r.2.2, s.2))) p := by
  intro s hs
  obtain ⟨h1, h2⟩ := h s.1 hs.1
  refine ⟨fun a b e => ?_, fun r hr => ?_⟩
  · rw [← h1 a b e, Prog.lexp_bind]
    congr 1; ext r
    rcases r with e' | ⟨b', x⟩
    · rfl
    · cases b' <;> simp [coinVal]
  · simp only [Prog.out_bind_ok, Prog.out_ret, Except.ok.injEq] at hr
    obtain ⟨q, hq, rfl⟩ := hr
    exact ⟨h2 _ hq, hs.2⟩

theorem isCoin_snd {O : SdeOps ζ} {op : NormOp} {IP IN : Set ζ} {p : ℝ≥0∞} (h : IsCoin IN (bridgeCoin O op) p) :
    IsCoin (IP ×ˢ IN) (fun s : ζ × ζ => (bridgeCoin O op s.2).bind fun r => .ret (r.1, r.2.1, (s.1, r.2.2))) p := by
  intro s hs
  obtain ⟨h1, h2⟩ := h s.2 hs.2
  refine ⟨fun a b e => ?_, fun r hr => ?_⟩
  · rw [← h1 a b e, Prog.lexp_bind]
    congr 1; ext r
    rcases r with e' | ⟨b', x⟩
    · rfl
    · cases b' <;> simp [coinVal]
  · simp only [Prog.out_bind_ok, Prog.out_ret, Except.ok.injEq] at hr
    obtain ⟨q, hq, rfl⟩ := hr
    exact ⟨hs.1, h2 _ hq⟩

theorem bridge_exp {C : McmcControls} (hk : 0 ≤ C.prPortkey ∧ C.prPortkey ≤ 1) {O : SdeOps ζ} {t vt : List ℝ} {i : ℕ} {m : List ℝ × List ℝ} {op : NormOp}
    (hm : subModel t vt i = .ok m) (ho : O.ops m.1 m.2 = [op]) {IP IN : Set ζ} {zN zP : ζ} (hN : zN ∈ IN) (hP : zP ∈ IP) {wN wP : ℝ}
    (hwN : O.weight op zN = .ok wN) (hwP : O.weight op zP = .ok wP) {pP pN : ℝ≥0∞} (hcP : IsCoin IP (bridgeCoin O op) pP)
    (hcN : IsCoin IN (bridgeCoin O op) pN) {F : ζ → ℝ≥0∞} {a b : ℝ≥0∞} (ha : ∀ z ∈ IP, F z = a) (hb : ∀ z ∈ IN, F z = b) :
    (updateSdeBridge C O t vt i zN zP).lexp (onOk F) = accF C.plain wP wN pP pN * a + rejF C.plain wP wN pP pN * b := by
  rw [bridge_eq hm ho, hwN, hwP]
  simp only [Prog.lift, Prog.ret_bind]
  rw [Prog.lexp_bind]
  have e : (bridgeSearch C O op wP wN zN zP).lexp (Prog.cont (fun v => .ret v.1.2.2) (onOk F) Prog.lexp) =
      (bridgeSearch C O op wP wN zN zP).lexp (verdictVal a b b 0) := by
    refine Prog.lexp_congr fun r hr => ?_
    match r, hr with
    | .error e, _ => rfl
    | .ok ((true, x, z), s), hr =>
      have := search_class (fun z hz r hr => (hcP z hz).2 r hr) (fun z hz r hr => (hcN z hz).2 r hr) (fun z r => bridgeCoin_ret) hN _ ⟨hP, hN⟩ hr
      simp only [if_true] at this
      simp [verdictVal, onOk, ha _ this]
    | .ok ((false, false, z), s), hr =>
      have := search_class (fun z hz r hr => (hcP z hz).2 r hr) (fun z hz r hr => (hcN z hz).2 r hr) (fun z r => bridgeCoin_ret) hN _ ⟨hP, hN⟩ hr
      simp only [Bool.false_eq_true, if_false] at this
      simp [verdictVal, onOk, hb _ this]
    | .ok ((false, true, z), s), hr =>
      have := search_class (fun z hz r hr => (hcP z hz).2 r hr) (fun z hz r hr => (hcN z hz).2 r hr) (fun z r => bridgeCoin_ret) hN _ ⟨hP, hN⟩ hr
      simp only [Bool.false_eq_true, if_false] at this
      simp [verdictVal, onOk, hb _ this]
  rw [e]
  unfold bridgeSearch
  have k1 := isCoin_fst (IN := IN) hcP
  have k2 := isCoin_snd (IP := IP) hcN
  set c1 : Coin (ζ × ζ) ζ := fun s => (bridgeCoin O op s.1).bind fun r => .ret (r.1, r.2.1, (r.2.2, s.2))
  set c2 : Coin (ζ × ζ) ζ := fun s => (bridgeCoin O op s.2).bind fun r => .ret (r.1, r.2.1, (s.1, r.2.2))
  rw [sampleTwocoin, twocoinLoop_eq, genLoop_lexp (by rw [exp_v1]; exact (sideProb_lt_one _ _).le)
    (c := fun b => if b then c1 else c2) (I := IP ×ˢ IN) (by simpa using k1) (by simpa using k2) hk _ _ _ _ _ _ (s := (zP, zN)) ⟨hP, hN⟩, exp_v1]
  simp only [accF, rejF, rejQ, McmcControls.plain, Bool.false_eq_true, if_false, mul_zero, add_zero]
  ring

theorem plain_balance (C : McmcControls) (w' w : ℝ) (p' p : ℝ≥0∞) :
    ENNReal.ofReal (Real.exp w) * p * accF C.plain w' w p' p = ENNReal.ofReal (Real.exp w') * p' * accF C.plain w w' p p' := by
  have e1 := sideWeight w' w 1
  have e2 := sideWeight' w' w 1
  simp only [mul_one] at e1 e2
  simp only [accF, McmcControls.plain, Bool.false_eq_true, if_false]
  rw [failProb_swap w' w, sideProb_swap w' w, ← e1, ← e2]
  ring

/-- Exact probability of moving to the proposed seed, and its balance. -/
theorem C98_accept {C : McmcControls} (hk : 0 ≤ C.prPortkey ∧ C.prPortkey ≤ 1) {O : SdeOps ζ} {t vt : List ℝ} {i : ℕ} {m : List ℝ × List ℝ} {op : NormOp}
    (hm : subModel t vt i = .ok m) (ho : O.ops m.1 m.2 = [op]) {IP IN : Set ζ} (hd : Disjoint IP IN) {zN zP : ζ} (hN : zN ∈ IN) (hP : zP ∈ IP) {wN wP : ℝ}
    (hwN : O.weight op zN = .ok wN) (hwP : O.weight op zP = .ok wP) {pP pN : ℝ≥0∞} (hcP : IsCoin IP (bridgeCoin O op) pP)
    (hcN : IsCoin IN (bridgeCoin O op) pN) :
    (updateSdeBridge C O t vt i zN zP).prob (fun r => ∃ z, r = .ok z ∧ z ∈ IP) * (ENNReal.ofReal (Real.exp wN) * pN) =
      (updateSdeBridge C O t vt i zP zN).prob (fun r => ∃ z, r = .ok z ∧ z ∈ IN) * (ENNReal.ofReal (Real.exp wP) * pP) := by
  have h : ∀ (q : Prog ζ) (I : Set ζ), q.prob (fun r => ∃ z, r = .ok z ∧ z ∈ I) = q.lexp (onOk fun z => if z ∈ I then 1 else 0) := by
    intro q I
    refine Prog.lexp_congr fun r _ => ?_
    cases r <;> simp [onOk]
  rw [h, h, bridge_exp hk hm ho hN hP hwN hwP hcP hcN (a := 1) (b := 0) (fun z hz => if_pos hz) (fun z hz => if_neg (Set.disjoint_right.1 hd hz)),
    bridge_exp hk hm ho hP hN hwP hwN hcN hcP (a := 1) (b := 0) (fun z hz => if_pos hz) (fun z hz => if_neg (Set.disjoint_left.1 hd hz))]
  have := plain_balance C wP wN pP pN
  simp only [mul_one, mul_zero, add_zero]
  rw [mul_comm, this, mul_comm]

/-! ### reversibility -/

/-- Proposals from `ρ`, acceptance `a`: balance of `D a` is reversibility. -/
theorem indep_mh {X : Type} [MeasurableSpace X] {ρ : Measure X} [SFinite ρ] {D : X → ℝ≥0∞} (hD : Measurable D) {a b : X → X → ℝ≥0∞}
    (ha : Measurable fun q : X × X => a q.1 q.2) (hb : Measurable fun q : X × X => b q.1 q.2) (key : ∀ x y, D x * a x y = D y * a y x)
    {G : X → X → ℝ≥0∞} (hG : Measurable fun q : X × X => G q.1 q.2) :
    ∫⁻ x, D x * ∫⁻ y, (a x y * G x y + b x y * G x x) ∂ρ ∂ρ = ∫⁻ x, D x * ∫⁻ y, (a x y * G y x + b x y * G x x) ∂ρ ∂ρ := by
  have hG' : Measurable fun q : X × X => G q.2 q.1 := hG.comp (measurable_snd.prodMk measurable_fst)
  have hGd : Measurable fun x => G x x := hG.comp (measurable_id.prodMk measurable_id)
  have m1 : Measurable fun q : X × X => a q.1 q.2 * G q.1 q.2 := ha.mul hG
  have m2 : Measurable fun q : X × X => a q.1 q.2 * G q.2 q.1 := ha.mul hG'
  have m3 : Measurable fun q : X × X => b q.1 q.2 * G q.1 q.1 := hb.mul (hGd.comp measurable_fst)
  have split : ∀ K : X → X → ℝ≥0∞, Measurable (fun q : X × X => K q.1 q.2) →
      ∫⁻ x, D x * ∫⁻ y, (K x y + b x y * G x x) ∂ρ ∂ρ = ∫⁻ x, ∫⁻ y, D x * K x y ∂ρ ∂ρ + ∫⁻ x, D x * ∫⁻ y, b x y * G x x ∂ρ ∂ρ := by
    intro K hK
    rw [← lintegral_add_left]
    · refine lintegral_congr fun x => ?_
      have hx : Measurable fun y => K x y := hK.comp measurable_prodMk_left
      rw [lintegral_add_left hx, mul_add, lintegral_const_mul _ hx]
    · exact ((hD.comp measurable_fst).mul hK).lintegral_prod_right'
  rw [split _ m1, split _ m2]
  congr 1
  have e : ∫⁻ x, ∫⁻ y, D x * (a x y * G x y) ∂ρ ∂ρ = ∫⁻ x, ∫⁻ y, D y * (a y x * G x y) ∂ρ ∂ρ := by
    refine lintegral_congr fun x => lintegral_congr fun y => ?_
    rw [← mul_assoc, key, mul_assoc]
  rw [e, lintegral_lintegral_swap]
  have : Measurable fun q : X × X => D q.2 * (a q.2 q.1 * G q.1 q.2) :=
    (hD.comp measurable_snd).mul ((ha.comp (measurable_snd.prodMk measurable_fst)).mul hG)
  exact this.aemeasurable

/-- **Reversibility.**  `cls` is what a seed represents — the path that its flips reveal —, `ρ` the law of what is proposed.  If the coin of a bridge
shows heads with probability `p x` for seeds of `x` and the integrated lower bound of a new seed is `w x`, the update of the bridge is reversible
for the measure with density `e^w p` with respect to `ρ`. -/
theorem C98_reversible {X : Type} [MeasurableSpace X] {ρ : Measure X} [SFinite ρ] {C : McmcControls} (hk : 0 ≤ C.prPortkey ∧ C.prPortkey ≤ 1) {O : SdeOps ζ}
    {t vt : List ℝ} {i : ℕ} {m : List ℝ × List ℝ} {op : NormOp} (hm : subModel t vt i = .ok m) (ho : O.ops m.1 m.2 = [op]) {cls : ζ → X} {seed : X → ζ}
    (hs : ∀ x, cls (seed x) = x) {w : X → ℝ} (hw : Measurable w) (hwt : ∀ x, O.weight op (seed x) = .ok (w x)) {p : X → ℝ≥0∞} (hp : Measurable p)
    (hc : ∀ x, IsCoin {z | cls z = x} (bridgeCoin O op) (p x)) {G : X → X → ℝ≥0∞} (hG : Measurable fun q : X × X => G q.1 q.2) :
    ∫⁻ x, ENNReal.ofReal (Real.exp (w x)) * p x *
        ∫⁻ y, (updateSdeBridge C O t vt i (seed x) (seed y)).lexp (onOk fun z => G x (cls z)) ∂ρ ∂ρ =
      ∫⁻ x, ENNReal.ofReal (Real.exp (w x)) * p x *
        ∫⁻ y, (updateSdeBridge C O t vt i (seed x) (seed y)).lexp (onOk fun z => G (cls z) x) ∂ρ ∂ρ := by
  have e : ∀ (F : X → X → ℝ≥0∞) x y, (updateSdeBridge C O t vt i (seed x) (seed y)).lexp (onOk fun z => F x (cls z)) =
      accF C.plain (w y) (w x) (p y) (p x) * F x y + rejF C.plain (w y) (w x) (p y) (p x) * F x x := fun F x y =>
    bridge_exp hk hm ho (IP := {z | cls z = y}) (IN := {z | cls z = x}) (hs x) (hs y) (hwt x) (hwt y) (hc y) (hc x)
      (fun z hz => by rw [show cls z = y from hz]) (fun z hz => by rw [show cls z = x from hz])
  have e1 := e G
  have e2 := e fun x y => G y x
  simp only [e1, e2]
  exact indep_mh (D := fun x => ENNReal.ofReal (Real.exp (w x)) * p x) ((ENNReal.measurable_ofReal.comp (Real.measurable_exp.comp hw)).mul hp)
    (a := fun x y => accF C.plain (w y) (w x) (p y) (p x)) (b := fun x y => rejF C.plain (w y) (w x) (p y) (p x))
    (accF_measurable' _ (hw.comp measurable_snd) (hw.comp measurable_fst) (hp.comp measurable_snd) (hp.comp measurable_fst))
    (rejF_measurable' _ (hw.comp measurable_snd) (hw.comp measurable_fst) (hp.comp measurable_snd) (hp.comp measurable_fst))
    (fun x y => plain_balance C (w y) (w x) (p y) (p x)) hG

/-- Seeds that are real numbers: lower bound `-x²/2`, coin of probability `e^(-x)/(1+e^(-x))`. -/
noncomputable def demoSdeOps : SdeOps ℝ where
  ops t vt := itoNormops itoOu ![1, 1] t vt
  weight _ z := .ok (-z ^ 2 / 2)
  flip _ z := (uniformCoin (sideProb (-z) 0) ()).bind fun r => .ret (r.1, 0, z)

theorem demoSde_coin (op : NormOp) (x : ℝ) : IsCoin {z : ℝ | id z = x} (bridgeCoin demoSdeOps op) (ENNReal.ofReal (sideProb (-x) 0)) := by
  rintro z rfl
  refine ⟨fun a b e => ?_, fun r hr => ?_⟩
  · rw [← (uniformCoin_isCoin (sideProb_pos (-(id z)) 0).le (sideProb_lt_one _ _).le () trivial).1 a b e]
    simp only [bridgeCoin, demoSdeOps, Prog.bind_assoc, Prog.ret_bind]
    rw [Prog.lexp_bind]
    congr 1; ext r
    rcases r with e' | ⟨b', x⟩
    · rfl
    · cases b' <;> simp [coinVal]
  · simp only [bridgeCoin, demoSdeOps, Prog.bind_assoc, Prog.ret_bind, Prog.out_bind_ok, Prog.out_ret, Except.ok.injEq] at hr
    obtain ⟨q, -, rfl⟩ := hr
    rfl

/-- The chain on real numbers is reversible for `e^(-x²/2) e^(-x)/(1+e^(-x))`. -/
example {G : ℝ → ℝ → ℝ≥0∞} (hG : Measurable fun q : ℝ × ℝ => G q.1 q.2) :
    ∫⁻ x, ENNReal.ofReal (Real.exp (-x ^ 2 / 2)) * ENNReal.ofReal (sideProb (-x) 0) *
        ∫⁻ y, (updateSdeBridge ⟨0.01, true, 100⟩ demoSdeOps [0, 1, 3] [0, 1, 5] 1 x y).lexp (onOk fun z => G x z) =
      ∫⁻ x, ENNReal.ofReal (Real.exp (-x ^ 2 / 2)) * ENNReal.ofReal (sideProb (-x) 0) *
        ∫⁻ y, (updateSdeBridge ⟨0.01, true, 100⟩ demoSdeOps [0, 1, 3] [0, 1, 5] 1 x y).lexp (onOk fun z => G z x) := by
  obtain ⟨m, hm, ho⟩ := C98_submodel (M := itoOu) (thi := ![1, 1]) (t := [0, 1, 3]) (vt := [0, 1, 5]) (i := 1) (op := ⟨2, Real.sqrt 2, 1, 5⟩)
    (by norm_num [itoNormops, itoOu, npDiff])
  exact C98_reversible (cls := id) (seed := id) (by norm_num) hm ho (fun _ => rfl) (w := fun x => -x ^ 2 / 2) (by fun_prop) (fun _ => rfl)
    (p := fun x => ENNReal.ofReal (sideProb (-x) 0)) (ENNReal.measurable_ofReal.comp (sideProb_measurable.comp (f := fun x : ℝ => (-x, (0 : ℝ))) (by fun_prop))) (demoSde_coin _) hG

/-! ### all bridges -/

/-- Bridges are updated independently. -/
theorem mapM'_prod {α β : Type} {f : α → Prog β} (l : List α) (Fs : List (β → ℝ≥0∞)) (hl : Fs.length = l.length) (hF : ∀ F ∈ Fs, ∀ b, F b ≠ ∞)
    (hf : ∀ F ∈ Fs, ∀ a ∈ l, (f a).lexp (onOk F) ≠ ∞) :
    (Prog.mapM' f l).lexp (onOk (prodVal Fs)) = (List.zipWith (fun F a => (f a).lexp (onOk F)) Fs l).prod := by
  induction l generalizing Fs with
  | nil =>
    rw [List.length_nil, List.length_eq_zero_iff] at hl
    subst hl
    simp [Prog.mapM', onOk, prodVal]
  | cons a l ih =>
    obtain ⟨F, Fs, rfl⟩ := List.exists_cons_of_length_eq_add_one (by simpa using hl)
    have ih := ih Fs (by simpa using hl) (fun F' h' => hF F' (List.mem_cons_of_mem _ h')) fun F' h' a' ha' =>
      hf F' (List.mem_cons_of_mem _ h') a' (List.mem_cons_of_mem _ ha')
    have hR : (List.zipWith (fun F a => (f a).lexp (onOk F)) Fs l).prod ≠ ∞ := by
      refine list_prod_ne_top fun x hx => ?_
      obtain ⟨k, hk, rfl⟩ := List.mem_iff_getElem.1 hx
      simp only [List.getElem_zipWith]
      exact hf _ (List.mem_cons_of_mem _ (List.getElem_mem _)) _ (List.mem_cons_of_mem _ (List.getElem_mem _))
    rw [List.zipWith_cons_cons, List.prod_cons]
    simp only [Prog.mapM']
    rw [Prog.lexp_bind, mul_comm, ← Prog.lexp_const_mul _ _ hR]
    refine Prog.lexp_congr fun r _ => ?_
    match r with
    | .error e => simp [onOk]
    | .ok b =>
      rw [Prog.cont_ok, Prog.lexp_bind]
      simp only [onOk]
      rw [← ih, mul_comm, ← Prog.lexp_const_mul _ _ (hF F (by simp) b)]
      refine Prog.lexp_congr fun r _ => ?_
      cases r <;> simp [onOk, prodVal]

/-- Given the proposals, the bridges are updated independently of each other. -/
theorem C98_independent (C : McmcControls) (O : SdeOps ζ) (t vt : List ℝ) (zN zP : List ζ) (hl : zP.length = zN.length) (Fs : List (ζ → ℝ≥0∞))
    (hF : Fs.length = zN.length) (hb : ∀ F ∈ Fs, ∀ z, F z ≠ ∞)
    (hf : ∀ F ∈ Fs, ∀ i < zN.length, ∀ z z', (updateSdeBridge C O t vt i z z').lexp (onOk F) ≠ ∞) :
    (updateSde C O (.ret zP) t vt zN).lexp (onOk (prodVal Fs)) =
      (List.zipWith (fun F q => (updateSdeBridge C O t vt q.1 q.2.1 q.2.2).lexp (onOk F)) Fs ((List.range zN.length).zip (zN.zip zP))).prod := by
  unfold updateSde
  rw [Prog.ret_bind, mapM'_prod _ _ (by simp [hF, hl]) hb]
  intro F h q hq
  exact hf F h _ (List.mem_range.1 (List.of_mem_zip (a := q.1) (b := q.2) hq).1) _ _

/-- Two bridges of real seeds. -/
example : (updateSde ⟨0.01, true, 1⟩ demoSdeOps (.ret [1, 2]) [0, 1, 3] [0, 1, 5] [3, 4]).lexp (onOk (prodVal [fun _ => 1, fun _ => 1])) =
    (updateSdeBridge ⟨0.01, true, 1⟩ demoSdeOps [0, 1, 3] [0, 1, 5] 0 3 1).lexp (onOk fun _ => 1) *
      (updateSdeBridge ⟨0.01, true, 1⟩ demoSdeOps [0, 1, 3] [0, 1, 5] 1 4 2).lexp (onOk fun _ => 1) := by
  have key : ∀ i < 2, ∀ z z' : ℝ, (updateSdeBridge ⟨0.01, true, 1⟩ demoSdeOps [0, 1, 3] [0, 1, 5] i z z').lexp (onOk fun _ => 1) ≠ ∞ := by
    intro i hi z z'
    obtain ⟨op, hop⟩ : ∃ op, (itoNormops itoOu ![1, 1] [0, 1, 3] [0, 1, 5])[i]? = some op :=
      ⟨_, List.getElem?_eq_getElem (by simpa [itoNormops, npDiff] using hi)⟩
    obtain ⟨m, hm, ho⟩ := C98_submodel hop
    rw [bridge_exp (C := ⟨0.01, true, 1⟩) (O := demoSdeOps) (by norm_num) hm ho (IP := {x | id x = z'}) (IN := {x | id x = z}) rfl rfl rfl rfl
      (demoSde_coin op z') (demoSde_coin op z) (a := 1) (b := 1) (fun _ _ => rfl) fun _ _ => rfl]
    simp only [accF, rejF, rejQ, McmcControls.plain, Finset.sum_range_one, pow_zero]
    simp [ENNReal.mul_ne_top, ENNReal.add_ne_top]
  have := C98_independent ⟨0.01, true, 1⟩ demoSdeOps [0, 1, 3] [0, 1, 5] [3, 4] [1, 2] rfl [fun _ => 1, fun _ => 1] rfl (by simp)
    (by
      intro F hF i hi z z'
      have : F = fun _ => 1 := by simpa using hF
      rw [this]
      exact key i hi z z')
  simpa [List.range_succ] using this

theorem seedCoin_keeps {n k : ℕ} {disc : ℝ → ℝ} {ebd : ℝ → ℝ → Res DiscBounds} {op : NormOp} {size : ℤ} {z z' : EaSkel} {v : Bool} {lb : ℝ} {H H' : List ℝ}
    (hT : 0 < op.finT) (hv : z.Valid) (h : (flipPoissonCoin n k disc ebd op size z).Gen H (.ok (v, lb, z')) H') :
    z'.Valid ∧ ∀ p ∈ z.t.zip z.x, p ∈ z'.t.zip z'.x := by
  unfold flipPoissonCoin seedCoin at h
  cases hb : boundDiscPath ebd op z (.pieces 1) with
  | error e => rw [hb] at h; simp [Prog.lift] at h
  | ok b =>
    obtain ⟨t, le, ue⟩ := b
    obtain ⟨rfl, l, u, rfl, rfl⟩ := bound_one hT hb
    rw [hb] at h
    cases u with
    | top =>
      have hm : maxGap [l] [⊤] = .ok ⊤ := rfl
      simp only [Prog.lift, Prog.ret_bind, hm] at h
      simp only [Prog.gen_ret, Except.ok.injEq, Prod.mk.injEq] at h
      obtain ⟨⟨rfl, rfl, rfl⟩, -⟩ := h
      exact ⟨hv, fun _ h => h⟩
    | coe u =>
      have hm : maxGap [l] [(u : WithTop ℝ)] = .ok ((u - l : ℝ) : WithTop ℝ) := rfl
      simp only [Prog.lift, Prog.ret_bind, hm] at h
      rw [Prog.gen_bind_ok] at h
      obtain ⟨⟨v1, z1⟩, H1, h1, h2⟩ := h
      simp only [Prog.gen_ret, Except.ok.injEq, Prod.mk.injEq] at h2
      obtain ⟨⟨rfl, rfl, rfl⟩, -⟩ := h2
      have hf : (op.denorm 1 none).1 = op.finT := by simp [NormOp.denorm]
      rw [hf] at h1
      obtain ⟨-, -, -, bs, j, q1, q2, q3, q4⟩ := batchCoin_gen h1
      obtain ⟨c4, c5, -, -⟩ := searched_known (disc := disc) (l := l) (R := BatchStep _ _) (fun _ _ _ _ hv h => poisson_step hT hv h) hv q4
      exact ⟨c4, c5⟩

/-- `z'` knows everything `z` knows. -/
def SeedRefines (z z' : EaSkel) : Prop := ∀ p ∈ z.t.zip z.x, p ∈ z'.t.zip z'.x

theorem search_gen {c : Coin ζ ζ} {IP IN : Set ζ} (hP : ∀ z ∈ IP, ∀ r H H', (c z).Gen H (.ok r) H' → r.2.2 ∈ IP)
    (hN : ∀ z ∈ IN, ∀ r H H', (c z).Gen H (.ok r) H' → r.2.2 ∈ IN) (hr : ∀ z r, (c z).Out (.ok r) → r.2.1 = r.2.2) {v1 prk : ℝ} {zN : ζ} (hz : zN ∈ IN)
    (n : ℕ) {s : ζ × ζ} (hs : s.1 ∈ IP ∧ s.2 ∈ IN) {v : Verdict (ζ × ζ) ζ} {H H' : List ℝ}
    (h : (twocoinLoop v1 (fun s => (c s.1).bind fun r => .ret (r.1, r.2.1, (r.2.2, s.2)))
      (fun s => (c s.2).bind fun r => .ret (r.1, r.2.1, (s.1, r.2.2))) prk zN n s).Gen H (.ok v) H') :
    v.1.2.2 ∈ IP ∨ v.1.2.2 ∈ IN := by
  induction n generalizing s H with
  | zero => simp [twocoinLoop] at h
  | succ n ih =>
    simp only [twocoinLoop, Prog.gen_real] at h
    obtain ⟨u, -, -, h⟩ := h
    have key : ∀ (b : Bool) (r : Bool × ζ × (ζ × ζ)) (H : List ℝ), (r.2.2.1 ∈ IP ∧ r.2.2.2 ∈ IN) → (r.2.1 ∈ IP ∨ r.2.1 ∈ IN) →
        (if r.1 then Prog.ret ((b, false, r.2.1), r.2.2) else Prog.real (.uniform 0 1) fun u' =>
          if u' < prk then .ret ((false, true, zN), r.2.2) else twocoinLoop v1 (fun s => (c s.1).bind fun r => .ret (r.1, r.2.1, (r.2.2, s.2)))
      (fun s => (c s.2).bind fun r => .ret (r.1, r.2.1, (s.1, r.2.2))) prk zN n r.2.2).Gen H (.ok v) H' → v.1.2.2 ∈ IP ∨ v.1.2.2 ∈ IN := by
      intro b r H h1 h2 h3
      split_ifs at h3 with hb
      · simp only [Prog.gen_ret, Except.ok.injEq] at h3
        rw [h3.1]
        exact h2
      · simp only [Prog.gen_real] at h3
        obtain ⟨u', -, -, h3⟩ := h3
        split_ifs at h3
        · simp only [Prog.gen_ret, Except.ok.injEq] at h3
          rw [h3.1]
          exact .inr hz
        · exact ih h1 h3
    split_ifs at h
    · rw [Prog.gen_bind_ok] at h
      obtain ⟨r, H1, h1, h2⟩ := h
      rw [Prog.gen_bind_ok] at h1
      obtain ⟨q, H2, hq, h1⟩ := h1
      simp only [Prog.gen_ret, Except.ok.injEq] at h1
      rw [h1.1] at h2
      exact key true _ _ ⟨hP _ hs.1 _ _ _ hq, hs.2⟩ (.inl (by simpa [hr _ _ hq.out] using hP _ hs.1 _ _ _ hq)) h2
    · rw [Prog.gen_bind_ok] at h
      obtain ⟨r, H1, h1, h2⟩ := h
      rw [Prog.gen_bind_ok] at h1
      obtain ⟨q, H2, hq, h1⟩ := h1
      simp only [Prog.gen_ret, Except.ok.injEq] at h1
      rw [h1.1] at h2
      exact key false _ _ ⟨hs.1, hN _ hs.2 _ _ _ hq⟩ (.inr (by simpa [hr _ _ hq.out] using hN _ hs.2 _ _ _ hq)) h2

theorem normop_pos {p : ℕ} {M : ItoFns p} {thi : Fin p → ℝ} {t vt : List ℝ} (ht : t.Pairwise (· < ·)) {i : ℕ} {op : NormOp}
    (h : (itoNormops M thi t vt)[i]? = some op) : 0 < op.finT := by
  unfold itoNormops at h
  simp only [List.getElem?_map, Option.map_eq_some_iff, List.getElem?_zip_eq_some] at h
  obtain ⟨⟨d, x0, x1⟩, ⟨h1, -, -⟩, rfl⟩ := h
  obtain ⟨g1, rfl⟩ := npDiff_getElem? t i d h1
  have := List.pairwise_iff_getElem.1 ht i (i + 1) (by omega) g1 (by omega)
  simpa using this

/-- For distinct draws `update_sde` returns as many seeds as there were, each valid and knowing all that the current seed of its bridge or the
proposal for its bridge knows. -/
theorem C98_bridges {p : ℕ} {M : ItoFns p} {ebd : (Fin p → ℝ) → ℝ → ℝ → Res DiscBounds} {thi : Fin p → ℝ} {size : ℤ} {n k : ℕ}
    {C : McmcControls} {t vt : List ℝ} (ht : t.Pairwise (· < ·)) {aug : Prog (List EaSkel)} {Q : NormOp → EaSkel → Prop} (hQ : ∀ op z, Q op z → z.Valid)
    (ha : ∀ l, aug.Out (.ok l) → List.Forall₂ Q (itoNormops M thi t vt) l) {zN z : List EaSkel} (hz : ∀ z ∈ zN, z.Valid)
    (hl : zN.length = (itoNormops M thi t vt).length) {H H' : List ℝ} (h : (updateSde C (itoSdeOps n k M ebd thi size) aug t vt zN).Gen H (.ok z) H') :
    z.length = zN.length ∧ ∀ (i : ℕ) op z0 z1, (itoNormops M thi t vt)[i]? = some op → zN[i]? = some z0 → z[i]? = some z1 →
      z1.Valid ∧ (SeedRefines z0 z1 ∨ ∃ zp, Q op zp ∧ SeedRefines zp z1) := by
  unfold updateSde at h
  rw [Prog.gen_bind_ok] at h
  obtain ⟨zP, H1, hP, h⟩ := h
  have hP' := ha _ hP.out
  have hlP := hP'.length_eq
  have hF := Prog.gen_mapM' h
  refine ⟨by rw [← hF.length_eq]; simp [← hlP, hl], ?_⟩
  intro i op z0 z1 e1 e2 e3
  obtain ⟨i1, rfl⟩ := List.getElem?_eq_some_iff.1 e1
  obtain ⟨i2, rfl⟩ := List.getElem?_eq_some_iff.1 e2
  obtain ⟨i3, rfl⟩ := List.getElem?_eq_some_iff.1 e3
  have i4 : i < zP.length := hlP ▸ i1
  have hraw := List.forall₂_iff_get.1 hP' |>.2 i i1 i4
  obtain ⟨H2, H3, -, hb⟩ := List.forall₂_iff_get.1 hF |>.2 i (by simp [i2, i4]) i3
  simp only [List.get_eq_getElem, List.getElem_zip, List.getElem_range] at hraw hb
  obtain ⟨m, hm, ho⟩ := C98_submodel e1
  have hpos := normop_pos ht e1
  set op := (itoNormops M thi t vt)[i] with hop
  rw [bridge_eq (O := itoSdeOps n k M ebd thi size) hm ho, Prog.gen_bind_ok] at hb
  obtain ⟨wN, H4, -, hb⟩ := hb
  rw [Prog.gen_bind_ok] at hb
  obtain ⟨wP, H5, -, hb⟩ := hb
  rw [Prog.gen_bind_ok] at hb
  obtain ⟨v, H6, hv, hb⟩ := hb
  simp only [Prog.gen_ret, Except.ok.injEq] at hb
  have hvN : (zN[i]).Valid := hz _ (List.getElem_mem _)
  have hvP : (zP[i]).Valid := hQ _ _ hraw
  have keeps : ∀ y z, z ∈ {z : EaSkel | z.Valid ∧ SeedRefines y z} → ∀ r H H', (bridgeCoin (itoSdeOps n k M ebd thi size) op z).Gen H (.ok r) H' →
      r.2.2 ∈ {z : EaSkel | z.Valid ∧ SeedRefines y z} := by
    rintro y z ⟨h1, h2⟩ r H H' hr
    simp only [bridgeCoin, Prog.gen_bind_ok, Prog.gen_ret, Except.ok.injEq] at hr
    obtain ⟨⟨q1, q2, q3⟩, H1, hq, hr, -⟩ := hr
    obtain ⟨k1, k2⟩ := seedCoin_keeps hpos h1 hq
    rw [hr]
    exact ⟨k1, fun p hp => k2 p (h2 p hp)⟩
  have := search_gen (IP := {z | z.Valid ∧ SeedRefines zP[i] z}) (IN := {z | z.Valid ∧ SeedRefines zN[i] z}) (fun z hz => keeps _ z hz)
    (fun z hz => keeps _ z hz) (fun z r => bridgeCoin_ret) ⟨hvN, fun _ h => h⟩ _ ⟨⟨hvP, fun _ h => h⟩, ⟨hvN, fun _ h => h⟩⟩ hv
  rw [hb.1]
  rcases this with h | h
  · exact ⟨h.1, .inr ⟨_, hraw, h.2⟩⟩
  · exact ⟨h.1, .inl h.2⟩

/-- The same for the proposals of `sample_aug`. -/
theorem C98_seeds {p : ℕ} {M : ItoFns p} {ebd : (Fin p → ℝ) → ℝ → ℝ → Res DiscBounds} {thi : Fin p → ℝ} {size : ℤ} {n k n' F : ℕ} {lb ub : Option ℝ}
    {C : McmcControls} {t vt : List ℝ} (ht : t.Pairwise (· < ·)) {zN z : List EaSkel} (hz : ∀ z ∈ zN, z.Valid)
    (hl : zN.length = (itoNormops M thi t vt).length) {H H' : List ℝ}
    (h : (updateSde C (itoSdeOps n k M ebd thi size) (itoSampleAug n' F M lb ub thi t vt) t vt zN).Gen H (.ok z) H') :
    z.length = zN.length ∧ ∀ (i : ℕ) op z0 z1, (itoNormops M thi t vt)[i]? = some op → zN[i]? = some z0 → z[i]? = some z1 →
      z1.Valid ∧ (SeedRefines z0 z1 ∨ ∃ zp, (sampleRawSeed n' F op lb ub).Out (.ok zp) ∧ SeedRefines zp z1) :=
  C98_bridges (Q := fun op z => (sampleRawSeed n' F op lb ub).Out (.ok z)) ht (fun _ _ h => (C49_wellformed h).1) (fun _ h => Prog.out_mapM'_ok.1 h) hz hl h

theorem demo_bound (z : EaSkel) : boundDiscPath (fun _ _ => .ok (none, 1 / 2, ⊤)) ⟨1, 1, 0, 0⟩ z (.pieces 1) = .ok ([0, 1], [1 / 2], [⊤]) := by
  have r2 : List.range (1 + 1) = [0, 1] := rfl
  unfold boundDiscPath
  simp only [Grid.normed, r2, List.map_cons, List.map_nil, List.tail_cons, List.dropLast, List.zipWith_cons_cons, List.zipWith_nil_left, listOk, Except.bind]
  simp [NormOp.denorm]

noncomputable def demoEa : SdeOps EaSkel := itoSdeOps 1 1 itoOu (fun _ _ _ => .ok (none, 1 / 2, ⊤)) ![1, 1] 2

theorem demo_flip (z : EaSkel) : bridgeCoin demoEa ⟨1, 1, 0, 0⟩ z = .ret (false, z, z) := by
  have hm : maxGap [1 / 2] [⊤] = .ok ⊤ := rfl
  simp only [bridgeCoin, demoEa, itoSdeOps, flipPoissonCoin, seedCoin, demo_bound, Prog.lift, Prog.ret_bind, hm]

/-- A run: the discriminant is unbounded on the range of the proposal, the coin shows tails, the search escapes. -/
theorem demo_update : (updateSde ⟨1, true, 1⟩ demoEa (.ret [⟨[0, 1], [0, 0], -2, 2, 0, none⟩]) [0, 1] [0, 0] [exZ]).Gen [] (.ok [exZ]) [1 / 4, 0] := by
  have ho : itoNormops itoOu ![1, 1] [0, 1] [0, 0] = [⟨1, 1, 0, 0⟩] := by simp [itoNormops, itoOu, npDiff]
  have hm : subModel [0, 1] [0, 0] 0 = .ok ([0, 1], [0, 0]) := by simpa using sub_ok (t := [0, 1]) (vt := [0, 0]) (i := 0) (by simp) (by simp)
  have hw : ∀ z, demoEa.weight ⟨1, 1, 0, 0⟩ z = .ok (-1 / 2) := by
    intro z
    simp only [demoEa, itoSdeOps, integrateDiscBound, demo_bound]
    norm_num [stLbDisc, npDiff]
  unfold updateSde
  simp only [Prog.ret_bind, List.length_cons, List.length_nil, List.zip_cons_cons, List.zip_nil_left, Prog.mapM', List.range_succ, List.range_zero,
    List.nil_append]
  rw [bridge_eq (O := demoEa) hm ho, hw, hw]
  simp only [Prog.lift, Prog.ret_bind, bridgeSearch, sampleTwocoin, twocoinLoop, demo_flip, Prog.real_bind, Prog.gen_real]
  refine ⟨0, by simp [RDist.support], by simp, ?_⟩
  rw [if_pos (.inl rfl)]
  simp only [Bool.false_eq_true, if_false, Prog.real_bind, Prog.gen_real]
  refine ⟨1 / 4, by norm_num [RDist.support], by norm_num, ?_⟩
  rw [if_pos (by norm_num)]
  simp [Prog.ret_bind]

example : ([exZ] : List EaSkel).length = 1 ∧ ∀ (i : ℕ) op z0 z1, (itoNormops itoOu ![1, 1] [0, 1] [0, 0])[i]? = some op → [exZ][i]? = some z0 → [exZ][i]? = some z1 →
      z1.Valid ∧ (SeedRefines z0 z1 ∨ ∃ zp, zp.Valid ∧ SeedRefines zp z1) :=
  C98_bridges (Q := fun _ z => z.Valid) (by simp) (fun _ _ h => h) (by
    intro l h
    simp only [Prog.out_ret, Except.ok.injEq] at h
    subst h
    rw [show itoNormops itoOu ![1, 1] [0, 1] [0, 0] = [⟨1, 1, 0, 0⟩] by simp [itoNormops, itoOu, npDiff]]
    exact .cons ⟨by simp, rfl, rfl, by simp⟩ .nil) (by simpa using exZ_valid) (by simp [itoNormops, npDiff]) demo_update

/-- The joint update never reaches the bridges: the scalar proposal of the parameter update raises (C37). -/
theorem C98_joint_never_returns {n : ℕ} (A : AdaptPar) (C : McmcControls) (lik prior : (Fin n → ℝ) → ℝ)
    (flip : (Fin n → ℝ) → (Fin n → ℝ) → SideCoin (List ζ) (List ζ)) (O : (Fin n → ℝ) → SdeOps ζ) (aug : (Fin n → ℝ) → Prog (List ζ)) (t vt : List ℝ)
    (thi : Fin n → ℝ) (z : List ζ) (ss : Fin n → Rw) (h : ∀ i, Inside (ss i).state (ss i).lb (ss i).ub) (hs : ∀ i, (ss i).sched.logScale ≠ []) (r) :
    ¬ (itoUpdateJoint A C lik prior flip O aug t vt thi z ss).Out (.ok r) := by
  intro hr
  unfold itoUpdateJoint at hr
  rw [Prog.out_bind_ok] at hr
  obtain ⟨q, hq, -⟩ := hr
  rcases C67_ito_never_returns A C lik prior flip thi z ss h hs hq with h | ⟨-, h⟩ <;> simp at h

end Ctb
