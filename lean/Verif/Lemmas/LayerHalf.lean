import Verif.Lemmas.LayerLaw

/-! # The law of a bridge above a level -/

set_option linter.unusedSectionVars false

namespace Ctb

open MeasureTheory Set
open scoped ENNReal

theorem entrDens_pos {m T x : ℝ} (hT : 0 < T) (hx : m < x) : entrDens m T x ≠ 0 ∧ entrDens m T x ≠ ∞ := by
  rw [entrDens, if_pos hx]
  exact ⟨(ENNReal.ofReal_pos.2 (passDens_pos (sub_pos.2 hx) hT)).ne', ENNReal.ofReal_ne_top⟩

theorem killDens_eq {m T a b : ℝ} (hT : 0 < T) (hm : m < min a b) :
    killDens m T a b = ENNReal.ofReal (normDensR T (b - a)) * ENNReal.ofReal (1 - Real.exp (-2 * (a - m) * (b - m) / T)) := by
  rw [killDens, if_pos (lt_min_iff.1 hm), ← ENNReal.ofReal_mul (normDensR_gt hT _).le]
  congr 1
  rw [mul_sub, mul_one]
  congr 1
  unfold normDensR
  rw [div_mul_eq_mul_div, ← Real.exp_add]
  congr 2
  field_simp
  ring

theorem killDens_pos {m T a b : ℝ} (hT : 0 < T) (hm : m < min a b) : killDens m T a b ≠ 0 ∧ killDens m T a b ≠ ∞ := by
  rw [killDens_eq hT hm]
  have h := lt_min_iff.1 hm
  refine ⟨mul_ne_zero (ENNReal.ofReal_pos.2 (normDensR_gt hT _)).ne' (ENNReal.ofReal_pos.2 ?_).ne', ENNReal.mul_ne_top ENNReal.ofReal_ne_top ENNReal.ofReal_ne_top⟩
  rw [sub_pos, Real.exp_lt_one_iff]
  have h1 : 0 < (a - m) * (b - m) := mul_pos (by linarith) (by linarith)
  have : 0 < 2 * ((a - m) * (b - m)) / T := by positivity
  have e : -2 * (a - m) * (b - m) / T = -(2 * ((a - m) * (b - m)) / T) := by ring
  rw [e]
  linarith

theorem bridgeMin_half {m T a b : ℝ} (hT : 0 < T) (hm : m < min a b) {F : ℝ × ℝ → ℝ≥0∞} (hF : Measurable F) :
    killDens m T a b * (sampleBridgeMin T a b (some m) none).lexp (onOk F) =
      ∫⁻ m' in Ioo m (min a b), ∫⁻ s in Ioo 0 T, 2 * (entrDens m' s a * entrDens m' (T - s) b) * F (s, m') := by
  have hb : MinBoundsOk a b (some m) ((none : Option ℝ).getD (min a b)) := ⟨by simpa using hm, le_rfl⟩
  have h := bridgeMin_law (lb := some m) (ub := none) hT hb hF
  have e1 : cdfMinBase T a b (some ((none : Option ℝ).getD (min a b))) = 1 := by simp [cdfMinBase]
  have e2 : minRange (some m) ((none : Option ℝ).getD (min a b)) = Ioo m (min a b) := by
    ext x; simp [minRange]
  rw [e1, e2, cdfMinBase_eq hm.le] at h
  have hφ := normDensR_gt hT (b - a)
  rw [killDens_eq hT hm, mul_assoc, h, ← lintegral_const_mul' _ _ ENNReal.ofReal_ne_top]
  refine setLIntegral_congr_fun measurableSet_Ioo fun m' hm' => ?_
  have ha := hm'.2.trans_le (min_le_left a b)
  have hb := hm'.2.trans_le (min_le_right a b)
  rw [← lintegral_const_mul' _ _ ENNReal.ofReal_ne_top]
  refine setLIntegral_congr_fun measurableSet_Ioo fun s hs => ?_
  rw [← mul_assoc, ← ENNReal.ofReal_mul hφ.le, entrDens, entrDens, if_pos ha, if_pos hb, ← ENNReal.ofReal_mul (passDens_nonneg (by linarith)), minDens,
    show (2 : ℝ≥0∞) = ENNReal.ofReal 2 by simp, ← ENNReal.ofReal_mul (by norm_num)]
  congr 2
  field_simp

theorem edge_half {n : ℕ} (hn : 0 < n) {x : ℝ} {vs : List ℝ} {F : List ℝ → ℝ≥0∞} (hx : 0 < x) (hne : vs ≠ []) (hp : ∀ v ∈ vs, 0 < v)
    (hF : MeasL (vs.length - 1) fun _ : Unit => F) :
    entrDens 0 vs.sum x * (proposeEdge n (npCumsum vs).dropLast vs.sum x none none).lexp (onOk fun q => F q.1) = startInt (entrDens 0) (killDens 0) x vs F := by
  obtain ⟨n, rfl⟩ : ∃ k, n = k + 1 := ⟨n - 1, by omega⟩
  rw [proposeEdge, Prog.assert, if_pos (grid_mem hp), Prog.ret_bind, Prog.assert, if_pos (by simp), Prog.ret_bind, edgeLoop]
  simp only [escAny, hitFlags, Prog.ret_bind, Bool.false_eq_true, if_false]
  match vs, hne with
  | [v], _ => simp [grid_one, onOk, startInt]
  | v :: w :: vs, _ =>
    rw [if_neg (by rw [grid_cons]; simp), Prog.lexp_bind]
    exact besselbr_law hx (by simp) hp hF fun l => rfl

theorem layerSpec_half {n : ℕ} (hn : 0 < n) : LayerSpec none entrDens killDens n (fun _ _ _ => 1) (fun _ _ _ _ => 1) where
  ker := layerKer_half
  measγ := measurable_const
  chance _ _ _ := ENNReal.one_ne_top
  fin hT hx _ := entrDens_pos hT hx
  edge {m x vs F} hx _ hne hp hF := by
    rw [one_mul]
    have h := edge_half hn (sub_pos.2 hx) hne hp (F := fun l => F (l.map (· + m))) (MeasL.map (hF _) (g := (· + m)) (by fun_prop))
    have e := entrDens_shift m vs.sum (x - m)
    rw [sub_add_cancel] at e
    rw [e, Option.map_none, h, startInt_shift (entrDens_shift m) (killDens_shift m), sub_add_cancel]
  min {m T a b F} hT hm _ hF := by
    rw [one_mul, ← bridgeMin_half hT hm hF, sampleLayerMin, Prog.assert, if_pos hT, Prog.ret_bind, Prog.assert, if_pos (by simp), Prog.ret_bind]
    exact congrArg _ (if_neg hn.ne' ▸ rfl)

section
variable {E : ℝ → ℝ → ℝ → ℝ≥0∞} {K : ℝ → ℝ → ℝ → ℝ → ℝ≥0∞}

theorem LayerKer.below (h : LayerKer E K) (h0 : ∀ m v x, x ≤ m → E m v x = 0) {v : ℝ} (hv : 0 < v) {m x : ℝ} (hx : x ≤ m) (y : ℝ) : K m v x y = 0 := by
  rw [← h.split hv]
  rw [setLIntegral_congr_fun measurableSet_Ioi (g := fun _ => 0), lintegral_zero]
  intro m' hm'
  simp [h0 m' _ x (hx.trans (le_of_lt hm'))]

theorem LayerKer.kerInt_below (h : LayerKer E K) (h0 : ∀ m v x, x ≤ m → E m v x = 0) {m b : ℝ} (hb : b ≤ m) : ∀ (vs : List ℝ), (∀ v ∈ vs, 0 < v) → ∀ x F,
    kerInt (K m) b vs x F = 0
  | [], _, _, _ => rfl
  | [v], hp, x, F => by
    rw [kerInt, h.symm, h.below h0 (hp v (by simp)) hb, zero_mul]
  | v :: w :: vs, hp, x, F => by
    have hp' : ∀ u ∈ w :: vs, 0 < u := fun u hu => hp u (List.mem_cons_of_mem _ hu)
    simp [kerInt, LayerKer.kerInt_below h h0 hb (w :: vs) hp']

theorem LayerKer.minInt_below (h : LayerKer E K) (h0 : ∀ m v x, x ≤ m → E m v x = 0) {m b : ℝ} : ∀ (vs : List ℝ), (∀ v ∈ vs, 0 < v) → ∀ x F, min x b ≤ m →
    minInt E K m b vs x F = 0
  | [], _, _, _, _ => rfl
  | [v], hp, x, F, hm => by
    have : gapDens E m v x b = 0 := by
      unfold gapDens
      rcases min_le_iff.1 hm with hm | hm <;> simp [h0 m _ _ hm]
    rw [minInt, this, zero_mul]
  | v :: w :: vs, hp, x, F, hm => by
    have hp' : ∀ u ∈ w :: vs, 0 < u := fun u hu => hp u (List.mem_cons_of_mem _ hu)
    have hz : ∀ y, (gapDens E m v x y * (kerInt (K m) b (w :: vs) y fun l => F (y :: l)) +
      K m v x y * minInt E K m b (w :: vs) y fun l => F (y :: l)) = 0 := by
      intro y
      rcases min_le_iff.1 hm with hm | hm
      · have : gapDens E m v x y = 0 := by
          unfold gapDens; simp [h0 m _ _ hm]
        rw [this, h.below h0 (hp v (by simp)) hm]; simp
      · rw [h.kerInt_below h0 hm (w :: vs) hp', LayerKer.minInt_below h h0 (w :: vs) hp' _ _ (min_le_of_right_le hm)]; simp
    rw [minInt, lintegral_congr hz, lintegral_zero]

/-- Over all minima. -/
theorem split_total (h : LayerKer E K) (h0 : ∀ m v x, x ≤ m → E m v x = 0) {m a b : ℝ} {vs : List ℝ} (hp : ∀ v ∈ vs, 0 < v) (hm : m < min a b) {F : List ℝ → ℝ≥0∞}
    (hF : MeasL (vs.length - 1) fun _ : Unit => F) :
    ∫⁻ m' in Ioo m (min a b), ∫⁻ s in Ioo 0 vs.sum, 2 * splitInt E K m' b vs a s F = kerInt (K m) b vs a F := by
  rw [lintegral_congr fun m' => splitInt_time h m' b vs hp a hF, ← minInt_tail h b vs hp a m hF, ← Ioo_union_Ici_eq_Ioi hm,
    lintegral_union measurableSet_Ici (by rw [Set.disjoint_left]; intro u hu hu2; exact absurd hu.2 (not_lt.2 hu2))]
  rw [setLIntegral_congr_fun measurableSet_Ici (g := fun _ => 0) (fun m' hm' => h.minInt_below h0 vs hp _ _ hm'), lintegral_zero, add_zero]

end

/-! ## total mass -/

section
variable {α β : Type}

/-- Every draw has a law of total mass one. -/
def Prog.Full : Prog α → Prop
  | .ret _ => True
  | .err _ => True
  | .real d k => d.law Set.univ = 1 ∧ ∀ x, (k x).Full
  | .nat d k => d.law Set.univ = 1 ∧ ∀ n, (k n).Full

theorem Prog.Full.bind {p : Prog α} {f : α → Prog β} (hp : p.Full) (hf : ∀ a, (f a).Full) : (p.bind f).Full := by
  induction p with
  | ret a => exact hf a
  | err e => trivial
  | real d k ih => exact ⟨hp.1, fun x => ih x (hp.2 x)⟩
  | nat d k ih => exact ⟨hp.1, fun x => ih x (hp.2 x)⟩

theorem Prog.Full.replicate {p : Prog α} (hp : p.Full) (n : ℕ) : (Prog.replicate n p).Full := by
  induction n with
  | zero => trivial
  | succ n ih => exact hp.bind fun _ => ih.bind fun _ => trivial

theorem Prog.Full.mapM' {f : α → Prog β} (l : List α) (hf : ∀ a, (f a).Full) : (Prog.mapM' f l).Full := by
  induction l with
  | nil => trivial
  | cons a l ih => exact (hf a).bind fun _ => ih.bind fun _ => trivial

theorem Prog.Full.lexp_const {p : Prog α} (hp : p.Full) (c : ℝ≥0∞) : p.lexp (fun _ => c) = c := by
  induction p with
  | ret a => rfl
  | err e => rfl
  | real d k ih => rw [Prog.lexp_real, lintegral_congr fun x => ih x (hp.2 x), lintegral_const, hp.1, mul_one]
  | nat d k ih => rw [Prog.lexp_nat, lintegral_congr fun x => ih x (hp.2 x), lintegral_const, hp.1, mul_one]

theorem Prog.Full.ite {c : Prop} [Decidable c] {p q : Prog α} (hp : p.Full) (hq : q.Full) : (if c then p else q).Full := by
  split_ifs <;> assumption

theorem Prog.Full.assert (c : Prop) [Decidable c] : (Prog.assert c).Full := by
  unfold Prog.assert; exact Prog.Full.ite trivial trivial

end

theorem full_normal : (Prog.draw (.normal 0 1)).Full := ⟨by simp [RDist.law], fun _ => trivial⟩

theorem full_besselbr (x : ℝ) {vs : List ℝ} (h2 : 2 ≤ vs.length) (hp : ∀ v ∈ vs, 0 < v) : (sampleBesselbr (npCumsum vs).dropLast vs.sum x 3).Full := by
  refine Prog.Full.ite trivial ((Prog.Full.assert _).bind fun _ => (Prog.Full.assert _).bind fun _ => (Prog.Full.mapM' _ fun w => ?_).bind fun _ => trivial)
  rw [sampleBrownbr_eq 0 w h2 hp]
  exact (full_normal.replicate _).bind fun _ => trivial

theorem measL_one (n : ℕ) : MeasL n fun (_ : Unit) (_ : List ℝ) => (1 : ℝ≥0∞) := measurable_const

/-- The entrance density is consistent. -/
theorem start_mass_zero {x : ℝ} (hx : 0 < x) {vs : List ℝ} (hne : vs ≠ []) (hp : ∀ v ∈ vs, 0 < v) :
    startInt (entrDens 0) (killDens 0) x vs (fun _ => 1) = entrDens 0 vs.sum x := by
  match vs, hne with
  | [v], _ => simp [startInt]
  | v :: w :: vs, _ =>
    rw [← besselbr_law hx (by simp) hp (measL_one _) (g := fun _ => 1) fun _ => rfl, (full_besselbr x (by simp) hp).lexp_const, mul_one]

theorem start_mass_half {m x : ℝ} (hx : m < x) {vs : List ℝ} (hne : vs ≠ []) (hp : ∀ v ∈ vs, 0 < v) :
    startInt (entrDens m) (killDens m) x vs (fun _ => 1) = entrDens m vs.sum x := by
  have h := start_mass_zero (sub_pos.2 hx) hne hp
  have h2 := startInt_shift (entrDens_shift m) (killDens_shift m) (x - m) vs (fun _ => 1)
  rw [sub_add_cancel] at h2
  rw [← h2, h, ← entrDens_shift m, sub_add_cancel]

section
variable {E : ℝ → ℝ → ℝ → ℝ≥0∞} {K : ℝ → ℝ → ℝ → ℝ → ℝ≥0∞}

theorem startInt_const (e : ℝ → ℝ → ℝ≥0∞) (k : ℝ → ℝ → ℝ → ℝ≥0∞) (hk : MeasK fun _ : Unit => k) (he : ∀ v, Measurable (e v)) (x : ℝ) (vs : List ℝ) (c : ℝ≥0∞) :
    startInt e k x vs (fun _ => c) = c * startInt e k x vs fun _ => 1 := by
  match vs with
  | [] => simp [startInt]
  | [v] => simp [startInt, mul_comm]
  | v :: w :: vs =>
    simp only [startInt]
    have e1 : ∀ y, kerInt k x (w :: vs) y (fun _ => c) = c * kerInt k x (w :: vs) y fun _ => 1 := by
      intro y
      rw [← kerInt_const_mul hk x c (w :: vs) y (measL_one _)]
      simp
    have hm : Measurable fun y => e v y * kerInt k x (w :: vs) y fun _ => 1 :=
      (he v).mul (kerInt_measurable' x (w :: vs) hk (X := ℝ) (F := fun _ _ => 1) measurable_const measurable_id)
    rw [← lintegral_const_mul _ hm]
    refine lintegral_congr fun y => ?_
    rw [e1]; ring

/-- Chapman and Kolmogorov. -/
theorem LayerKer.chapman (h : LayerKer E K) (h0 : ∀ m v x, x ≤ m → E m v x = 0)
    (hmass : ∀ {m x : ℝ} {vs : List ℝ}, m < x → vs ≠ [] → (∀ v ∈ vs, 0 < v) → startInt (E m) (K m) x vs (fun _ => 1) = E m vs.sum x)
    {m a b : ℝ} (hm : m < min a b) {vs : List ℝ} (hne : vs ≠ []) (hp : ∀ v ∈ vs, 0 < v) :
    kerInt (K m) b vs a (fun _ => 1) = K m vs.sum a b := by
  have hT0 : 0 < vs.sum := List.sum_pos _ hp hne
  have hkey : ∀ m' s, 0 < s → s < vs.sum → m' < min a b → s ∉ (npCumsum vs).dropLast → splitInt E K m' b vs a s (fun _ => 1) = E m' s a * E m' (vs.sum - s) b := by
    intro m' s hs0 hs1 hm' hs
    obtain ⟨ha, hb⟩ := lt_min_iff.1 hm'
    have hinc := incs_pos vs hp s hs0 hs1 hs
    have hE : ∀ v, Measurable (E m' v) := fun v => h.applyE measurable_const measurable_const measurable_id
    rw [splitInt_halves h m' b vs hne a s (measL_one _), hmass hb (rightIncs_ne vs s hne) hinc.2, rightIncs_sum vs s hne,
      startInt_const _ _ (h.measK.comp (φ := fun _ : Unit => m') measurable_const) hE,
      hmass ha (by simpa using leftIncs_ne vs s hne) (fun v hv => hinc.1 v (List.mem_reverse.1 hv)), List.sum_reverse, leftIncs_sum vs s hne, mul_comm]
  rw [← split_total h h0 hp hm (measL_one _), ← h.split hT0, ← Ioo_union_Ici_eq_Ioi hm,
    lintegral_union measurableSet_Ici (by rw [Set.disjoint_left]; intro u hu hu2; exact absurd hu.2 (not_lt.2 hu2))]
  have hz : ∫⁻ m' in Ici (min a b), ∫⁻ s in Ioo 0 vs.sum, 2 * (E m' s a * E m' (vs.sum - s) b) = 0 := by
    rw [setLIntegral_congr_fun measurableSet_Ici (g := fun _ => 0), lintegral_zero]
    intro m' hm'
    rcases min_le_iff.1 (mem_Ici.1 hm') with h1 | h1 <;> simp [h0 _ _ _ h1]
  rw [hz, add_zero]
  refine setLIntegral_congr_fun measurableSet_Ioo fun m' hm' => ?_
  refine lintegral_congr_ae ?_
  have hnull : ∀ᵐ s ∂(volume.restrict (Ioo 0 vs.sum)), s ∉ (npCumsum vs).dropLast := by
    refine ae_restrict_of_ae ?_
    rw [ae_iff]
    simp only [not_not]
    exact (List.finite_toSet _).measure_zero _
  filter_upwards [hnull, ae_restrict_mem measurableSet_Ioo] with s hs hs2
  rw [hkey m' s hs2.1 hs2.2 hm'.2 hs]

end

theorem chapman_half {m a b : ℝ} (hm : m < min a b) {vs : List ℝ} (hne : vs ≠ []) (hp : ∀ v ∈ vs, 0 < v) :
    kerInt (killDens m) b vs a (fun _ => 1) = killDens m vs.sum a b :=
  layerKer_half.chapman (fun m v x hx => if_neg (not_lt.2 hx)) (fun hx h1 h2 => start_mass_half hx h1 h2) hm hne hp

/-! ## the sampler -/

/-- Cut down to lists of one length. -/
noncomputable def ofLen (n : ℕ) (F : List ℝ → ℝ≥0∞) : List ℝ → ℝ≥0∞ := fun l => if l.length = n then F l else 0

theorem measAll_ofLen {n : ℕ} {F : List ℝ → ℝ≥0∞} (h : MeasL n fun _ : Unit => F) : MeasAll (ofLen n F) := by
  intro k
  unfold MeasL ofLen at *
  simp only [List.length_ofFn]
  by_cases hk : k = n
  · subst hk; simpa using h
  · simp [hk]

theorem kerInt_ofLen {k : ℝ → ℝ → ℝ → ℝ≥0∞} (x1 : ℝ) : ∀ (vs : List ℝ) (x : ℝ) (F : List ℝ → ℝ≥0∞), kerInt k x1 vs x (ofLen (vs.length - 1) F) = kerInt k x1 vs x F
  | [], _, _ => rfl
  | [v], x, F => by simp [kerInt, ofLen]
  | v :: w :: vs, x, F => by
    simp only [kerInt]
    refine lintegral_congr fun y => ?_
    rw [← kerInt_ofLen x1 (w :: vs) y fun l => F (y :: l)]
    congr 2
    funext l
    simp [ofLen]

theorem startInt_ofLen {e : ℝ → ℝ → ℝ≥0∞} {k : ℝ → ℝ → ℝ → ℝ≥0∞} (x1 : ℝ) (vs : List ℝ) (F : List ℝ → ℝ≥0∞) :
    startInt e k x1 vs (ofLen (vs.length - 1) F) = startInt e k x1 vs F := by
  match vs with
  | [] => rfl
  | [v] => simp [startInt, ofLen]
  | v :: w :: vs =>
    simp only [startInt]
    refine lintegral_congr fun y => ?_
    rw [← kerInt_ofLen x1 (w :: vs) y fun l => F (y :: l)]
    congr 2
    funext l
    simp [ofLen]

theorem grid_reverse : ∀ vs : List ℝ, (npCumsum vs).dropLast.reverse.map (vs.sum - ·) = (npCumsum vs.reverse).dropLast
  | [] => by simp [npCumsum, cumsumFrom]
  | [v] => by simp [npCumsum, cumsumFrom]
  | v :: w :: vs => by
    have ih := grid_reverse (w :: vs)
    rw [grid_cons, List.reverse_cons, List.reverse_cons, grid_append _ (by simp), ← ih, List.map_append, List.sum_reverse, ← List.map_reverse, List.map_map]
    congr 1
    · refine List.map_congr_left fun a _ => ?_
      simp only [Function.comp, List.sum_cons]
      ring
    · simp

theorem grid_length (vs : List ℝ) : (npCumsum vs).dropLast.length = vs.length - 1 := by
  rw [List.length_dropLast, npCumsum, cumsumFrom_length]

/-- Only the lists of the right length count. -/
theorem layer_ofLen (n : ℕ) (U L : Option ℝ) (a b m : ℝ) (vs : List ℝ) (F : List ℝ → ℝ≥0∞) :
    (proposeLayer n U L (npCumsum vs).dropLast vs.sum a b m).lexp (onOk fun q => ofLen (vs.length - 1) F q.1) =
      (proposeLayer n U L (npCumsum vs).dropLast vs.sum a b m).lexp (onOk fun q => F q.1) := by
  refine Prog.lexp_congr ?_
  rintro (e | q) h
  · rfl
  · simp only [onOk, ofLen]
    rw [if_pos]
    rw [(proposeLayer_out h).len, grid_length]

/-- Without a lower bound on the supremum the first proposal is returned. -/
theorem layerbr_first (n k : ℕ) (hk : 0 < k) (U : Option ℝ) {a b m : ℝ} {vs : List ℝ} (h2 : 2 ≤ vs.length) (hp : ∀ v ∈ vs, 0 < v) (hm : m ≤ min a b)
    (hU : ∀ U', U = some U' → max a b < U') (F : List ℝ → ℝ≥0∞) :
    (sampleLayerbr n k (npCumsum vs).dropLast vs.sum a b m U none).lexp (onOk fun q => F q.1) =
      (proposeLayer n U none (npCumsum vs).dropLast vs.sum a b m).lexp (onOk fun q => F q.1) := by
  have hne : (npCumsum vs).dropLast ≠ [] := by
    rw [← List.length_pos_iff, grid_length]; omega
  obtain ⟨k, rfl⟩ : ∃ j, k = j + 1 := ⟨k - 1, by omega⟩
  rw [sampleLayerbr, if_neg hne, Prog.assert, if_pos (grid_mem hp), Prog.ret_bind, Prog.assert, if_pos hk, Prog.ret_bind, Prog.assert, if_pos hm, Prog.ret_bind,
    Prog.assert, if_pos hU, Prog.ret_bind, Prog.assert, if_pos (by simp), Prog.ret_bind, layerbrLoop, Prog.lexp_bind]
  congr 1

theorem layer_half {n : ℕ} (hn : 0 < n) {m a b : ℝ} {vs : List ℝ} {F : List ℝ → ℝ≥0∞} (hm : m < min a b) (hne : vs ≠ []) (hp : ∀ v ∈ vs, 0 < v) (hF : MeasAll F) :
    killDens m vs.sum a b * (proposeLayer n none none (npCumsum vs).dropLast vs.sum a b m).lexp (onOk fun q => F q.1) = kerInt (killDens m) b vs a F := by
  rw [layer_law (layerSpec_half hn) hm (by simp) hne hp hF, one_mul]
  simp only [one_mul]
  exact split_total layerKer_half (fun m v x hx => if_neg (not_lt.2 hx)) hp hm (hF _)

end Ctb
