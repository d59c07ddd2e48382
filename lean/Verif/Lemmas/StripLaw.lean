import Verif.Lemmas.StripEdge

/-! # The law of the samplers of a bridge in a layer -/

set_option linter.unusedSectionVars false

namespace Ctb

open MeasureTheory Set Filter Topology
open scoped ENNReal

variable {U m T a b x : ℝ}

/-- Probability that a path that enters the strip after `T` in `x` has not escaped. -/
noncomputable def edgeRate (U m T x : ℝ) : ℝ≥0∞ := stripEntr U m T x / entrDens m T x

/-- Probability that a bridge above `m` stays below `U`. -/
noncomputable def layerRate (U m T a b : ℝ) : ℝ≥0∞ := stripDens U m T a b / killDens m T a b

theorem edgeRate_esc {p : ℝ} (hT : 0 < T) (hm : m < x) (hU : x < U) (hp : Tendsto (besSeries T 0 (x - m) (U - m)) atTop (𝓝 p)) :
    edgeRate U m T x = ENNReal.ofReal (1 - p) := by
  have := entrDens_pos hT hm
  rw [edgeRate, stripEntr_esc hT hm hU hp, mul_comm, ENNReal.mul_div_cancel_right this.1 this.2]

theorem edgeRate_mul (U m T x : ℝ) : entrDens m T x * edgeRate U m T x = stripEntr U m T x := by
  by_cases h : 0 < T ∧ m < x
  · have := entrDens_pos h.1 h.2
    rw [edgeRate, ENNReal.mul_div_cancel this.1 this.2]
  · have : stripEntr U m T x = 0 := by
      rcases not_and_or.1 h with h | h
      · exact stripEntr_nonpos (not_lt.1 h)
      · exact stripEntr_low (not_lt.1 h)
    rw [edgeRate, this, ENNReal.zero_div, mul_zero]

theorem edgeRate_le (hT : 0 < T) (hm : m < x) (hU : x < U) : edgeRate U m T x ≤ 1 ∧ edgeRate U m T x ≠ 0 := by
  obtain ⟨p, hp0, hp1, hp⟩ := C43_series hT le_rfl (sub_pos.2 hm) (by linarith : (0 : ℝ) < U - m) (by linarith : x - m < U - m)
  rw [edgeRate_esc hT hm hU hp]
  exact ⟨ENNReal.ofReal_le_one.2 (by linarith), (ENNReal.ofReal_pos.2 (by linarith)).ne'⟩

theorem layerRate_le (hT : 0 < T) (hm : m < min a b) (hU : max a b < U) : layerRate U m T a b ≤ 1 ∧ layerRate U m T a b ≠ 0 := by
  obtain ⟨ha, hb⟩ := lt_min_iff.1 hm
  obtain ⟨haU, hbU⟩ := max_lt_iff.1 hU
  obtain ⟨p, hp0, hp1, hp⟩ := C43_series hT (sub_pos.2 ha).le (sub_pos.2 hb) (by linarith : a - m < U - m) (by linarith : b - m < U - m)
  have := killDens_pos hT hm
  rw [layerRate, stripDens_esc hT ha haU hb hbU hp, mul_comm, ENNReal.mul_div_cancel_right this.1 this.2]
  exact ⟨ENNReal.ofReal_le_one.2 (by linarith), (ENNReal.ofReal_pos.2 (by linarith)).ne'⟩

theorem stripEntr_pos (hT : 0 < T) (hm : m < x) (hU : x < U) : stripEntr U m T x ≠ 0 ∧ stripEntr U m T x ≠ ∞ := by
  have h1 := entrDens_pos hT hm
  have h2 := edgeRate_le hT hm hU
  rw [← edgeRate_mul]
  exact ⟨mul_ne_zero h1.1 h2.2, ENNReal.mul_ne_top h1.2 (h2.1.trans_lt ENNReal.one_lt_top).ne⟩

theorem layerRate_mul (U m T a b : ℝ) : killDens m T a b * layerRate U m T a b = stripDens U m T a b := by
  by_cases h : 0 < T ∧ m < min a b
  · have := killDens_pos h.1 h.2
    rw [layerRate, ENNReal.mul_div_cancel this.1 this.2]
  · have : stripDens U m T a b = 0 := by
      by_cases hv : 0 < T
      · exact if_neg fun h' => h ⟨hv, lt_min h'.1 h'.2.2.1⟩
      · exact stripDens_nonpos (not_lt.1 hv)
    rw [layerRate, this, ENNReal.zero_div, mul_zero]

theorem stripDens_pos (hT : 0 < T) (hm : m < min a b) (hU : max a b < U) : stripDens U m T a b ≠ 0 ∧ stripDens U m T a b ≠ ∞ := by
  have h1 := killDens_pos hT hm
  have h2 := layerRate_le hT hm hU
  rw [← layerRate_mul]
  exact ⟨mul_ne_zero h1.1 h2.2, ENNReal.mul_ne_top h1.2 (h2.1.trans_lt ENNReal.one_lt_top).ne⟩

theorem measurable_edgeRate (U : ℝ) : Measurable fun p : ℝ × ℝ × ℝ => edgeRate U p.1 p.2.1 p.2.2 := (measurable_stripEntr U).div layerKer_half.measE

theorem min_strip {n : ℕ} {F : ℝ × ℝ → ℝ≥0∞} (hT : 0 < T) (hm : m < min a b) (hU : max a b < U) (hF : Measurable F) :
    stripDens U m T a b * (sampleLayerMin n T a b (some U) (some m) none).lexp (onOk F) =
      trials n (layerRate U m T a b) * ∫⁻ m' in Ioo m (min a b), ∫⁻ s in Ioo 0 T, 2 * (stripEntr U m' s a * stripEntr U m' (T - s) b) * F (s, m') := by
  classical
  obtain ⟨haU, hbU⟩ := max_lt_iff.1 hU
  rw [sampleLayerMin, Prog.assert, if_pos hT, Prog.ret_bind, Prog.assert, if_pos (by rintro U' ⟨⟩; exact hU.le), Prog.ret_bind]
  set α : ℝ × ℝ → ℝ≥0∞ := fun q => edgeRate U q.2 q.1 a * edgeRate U q.2 (T - q.1) b with hα
  have hαm : Measurable α :=
    ((measurable_edgeRate U).comp (by fun_prop : Measurable fun q : ℝ × ℝ => (q.2, q.1, a))).mul ((measurable_edgeRate U).comp (by fun_prop : Measurable fun q : ℝ × ℝ => (q.2, T - q.1, b)))
  have hα1 : ∀ m' ∈ Ioo m (min a b), ∀ s ∈ Ioo 0 T, α (s, m') ≤ 1 := fun m' hm' s hs =>
    mul_le_one' (edgeRate_le hs.1 (hm'.2.trans_le (min_le_left _ _)) haU).1 (edgeRate_le (sub_pos.2 hs.2) (hm'.2.trans_le (min_le_right _ _)) hbU).1
  have hEE : ∀ m' s, 2 * (entrDens m' s a * entrDens m' (T - s) b) * α (s, m') = 2 * (stripEntr U m' s a * stripEntr U m' (T - s) b) := by
    intro m' s
    rw [hα, ← edgeRate_mul U m' s a, ← edgeRate_mul U m' (T - s) b]
    ring
  have hmE := measurable_pair layerKer_half.measE layerKer_half.measE T a b
  have hmW : Measurable fun p : ℝ × ℝ => 2 * (entrDens p.1 p.2 a * entrDens p.1 (T - p.2) b) * (1 - α (p.2, p.1)) :=
    hmE.mul ((measurable_const.sub hαm).comp measurable_swap)
  set W := ∫⁻ m' in Ioo m (min a b), ∫⁻ s in Ioo 0 T, 2 * (entrDens m' s a * entrDens m' (T - s) b) * (1 - α (s, m')) with hW
  refine loop_solve (M := fun n => (layerMinLoop T a b U (some m) none n).lexp (onOk F)) (W := W) (killDens_pos hT hm).1 (killDens_pos hT hm).2 ?_ rfl (fun n => ?_) n
  · have hmain := bridgeMin_half hT hm (F := fun _ => 1) measurable_const
    have h1 : killDens m T a b = ∫⁻ m' in Ioo m (min a b), ∫⁻ s in Ioo 0 T, 2 * (entrDens m' s a * entrDens m' (T - s) b) := by
      have := layerKer_half.split hT m a b
      rw [← this, ← Ioo_union_Ici_eq_Ioi hm, lintegral_union measurableSet_Ici (by
        rw [Set.disjoint_left]; intro u hu hu2; exact absurd hu.2 (not_lt.2 hu2)),
        setLIntegral_congr_fun (s := Ici (min a b)) measurableSet_Ici (g := fun _ => 0) (fun m' hm' => ?_), lintegral_zero, add_zero]
      simp only
      rw [lintegral_congr (g := fun _ => 0), lintegral_zero]
      intro s
      rcases min_le_iff.1 (mem_Ici.1 hm') with h | h <;> simp [entrDens, not_lt.2 h]
    have h2 := strip_split hT (lt_min_iff.1 hm).1 haU (lt_min_iff.1 hm).2 hbU
    rw [h1, ← h2, hW, ← dbl_add (measurable_pair (measurable_stripEntr U) (measurable_stripEntr U) T a b)]
    refine setLIntegral_congr_fun measurableSet_Ioo fun m' hm' => setLIntegral_congr_fun measurableSet_Ioo fun s hs => ?_
    rw [← hEE, ← mul_add, add_tsub_cancel_of_le (hα1 m' hm' s hs), mul_one]
  · set R := (layerMinLoop T a b U (some m) none n).lexp (onOk F) with hR
    have hex1 : ∀ q : ℝ × ℝ, ∃ p, 0 < q.1 → q.2 < a → Tendsto (besSeries q.1 0 (a - q.2) (U - q.2)) atTop (𝓝 p) := by
      intro q
      by_cases h : 0 < q.1 ∧ q.2 < a
      · obtain ⟨p, -, -, hp⟩ := C43_series h.1 le_rfl (sub_pos.2 h.2) (by linarith [h.2] : (0 : ℝ) < U - q.2) (by linarith [h.2] : a - q.2 < U - q.2)
        exact ⟨p, fun _ _ => hp⟩
      · exact ⟨0, fun h1 h2 => absurd ⟨h1, h2⟩ h⟩
    have hex2 : ∀ q : ℝ × ℝ, ∃ p, q.1 < T → q.2 < b → Tendsto (besSeries (T - q.1) 0 (b - q.2) (U - q.2)) atTop (𝓝 p) := by
      intro q
      by_cases h : q.1 < T ∧ q.2 < b
      · obtain ⟨p, -, -, hp⟩ := C43_series (sub_pos.2 h.1) le_rfl (sub_pos.2 h.2) (by linarith [h.2] : (0 : ℝ) < U - q.2) (by linarith [h.2] : b - q.2 < U - q.2)
        exact ⟨p, fun _ _ => hp⟩
      · exact ⟨0, fun h1 h2 => absurd ⟨h1, h2⟩ h⟩
    choose P1 hP1 using hex1
    choose P2 hP2 using hex2
    rw [C40_layer_law hU P1 P2 (fun t m => hP1 (t, m)) (fun t m => hP2 (t, m)) (onOk F), ← hR]
    have hmF : Measurable fun q => α q * F q + R * (1 - α q) := (hαm.mul hF).add ((measurable_const.sub hαm).const_mul R)
    have hcong : (sampleBridgeMin T a b (some m) none).lexp (keepOr (fun q => (1 - P1 q) * (1 - P2 q)) (onOk F) R) =
        (sampleBridgeMin T a b (some m) none).lexp (onOk fun q => α q * F q + R * (1 - α q)) := by
      refine Prog.lexp_congr ?_
      rintro (e | ⟨t, m'⟩) h
      · rfl
      obtain ⟨ht, htT, hma, hmb, -, -⟩ := C40_bridge_partial h
      have q1 := hP1 (t, m') ht hma
      have q2 := hP2 (t, m') htT hmb
      obtain ⟨p1, a0, a1, hp1⟩ := C43_series ht le_rfl (sub_pos.2 hma) (by linarith : (0 : ℝ) < U - m') (by linarith : a - m' < U - m')
      obtain ⟨p2, b0, b1, hp2⟩ := C43_series (sub_pos.2 htT) le_rfl (sub_pos.2 hmb) (by linarith : (0 : ℝ) < U - m') (by linarith : b - m' < U - m')
      obtain rfl := tendsto_nhds_unique q1 hp1
      obtain rfl := tendsto_nhds_unique q2 hp2
      have e1 : α (t, m') = ENNReal.ofReal ((1 - P1 (t, m')) * (1 - P2 (t, m'))) := by
        rw [hα, ENNReal.ofReal_mul (by linarith)]
        simp only
        rw [edgeRate_esc ht hma haU q1, edgeRate_esc (sub_pos.2 htT) hmb hbU q2]
      simp only [keepOr, onOk]
      have hnn : 0 ≤ (1 - P1 (t, m')) * (1 - P2 (t, m')) := mul_nonneg (by linarith) (by linarith)
      rw [e1, ENNReal.ofReal_sub _ hnn, ENNReal.ofReal_one, mul_comm R]
    rw [hcong, bridgeMin_half hT hm hmF]
    have hmS : Measurable fun p : ℝ × ℝ => 2 * (stripEntr U p.1 p.2 a * stripEntr U p.1 (T - p.2) b) * F (p.2, p.1) :=
      (measurable_pair (measurable_stripEntr U) (measurable_stripEntr U) T a b).mul (hF.comp measurable_swap)
    have hWc : W * R = ∫⁻ m' in Ioo m (min a b), ∫⁻ s in Ioo 0 T, 2 * (entrDens m' s a * entrDens m' (T - s) b) * (1 - α (s, m')) * R := by
      rw [hW, ← lintegral_mul_const _ hmW.lintegral_prod_right']
      refine lintegral_congr fun m' => ?_
      have hs1 : Measurable fun s : ℝ => 2 * (entrDens m' s a * entrDens m' (T - s) b) * (1 - α (s, m')) :=
        hmW.comp (measurable_const.prodMk measurable_id : Measurable fun s : ℝ => (m', s))
      exact (lintegral_mul_const _ hs1).symm
    rw [hWc, ← dbl_add hmS]
    refine lintegral_congr fun m' => lintegral_congr fun s => ?_
    rw [mul_add, ← mul_assoc, hEE]
    ring

theorem layerSpec_strip (n : ℕ) (U : ℝ) : LayerSpec (some U) (stripEntr U) (stripDens U) n (fun m T x => trials n (edgeRate U m T x))
    (fun m T a b => trials n (layerRate U m T a b)) where
  ker := layerKer_strip U
  measγ := (measurable_trials n).comp (measurable_edgeRate U)
  chance _ _ _ := ((trials_le n _).trans_lt ENNReal.one_lt_top).ne
  fin hT hx hU := stripEntr_pos hT hx (hU _ rfl)
  edge {m x vs F} hx hU hne hp hF := by
    have hxU := hU _ rfl
    have h := edge_strip_zero (n := n) (K := U - m) (sub_pos.2 hx) (by linarith) hne hp (F := fun l => F (l.map (· + m))) (MeasL.map (hF _) (g := (· + m)) (by fun_prop))
    have e := stripEntr_shift U m vs.sum (x - m)
    have e2 := entrDens_shift m vs.sum (x - m)
    rw [sub_add_cancel] at e e2
    rw [edgeRate, e, e2, Option.map_some, h, startInt_shift (stripEntr_shift U m) (stripDens_shift U m), sub_add_cancel]
  min hT hm hU hF := min_strip hT hm (hU _ rfl) hF

/-! ## Chapman and Kolmogorov -/

theorem strip_mass' {x : ℝ} {vs : List ℝ} (hx : m < x) (hne : vs ≠ []) (hp : ∀ v ∈ vs, 0 < v) :
    startInt (stripEntr U m) (stripDens U m) x vs (fun _ => 1) = stripEntr U m vs.sum x := by
  by_cases hU : x < U
  · exact strip_mass hx hU hne hp
  · have hz : ∀ (vs : List ℝ) y, kerInt (stripDens U m) x vs y (fun _ => 1) = 0 := by
      intro vs
      induction vs with
      | nil => intro y; rfl
      | cons v vs ih =>
        intro y
        match vs, ih with
        | [], _ => simp only [kerInt]; rw [stripDens, if_neg fun h => hU h.2.2.2, zero_mul]
        | w :: vs, ih => simp only [kerInt]; simp [ih]
    rw [stripEntr_high (not_lt.1 hU)]
    match vs, hne with
    | [v], _ => simp [startInt, stripEntr_high (not_lt.1 hU)]
    | v :: w :: vs, _ => simp only [startInt]; simp [hz]

theorem chapman_strip (hm : m < min a b) {vs : List ℝ} (hne : vs ≠ []) (hp : ∀ v ∈ vs, 0 < v) :
    kerInt (stripDens U m) b vs a (fun _ => 1) = stripDens U m vs.sum a b :=
  (layerKer_strip U).chapman (fun _ _ _ hx => stripEntr_low hx) (fun hx h1 h2 => strip_mass' hx h1 h2) hm hne hp

/-! ## many proposals -/

theorem trials_mono (α : ℝ≥0∞) : Monotone fun n => trials n α := fun _ _ h =>
  tsub_le_tsub_left (pow_le_pow_of_le_one zero_le tsub_le_self h) 1

theorem trials_sup {α : ℝ≥0∞} (h0 : α ≠ 0) : ⨆ n, trials n α = 1 := by
  have h1 : (1 - α) < 1 := ENNReal.sub_lt_self ENNReal.one_ne_top one_ne_zero h0
  have h2 := ENNReal.Tendsto.sub (tendsto_const_nhds (x := (1 : ℝ≥0∞)) (f := (atTop : Filter ℕ))) (ENNReal.tendsto_pow_atTop_nhds_zero_of_lt_one h1) (Or.inl ENNReal.one_ne_top)
  rw [tsub_zero] at h2
  exact tendsto_nhds_unique (tendsto_atTop_iSup (trials_mono α)) h2

theorem iSup_mul_mono {f g : ℕ → ℝ≥0∞} (hf : Monotone f) (hg : Monotone g) : ⨆ n, f n * g n = (⨆ n, f n) * ⨆ n, g n := by
  refine le_antisymm (iSup_le fun n => mul_le_mul' (le_iSup f n) (le_iSup g n)) ?_
  rw [ENNReal.iSup_mul]
  refine iSup_le fun i => ?_
  rw [ENNReal.mul_iSup]
  refine iSup_le fun j => ?_
  exact (mul_le_mul' (hf (le_max_left i j)) (hg (le_max_right i j))).trans (le_iSup (fun n => f n * g n) (max i j))

theorem layer_strip_le {n : ℕ} {vs : List ℝ} {F : List ℝ → ℝ≥0∞} (hm : m < min a b) (hU : max a b < U) (hne : vs ≠ []) (hp : ∀ v ∈ vs, 0 < v) (hF : MeasAll F) :
    stripDens U m vs.sum a b * (proposeLayer n (some U) none (npCumsum vs).dropLast vs.sum a b m).lexp (onOk fun q => F q.1) ≤ kerInt (stripDens U m) b vs a F := by
  rw [layer_law (layerSpec_strip n U) hm (by rintro U' ⟨⟩; exact hU) hne hp hF, ← split_total (layerKer_strip U) (fun _ _ _ hx => stripEntr_low hx) hp hm (hF _)]
  refine (mul_le_of_le_one_left zero_le (trials_le n _)).trans ?_
  refine lintegral_mono fun m' => lintegral_mono fun s => ?_
  exact mul_le_of_le_one_left zero_le (mul_le_one' (trials_le n _) (trials_le n _))

theorem dbl_iSup {g : ℕ → ℝ → ℝ → ℝ≥0∞} (hg : ∀ n, Measurable fun q : ℝ × ℝ => g n q.1 q.2) (hm : ∀ x y, Monotone fun n => g n x y) (A B : Set ℝ) :
    ⨆ n, ∫⁻ x in A, ∫⁻ y in B, g n x y = ∫⁻ x in A, ∫⁻ y in B, ⨆ n, g n x y := by
  rw [← lintegral_iSup (fun n => (hg n).lintegral_prod_right') fun i j hij x => lintegral_mono fun y => hm x y hij]
  refine lintegral_congr fun x => ?_
  have h1 : ∀ n, Measurable fun y : ℝ => g n x y := fun n => (hg n).comp (measurable_const.prodMk measurable_id : Measurable fun s : ℝ => (x, s))
  rw [← lintegral_iSup h1 fun i j hij y => hm x y hij]

theorem layer_strip_sup {vs : List ℝ} {F : List ℝ → ℝ≥0∞} (hm : m < min a b) (hU : max a b < U) (hne : vs ≠ []) (hp : ∀ v ∈ vs, 0 < v) (hF : MeasAll F) :
    ⨆ n, stripDens U m vs.sum a b * (proposeLayer n (some U) none (npCumsum vs).dropLast vs.sum a b m).lexp (onOk fun q => F q.1) = kerInt (stripDens U m) b vs a F := by
  obtain ⟨haU, hbU⟩ := max_lt_iff.1 hU
  have hT : 0 < vs.sum := List.sum_pos _ hp hne
  set S : ℝ → ℝ → ℝ≥0∞ := fun m' s => 2 * splitInt (stripEntr U) (stripDens U) m' b vs a s F with hS
  set g : ℕ → ℝ → ℝ → ℝ≥0∞ := fun n m' s => trials n (edgeRate U m' s a) * trials n (edgeRate U m' (vs.sum - s) b) * S m' s with hg
  have hmS : Measurable fun q : ℝ × ℝ => S q.1 q.2 :=
    (splitInt_measurable (layerKer_strip U) b vs (F := fun _ => F) ((hF _).comp (φ := fun _ : ℝ × ℝ => ()) measurable_const) measurable_const measurable_fst measurable_snd).const_mul 2
  have hgm : ∀ n, Measurable fun q : ℝ × ℝ => g n q.1 q.2 := fun n =>
    (((measurable_trials n).comp ((measurable_edgeRate U).comp (by fun_prop : Measurable fun q : ℝ × ℝ => (q.1, q.2, a)))).mul
      ((measurable_trials n).comp ((measurable_edgeRate U).comp (by fun_prop : Measurable fun q : ℝ × ℝ => (q.1, vs.sum - q.2, b))))).mul hmS
  have hmono : ∀ m' s, Monotone fun n => g n m' s :=
    fun m' s i j hij => mul_le_mul' (mul_le_mul' (trials_mono _ hij) (trials_mono _ hij)) le_rfl
  have hmonoI : Monotone fun n => ∫⁻ m' in Ioo m (min a b), ∫⁻ s in Ioo 0 vs.sum, g n m' s :=
    fun i j hij => lintegral_mono fun m' => lintegral_mono fun s => hmono m' s hij
  have hlaw : ∀ n, stripDens U m vs.sum a b * (proposeLayer n (some U) none (npCumsum vs).dropLast vs.sum a b m).lexp (onOk fun q => F q.1) =
      trials n (layerRate U m vs.sum a b) * ∫⁻ m' in Ioo m (min a b), ∫⁻ s in Ioo 0 vs.sum, g n m' s :=
    fun n => layer_law (layerSpec_strip n U) hm (by rintro U' ⟨⟩; exact hU) hne hp hF
  rw [iSup_congr hlaw, iSup_mul_mono (trials_mono _) hmonoI, trials_sup (layerRate_le hT hm hU).2, one_mul, dbl_iSup hgm hmono,
    ← split_total (layerKer_strip U) (fun _ _ _ hx => stripEntr_low hx) hp hm (hF _)]
  refine setLIntegral_congr_fun measurableSet_Ioo fun m' hm' => setLIntegral_congr_fun measurableSet_Ioo fun s hs => ?_
  have ha := hm'.2.trans_le (min_le_left a b)
  have hb := hm'.2.trans_le (min_le_right a b)
  simp only [hg]
  rw [← ENNReal.iSup_mul, iSup_mul_mono (trials_mono _) (trials_mono _), trials_sup (edgeRate_le hs.1 ha haU).2, trials_sup (edgeRate_le (sub_pos.2 hs.2) hb hbU).2, one_mul, one_mul]

theorem kerInt_mono {k : ℝ → ℝ → ℝ → ℝ≥0∞} (x1 : ℝ) : ∀ (vs : List ℝ) (x : ℝ) {F G : List ℝ → ℝ≥0∞}, (∀ l, F l ≤ G l) → kerInt k x1 vs x F ≤ kerInt k x1 vs x G
  | [], _, _, _, _ => le_rfl
  | [v], _, F, G, h => by simp only [kerInt]; gcongr; exact h _
  | v :: w :: vs, x, F, G, h => by
    simp only [kerInt]
    exact lintegral_mono fun y => mul_le_mul' le_rfl (kerInt_mono x1 (w :: vs) y fun l => h (y :: l))

theorem splitInt_mono {E : ℝ → ℝ → ℝ → ℝ≥0∞} {K : ℝ → ℝ → ℝ → ℝ → ℝ≥0∞} (m b : ℝ) : ∀ (vs : List ℝ) (x s : ℝ) {F G : List ℝ → ℝ≥0∞}, (∀ l, F l ≤ G l) →
    splitInt E K m b vs x s F ≤ splitInt E K m b vs x s G
  | [], _, _, _, _, _ => le_rfl
  | [v], _, _, F, G, h => by simp only [splitInt]; gcongr; exact h _
  | v :: w :: vs, x, s, F, G, h => by
    simp only [splitInt]
    split_ifs
    · exact mul_le_mul' le_rfl (lintegral_mono fun y => mul_le_mul' le_rfl (kerInt_mono b (w :: vs) y fun l => h (y :: l)))
    · exact lintegral_mono fun y => mul_le_mul' le_rfl (splitInt_mono m b (w :: vs) y (s - v) fun l => h (y :: l))

theorem dbl_const_mul {A B : Set ℝ} {f : ℝ → ℝ → ℝ≥0∞} (hf : Measurable fun p : ℝ × ℝ => f p.1 p.2) (c : ℝ≥0∞) :
    c * ∫⁻ u in A, ∫⁻ s in B, f u s = ∫⁻ u in A, ∫⁻ s in B, c * f u s := by
  rw [← lintegral_const_mul _ hf.lintegral_prod_right']
  refine lintegral_congr fun u => ?_
  have hs1 : Measurable fun s : ℝ => f u s := hf.comp (measurable_const.prodMk measurable_id : Measurable fun s : ℝ => (u, s))
  exact (lintegral_const_mul _ hs1).symm

/-- The part of the law that the budget cuts off is no larger than its mass. -/
theorem layer_strip_tv {n : ℕ} {vs : List ℝ} {F : List ℝ → ℝ≥0∞} (hm : m < min a b) (hU : max a b < U) (hne : vs ≠ []) (hp : ∀ v ∈ vs, 0 < v) (hF : MeasAll F)
    (hF1 : ∀ l, F l ≤ 1) :
    kerInt (stripDens U m) b vs a F + stripDens U m vs.sum a b * (proposeLayer n (some U) none (npCumsum vs).dropLast vs.sum a b m).lexp (onOk fun _ => 1) ≤
      stripDens U m vs.sum a b * (proposeLayer n (some U) none (npCumsum vs).dropLast vs.sum a b m).lexp (onOk fun q => F q.1) + stripDens U m vs.sum a b := by
  have hT : 0 < vs.sum := List.sum_pos _ hp hne
  set S : (List ℝ → ℝ≥0∞) → ℝ → ℝ → ℝ≥0∞ := fun F m' s => 2 * splitInt (stripEntr U) (stripDens U) m' b vs a s F with hS
  set c : ℝ → ℝ → ℝ≥0∞ := fun m' s => trials n (edgeRate U m' s a) * trials n (edgeRate U m' (vs.sum - s) b) with hc
  set Γ := trials n (layerRate U m vs.sum a b) with hΓ
  have h1 : MeasAll fun _ : List ℝ => (1 : ℝ≥0∞) := fun _ => measurable_const
  have hmS : ∀ {F}, MeasAll F → Measurable fun q : ℝ × ℝ => S F q.1 q.2 := fun {F} hF =>
    (splitInt_measurable (layerKer_strip U) b vs (F := fun _ => F) ((hF _).comp (φ := fun _ : ℝ × ℝ => ()) measurable_const) measurable_const measurable_fst measurable_snd).const_mul 2
  have hcm : Measurable fun q : ℝ × ℝ => c q.1 q.2 :=
    ((measurable_trials n).comp ((measurable_edgeRate U).comp (by fun_prop : Measurable fun q : ℝ × ℝ => (q.1, q.2, a)))).mul
      ((measurable_trials n).comp ((measurable_edgeRate U).comp (by fun_prop : Measurable fun q : ℝ × ℝ => (q.1, vs.sum - q.2, b))))
  have hc1 : ∀ m' s, Γ * c m' s ≤ 1 := fun m' s => mul_le_one' (trials_le n _) (mul_le_one' (trials_le n _) (trials_le n _))
  have hlaw : ∀ {F}, MeasAll F → stripDens U m vs.sum a b * (proposeLayer n (some U) none (npCumsum vs).dropLast vs.sum a b m).lexp (onOk fun q => F q.1) =
      ∫⁻ m' in Ioo m (min a b), ∫⁻ s in Ioo 0 vs.sum, Γ * c m' s * S F m' s := by
    intro F hF
    refine (layer_law (layerSpec_strip n U) hm (by rintro U' ⟨⟩; exact hU) hne hp hF).trans ?_
    have hcS : Measurable fun q : ℝ × ℝ => c q.1 q.2 * S F q.1 q.2 := hcm.mul (hmS hF)
    refine (dbl_const_mul hcS Γ).trans ?_
    simp only [mul_assoc Γ, hc, hS]
  have hker : ∀ {F}, MeasAll F → kerInt (stripDens U m) b vs a F =
      (∫⁻ m' in Ioo m (min a b), ∫⁻ s in Ioo 0 vs.sum, Γ * c m' s * S F m' s) + ∫⁻ m' in Ioo m (min a b), ∫⁻ s in Ioo 0 vs.sum, (1 - Γ * c m' s) * S F m' s := by
    intro F hF
    rw [← split_total (layerKer_strip U) (fun _ _ _ hx => stripEntr_low hx) hp hm (hF _), ← dbl_add ((hcm.const_mul Γ).mul (hmS hF))]
    refine lintegral_congr fun m' => lintegral_congr fun s => ?_
    rw [← add_mul, add_tsub_cancel_of_le (hc1 m' s), one_mul]
  have hmass := chapman_strip (U := U) hm hne hp
  rw [hlaw hF, hlaw h1]
  conv_rhs => rw [← hmass, hker h1]
  rw [hker hF, add_assoc]
  refine add_le_add le_rfl ?_
  rw [add_comm]
  refine add_le_add le_rfl (lintegral_mono fun m' => lintegral_mono fun s => mul_le_mul' le_rfl (mul_le_mul' le_rfl (splitInt_mono _ _ _ _ _ hF1)))

end Ctb
