import Verif.Spec.Grid
import Verif.Lemmas.LayerProb

/-! # Paths observed on fine grids -/

set_option linter.unusedSectionVars false

namespace Ctb

open MeasureTheory Set Filter Topology
open scoped ENNReal

section
variable {k k' : ℝ → ℝ → ℝ → ℝ≥0∞} {D : ℝ → Prop} {c : ℝ → ℝ≥0∞} {b : ℝ}

theorem allIn_cons_of {D : ℝ → Prop} {y : ℝ} (hy : D y) (l : List ℝ) : allIn D (y :: l) = allIn D l := by
  have h : (∀ z ∈ y :: l, D z) ↔ ∀ z ∈ l, D z := by rw [List.forall_mem_cons]; exact and_iff_right hy
  unfold allIn
  by_cases hl : ∀ z ∈ l, D z
  · rw [if_pos (h.2 hl), if_pos hl]
  · rw [if_neg fun h' => hl (h.1 h'), if_neg hl]

theorem allIn_cons_not {D : ℝ → Prop} {y : ℝ} (hy : ¬ D y) (l : List ℝ) : allIn D (y :: l) = 0 := by
  unfold allIn
  rw [if_neg]
  exact fun h => hy (h y (by simp))

/-- A kernel that lives on `D` and lies below another one. -/
theorem kerInt_lower (hk : ∀ v, 0 < v → ∀ x y, D x → D y → k v x y ≤ k' v x y) (h0 : ∀ v x y, ¬ D y → k v x y = 0) (hb : D b) :
    ∀ (vs : List ℝ) (a : ℝ), D a → (∀ v ∈ vs, 0 < v) → kerInt k b vs a (fun _ => 1) ≤ kerInt k' b vs a (allIn D)
  | [], _, _, _ => le_rfl
  | [v], a, ha, hp => by simpa [kerInt, allIn] using hk v (hp v (by simp)) a b ha hb
  | v :: w :: vs, a, ha, hp => by
    simp only [kerInt]
    refine lintegral_mono fun y => ?_
    by_cases hy : D y
    · simp only [allIn_cons_of hy]
      exact mul_le_mul' (hk v (hp v (by simp)) a y ha hy) (kerInt_lower hk h0 hb (w :: vs) y hy fun u hu => hp u (List.mem_cons_of_mem _ hu))
    · simp only [h0 v a y hy, zero_mul, zero_le]

/-- A kernel that lies above another one on `D`, up to factors. -/
theorem kerInt_upper (hk : ∀ v, 0 < v → ∀ x y, D x → D y → c v * k' v x y ≤ k v x y) (hc : ∀ v, c v ≠ ∞) (hb : D b) :
    ∀ (vs : List ℝ) (a : ℝ), D a → (∀ v ∈ vs, 0 < v) → (vs.map c).prod * kerInt k' b vs a (allIn D) ≤ kerInt k b vs a (fun _ => 1)
  | [], _, _, _ => by simp [kerInt]
  | [v], a, ha, hp => by simpa [kerInt, allIn] using hk v (hp v (by simp)) a b ha hb
  | v :: w :: vs, a, ha, hp => by
    have hfin : ∀ us : List ℝ, (us.map c).prod ≠ ∞ := fun us => by
      induction us with
      | nil => simp
      | cons u us ih => rw [List.map_cons, List.prod_cons]; exact ENNReal.mul_ne_top (hc u) ih
    simp only [kerInt]
    rw [← lintegral_const_mul' _ _ (hfin _)]
    refine lintegral_mono fun y => ?_
    rw [List.map_cons, List.prod_cons]
    by_cases hy : D y
    · simp only [allIn_cons_of hy]
      rw [mul_mul_mul_comm]
      exact mul_le_mul' (hk v (hp v (by simp)) a y ha hy) (kerInt_upper hk hc hb (w :: vs) y hy fun u hu => hp u (List.mem_cons_of_mem _ hu))
    · simp only [allIn_cons_not hy]
      rw [kerInt_zero, mul_zero, mul_zero]
      exact zero_le

end

theorem one_sub_mul (x y : ℝ≥0∞) : 1 - (x + y) ≤ (1 - x) * (1 - y) := by
  by_cases hx : 1 ≤ x
  · rw [tsub_eq_zero_of_le (hx.trans le_self_add)]; exact zero_le
  · by_cases hy : 1 ≤ y
    · rw [tsub_eq_zero_of_le (hy.trans le_add_self)]; exact zero_le
    · push Not at hx hy
      rw [ENNReal.mul_sub fun _ _ => (tsub_le_self.trans_lt ENNReal.one_lt_top).ne, mul_one, ← tsub_tsub]
      refine tsub_le_tsub_left ?_ _
      calc (1 - x) * y ≤ 1 * y := mul_le_mul' tsub_le_self le_rfl
        _ = y := one_mul y

theorem prod_one_sub (f : ℝ → ℝ≥0∞) : ∀ vs : List ℝ, 1 - (vs.map f).sum ≤ (vs.map fun v => 1 - f v).prod
  | [] => by simp
  | v :: vs => by
    simp only [List.map_cons, List.sum_cons, List.prod_cons]
    exact (one_sub_mul _ _).trans (mul_le_mul' le_rfl (prod_one_sub f vs))

theorem sum_sq_le {h : ℝ} : ∀ vs : List ℝ, (∀ v ∈ vs, 0 < v) → (∀ v ∈ vs, v < h) → (vs.map fun v => v ^ 2).sum ≤ h * vs.sum
  | [], _, _ => by simp
  | v :: vs, hp, hh => by
    simp only [List.map_cons, List.sum_cons]
    have := sum_sq_le vs (fun u hu => hp u (List.mem_cons_of_mem _ hu)) (fun u hu => hh u (List.mem_cons_of_mem _ hu))
    have h1 := hp v (by simp)
    have h2 := hh v (by simp)
    nlinarith

theorem ofReal_sum_dur (f : ℝ → ℝ) (hf : ∀ v, 0 ≤ f v) : ∀ vs : List ℝ, (vs.map fun v => ENNReal.ofReal (f v)).sum = ENNReal.ofReal (vs.map f).sum
  | [] => by simp
  | v :: vs => by
    have h : 0 ≤ (vs.map f).sum := List.sum_nonneg (by simpa using fun a _ => hf a)
    simp only [List.map_cons, List.sum_cons]
    rw [ENNReal.ofReal_add (hf v) h, ofReal_sum_dur f hf vs]

theorem exp_sq_bound {x : ℝ} (hx : 0 < x) : Real.exp (-x) ≤ 2 / x ^ 2 := by
  rw [Real.exp_neg, inv_eq_one_div, div_le_div_iff₀ (Real.exp_pos x) (by positivity), one_mul]
  have := Real.quadratic_le_exp_of_nonneg hx.le
  linarith

/-- Two points at a distance of more than `ε` from a level. -/
theorem near_bound {ε v d e : ℝ} (hε : 0 < ε) (hv : 0 < v) (hd : ε ≤ d) (he : ε ≤ e) : Real.exp (-2 * d * e / v) ≤ v ^ 2 / (2 * ε ^ 4) := by
  have h1 : ε * ε ≤ d * e := mul_le_mul hd he hε.le (hε.le.trans hd)
  have h2 : Real.exp (-2 * d * e / v) ≤ Real.exp (-(2 * ε ^ 2 / v)) := by
    rw [Real.exp_le_exp, neg_mul, neg_mul, neg_div, neg_le_neg_iff, div_le_div_iff_of_pos_right hv]
    nlinarith
  refine h2.trans ((exp_sq_bound (by positivity)).trans (le_of_eq ?_))
  field_simp

/-- Staying in a strip on a fine grid: free paths and paths in a slightly larger strip. -/
theorem strip_grid_upper {ε m U v x y : ℝ} (hε : 0 < ε) (hv : 0 < v) (hx : m < x ∧ x < U) (hy : m < y ∧ y < U) :
    (1 - ENNReal.ofReal (v ^ 2 / ε ^ 4)) * normKer v x y ≤ stripDens (U + ε) (m - ε) v x y := by
  have hm : m - ε < min x y := lt_min (by linarith) (by linarith)
  have hU : max x y < U + ε := max_lt (by linarith) (by linarith)
  obtain ⟨p, p0, p1, hp, hlt⟩ := stripSeries_limit hv hm hU
  rw [stripDens_stay hv hm hU hp, mul_comm, normKer, normDens]
  refine mul_le_mul' le_rfl ?_
  rw [← ENNReal.ofReal_one, ← ENNReal.ofReal_sub _ (by positivity)]
  refine ENNReal.ofReal_le_ofReal ?_
  have h1 := near_bound hε hv (d := x - (m - ε)) (e := y - (m - ε)) (by linarith) (by linarith)
  have h2 := near_bound hε hv (d := U + ε - x) (e := U + ε - y) (by linarith) (by linarith)
  have h3 : v ^ 2 / (2 * ε ^ 4) + v ^ 2 / (2 * ε ^ 4) = v ^ 2 / ε ^ 4 := by field_simp; ring
  linarith

theorem half_grid_upper {ε m v x y : ℝ} (hε : 0 < ε) (hv : 0 < v) (hx : m < x) (hy : m < y) :
    (1 - ENNReal.ofReal (v ^ 2 / ε ^ 4)) * normKer v x y ≤ killDens (m - ε) v x y := by
  have hm : m - ε < min x y := lt_min (by linarith) (by linarith)
  rw [killDens_eq hv hm, mul_comm, normKer, normDens]
  refine mul_le_mul' le_rfl ?_
  rw [← ENNReal.ofReal_one, ← ENNReal.ofReal_sub _ (by positivity)]
  refine ENNReal.ofReal_le_ofReal ?_
  have h1 := near_bound hε hv (d := x - (m - ε)) (e := y - (m - ε)) (by linarith) (by linarith)
  have h3 : v ^ 2 / (2 * ε ^ 4) ≤ v ^ 2 / ε ^ 4 := div_le_div_of_nonneg_left (by positivity) (by positivity) (by nlinarith [pow_pos hε 4])
  linarith

theorem strip_le_norm {m U v x y : ℝ} (hv : 0 < v) (hx : m < x ∧ x < U) (hy : m < y ∧ y < U) : stripDens U m v x y ≤ normKer v x y := by
  have hm : m < min x y := lt_min hx.1 hy.1
  have hU : max x y < U := max_lt hx.2 hy.2
  obtain ⟨p, p0, p1, hp, hlt⟩ := stripSeries_limit hv hm hU
  rw [stripDens_stay hv hm hU hp, normKer, normDens]
  calc _ ≤ ENNReal.ofReal (normDensR v (y - x)) * 1 := mul_le_mul' le_rfl (by rw [← ENNReal.ofReal_one]; exact ENNReal.ofReal_le_ofReal (by linarith))
    _ = _ := mul_one _

theorem strip_le_kill {m U v x y : ℝ} (hv : 0 < v) (hx : m < x ∧ x < U) (hy : m < y ∧ y < U) : stripDens U m v x y ≤ killDens m v x y := by
  have hm : m < min x y := lt_min hx.1 hy.1
  have hU : max x y < U := max_lt hx.2 hy.2
  rw [← layerRate_mul]
  calc _ ≤ killDens m v x y * 1 := mul_le_mul' le_rfl (layerRate_le hv hm hU).1
    _ = _ := mul_one _

theorem kill_le_norm {m v x y : ℝ} (hv : 0 < v) (hx : m < x) (hy : m < y) : killDens m v x y ≤ normKer v x y := by
  rw [killDens_eq hv (lt_min hx hy), normKer, normDens]
  calc _ ≤ ENNReal.ofReal (normDensR v (y - x)) * 1 := mul_le_mul' le_rfl (by
        rw [← ENNReal.ofReal_one]; exact ENNReal.ofReal_le_ofReal (by linarith [Real.exp_pos (-2 * (x - m) * (y - m) / v)]))
    _ = _ := mul_one _

/-- A squeeze: from below exactly, from above for every `ε` up to factors that tend to one. -/
theorem squeeze_eps {Q : ℕ → ℝ≥0∞} {κ : ℝ≥0∞} {κ' : ℝ → ℝ≥0∞} {δ : ℝ → ℕ → ℝ≥0∞} (hl : ∀ n, κ ≤ Q n)
    (hu : ∀ ε, 0 < ε → ∀ n, (1 - δ ε n) * Q n ≤ κ' ε) (hδ : ∀ ε, 0 < ε → Tendsto (δ ε) atTop (𝓝 0))
    (hκ : ∀ c, κ < c → ∃ ε, 0 < ε ∧ κ' ε < c) : Tendsto Q atTop (𝓝 κ) := by
  refine tendsto_order.2 ⟨fun c hc => Eventually.of_forall fun n => hc.trans_le (hl n), fun c hc => ?_⟩
  obtain ⟨ε, hε, h⟩ := hκ c hc
  have h1 : Tendsto (fun n => 1 - δ ε n) atTop (𝓝 1) := by
    simpa using ENNReal.Tendsto.sub tendsto_const_nhds (hδ ε hε) (Or.inl ENNReal.one_ne_top)
  have h2 : Tendsto (fun n => κ' ε / (1 - δ ε n)) atTop (𝓝 (κ' ε)) := by
    simpa using ENNReal.Tendsto.div (tendsto_const_nhds (x := κ' ε)) (Or.inr one_ne_zero) h1 (Or.inl ENNReal.one_ne_top)
  filter_upwards [h2.eventually (gt_mem_nhds h), h1.eventually (lt_mem_nhds zero_lt_one)] with n hn hn0
  refine lt_of_le_of_lt ?_ hn
  rw [ENNReal.le_div_iff_mul_le (Or.inl hn0.ne') (Or.inl (tsub_le_self.trans_lt ENNReal.one_lt_top).ne), mul_comm]
  exact hu ε hε n

theorem fine_const {T : ℝ} {g : ℕ → List ℝ} (hg : FineGrids T g) (C : ℝ) :
    Tendsto (fun n => ENNReal.ofReal (((g n).map fun v => C * v ^ 2).sum)) atTop (𝓝 0) := by
  have hT : 0 < T := by
    rw [← hg.total 0]
    exact List.sum_pos _ (hg.pos 0) (by intro h; have := hg.two 0; simp [h] at this)
  have hs : Tendsto (fun n => ((g n).map fun v => v ^ 2).sum) atTop (𝓝 0) := by
    refine tendsto_order.2 ⟨fun c hc => Eventually.of_forall fun n => hc.trans_le (List.sum_nonneg (by simp; intros; positivity)), fun c hc => ?_⟩
    filter_upwards [hg.fine (c / (2 * T)) (by positivity)] with n hn
    have h := sum_sq_le (g n) (hg.pos n) hn
    rw [hg.total n] at h
    have e2 : c / (2 * T) * T = c / 2 := by field_simp
    linarith
  rw [← ENNReal.ofReal_zero]
  refine ENNReal.tendsto_ofReal ?_
  have := hs.const_mul C
  rw [mul_zero] at this
  refine this.congr fun n => ?_
  rw [List.sum_map_mul_left]

theorem fine_delta {T : ℝ} {g : ℕ → List ℝ} (hg : FineGrids T g) (ε : ℝ) :
    Tendsto (fun n => ENNReal.ofReal (((g n).map fun v => v ^ 2 / ε ^ 4).sum)) atTop (𝓝 0) := by
  simp only [div_eq_inv_mul]
  exact fine_const hg _

theorem grid_upper {k : ℝ → ℝ → ℝ → ℝ≥0∞} {D : ℝ → Prop} {a b : ℝ} {ε : ℝ} {vs : List ℝ}
    (hk : ∀ v, 0 < v → ∀ x y, D x → D y → (1 - ENNReal.ofReal (v ^ 2 / ε ^ 4)) * normKer v x y ≤ k v x y) (ha : D a) (hb : D b) (hp : ∀ v ∈ vs, 0 < v) :
    (1 - ENNReal.ofReal ((vs.map fun v => v ^ 2 / ε ^ 4).sum)) * kerInt normKer b vs a (allIn D) ≤ kerInt k b vs a (fun _ => 1) := by
  refine (mul_le_mul' ?_ le_rfl).trans (kerInt_upper (c := fun v => 1 - ENNReal.ofReal (v ^ 2 / ε ^ 4)) hk
    (fun v => (tsub_le_self.trans_lt ENNReal.one_lt_top).ne) hb vs a ha hp)
  rw [← ofReal_sum_dur _ (fun v => by positivity)]
  exact prod_one_sub _ vs

/-- Wider strips tend to the strip. -/
theorem strip_wider {T a b m U : ℝ} (hT : 0 < T) (hm : m < min a b) (hU : max a b < U) {c : ℝ≥0∞} (hc : stripDens U m T a b < c) :
    ∃ ε, 0 < ε ∧ stripDens (U + ε) (m - ε) T a b < c := by
  obtain ⟨h1, h2⟩ := strip_inside hm hU
  obtain ⟨p, p0, p1, hp, alt⟩ := C41_series hT h1 h2
  rw [stripDens_stay hT hm hU hp] at hc
  have hcont : ∀ i, Continuous fun ε : ℝ => stripSeries (U + ε) (m - ε) T a b i := fun i => by
    unfold stripSeries brownSeries
    induction i with
    | zero => exact continuous_const
    | succ i ih =>
      simp only [partialSum]
      refine Continuous.add ih ?_
      unfold brownTerm escUp escDown
      split_ifs <;> fun_prop
  have hsub : Tendsto (fun i : ℕ => ENNReal.ofReal (normDensR T (b - a)) * ENNReal.ofReal (1 - stripSeries U m T a b (2 * i))) atTop
      (𝓝 (ENNReal.ofReal (normDensR T (b - a)) * ENNReal.ofReal (1 - p))) := by
    refine ENNReal.Tendsto.const_mul (ENNReal.tendsto_ofReal ?_) (Or.inr ENNReal.ofReal_ne_top)
    exact (hp.comp (tendsto_id.const_mul_atTop' (r := 2) (by norm_num))).const_sub 1
  obtain ⟨i, hi⟩ := (hsub.eventually (gt_mem_nhds hc)).exists
  have hε : Tendsto (fun ε : ℝ => ENNReal.ofReal (normDensR T (b - a)) * ENNReal.ofReal (1 - stripSeries (U + ε) (m - ε) T a b (2 * i))) (𝓝[>] 0)
      (𝓝 (ENNReal.ofReal (normDensR T (b - a)) * ENNReal.ofReal (1 - stripSeries U m T a b (2 * i)))) := by
    refine ENNReal.Tendsto.const_mul (ENNReal.tendsto_ofReal ?_) (Or.inr ENNReal.ofReal_ne_top)
    have := ((hcont (2 * i)).tendsto 0).mono_left (nhdsWithin_le_nhds (s := Ioi 0))
    simp only [add_zero, sub_zero] at this
    exact this.const_sub 1
  obtain ⟨ε, h3, h4⟩ := ((hε.eventually (gt_mem_nhds hi)).and self_mem_nhdsWithin).exists
  have h4 : 0 < ε := h4
  refine ⟨ε, h4, lt_of_le_of_lt ?_ h3⟩
  have hm' : m - ε < min a b := by linarith
  have hU' : max a b < U + ε := by linarith
  obtain ⟨h5, h6⟩ := strip_inside hm' hU'
  obtain ⟨q, q0, q1, hq, alt'⟩ := C41_series hT h5 h6
  rw [stripDens_stay hT hm' hU' hq]
  refine mul_le_mul' le_rfl (ENNReal.ofReal_le_ofReal ?_)
  have := (alt' i).1
  unfold stripSeries
  linarith

theorem half_wider {T a b m : ℝ} (hT : 0 < T) (hm : m < min a b) {c : ℝ≥0∞} (hc : killDens m T a b < c) :
    ∃ ε, 0 < ε ∧ killDens (m - ε) T a b < c := by
  rw [killDens_eq hT hm] at hc
  have hε : Tendsto (fun ε : ℝ => ENNReal.ofReal (normDensR T (b - a)) * ENNReal.ofReal (1 - Real.exp (-2 * (a - (m - ε)) * (b - (m - ε)) / T))) (𝓝[>] 0)
      (𝓝 (ENNReal.ofReal (normDensR T (b - a)) * ENNReal.ofReal (1 - Real.exp (-2 * (a - m) * (b - m) / T)))) := by
    refine ENNReal.Tendsto.const_mul (ENNReal.tendsto_ofReal ?_) (Or.inr ENNReal.ofReal_ne_top)
    have hcont : Continuous fun ε : ℝ => 1 - Real.exp (-2 * (a - (m - ε)) * (b - (m - ε)) / T) := by fun_prop
    have := (hcont.tendsto 0).mono_left (nhdsWithin_le_nhds (s := Ioi 0))
    simpa only [sub_zero] using this
  obtain ⟨ε, h3, h4⟩ := ((hε.eventually (gt_mem_nhds hc)).and self_mem_nhdsWithin).exists
  have h4 : 0 < ε := h4
  exact ⟨ε, h4, by rw [killDens_eq hT (by linarith)]; exact h3⟩

/-- Free paths on fine grids that stay in the strip. -/
theorem strip_grid {T a b m U : ℝ} (hm : m < min a b) (hU : max a b < U) {g : ℕ → List ℝ} (hg : FineGrids T g) :
    Tendsto (fun n => kerInt normKer b (g n) a (allIn fun y => m < y ∧ y < U)) atTop (𝓝 (stripDens U m T a b)) := by
  have hne : ∀ n, g n ≠ [] := fun n h => by have := hg.two n; simp [h] at this
  have hT : 0 < T := by rw [← hg.total 0]; exact List.sum_pos _ (hg.pos 0) (hne 0)
  obtain ⟨ha, hb⟩ := lt_min_iff.1 hm
  obtain ⟨hau, hbu⟩ := max_lt_iff.1 hU
  refine squeeze_eps (κ' := fun ε => stripDens (U + ε) (m - ε) T a b) (fun n => ?_) (fun ε hε n => ?_) (fun ε hε => fine_delta hg ε) fun c hc => strip_wider hT hm hU hc
  · rw [← hg.total n, ← chapman_strip hm (hne n) (hg.pos n)]
    exact kerInt_lower (D := fun y => m < y ∧ y < U) (fun v hv x y hx hy => strip_le_norm hv hx hy) (fun v x y hy => if_neg fun h => hy h.2.2) ⟨hb, hbu⟩ _ _ ⟨ha, hau⟩ (hg.pos n)
  · rw [← hg.total n, ← chapman_strip (by linarith) (hne n) (hg.pos n)]
    exact grid_upper (D := fun y => m < y ∧ y < U) (fun v hv x y hx hy => strip_grid_upper hε hv hx hy) ⟨ha, hau⟩ ⟨hb, hbu⟩ (hg.pos n)

theorem half_grid {T a b m : ℝ} (hm : m < min a b) {g : ℕ → List ℝ} (hg : FineGrids T g) :
    Tendsto (fun n => kerInt normKer b (g n) a (allIn fun y => m < y)) atTop (𝓝 (killDens m T a b)) := by
  have hne : ∀ n, g n ≠ [] := fun n h => by have := hg.two n; simp [h] at this
  have hT : 0 < T := by rw [← hg.total 0]; exact List.sum_pos _ (hg.pos 0) (hne 0)
  obtain ⟨ha, hb⟩ := lt_min_iff.1 hm
  refine squeeze_eps (κ' := fun ε => killDens (m - ε) T a b) (fun n => ?_) (fun ε hε n => ?_) (fun ε hε => fine_delta hg ε) fun c hc => half_wider hT hm hc
  · rw [← hg.total n, ← chapman_half hm (hne n) (hg.pos n)]
    exact kerInt_lower (D := fun y => m < y) (fun v hv x y hx hy => kill_le_norm hv hx hy) (fun v x y hy => if_neg fun h => hy h.2) hb _ _ ha (hg.pos n)
  · rw [← hg.total n, ← chapman_half (by linarith) (hne n) (hg.pos n)]
    exact grid_upper (D := fun y => m < y) (fun v hv x y hx hy => half_grid_upper hε hv hx hy) ha hb (hg.pos n)

/-- Paths above `m` on fine grids that stay below `U` there. -/
theorem kill_grid {T a b m U : ℝ} (hm : m < min a b) (hU : max a b < U) {g : ℕ → List ℝ} (hg : FineGrids T g) :
    Tendsto (fun n => kerInt (killDens m) b (g n) a (allIn fun y => y < U)) atTop (𝓝 (stripDens U m T a b)) := by
  have hne : ∀ n, g n ≠ [] := fun n h => by have := hg.two n; simp [h] at this
  obtain ⟨ha, hb⟩ := lt_min_iff.1 hm
  obtain ⟨hau, hbu⟩ := max_lt_iff.1 hU
  have hmono : ∀ (vs : List ℝ) (x : ℝ), m < x → (∀ v ∈ vs, 0 < v) →
      kerInt (killDens m) b vs x (allIn fun y => y < U) ≤ kerInt normKer b vs x (allIn fun y => m < y ∧ y < U) := by
    intro vs
    induction vs with
    | nil => intros; exact le_rfl
    | cons v vs ih =>
      intro x hx hp
      match vs, ih with
      | [], _ => simpa [kerInt, allIn] using kill_le_norm (hp v (by simp)) hx hb
      | w :: vs, ih =>
        simp only [kerInt]
        refine lintegral_mono fun y => ?_
        by_cases hy : m < y
        · by_cases hyU : y < U
          · simp only [allIn_cons_of (D := fun y => y < U) hyU, allIn_cons_of (D := fun y => m < y ∧ y < U) ⟨hy, hyU⟩]
            exact mul_le_mul' (kill_le_norm (hp v (by simp)) hx hy) (ih y hy fun u hu => hp u (List.mem_cons_of_mem _ hu))
          · simp only [allIn_cons_not (D := fun y => y < U) hyU, kerInt_zero, mul_zero, zero_le]
        · rw [killDens, if_neg fun h => hy h.2, zero_mul]
          exact zero_le
  refine tendsto_of_tendsto_of_tendsto_of_le_of_le tendsto_const_nhds (strip_grid hm hU hg) (fun n => ?_) (fun n => hmono (g n) a ha (hg.pos n))
  dsimp only
  rw [← hg.total n, ← chapman_strip hm (hne n) (hg.pos n)]
  refine (kerInt_lower (D := fun y => m < y ∧ y < U) (fun v hv x y hx hy => strip_le_kill hv hx hy) (fun v x y hy => if_neg fun h => hy h.2.2) ⟨hb, hbu⟩ _ _ ⟨ha, hau⟩
    (hg.pos n)).trans (kerInt_mono b _ _ fun l => ?_)
  unfold allIn
  split_ifs with h1 h2
  · exact le_rfl
  · exact absurd (fun y hy => (h1 y hy).2) h2
  · exact zero_le
  · exact le_rfl

theorem measurable_allIn (D : ℝ → Prop) (hD : MeasurableSet {y | D y}) (n : ℕ) : Measurable fun z : Fin n → ℝ => allIn D (List.ofFn z) := by
  unfold allIn
  refine Measurable.ite ?_ measurable_const measurable_const
  have e : {z : Fin n → ℝ | ∀ y ∈ List.ofFn z, D y} = ⋂ i, (fun z : Fin n → ℝ => z i) ⁻¹' {y | D y} := by
    ext z
    simp [List.mem_ofFn]
  rw [e]
  exact MeasurableSet.iInter fun i => measurable_pi_apply i hD

end Ctb
