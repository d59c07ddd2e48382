import Verif.Lemmas.StripLaw
import Verif.Props.LayerLaw

/-!
# C95: law of a bridge in a layer

Times are given as `(npCumsum vs).dropLast` with `vs` the durations of the segments, as in C94.  The budget `n` of proposals is explicit: the code raises
when it is used up.
-/

set_option linter.unusedSectionVars false

namespace Ctb

open MeasureTheory Set Filter Topology
open scoped ENNReal

variable {U m a b x : ℝ} {vs : List ℝ} {F : List ℝ → ℝ≥0∞} {n k : ℕ}

/-- **C95.** `sample_layerbr` with `sup_x_max = U`, from the infimum `m` to `b`, has the law of a Brownian path that stays between `m` and `U`: the values
have the density `stripEntr U m v₁ y₁ · stripDens U m v₂ y₁ y₂ ⋯ stripDens U m vₖ yₖ₋₁ b / stripEntr U m T b`, and some of the `n` independent proposals is
accepted with probability `1 - (1 - stripEntr U m T b / entrDens m T b)ⁿ`. -/
theorem C95_from_infimum (hk : 0 < k) (hm : m < b) (hU : b < U) (h2 : 2 ≤ vs.length) (hp : ∀ v ∈ vs, 0 < v)
    (hF : Measurable fun z : Fin (vs.length - 1) → ℝ => F (List.ofFn z)) :
    stripEntr U m vs.sum b * (sampleLayerbr n k (npCumsum vs).dropLast vs.sum m b m (some U) none).lexp (onOk fun q => F q.1) =
      (1 - (1 - stripEntr U m vs.sum b / entrDens m vs.sum b) ^ n) * startInt (stripEntr U m) (stripDens U m) b vs F := by
  have hne : vs ≠ [] := by rintro rfl; simp at h2
  have hF' : MeasL (vs.length - 1) fun _ : Unit => F := hF.comp measurable_snd
  have h := (layerSpec_strip n U).right (rec := layerStep n (some U) none fun _ _ _ _ _ => .err .fuel) hm (by rintro _ ⟨⟩; exact hU) hne hp (measAll_ofLen hF')
  rw [startInt_ofLen] at h
  rw [layerbr_first n k hk (some U) h2 hp (by rw [min_eq_left hm.le]) (by rintro _ ⟨⟩; rw [max_eq_right hm.le]; exact hU), ← layer_ofLen]
  exact h

/-- The same for a path that ends at its infimum: the density runs backwards in time. -/
theorem C95_to_infimum (hk : 0 < k) (hm : m < a) (hU : a < U) (h2 : 2 ≤ vs.length) (hp : ∀ v ∈ vs, 0 < v)
    (hF : Measurable fun z : Fin (vs.length - 1) → ℝ => F (List.ofFn z)) :
    stripEntr U m vs.sum a * (sampleLayerbr n k (npCumsum vs).dropLast vs.sum a m m (some U) none).lexp (onOk fun q => F q.1) =
      (1 - (1 - stripEntr U m vs.sum a / entrDens m vs.sum a) ^ n) * startInt (stripEntr U m) (stripDens U m) a vs.reverse fun l => F l.reverse := by
  have hne : vs ≠ [] := by rintro rfl; simp at h2
  have hF' : MeasL (vs.length - 1) fun _ : Unit => F := hF.comp measurable_snd
  have hrev : (npCumsum vs).dropLast.reverse.map (vs.sum - ·) = (npCumsum vs.reverse).dropLast := grid_reverse vs
  have h := (layerSpec_strip n U).left (rec := layerStep n (some U) none fun _ _ _ _ _ => .err .fuel) hm (by rintro _ ⟨⟩; exact hU) hne hp (grid_mem hp) hrev
    (measAll_ofLen hF')
  rw [layerbr_first n k hk (some U) h2 hp (by rw [min_eq_right hm.le]) (by rintro _ ⟨⟩; rw [max_eq_left hm.le]; exact hU), ← layer_ofLen]
  refine h.trans ?_
  rw [← startInt_ofLen a vs.reverse fun l => F l.reverse]
  congr 2
  funext l
  simp [ofLen]

/-- **C95.** Between two interior points the paths that are returned have a law dominated by that of the bridge from `a` to `b` conditioned to stay between
`m` and `U`, with the density `stripDens U m v₁ a y₁ ⋯ stripDens U m vₖ yₖ₋₁ b / stripDens U m T a b`, for every budget. -/
theorem C95_upper (hk : 0 < k) (hm : m < min a b) (hU : max a b < U) (h2 : 2 ≤ vs.length) (hp : ∀ v ∈ vs, 0 < v)
    (hF : Measurable fun z : Fin (vs.length - 1) → ℝ => F (List.ofFn z)) :
    stripDens U m vs.sum a b * (sampleLayerbr n k (npCumsum vs).dropLast vs.sum a b m (some U) none).lexp (onOk fun q => F q.1) ≤
      kerInt (stripDens U m) b vs a F := by
  have hne : vs ≠ [] := by rintro rfl; simp at h2
  have hF' : MeasL (vs.length - 1) fun _ : Unit => F := hF.comp measurable_snd
  rw [layerbr_first n k hk (some U) h2 hp hm.le (by rintro _ ⟨⟩; exact hU), ← layer_ofLen, ← kerInt_ofLen]
  exact layer_strip_le hm hU hne hp (measAll_ofLen hF')

/-- **C95.** As the budget grows the law of the path increases to that of the conditioned bridge. -/
theorem C95_limit (hk : 0 < k) (hm : m < min a b) (hU : max a b < U) (h2 : 2 ≤ vs.length) (hp : ∀ v ∈ vs, 0 < v)
    (hF : Measurable fun z : Fin (vs.length - 1) → ℝ => F (List.ofFn z)) :
    ⨆ n, stripDens U m vs.sum a b * (sampleLayerbr n k (npCumsum vs).dropLast vs.sum a b m (some U) none).lexp (onOk fun q => F q.1) =
      kerInt (stripDens U m) b vs a F := by
  have hne : vs ≠ [] := by rintro rfl; simp at h2
  have hF' : MeasL (vs.length - 1) fun _ : Unit => F := hF.comp measurable_snd
  rw [← kerInt_ofLen, ← layer_strip_sup hm hU hne hp (measAll_ofLen hF')]
  refine iSup_congr fun n => ?_
  rw [layerbr_first n k hk (some U) h2 hp hm.le (by rintro _ ⟨⟩; exact hU), ← layer_ofLen]

/-- The densities are normalised (Chapman and Kolmogorov). -/
theorem C95_mass (hm : m < min a b) (hU : max a b < U) (hne : vs ≠ []) (hp : ∀ v ∈ vs, 0 < v) :
    kerInt (stripDens U m) b vs a (fun _ => 1) = stripDens U m vs.sum a b ∧ stripDens U m vs.sum a b ≠ 0 ∧ stripDens U m vs.sum a b ≠ ∞ :=
  ⟨chapman_strip hm hne hp, stripDens_pos (List.sum_pos _ hp hne) hm hU⟩

theorem C95_entrance_mass (hm : m < x) (hU : x < U) (hne : vs ≠ []) (hp : ∀ v ∈ vs, 0 < v) :
    startInt (stripEntr U m) (stripDens U m) x vs (fun _ => 1) = stripEntr U m vs.sum x ∧ stripEntr U m vs.sum x ≠ 0 ∧ stripEntr U m vs.sum x ≠ ∞ :=
  ⟨strip_mass hm hU hne hp, stripEntr_pos (List.sum_pos _ hp hne) hm hU⟩

/-- The kernels are the transition density of the free path times the probabilities that the minimum of the segment stays above `m` and that, given
this, its maximum stays below `U`: the latter is one minus the limit of the series (C43) that `flip_bessel3br_escape` compares its uniform with. -/
theorem C95_kernel {v y p : ℝ} (hv : 0 < v) (hm : m < min x y) (hU : max x y < U) (hp : Tendsto (besSeries v (x - m) (y - m) (U - m)) atTop (𝓝 p)) :
    stripDens U m v x y = killDens m v x y * ENNReal.ofReal (1 - p) :=
  stripDens_esc hv (lt_min_iff.1 hm).1 (max_lt_iff.1 hU).1 (lt_min_iff.1 hm).2 (max_lt_iff.1 hU).2 hp

/-- A Brownian path in the strip is split at its minimum `m'`, attained at time `s`, into two independent paths above `m'`. -/
theorem C95_split {T : ℝ} (hT : 0 < T) (hm : m < min a b) (hU : max a b < U) :
    ∫⁻ m' in Ioo m (min a b), ∫⁻ s in Ioo 0 T, 2 * (stripEntr U m' s a * stripEntr U m' (T - s) b) = stripDens U m T a b :=
  strip_split hT (lt_min_iff.1 hm).1 (max_lt_iff.1 hU).1 (lt_min_iff.1 hm).2 (max_lt_iff.1 hU).2

theorem prob_ok_eq {α : Type} (p : Prog α) : p.prob (fun r => ∃ q, r = .ok q) = p.lexp (onOk fun _ => 1) := by
  unfold Prog.prob
  congr 1
  funext r
  rcases r with e | q <;> simp [onOk]

/-- The budget is used up with a probability that tends to 0. -/
theorem C95_returns (hk : 0 < k) (hm : m < min a b) (hU : max a b < U) (h2 : 2 ≤ vs.length) (hp : ∀ v ∈ vs, 0 < v) :
    ⨆ n, (sampleLayerbr n k (npCumsum vs).dropLast vs.sum a b m (some U) none).prob (fun r => ∃ q, r = .ok q) = 1 := by
  have hne : vs ≠ [] := by rintro rfl; simp at h2
  obtain ⟨h3, h4, h5⟩ := C95_mass hm hU hne hp
  have h6 := C95_limit (F := fun _ => 1) hk hm hU h2 hp measurable_const
  rw [h3, ← ENNReal.mul_iSup] at h6
  simp only [prob_ok_eq]
  exact (ENNReal.mul_right_inj h4 h5).1 (by rw [h6, mul_one])


/-- The distance in total variation to the conditioned bridge is at most the probability that the budget is used up. -/
theorem C95_distance (hk : 0 < k) (hm : m < min a b) (hU : max a b < U) (h2 : 2 ≤ vs.length) (hp : ∀ v ∈ vs, 0 < v)
    (hF : Measurable fun z : Fin (vs.length - 1) → ℝ => F (List.ofFn z)) (hF1 : ∀ l, F l ≤ 1) :
    kerInt (stripDens U m) b vs a F ≤ stripDens U m vs.sum a b *
      ((sampleLayerbr n k (npCumsum vs).dropLast vs.sum a b m (some U) none).lexp (onOk fun q => F q.1) +
        (1 - (sampleLayerbr n k (npCumsum vs).dropLast vs.sum a b m (some U) none).prob fun r => ∃ q, r = .ok q)) := by
  have hne : vs ≠ [] := by rintro rfl; simp at h2
  have hF' : MeasL (vs.length - 1) fun _ : Unit => F := hF.comp measurable_snd
  obtain ⟨-, h4, h5⟩ := C95_mass hm hU hne hp
  have h := layer_strip_tv (n := n) hm hU hne hp (measAll_ofLen hF') fun l => by
    unfold ofLen
    split_ifs
    · exact hF1 l
    · exact zero_le
  rw [prob_ok_eq, layerbr_first n k hk (some U) h2 hp hm.le (by rintro _ ⟨⟩; exact hU),
    layerbr_first n k hk (some U) (F := fun _ => 1) h2 hp hm.le (by rintro _ ⟨⟩; exact hU), ← layer_ofLen, mul_add, ENNReal.mul_sub fun _ _ => h5, mul_one]
  rw [kerInt_ofLen] at h
  have hle := C95_upper (n := n) (F := fun _ => 1) hk hm hU h2 hp measurable_const
  rw [(C95_mass hm hU hne hp).1, layerbr_first n k hk (some U) (F := fun _ => 1) h2 hp hm.le (by rintro _ ⟨⟩; exact hU)] at hle
  have hfin := ne_top_of_le_ne_top h5 hle
  rw [← (ENNReal.cancel_of_ne hfin).add_tsub_assoc_of_le hle]
  exact ENNReal.le_sub_of_add_le_right hfin h

/-- The hypotheses hold for a bridge of three segments in a layer. -/
example : ⨆ n, stripDens 2 (-1) 3 0 1 * (sampleLayerbr n 1 [1, 2] 3 0 1 (-1) (some 2) none).lexp (onOk fun q => ENNReal.ofReal (q.1.getD 0 0)) =
    kerInt (stripDens 2 (-1)) 1 [1, 1, 1] 0 fun l => ENNReal.ofReal (l.getD 0 0) := by
  have h := C95_limit (k := 1) (U := 2) (m := -1) (a := 0) (b := 1) (vs := [1, 1, 1]) (F := fun l => ENNReal.ofReal (l.getD 0 0)) (by norm_num)
    (by norm_num) (by norm_num) (by simp) (by simp) (by simp; fun_prop)
  have e1 : (npCumsum ([1, 1, 1] : List ℝ)).dropLast = [1, 2] := by norm_num [npCumsum, cumsumFrom]
  have e2 : ([1, 1, 1] : List ℝ).sum = 3 := by norm_num
  rwa [e1, e2] at h

example : stripEntr 2 0 3 1 * (sampleLayerbr 5 1 [1, 2] 3 0 1 0 (some 2) none).lexp (onOk fun _ => 1) =
    (1 - (1 - stripEntr 2 0 3 1 / entrDens 0 3 1) ^ 5) * stripEntr 2 0 3 1 := by
  have h := C95_from_infimum (n := 5) (k := 1) (U := 2) (m := 0) (b := 1) (vs := [1, 1, 1]) (F := fun _ => 1) (by norm_num)
    (by norm_num) (by norm_num) (by simp) (by simp) measurable_const
  rw [(C95_entrance_mass (by norm_num) (by norm_num) (by simp) (by simp)).1] at h
  have e1 : (npCumsum ([1, 1, 1] : List ℝ)).dropLast = [1, 2] := by norm_num [npCumsum, cumsumFrom]
  have e2 : ([1, 1, 1] : List ℝ).sum = 3 := by norm_num
  rwa [e1, e2] at h

end Ctb
