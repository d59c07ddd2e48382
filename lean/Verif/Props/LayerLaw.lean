import Verif.Lemmas.LayerHalf
import Verif.Props.MinLaw

/-!
# C93: the Bessel bridge is a Brownian path kept positive.  C94: law of a bridge above a level

Times are given as `(npCumsum vs).dropLast` with `vs` the durations of the segments, the total duration is `vs.sum`; every strictly increasing list of
times inside `(0, T)` is of this form.
-/

set_option linter.unusedSectionVars false

namespace Ctb

open MeasureTheory Set
open scoped ENNReal

variable {m a b x : ℝ} {vs : List ℝ} {F : List ℝ → ℝ≥0∞} {n k : ℕ}

/-- Every strictly increasing list of times in `(0, T)` is a grid. -/
theorem grid_surj {T : ℝ} : ∀ (t : List ℝ) (c : ℝ), (c :: t).Pairwise (· < ·) → (∀ r ∈ c :: t, r < T) →
    ∃ vs : List ℝ, vs ≠ [] ∧ (∀ v ∈ vs, 0 < v) ∧ (cumsumFrom c vs).dropLast = t ∧ c + vs.sum = T
  | [], c, _, h => ⟨[T - c], by simp, by simpa using h, by simp [cumsumFrom], by simp⟩
  | r :: t, c, hs, h => by
    obtain ⟨vs, h1, h2, h3, h4⟩ := grid_surj t r (List.pairwise_cons.1 hs).2 fun q hq => h q (List.mem_cons_of_mem _ hq)
    refine ⟨(r - c) :: vs, by simp, ?_, ?_, ?_⟩
    · intro v hv
      rcases List.mem_cons.1 hv with rfl | hv
      · exact sub_pos.2 ((List.pairwise_cons.1 hs).1 r List.mem_cons_self)
      · exact h2 v hv
    · simp only [cumsumFrom]
      rw [List.dropLast_cons_of_ne_nil, add_sub_cancel, h3]
      cases vs with
      | nil => exact absurd rfl h1
      | cons v vs => simp [cumsumFrom]
    · rw [List.sum_cons, ← h4]; ring

/-- **C93.** `sample_besselbr` in three dimensions from 0 to `x > 0` has the law of a Brownian path that starts at 0, stays positive and ends in `x`: the
norm of the three bridges has the density `entrDens 0 v₁ y₁ · killDens 0 v₂ y₁ y₂ ⋯ killDens 0 vₖ yₖ₋₁ x / entrDens 0 T x`. -/
theorem C93_law (hx : 0 < x) (h2 : 2 ≤ vs.length) (hp : ∀ v ∈ vs, 0 < v) (hF : Measurable fun z : Fin (vs.length - 1) → ℝ => F (List.ofFn z)) :
    entrDens 0 vs.sum x * (sampleBesselbr (npCumsum vs).dropLast vs.sum x 3).lexp (onOk F) = startInt (entrDens 0) (killDens 0) x vs F :=
  besselbr_law hx h2 hp (hF.comp measurable_snd) fun _ => rfl

/-- The density is normalised: a path is returned with probability one. -/
theorem C93_mass (hx : 0 < x) (hne : vs ≠ []) (hp : ∀ v ∈ vs, 0 < v) :
    startInt (entrDens 0) (killDens 0) x vs (fun _ => 1) = entrDens 0 vs.sum x ∧ entrDens 0 vs.sum x ≠ 0 ∧ entrDens 0 vs.sum x ≠ ∞ :=
  ⟨start_mass_zero hx hne hp, entrDens_pos (List.sum_pos _ hp hne) hx⟩

/-- The values are positive with probability one. -/
theorem C93_positive (hx : 0 < x) (h2 : 2 ≤ vs.length) (hp : ∀ v ∈ vs, 0 < v) :
    (sampleBesselbr (npCumsum vs).dropLast vs.sum x 3).prob (fun r => ∃ l, r = .ok l ∧ l.length + 1 = vs.length ∧ ∀ y ∈ l, 0 ≤ y) = 1 := by
  have hne : vs ≠ [] := by rintro rfl; simp at h2
  obtain ⟨h3, h4, h5⟩ := C93_mass hx hne hp
  have h6 := C93_law (F := fun _ => 1) hx h2 hp measurable_const
  rw [h3] at h6
  have h7 : (sampleBesselbr (npCumsum vs).dropLast vs.sum x 3).lexp (onOk fun _ => 1) = 1 := by
    have : entrDens 0 vs.sum x * (sampleBesselbr (npCumsum vs).dropLast vs.sum x 3).lexp (onOk fun _ => 1) = entrDens 0 vs.sum x * 1 := by rw [h6, mul_one]
    exact (ENNReal.mul_right_inj h4 h5).1 this
  rw [← h7]
  refine Prog.lexp_congr ?_
  rintro (e | l) hl
  · simp [onOk]
  · have := besselbr_out hl
    rw [grid_length] at this
    simp only [onOk]
    rw [if_pos ⟨l, rfl, by omega, this.2⟩]

/-- **C94.** `sample_layerbr` without bounds on the supremum returns a Brownian bridge from `a` to `b` conditioned to stay above `inf_x = m`: the values
have the density `killDens m v₁ a y₁ ⋯ killDens m vₖ yₖ₋₁ b / killDens m T a b`. -/
theorem C94_law (hn : 0 < n) (hk : 0 < k) (hm : m < min a b) (h2 : 2 ≤ vs.length) (hp : ∀ v ∈ vs, 0 < v)
    (hF : Measurable fun z : Fin (vs.length - 1) → ℝ => F (List.ofFn z)) :
    killDens m vs.sum a b * (sampleLayerbr n k (npCumsum vs).dropLast vs.sum a b m none none).lexp (onOk fun q => F q.1) =
      kerInt (killDens m) b vs a F := by
  have hne : vs ≠ [] := by rintro rfl; simp at h2
  have hF' : MeasL (vs.length - 1) fun _ : Unit => F := hF.comp measurable_snd
  rw [layerbr_first n k hk none h2 hp hm.le (by simp), ← layer_ofLen, layer_half hn hm hne hp (measAll_ofLen hF'), kerInt_ofLen]

/-- The same for a path that starts at its infimum. -/
theorem C94_from_infimum (hn : 0 < n) (hk : 0 < k) (hm : m < b) (h2 : 2 ≤ vs.length) (hp : ∀ v ∈ vs, 0 < v)
    (hF : Measurable fun z : Fin (vs.length - 1) → ℝ => F (List.ofFn z)) :
    entrDens m vs.sum b * (sampleLayerbr n k (npCumsum vs).dropLast vs.sum m b m none none).lexp (onOk fun q => F q.1) =
      startInt (entrDens m) (killDens m) b vs F := by
  have hne : vs ≠ [] := by rintro rfl; simp at h2
  have hF' : MeasL (vs.length - 1) fun _ : Unit => F := hF.comp measurable_snd
  have h := (layerSpec_half hn).right (rec := layerStep n none none fun _ _ _ _ _ => .err .fuel) hm (by simp) hne hp (measAll_ofLen hF')
  rw [one_mul, startInt_ofLen] at h
  rw [layerbr_first n k hk none h2 hp (by rw [min_eq_left hm.le]) (by simp), ← layer_ofLen]
  exact h

/-- The same for a path that ends at its infimum: the density runs backwards in time. -/
theorem C94_to_infimum (hn : 0 < n) (hk : 0 < k) (hm : m < a) (h2 : 2 ≤ vs.length) (hp : ∀ v ∈ vs, 0 < v)
    (hF : Measurable fun z : Fin (vs.length - 1) → ℝ => F (List.ofFn z)) :
    entrDens m vs.sum a * (sampleLayerbr n k (npCumsum vs).dropLast vs.sum a m m none none).lexp (onOk fun q => F q.1) =
      startInt (entrDens m) (killDens m) a vs.reverse fun l => F l.reverse := by
  have hne : vs ≠ [] := by rintro rfl; simp at h2
  have hF' : MeasL (vs.length - 1) fun _ : Unit => F := hF.comp measurable_snd
  have hrev : (npCumsum vs).dropLast.reverse.map (vs.sum - ·) = (npCumsum vs.reverse).dropLast := grid_reverse vs
  have h := (layerSpec_half hn).left (rec := layerStep n none none fun _ _ _ _ _ => .err .fuel) hm (by simp) hne hp (grid_mem hp) hrev (measAll_ofLen hF')
  rw [one_mul] at h
  rw [layerbr_first n k hk none h2 hp (by rw [min_eq_right hm.le]) (by simp), ← layer_ofLen]
  refine h.trans ?_
  rw [← startInt_ofLen a vs.reverse fun l => F l.reverse]
  congr 1
  funext l
  simp [ofLen]

/-- The kernel is the transition density of the free path times the probability that the minimum of the bridge over the segment (C91) stays above `m`. -/
theorem C94_kernel {v y : ℝ} (hv : 0 < v) (hm : m < min x y) :
    killDens m v x y = normDens v (y - x) * ∫⁻ m' in minRange (some m) (min x y), ∫⁻ s in Ioo 0 v, ENNReal.ofReal (minDens v x y s m') := by
  have h := (C91_mass (a := x) (b := y) (lb := some m) (ub := none) hv ⟨by simpa using hm, le_rfl⟩).1
  simp only [Option.getD_none] at h
  rw [h, killDens_eq hv hm, normDens]
  congr 3
  unfold minBelow
  congr 1
  rcases min_choice x y with h2 | h2 <;> rw [h2] <;> simp

/-- The density is normalised (Chapman and Kolmogorov), so a path is returned with probability one. -/
theorem C94_mass (hm : m < min a b) (hne : vs ≠ []) (hp : ∀ v ∈ vs, 0 < v) :
    kerInt (killDens m) b vs a (fun _ => 1) = killDens m vs.sum a b ∧ killDens m vs.sum a b ≠ 0 ∧ killDens m vs.sum a b ≠ ∞ :=
  ⟨chapman_half hm hne hp, killDens_pos (List.sum_pos _ hp hne) hm⟩

theorem C94_returns (hn : 0 < n) (hk : 0 < k) (hm : m < min a b) (h2 : 2 ≤ vs.length) (hp : ∀ v ∈ vs, 0 < v) :
    (sampleLayerbr n k (npCumsum vs).dropLast vs.sum a b m none none).prob (fun r => ∃ q, r = .ok q) = 1 := by
  have hne : vs ≠ [] := by rintro rfl; simp at h2
  obtain ⟨h3, h4, h5⟩ := C94_mass hm hne hp
  have h6 := C94_law (F := fun _ => 1) hn hk hm h2 hp measurable_const
  rw [h3] at h6
  have h7 : (sampleLayerbr n k (npCumsum vs).dropLast vs.sum a b m none none).lexp (onOk fun _ => 1) = 1 :=
    (ENNReal.mul_right_inj h4 h5).1 (by rw [h6, mul_one])
  rw [← h7]
  unfold Prog.prob
  congr 1
  funext r
  rcases r with e | q <;> simp [onOk]

/-- The hypotheses hold for a bridge of three segments; its middle values have a proper density. -/
example : killDens (-1) 3 0 1 * (sampleLayerbr 5 1 [1, 2] 3 0 1 (-1) none none).lexp (onOk fun q => ENNReal.ofReal (q.1.getD 0 0)) =
    kerInt (killDens (-1)) 1 [1, 1, 1] 0 fun l => ENNReal.ofReal (l.getD 0 0) := by
  have h := C94_law (n := 5) (k := 1) (m := -1) (a := 0) (b := 1) (vs := [1, 1, 1]) (F := fun l => ENNReal.ofReal (l.getD 0 0)) (by norm_num) (by norm_num)
    (by norm_num) (by simp) (by simp) (by simp; fun_prop)
  have e1 : (npCumsum ([1, 1, 1] : List ℝ)).dropLast = [1, 2] := by norm_num [npCumsum, cumsumFrom]
  have e2 : ([1, 1, 1] : List ℝ).sum = 3 := by norm_num
  rwa [e1, e2] at h

example : (sampleBesselbr [1, 2] 3 1 3).prob (fun r => ∃ l, r = .ok l ∧ l.length + 1 = 3 ∧ ∀ y ∈ l, 0 ≤ y) = 1 := by
  have h := C93_positive (x := 1) (vs := [1, 1, 1]) one_pos (by simp) (by simp)
  have e1 : (npCumsum ([1, 1, 1] : List ℝ)).dropLast = [1, 2] := by norm_num [npCumsum, cumsumFrom]
  have e2 : ([1, 1, 1] : List ℝ).sum = 3 := by norm_num
  rwa [e1, e2] at h

/-- Every admissible list of times is covered. -/
example {t : List ℝ} {T : ℝ} (ht : t.Pairwise (· < ·)) (h0 : ∀ r ∈ t, 0 < r ∧ r < T) (hT : 0 < T) :
    ∃ vs : List ℝ, vs ≠ [] ∧ (∀ v ∈ vs, 0 < v) ∧ (npCumsum vs).dropLast = t ∧ vs.sum = T := by
  obtain ⟨vs, h1, h2, h3, h4⟩ := grid_surj (T := T) t 0 (List.pairwise_cons.2 ⟨fun r hr => (h0 r hr).1, ht⟩) (by
    intro r hr
    rcases List.mem_cons.1 hr with rfl | hr
    · exact hT
    · exact (h0 r hr).2)
  exact ⟨vs, h1, h2, h3, by simpa using h4⟩

end Ctb
