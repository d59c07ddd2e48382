import Verif.Lemmas.McemSe
import Mathlib.LinearAlgebra.Matrix.Determinant.Basic
import Mathlib.LinearAlgebra.Matrix.Notation
import Mathlib.Probability.Distributions.Uniform

set_option linter.unusedSectionVars false

/-! # C105: standard errors

`est_se` should return the inverse of Louis' estimate of the observed information at `thi`, or `None` where that is no valid covariance. -/

namespace Ctb

open Classical MeasureTheory Filter Topology

variable {p n : ℕ}

/-- Louis' estimate: minus the mean of the second derivatives minus the sample covariance of the gradients. -/
noncomputable def sampleInfo (F : (Fin p → ℝ) → Fin n → ℝ) (thi : Fin p → ℝ) : Matrix (Fin p) (Fin p) ℝ := Matrix.of fun i j =>
  -((∑ k, hessAt (fun x => F x k) thi i j) / n) -
    (∑ k, (gradAt (fun x => F x k) thi i - (∑ l, gradAt (fun x => F x l) thi i) / n) *
      (gradAt (fun x => F x k) thi j - (∑ l, gradAt (fun x => F x l) thi j) / n)) / (n - 1)

theorem seInfo_inside {lb ub : List (Option ℝ)} {F : (Fin p → ℝ) → Fin n → ℝ} {thi : Fin p → ℝ} (hn : 2 ≤ n) (hi : InsideBounds lb ub thi)
    (hF : ∀ k, ContDiffAt ℝ 2 (fun x => F x k) thi) : seInfo (clipTo lb ub) F thi = sampleInfo F thi := by
  ext i j
  have hc := clipTo_inside hi
  have h1 : hessAt (fun x => -((∑ k, F (clipTo lb ub x) k) / n)) thi = hessAt (fun x => -((∑ k, F x k) / n)) thi := by
    refine hessAt_congr ?_
    filter_upwards [hc] with x hx
    rw [hx]
  have h2 : ∀ k, gradAt (fun x => F (clipTo lb ub x) k) thi = gradAt (fun x => F x k) thi := by
    intro k
    refine gradAt_congr ?_
    filter_upwards [hc] with x hx
    rw [hx]
  unfold seInfo sampleInfo
  rw [Matrix.of_apply, Matrix.of_apply, h1, hessAt_neg_mean hF, gradCov, dif_neg (by omega)]
  simp only [h2]
  rfl

theorem inside_not_on {lb ub : List (Option ℝ)} {thi : Fin p → ℝ} (hi : InsideBounds lb ub thi) :
    ¬∃ i : Fin p, lb.getD i none = some (thi i) ∨ ub.getD i none = some (thi i) := by
  rintro ⟨i, h | h⟩
  · exact lt_irrefl _ ((hi i _).1 h)
  · exact lt_irrefl _ ((hi i _).2 h)

/-- **C105** for parameters strictly inside the buffered bounds and at least two particles: the inverse of the information is returned if its diagonal
is positive, `None` if an entry is not; a singular information raises.  Missing: parameters between a bound and the buffered bound, one particle. -/
theorem C105_information_partial {lb ub : List (Option ℝ)} {F : (Fin p → ℝ) → Fin n → ℝ} {thi : Fin p → ℝ} (hl : lb.length = p) (hu : ub.length = p)
    (hp : p ≠ 0) (hn : 2 ≤ n) (hi : InsideBounds lb ub thi) (hF : ∀ k, ContDiffAt ℝ 2 (fun x => F x k) thi) :
    (∀ V, seFrom lb ub F thi = .ok (some V) ↔ V * sampleInfo F thi = 1 ∧ ∀ i, 0 < V i i) ∧
      (seFrom lb ub F thi = .ok none ↔ ∃ V, V * sampleInfo F thi = 1 ∧ ∃ i, V i i ≤ 0) ∧
      (seFrom lb ub F thi = .error .exception ↔ ¬∃ V, V * sampleInfo F thi = 1) := by
  have e : seFrom lb ub F thi = if (sampleInfo F thi).det = 0 then .error .exception
      else if ∀ i, 0 < (sampleInfo F thi)⁻¹ i i then .ok (some (sampleInfo F thi)⁻¹) else .ok none := by
    unfold seFrom
    rw [if_neg (by omega), if_neg (inside_not_on hi), if_neg (by omega), seInfo_inside hn hi hF]
  generalize sampleInfo F thi = I at e ⊢
  have hinv : ∀ V, V * I = 1 → I.det ≠ 0 ∧ I⁻¹ = V := by
    intro V hV
    refine ⟨fun h0 => ?_, Matrix.inv_eq_left_inv hV⟩
    have := congrArg Matrix.det hV
    rw [Matrix.det_mul, h0, mul_zero, Matrix.det_one] at this
    exact zero_ne_one this
  by_cases hd : I.det = 0
  · rw [if_pos hd] at e
    rw [e]
    have hno : ∀ V, V * I ≠ 1 := fun V hV => (hinv V hV).1 hd
    simp [hno]
  · rw [if_neg hd] at e
    have hI : I⁻¹ * I = 1 := Matrix.nonsing_inv_mul _ (isUnit_iff_ne_zero.2 hd)
    by_cases hpos : ∀ i, 0 < I⁻¹ i i
    · rw [if_pos hpos] at e
      rw [e]
      refine ⟨fun V => ⟨fun h => ?_, fun h => ?_⟩, ⟨fun h => by simp at h, ?_⟩, ⟨fun h => by simp at h, fun h => (h ⟨_, hI⟩).elim⟩⟩
      · cases h
        exact ⟨hI, hpos⟩
      · rw [(hinv V h.1).2]
      · rintro ⟨V, hV, i, hi⟩
        rw [← (hinv V hV).2] at hi
        exact absurd (hpos i) hi.not_gt
    · rw [if_neg hpos] at e
      rw [e]
      refine ⟨fun V => ⟨fun h => by simp at h, fun h => ?_⟩, ⟨fun _ => ?_, fun _ => rfl⟩, ⟨fun h => by simp at h, fun h => (h ⟨_, hI⟩).elim⟩⟩
      · rw [← (hinv V h.1).2] at h
        exact absurd h.2 hpos
      · push_neg at hpos
        exact ⟨_, hI, hpos⟩

/-- On one of the buffered bounds the result is `None`. -/
theorem C105_boundary {lb ub : List (Option ℝ)} {F : (Fin p → ℝ) → Fin n → ℝ} {thi : Fin p → ℝ} (hl : lb.length = p) (hu : ub.length = p)
    (hn : n ≠ 0) (i : Fin p) (h : lb.getD i none = some (thi i) ∨ ub.getD i none = some (thi i)) : seFrom lb ub F thi = .ok none := by
  unfold seFrom
  have := i.pos
  rw [if_neg (by omega), if_pos ⟨i, h⟩]

/-- Beyond the buffered bounds the objective does not depend on the parameter, the information is singular and `est_se` raises. -/
theorem C105_beyond {lb ub : List (Option ℝ)} {F : (Fin p → ℝ) → Fin n → ℝ} {thi : Fin p → ℝ} (hl : lb.length = p) (hu : ub.length = p) (hn : 2 ≤ n)
    (j : Fin p) (hj : BeyondBound lb ub thi j) (ho : ¬∃ i : Fin p, lb.getD i none = some (thi i) ∨ ub.getD i none = some (thi i)) :
    seFrom lb ub F thi = .error .exception := by
  have hdet : (seInfo (clipTo lb ub) F thi).det = 0 := by
    refine Matrix.det_eq_zero_of_column_eq_zero j fun i => ?_
    have h1 : hessAt (fun x => -((∑ k, F (clipTo lb ub x) k) / n)) thi i j = 0 := by
      unfold hessAt
      rw [(clipTo_beyond hj fun y => -((∑ k, F y k) / n)).fderiv_eq]
      simp
    have h2 : ∀ k, gradAt (fun x => F (clipTo lb ub x) k) thi j = 0 := fun k => (clipTo_beyond hj fun y => F y k).self_of_nhds
    unfold seInfo
    rw [Matrix.of_apply, h1, gradCov, dif_neg (by omega)]
    unfold npCov
    simp [h2]
  unfold seFrom
  have := j.pos
  rw [if_neg (by omega), if_neg ho, if_neg (by omega), if_pos hdet]

/-- The bounds of `est_se` in `ito` are those of `buffer_bounds`. -/
theorem C105_ito_partial {lb ub : Option (List (Option ℝ))} {buffer : ℝ} {b : List (Option ℝ) × List (Option ℝ)} {F : (Fin p → ℝ) → Fin n → ℝ}
    {thi : Fin p → ℝ} (hb : bufferBounds lb ub p buffer = .ok b) (hl : b.1.length = p) (hu : b.2.length = p) (hp : p ≠ 0) (hn : 2 ≤ n)
    (hi : InsideBounds b.1 b.2 thi) (hF : ∀ k, ContDiffAt ℝ 2 (fun x => F x k) thi) (V : Matrix (Fin p) (Fin p) ℝ) :
    itoEstSe lb ub buffer F thi = .ok (some V) ↔ V * sampleInfo F thi = 1 ∧ ∀ i, 0 < V i i := by
  unfold itoEstSe
  rw [hb]
  exact (C105_information_partial hl hu hp hn hi hF).1 V

/-- `switching`: one matrix for each regime, from the objective as a function of the parameters of that regime. -/
theorem C105_switching_partial {m : ℕ} {lb ub : Option (List (Option ℝ))} {buffer : ℝ} {b : List (Option ℝ) × List (Option ℝ)}
    {F : (ℕ → Fin p → ℝ) → ℕ → Fin n → ℝ} {thi : ℕ → Fin p → ℝ} (hb : bufferBounds lb ub m buffer = .ok b) (hl : b.1.length = p) (hu : b.2.length = p)
    (hp : p ≠ 0) (hn : 2 ≤ n) (hi : ∀ i < m, InsideBounds b.1 b.2 (thi i))
    (hF : ∀ i < m, ∀ k, ContDiffAt ℝ 2 (fun x => F (Function.update thi i x) i k) (thi i)) {V : ℕ → Matrix (Fin p) (Fin p) ℝ}
    (hV : ∀ i < m, V i * sampleInfo (fun x => F (Function.update thi i x) i) (thi i) = 1 ∧ ∀ a, 0 < V i a a) :
    swEstSe m lb ub buffer F thi = .ok ((List.range m).map fun i => some (V i)) := by
  unfold swEstSe
  rw [hb]
  show (List.range m).mapM (fun i => seFrom b.1 b.2 (fun x => F (Function.update thi i x) i) (thi i)) = _
  have h : ∀ i ∈ List.range m, seFrom b.1 b.2 (fun x => F (Function.update thi i x) i) (thi i) = .ok (some (V i)) := fun i hi' =>
    ((C105_information_partial hl hu hp hn (hi i (List.mem_range.1 hi')) (hF i (List.mem_range.1 hi'))).1 _).2 (hV i (List.mem_range.1 hi'))
  generalize List.range m = L at h
  induction L with
  | nil => rfl
  | cons a L ih =>
    rw [List.mapM_cons, h a (by simp), ih fun i hi' => h i (by simp [hi'])]
    rfl

/-- Over independent particles the estimate is unbiased for minus the mean of the second derivatives minus the covariance of the gradient. -/
theorem C105_unbiased {Z : Type} [MeasurableSpace Z] {μ : Measure Z} [IsProbabilityMeasure μ] {f : Z → (Fin p → ℝ) → ℝ} {thi : Fin p → ℝ} (hn : 2 ≤ n)
    (hg : ∀ i, MemLp (fun z => gradAt (f z) thi i) 2 μ) (hh : ∀ i j, Integrable (fun z => hessAt (f z) thi i j) μ) (i j : Fin p) :
    ∫ z : Fin n → Z, sampleInfo (fun x k => f (z k) x) thi i j ∂(Measure.pi fun _ => μ) =
      -(∫ z, hessAt (f z) thi i j ∂μ) -
        ((∫ z, gradAt (f z) thi i * gradAt (f z) thi j ∂μ) - (∫ z, gradAt (f z) thi i ∂μ) * ∫ z, gradAt (f z) thi j ∂μ) := by
  have hmp : ∀ k : Fin n, MeasurePreserving (fun z : Fin n → Z => z k) (Measure.pi fun _ => μ) μ := fun k => measurePreserving_eval (fun _ => μ) k
  have hI : ∀ k : Fin n, Integrable (fun z : Fin n → Z => hessAt (f (z k)) thi i j) (Measure.pi fun _ => μ) := fun k => (hmp k).integrable_comp_of_integrable (hh i j)
  have e0 : ∀ k : Fin n, ∫ z : Fin n → Z, hessAt (f (z k)) thi i j ∂(Measure.pi fun _ => μ) = ∫ z, hessAt (f z) thi i j ∂μ := by
    intro k
    rw [← (hmp k).map_eq, integral_map (hmp k).aemeasurable (by rw [(hmp k).map_eq]; exact (hh i j).aestronglyMeasurable)]
    rw [(hmp k).map_eq]
  have e1 := npCov_unbiased (g := fun z => gradAt (f z) thi) hn hg i j
  have i1 : ∀ (k : Fin n) a, MemLp (fun z : Fin n → Z => gradAt (f (z k)) thi a) 2 (Measure.pi fun _ => μ) := fun k a => (hg a).comp_measurePreserving (hmp k)
  have i2 : Integrable (fun z : Fin n → Z => npCov (fun k => gradAt (f (z k)) thi) i j) (Measure.pi fun _ => μ) := by
    unfold npCov
    refine (integrable_finset_sum _ fun k _ => ?_).div_const _
    have hs : ∀ a, MemLp (fun z : Fin n → Z => gradAt (f (z k)) thi a - (∑ l, gradAt (f (z l)) thi a) / n) 2 (Measure.pi fun _ => μ) := by
      intro a
      refine (i1 k a).sub ?_
      simp only [div_eq_mul_inv]
      exact (memLp_finset_sum _ fun l _ => i1 l a).mul_const _
    exact (hs i).integrable_mul (hs j)
  show ∫ z : Fin n → Z, (-((∑ k, hessAt (f (z k)) thi i j) / n) - npCov (fun k => gradAt (f (z k)) thi) i j) ∂(Measure.pi fun _ => μ) = _
  rw [integral_sub ((integrable_finset_sum _ fun k _ => hI k).div_const _).fun_neg i2, e1, integral_neg, integral_div, integral_finset_sum _ fun k _ => hI k]
  simp only [e0, Finset.sum_const, Finset.card_univ, Fintype.card_fin, nsmul_eq_mul]
  have hn0 : (n : ℝ) ≠ 0 := by positivity
  rw [mul_div_cancel_left₀ _ hn0]

/-- Louis' identity: if particle `z` is drawn with probability proportional to `exp(f z thi)`, the expectation is the observed information, minus
the second derivative of the logarithm of the likelihood `∑ exp(f z)`. -/
theorem C105_louis {Z : Type} [Fintype Z] [Nonempty Z] [MeasurableSpace Z] [MeasurableSingletonClass Z] {μ : Measure Z} [IsProbabilityMeasure μ]
    {f : Z → (Fin p → ℝ) → ℝ} {thi : Fin p → ℝ} (hn : 2 ≤ n) (hf : ∀ z, ContDiffAt ℝ 2 (f z) thi)
    (hμ : ∀ z, μ.real {z} = Real.exp (f z thi) / ∑ z', Real.exp (f z' thi)) (i j : Fin p) :
    ∫ z : Fin n → Z, sampleInfo (fun x k => f (z k) x) thi i j ∂(Measure.pi fun _ => μ) =
      -hessAt (fun y => Real.log (∑ z, Real.exp (f z y))) thi i j := by
  rw [C105_unbiased hn (fun i => MemLp.of_discrete) (fun i j => Integrable.of_finite), louis hf hμ]
  simp only [integral_fintype Integrable.of_finite, smul_eq_mul]
  ring

/-! ## Examples and counterexamples -/

/-- Two particles with quadratic objectives. -/
def quadObj : (Fin 1 → ℝ) → Fin 2 → ℝ := fun x k => -(x 0) ^ 2 + (k.val : ℝ) * x 0

theorem quadObj_deriv (k : Fin 2) (y : Fin 1 → ℝ) : fderiv ℝ (fun x => quadObj x k) y (Pi.single 0 1) = -2 * y 0 + k.val := by
  have h0 : HasFDerivAt (fun x : Fin 1 → ℝ => x 0) (ContinuousLinearMap.proj (R := ℝ) (φ := fun _ : Fin 1 => ℝ) 0) y := hasFDerivAt_apply 0 y
  have h := (h0.pow 2).fun_neg.add (h0.const_mul (k.val : ℝ))
  have e : (fun x => quadObj x k) = (fun x : Fin 1 → ℝ => -(x 0 ^ 2)) + fun x => (k.val : ℝ) * x 0 := by
    funext x
    simp [quadObj]
  rw [e, h.fderiv]
  simp

theorem quadObj_info (x : Fin 1 → ℝ) : sampleInfo quadObj x = Matrix.of fun _ _ => 3 / 2 := by
  ext i j
  obtain rfl : i = 0 := Subsingleton.elim _ _
  obtain rfl : j = 0 := Subsingleton.elim _ _
  have hh : ∀ k : Fin 2, hessAt (fun y => quadObj y k) x 0 0 = -2 := by
    intro k
    unfold hessAt
    simp only [quadObj_deriv]
    have h0 : HasFDerivAt (fun x : Fin 1 → ℝ => x 0) (ContinuousLinearMap.proj (R := ℝ) (φ := fun _ : Fin 1 => ℝ) 0) x := hasFDerivAt_apply 0 x
    rw [((h0.const_mul (-2)).add_const (k.val : ℝ)).fderiv]
    simp
  unfold sampleInfo
  rw [Matrix.of_apply, Matrix.of_apply]
  simp only [hh, gradAt, quadObj_deriv, Fin.sum_univ_two]
  norm_num
  ring

theorem quadObj_smooth (k : Fin 2) (x : Fin 1 → ℝ) : ContDiffAt ℝ 2 (fun y => quadObj y k) x := by
  unfold quadObj
  fun_prop

/-- Away from the bound 0 the standard error is the inverse of the information `3/2`. -/
example : itoEstSe (some [some 0]) none (1 / 100) quadObj ![1] = .ok (some (Matrix.of fun _ _ => 2 / 3)) := by
  refine (C105_ito_partial (p := 1) (b := ([some (1 / 100)], [none])) ?_ rfl rfl (by norm_num) le_rfl ?_ (fun k => quadObj_smooth k _) _).2 ⟨?_, ?_⟩
  · simp [bufferBounds, bufferWidth]
  · intro i a
    obtain rfl : i = 0 := Subsingleton.elim _ _
    constructor
    · intro h
      simp at h
      subst h
      norm_num
    · intro h
      simp at h
  · rw [quadObj_info]
    ext i j
    obtain rfl : i = j := Subsingleton.elim _ _
    rw [Matrix.mul_apply]
    norm_num
  · intro i
    norm_num

/-- Two equally likely particles. -/
example (n : ℕ) (hn : 2 ≤ n) : ∫ z : Fin n → Fin 2, sampleInfo (fun x k => quadObj x (z k)) ![0] 0 0 ∂(Measure.pi fun _ => (PMF.uniformOfFintype (Fin 2)).toMeasure) =
    -hessAt (fun y => Real.log (∑ z, Real.exp (quadObj y z))) ![0] 0 0 := by
  refine C105_louis hn (fun z => quadObj_smooth z _) (fun z => ?_) 0 0
  rw [Measure.real, PMF.toMeasure_apply_singleton _ _ (measurableSet_singleton _)]
  simp [quadObj]

/-- **C105** fails between the bound and the buffered bound: `1/200` is a valid parameter, the information is `3/2`, but `est_se` raises. -/
theorem C105_buffer_violated : ∃ (F : (Fin 1 → ℝ) → Fin 2 → ℝ) (thi : Fin 1 → ℝ) (V : Matrix (Fin 1) (Fin 1) ℝ), InsideBounds [some 0] [none] thi ∧
    (∀ k, ContDiffAt ℝ 2 (fun x => F x k) thi) ∧ V * sampleInfo F thi = 1 ∧ (∀ i, 0 < V i i) ∧
    itoEstSe (some [some 0]) none (1 / 100) F thi = .error .exception := by
  refine ⟨quadObj, ![1 / 200], Matrix.of fun _ _ => 2 / 3, ?_, fun k => quadObj_smooth k _, ?_, fun i => by norm_num, ?_⟩
  · intro i a
    obtain rfl : i = 0 := Subsingleton.elim _ _
    constructor
    · intro h
      simp at h
      subst h
      norm_num
    · intro h
      simp at h
  · rw [quadObj_info]
    ext i j
    obtain rfl : i = j := Subsingleton.elim _ _
    rw [Matrix.mul_apply]
    norm_num
  · have hb : bufferBounds (some [some 0]) none 1 (1 / 100) = .ok ([some (1 / 100)], [none]) := by simp [bufferBounds, bufferWidth]
    unfold itoEstSe
    rw [hb]
    refine C105_beyond rfl rfl le_rfl 0 (Or.inl ⟨1 / 100, by simp, by norm_num⟩) ?_
    rintro ⟨i, h⟩
    obtain rfl : i = 0 := Subsingleton.elim _ _
    rcases h with h | h
    · norm_num at h
    · simp at h

/-- **C105** fails for `switching` without bounds: they are made for as many parameters as there are regimes. -/
theorem C105_switching_violated {m : ℕ} (hm : m ≠ 0) (hp : p ≠ m) (buffer : ℝ) (F : (ℕ → Fin p → ℝ) → ℕ → Fin n → ℝ) (thi : ℕ → Fin p → ℝ) :
    swEstSe m none none buffer F thi = .error .value := by
  obtain ⟨k, rfl⟩ := Nat.exists_eq_succ_of_ne_zero hm
  have hb : ∃ b, bufferBounds none none (k + 1) buffer = .ok b ∧ b.1.length = k + 1 := by
    unfold bufferBounds
    simp only [Option.getD_none]
    rw [if_neg (by simp)]
    exact ⟨_, rfl, by simp⟩
  obtain ⟨b, hb, hl⟩ := hb
  unfold swEstSe
  rw [hb]
  show (List.range (k + 1)).mapM (fun i => seFrom b.1 b.2 (fun x => F (Function.update thi i x) i) (thi i)) = _
  rw [List.range_succ_eq_map, List.mapM_cons]
  have : seFrom b.1 b.2 (fun x => F (Function.update thi 0 x) 0) (thi 0) = .error .value := by
    unfold seFrom
    rw [if_pos (Or.inl (by rw [hl]; exact fun h => hp h.symm))]
  rw [this]
  rfl

/-- One particle and two parameters. -/
noncomputable def planeObj : (Fin 2 → ℝ) → Fin 1 → ℝ := fun x _ => -(x 0 ^ 2 + x 1 ^ 2) / 2 + x 0

theorem planeObj_deriv (y v : Fin 2 → ℝ) : fderiv ℝ (fun x => planeObj x 0) y v = -(y 0 * v 0 + y 1 * v 1) + v 0 := by
  have h0 : HasFDerivAt (fun x : Fin 2 → ℝ => x 0) (ContinuousLinearMap.proj (R := ℝ) (φ := fun _ : Fin 2 => ℝ) 0) y := hasFDerivAt_apply 0 y
  have h1 : HasFDerivAt (fun x : Fin 2 → ℝ => x 1) (ContinuousLinearMap.proj (R := ℝ) (φ := fun _ : Fin 2 => ℝ) 1) y := hasFDerivAt_apply 1 y
  have h := (((h0.pow 2).fun_add (h1.pow 2)).const_mul (-1 / 2)).fun_add h0
  have e : (fun x => planeObj x 0) = fun x : Fin 2 → ℝ => -1 / 2 * (x 0 ^ 2 + x 1 ^ 2) + x 0 := by
    funext x
    simp only [planeObj]
    ring
  rw [e, h.fderiv]
  simp
  ring

theorem planeObj_hess (x : Fin 2 → ℝ) (i j : Fin 2) : hessAt (fun x => planeObj x 0) x i j = -(1 : Matrix (Fin 2) (Fin 2) ℝ) i j := by
  unfold hessAt
  simp only [planeObj_deriv]
  have h0 : HasFDerivAt (fun x : Fin 2 → ℝ => x 0) (ContinuousLinearMap.proj (R := ℝ) (φ := fun _ : Fin 2 => ℝ) 0) x := hasFDerivAt_apply 0 x
  have h1 : HasFDerivAt (fun x : Fin 2 → ℝ => x 1) (ContinuousLinearMap.proj (R := ℝ) (φ := fun _ : Fin 2 => ℝ) 1) x := hasFDerivAt_apply 1 x
  have h := ((h0.mul_const ((Pi.single j (1 : ℝ) : Fin 2 → ℝ) 0)).fun_add (h1.mul_const ((Pi.single j (1 : ℝ) : Fin 2 → ℝ) 1))).fun_neg.add_const ((Pi.single j (1 : ℝ) : Fin 2 → ℝ) 0)
  rw [h.fderiv]
  fin_cases i <;> fin_cases j <;> simp

/-- **C105** fails for one particle, which has no sample covariance: with two parameters `np.cov` takes the two components of the gradient for two
observations of one variable; here the matrix with every entry `1/2` is subtracted from the unit matrix and inverted. -/
theorem C105_single_violated : seFrom [none, none] [none, none] planeObj ![0, 0] = .error .exception := by
  have hi : InsideBounds [none, none] [none, none] (![0, 0] : Fin 2 → ℝ) := by
    intro i a
    fin_cases i <;> simp
  have hc : ∀ x : Fin 2 → ℝ, clipTo [none, none] [none, none] x = x := by
    intro x
    funext i
    fin_cases i <;> rfl
  have hF : ∀ k : Fin 1, ContDiffAt ℝ 2 (fun y => planeObj y k) ![0, 0] := by
    intro k
    unfold planeObj
    fun_prop
  have h1 : seInfo (clipTo [none, none] [none, none]) planeObj ![0, 0] = Matrix.of fun i j => (1 : Matrix (Fin 2) (Fin 2) ℝ) i j - 1 / 2 := by
    ext i j
    unfold seInfo
    simp only [hc]
    rw [Matrix.of_apply, Matrix.of_apply, hessAt_neg_mean hF, gradCov, dif_pos rfl]
    have h2 : hessAt (fun y => planeObj y 0) ![0, 0] i j = _ := planeObj_hess _ i j
    have h3 : ∀ k : Fin 1, (fun y => planeObj y k) = fun y => planeObj y 0 := fun k => rfl
    simp only [h3, Finset.sum_const, Finset.card_univ, Fintype.card_fin, h2, gradAt, planeObj_deriv, Fin.sum_univ_two]
    norm_num
  unfold seFrom
  rw [if_neg (by norm_num), if_neg (inside_not_on hi), if_neg (by norm_num), if_pos]
  rw [h1, Matrix.det_fin_two]
  norm_num

end Ctb
