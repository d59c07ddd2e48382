import Verif.Model.Pool
import Verif.Spec.Euler
import Verif.Spec.Value
import Verif.Lemmas.MassOne
import Mathlib.MeasureTheory.Group.Convolution
import Mathlib.Probability.Kernel.MeasurableLIntegral

set_option linter.unusedSectionVars false

/-! # The law of the trajectories of `euler_simulate` -/

namespace Ctb

open MeasureTheory ProbabilityTheory
open scoped ENNReal NNReal

theorem unit_normal_law : (RDist.normal 0 1).law = gaussianReal 0 1 := by
  have h0 : (RDist.normal 0 1).law = gaussianReal 0 (Real.toNNReal ((1 : ℝ) ^ 2)) := rfl
  rw [h0]; congr 1; simp

theorem lintegral_gauss_affine {F : ℝ → ℝ≥0∞} (hF : Measurable F) (m c r : ℝ) {V : ℝ} (hV : 0 ≤ V) :
    ∫⁻ z, F (m + c * z) ∂(gaussianReal r V.toNNReal) = ∫⁻ y, F y ∂(gaussianReal (m + c * r) (c ^ 2 * V).toNNReal) := by
  have h1 : (gaussianReal r V.toNNReal).map (fun z => m + c * z) = gaussianReal (m + c * r) (c ^ 2 * V).toNNReal := by
    have e : (fun z : ℝ => m + c * z) = (fun y => m + y) ∘ fun z => c * z := rfl
    rw [e, ← Measure.map_map (by fun_prop) (by fun_prop), gaussianReal_map_const_mul, gaussianReal_map_const_add, add_comm]
    congr 1
    apply NNReal.coe_injective
    rw [NNReal.coe_mul, Real.coe_toNNReal _ hV, Real.coe_toNNReal _ (by positivity)]
    rfl
  rw [← h1, lintegral_map hF (by fun_prop)]

theorem measurable_eulerKernel {d v : ℝ → ℝ} (hd : Measurable d) (hv : Measurable v) {h : ℝ} (hh : 0 ≤ h) {F : ℝ → ℝ≥0∞} (hF : Measurable F) :
    Measurable (eulerKernel d v h F) := by
  have e : eulerKernel d v h F = fun x => ∫⁻ z, F ((x + d x * h) + (v x * √h) * z) ∂(gaussianReal 0 (1 : ℝ).toNNReal) := by
    funext x
    rw [lintegral_gauss_affine hF _ _ _ zero_le_one, eulerKernel, mul_zero, add_zero, mul_one, mul_pow, Real.sq_sqrt hh]
  rw [e]
  exact Measurable.lintegral_prod_right' (f := fun p : ℝ × ℝ => F ((p.1 + d p.1 * h) + (v p.1 * √h) * p.2)) (by fun_prop)

theorem measurable_eulerIter {d v : ℝ → ℝ} (hd : Measurable d) (hv : Measurable v) {h : ℝ} (hh : 0 ≤ h) {F : ℝ → ℝ≥0∞} (hF : Measurable F) (k : ℕ) :
    Measurable ((eulerKernel d v h)^[k] F) := by
  induction k with
  | zero => exact hF
  | succ k ih => rw [Function.iterate_succ_apply']; exact measurable_eulerKernel hd hv hh ih

/-- Independent draws: the expectation of a product. -/
theorem row_prod (Gs : List (ℝ → ℝ≥0∞)) (hG : ∀ G ∈ Gs, Measurable G) (c : ℝ≥0∞) (g : Res (List ℝ) → ℝ≥0∞)
    (hg : ∀ z : List ℝ, z.length = Gs.length → g (.ok z) = c * prodAt Gs z) :
    (Prog.replicate Gs.length (Prog.draw (.normal 0 1))).lexp g = c * (Gs.map fun G => ∫⁻ z, G z ∂(gaussianReal 0 1)).prod := by
  induction Gs generalizing c g with
  | nil => simp [Prog.replicate, hg, prodAt]
  | cons G Gs ih =>
    have h1 : ∀ z : ℝ, ((Prog.replicate Gs.length (Prog.draw (.normal 0 1))).bind fun l => Prog.ret (z :: l)).lexp g =
        c * G z * (Gs.map fun G => ∫⁻ z, G z ∂(gaussianReal 0 1)).prod := by
      intro z
      rw [Prog.lexp_bind]
      refine ih (fun G' h' => hG G' (List.mem_cons_of_mem _ h')) _ _ fun zs hz => ?_
      rw [Prog.cont_ok, Prog.lexp_ret, hg _ (by simp [hz])]
      simp [prodAt, mul_assoc]
    simp only [List.length_cons, Prog.replicate, Prog.draw, Prog.real_bind, Prog.ret_bind, Prog.lexp_real] at h1 ⊢
    simp only [h1, unit_normal_law]
    have hm : Measurable G := hG G (by simp)
    rw [lintegral_mul_const _ (by fun_prop), lintegral_const_mul _ hm, List.map_cons, List.prod_cons, mul_assoc]

theorem rows_const (n : ℕ) (c : ℝ≥0∞) (m : ℕ) {g : Res (List (List ℝ)) → ℝ≥0∞} (hg : ∀ l, l.length = m → (∀ r ∈ l, r.length = n) → g (.ok l) = c) :
    (Prog.replicate m (Prog.replicate n (Prog.draw (.normal 0 1)))).lexp g = c := by
  have row : ∀ g : Res (List ℝ) → ℝ≥0∞, (∀ z, z.length = n → g (.ok z) = c) → (Prog.replicate n (Prog.draw (.normal 0 1))).lexp g = c := by
    intro g hg
    have := row_prod (List.replicate n fun _ => 1) (by intro G hG; rw [(List.mem_replicate.1 hG).2]; fun_prop) c g (by
      intro z hz
      rw [hg z (by simpa using hz), prodAt]
      have : List.zipWith (fun (F : ℝ → ℝ≥0∞) x => F x) (List.replicate n fun _ => 1) z = List.replicate n 1 :=
        List.ext_getElem (by simpa using hz.ge) fun i _ _ => by simp
      rw [this]; simp)
    simpa using this
  induction m generalizing g with
  | zero => exact hg [] rfl (by simp)
  | succ m ih =>
    rw [Prog.replicate, Prog.lexp_bind]
    refine row _ fun z hz => ?_
    rw [Prog.cont_ok, Prog.lexp_bind]
    exact ih fun l hl hr => by rw [Prog.cont_ok, Prog.lexp_ret, hg _ (by simp [hl]) (by simpa [hz] using hr)]

theorem prodAt_step {d v : ℝ → ℝ} {h : ℝ} (Fs : List (ℝ → ℝ≥0∞)) : ∀ (xs z : List ℝ), xs.length = Fs.length → z.length = Fs.length →
    prodAt Fs (List.zipWith (fun a b => a + d a * h + v a * b) xs (z.map fun e => Real.sqrt h * e)) =
    prodAt (List.zipWith (fun F x e => F (x + d x * h + v x * (Real.sqrt h * e))) Fs xs) z := by
  induction Fs with
  | nil => intro xs z hx hz; simp [prodAt]
  | cons F Fs ih =>
    intro xs z hx hz
    rcases xs with _ | ⟨x, xs⟩
    · simp at hx
    rcases z with _ | ⟨e, z⟩
    · simp at hz
    have := ih xs z (by simpa using hx) (by simpa using hz)
    simp only [prodAt, List.map_cons, List.zipWith_cons_cons, List.prod_cons] at this ⊢
    rw [this]

theorem cols_law {d v : ℝ → ℝ} (hd : Measurable d) (hv : Measurable v) {h : ℝ} (hh : 0 ≤ h) (Fs : List (ℝ → ℝ≥0∞)) (hF : ∀ F ∈ Fs, Measurable F) :
    ∀ (k m : ℕ), k ≤ m → ∀ (xs : List ℝ), xs.length = Fs.length → ∀ g : Res (List (List ℝ)) → ℝ≥0∞,
    (∀ noise, noise.length = m → (∀ r ∈ noise, r.length = Fs.length) → g (.ok noise) = prodAt Fs (((eulerCols d v h xs (noise.map fun r => r.map fun e => Real.sqrt h * e))[k]?).getD [])) →
    (Prog.replicate m (Prog.replicate Fs.length (Prog.draw (.normal 0 1)))).lexp g = prodAt (Fs.map ((eulerKernel d v h)^[k])) xs := by
  intro k
  induction k with
  | zero =>
    intro m _ xs hx g hg
    have h0 : ∀ es, (eulerCols d v h xs es)[0]? = some xs := by
      intro es; cases es <;> simp [eulerCols]
    refine rows_const _ _ _ fun l hl hr => ?_
    rw [hg l hl hr, h0]
    simp
  | succ k ih =>
    intro m hm xs hx g hg
    obtain ⟨m, rfl⟩ : ∃ m', m = m' + 1 := ⟨m - 1, by omega⟩
    rw [Prog.replicate, Prog.lexp_bind]
    have hlen : (List.zipWith (fun F x e => F (x + d x * h + v x * (Real.sqrt h * e))) (Fs.map ((eulerKernel d v h)^[k])) xs).length = Fs.length := by
      simp [hx]
    have key := row_prod (List.zipWith (fun F x e => F (x + d x * h + v x * (Real.sqrt h * e))) (Fs.map ((eulerKernel d v h)^[k])) xs)
      (by
        intro G hG
        obtain ⟨i, hi, rfl⟩ := List.mem_iff_getElem.1 hG
        have hi' : i < Fs.length := by rw [hlen] at hi; exact hi
        have := measurable_eulerIter hd hv hh (hF _ (List.getElem_mem hi')) k
        simp only [List.getElem_zipWith, List.getElem_map]
        fun_prop) 1
    rw [hlen] at key
    rw [key]
    · rw [one_mul, prodAt]
      congr 1
      refine List.ext_getElem (by simp) fun i h1 h2 => ?_
      have hi : i < Fs.length := by simpa [hx] using h1
      have hm := measurable_eulerIter hd hv hh (hF _ (List.getElem_mem hi)) k
      simp only [List.getElem_zipWith, List.getElem_map, Function.iterate_succ_apply']
      have := lintegral_gauss_affine hm (xs[i] + d xs[i] * h) (v xs[i] * √h) 0 zero_le_one
      rw [mul_zero, add_zero, mul_one, mul_pow, Real.sq_sqrt hh, Real.toNNReal_one] at this
      rw [eulerKernel, ← this]
      simp only [mul_assoc]
    · intro z hz
      rw [Prog.cont_ok, one_mul, Prog.lexp_bind]
      rw [ih m (by omega) (List.zipWith (fun a b => a + d a * h + v a * b) xs (z.map fun e => Real.sqrt h * e)) (by simp [hx, hz])]
      · exact prodAt_step _ _ _ (by simpa using hx) (by simpa using hz)
      · intro noise hl hr
        rw [Prog.cont_ok, Prog.lexp_ret, hg _ (by simp [hl]) (by simpa [hz] using hr)]
        simp [eulerCols]

theorem eulerCols_width {d v : ℝ → ℝ} {h : ℝ} {n : ℕ} : ∀ (k : ℕ) (xs : List ℝ) (es : List (List ℝ)), xs.length = n → (∀ r ∈ es, r.length = n) →
    k ≤ es.length → ∃ c, (eulerCols d v h xs es)[k]? = some c ∧ c.length = n
  | 0, xs, [], hx, _, _ => ⟨xs, by simp [eulerCols], hx⟩
  | 0, xs, e :: es, hx, _, _ => ⟨xs, by simp [eulerCols], hx⟩
  | k + 1, xs, [], _, _, hk => by simp at hk
  | k + 1, xs, e :: es, hx, he, hk => by
    obtain ⟨c, h1, h2⟩ := eulerCols_width k (List.zipWith (fun a b => a + d a * h + v a * b) xs e) es (by simp [hx, he e (by simp)])
      (fun r hr => he r (by simp [hr])) (by simpa using hk)
    exact ⟨c, by simpa [eulerCols] using h1, h2⟩

theorem prodAt_single {F : ℝ → ℝ≥0∞} : ∀ {n : ℕ} {i : ℕ} {xs : List ℝ}, i < n → xs.length = n →
    prodAt ((List.replicate n fun _ => 1).set i F) xs = F (xs[i]?.getD 0)
  | 0, _, _, hi, _ => absurd hi (by omega)
  | n + 1, i, [], _, hx => by simp at hx
  | n + 1, 0, x :: xs, _, hx => by
    have : List.zipWith (fun (F : ℝ → ℝ≥0∞) x => F x) (List.replicate n fun _ => 1) xs = List.replicate n 1 :=
      List.ext_getElem (by simpa using hx.ge) fun i _ _ => by simp
    simp [prodAt, List.replicate_succ, this]
  | n + 1, i + 1, x :: xs, hi, hx => by
    have := prodAt_single (F := F) (n := n) (i := i) (xs := xs) (by omega) (by simpa using hx)
    simpa [prodAt, List.replicate_succ] using this

/-- The chain with affine drift and constant volatility is normal. -/
theorem eulerIter_affine {a b s h : ℝ} (hh : 0 ≤ h) (x : ℝ) (k : ℕ) {F : ℝ → ℝ≥0∞} (hF : Measurable F) :
    ((eulerKernel (fun y => a + b * y) (fun _ => s) h)^[k] F) x = ∫⁻ y, F y ∂(gaussianReal (eulerMean a b h x k) (eulerVar b s h k).toNNReal) := by
  have hv : ∀ k, 0 ≤ eulerVar b s h k := by
    intro k; induction k with
    | zero => exact le_rfl
    | succ k ih => rw [eulerVar]; positivity
  induction k generalizing F with
  | zero => simp [eulerMean, eulerVar]
  | succ k ih =>
    have hsh : 0 ≤ s ^ 2 * h := by positivity
    rw [Function.iterate_succ_apply, ih (measurable_eulerKernel (by fun_prop) (by fun_prop) hh hF)]
    have e1 : ∀ y, eulerKernel (fun y => a + b * y) (fun _ => s) h F y =
        ∫⁻ w, F ((a * h + (1 + b * h) * y) + w) ∂(gaussianReal 0 (s ^ 2 * h).toNNReal) := by
      intro y
      have := lintegral_gauss_affine hF (a * h + (1 + b * h) * y) 1 0 hsh
      rw [mul_zero, add_zero, one_pow, one_mul] at this
      simp only [one_mul] at this
      rw [this, eulerKernel]
      congr 2; ring
    simp only [e1]
    have hm : Measurable fun u => ∫⁻ w, F (u + w) ∂(gaussianReal 0 (s ^ 2 * h).toNNReal) :=
      Measurable.lintegral_prod_right' (f := fun p : ℝ × ℝ => F (p.1 + p.2)) (by fun_prop)
    rw [lintegral_gauss_affine hm (a * h) (1 + b * h) _ (hv k), ← Measure.lintegral_conv hF, gaussianReal_conv_gaussianReal, add_zero,
      ← Real.toNNReal_add (mul_nonneg (sq_nonneg _) (hv k)) hsh, eulerVar, eulerMean]
    congr 2; ring

end Ctb
