import Verif.Spec.PathDensity
import Verif.Lemmas.Simplex
import Verif.Lemmas.Moments
import Mathlib.Probability.Distributions.Gaussian.Real

/-! # The bridge sampler has the density of a Brownian bridge -/

set_option linter.unusedSectionVars false

namespace Ctb

open MeasureTheory ProbabilityTheory
open scoped ENNReal

theorem normDens_measurable (v : ℝ) : Measurable (normDens v) := by
  unfold normDens normDensR; fun_prop

theorem normDens_eq_pdf {v : ℝ} (hv : 0 < v) (m y : ℝ) : normDens v (y - m) = gaussianPDF m v.toNNReal y := by
  rw [normDens, normDensR, gaussianPDF, gaussianPDFReal, Real.coe_toNNReal _ hv.le]
  congr 1
  rw [div_eq_inv_mul]

/-- An affine image of a standard normal draw has the normal density. -/
theorem lintegral_normal_affine {v m : ℝ} (hv : 0 < v) {f : ℝ → ℝ≥0∞} (hf : Measurable f) :
    ∫⁻ z, f (m + Real.sqrt v * z) ∂(gaussianReal 0 1) = ∫⁻ y, normDens v (y - m) * f y := by
  have hmap : ((gaussianReal 0 1).map (Real.sqrt v * ·)).map (m + ·) = gaussianReal m v.toNNReal := by
    rw [gaussianReal_map_const_mul, gaussianReal_map_const_add]
    congr 1
    · simp
    · rw [mul_one]
      ext
      simp [Real.sq_sqrt hv.le, hv.le]
  have hne : v.toNNReal ≠ 0 := by simpa using hv
  calc ∫⁻ z, f (m + Real.sqrt v * z) ∂(gaussianReal 0 1) = ∫⁻ y, f y ∂(gaussianReal m v.toNNReal) := by
        rw [← hmap, lintegral_map hf (by fun_prop), lintegral_map (by fun_prop) (by fun_prop)]
    _ = ∫⁻ y, normDens v (y - m) * f y := by
        rw [gaussianReal_of_var_ne_zero _ hne, lintegral_withDensity_eq_lintegral_mul _ (measurable_gaussianPDF _ _) hf]
        refine lintegral_congr fun y => ?_
        rw [Pi.mul_apply, normDens_eq_pdf hv]

theorem normDens_mul {v R x y x1 : ℝ} (hv : 0 < v) (hR : v < R) :
    normDens v (y - x) * normDens (R - v) (x1 - y) = normDens R (x1 - x) * normDens (v * (R - v) / R) (y - (x + (x1 - x) * v / R)) := by
  have h1 : 0 < R := hv.trans hR
  have h2 : 0 < R - v := sub_pos.2 hR
  have h3 : 0 < v * (R - v) / R := by positivity
  unfold normDens normDensR
  rw [← ENNReal.ofReal_mul (by positivity), ← ENNReal.ofReal_mul (by positivity)]
  congr 1
  rw [div_mul_div_comm, div_mul_div_comm, ← Real.exp_add, ← Real.exp_add, ← Real.sqrt_mul (by positivity), ← Real.sqrt_mul (by positivity)]
  congr 1
  · congr 1
    field_simp
    ring
  · congr 1
    field_simp

/-- Conditional form of the bridge: each value given the one before it. -/
noncomputable def condInt (x1 : ℝ) : List ℝ → ℝ → (List ℝ → ℝ≥0∞) → ℝ≥0∞
  | [], _, F => F []
  | [_], _, F => F []
  | v :: w :: vs, x, F => ∫⁻ y, normDens (v * (w :: vs).sum / (v :: w :: vs).sum) (y - (x + (x1 - x) * v / (v :: w :: vs).sum)) *
      condInt x1 (w :: vs) y fun l => F (y :: l)

theorem MeasN.zero_apply {X : Type} [MeasurableSpace X] {F : X → List ℝ → ℝ≥0∞} (h : MeasN 0 F) : Measurable fun p => F p [] := by
  have : (fun p => F p []) = (fun p : X × (Fin 0 → ℝ) => F p.1 (List.ofFn p.2)) ∘ fun p => (p, Fin.elim0) := by
    ext p; simp
  rw [this]
  exact Measurable.comp h (measurable_id.prodMk measurable_const)

theorem condInt_measurable (x1 : ℝ) : ∀ (vs : List ℝ) {X : Type} [MeasurableSpace X] {F : X → List ℝ → ℝ≥0∞} {x : X → ℝ},
    MeasN (vs.length - 1) F → Measurable x → Measurable fun p => condInt x1 vs (x p) (F p)
  | [], _, _, F, x, hF, _ => by simpa [condInt] using MeasN.zero_apply hF
  | [v], _, _, F, x, hF, _ => by simpa [condInt] using MeasN.zero_apply hF
  | v :: w :: vs, X, _, F, x, hF, hx => by
    have ih := condInt_measurable x1 (w :: vs) (X := X × ℝ) (F := fun p l => F p.1 (p.2 :: l)) (x := Prod.snd) (MeasN.cons hF) measurable_snd
    have hm : Measurable fun p : X × ℝ => normDens (v * (w :: vs).sum / (v :: w :: vs).sum) (p.2 - (x p.1 + (x1 - x p.1) * v / (v :: w :: vs).sum)) *
        condInt x1 (w :: vs) p.2 fun l => F p.1 (p.2 :: l) := by
      refine Measurable.mul ?_ ih
      have hx' : Measurable fun p : X × ℝ => x p.1 := hx.comp measurable_fst
      exact (normDens_measurable _).comp (measurable_snd.sub (hx'.add (((measurable_const.sub hx').mul_const _).div_const _)))
    exact hm.lintegral_prod_right'

theorem condInt_measurable' (x1 : ℝ) (vs : List ℝ) {F : List ℝ → ℝ≥0∞} (hF : Measurable fun v : Fin vs.length → ℝ => F (List.ofFn v)) {w : ℝ} :
    Measurable fun y => condInt x1 (w :: vs) y fun l => F l := by
  have : MeasN vs.length fun (_ : ℝ) l => F l := hF.comp measurable_snd
  exact condInt_measurable x1 (w :: vs) this measurable_id

/-- Densities of the increments in terms of the conditional densities. -/
theorem pathInt_eq (x1 : ℝ) : ∀ (vs : List ℝ), vs ≠ [] → (∀ v ∈ vs, 0 < v) → ∀ (x : ℝ) (F : List ℝ → ℝ≥0∞),
    MeasN (vs.length - 1) (fun (_ : Unit) => F) → pathInt x1 vs x F = normDens vs.sum (x1 - x) * condInt x1 vs x F
  | [], h, _, _, _, _ => absurd rfl h
  | [v], _, _, x, F, _ => by simp [pathInt, condInt]
  | v :: w :: vs, _, hp, x, F, hF => by
    have hp' : ∀ u ∈ w :: vs, 0 < u := fun u hu => hp u (List.mem_cons_of_mem _ hu)
    have hs : 0 < (w :: vs).sum := List.sum_pos _ hp' (by simp)
    have hv : 0 < v := hp v List.mem_cons_self
    have hR : (v :: w :: vs).sum - v = (w :: vs).sum := by simp
    have hF' : MeasN ((w :: vs).length - 1) (fun (y : ℝ) l => F (y :: l)) := by
      exact (MeasN.cons hF).comp (φ := fun y : ℝ => ((), y)) (measurable_const.prodMk measurable_id)
    rw [pathInt, condInt, ← lintegral_const_mul]
    · refine lintegral_congr fun y => ?_
      rw [pathInt_eq x1 (w :: vs) (by simp) hp' y _ (hF'.comp (φ := fun _ : Unit => y) measurable_const), ← mul_assoc, ← mul_assoc]
      congr 1
      have := normDens_mul (v := v) (R := (v :: w :: vs).sum) (x := x) (y := y) (x1 := x1) hv (by rw [List.sum_cons]; linarith)
      rw [hR] at this
      exact this
    · refine Measurable.mul ((normDens_measurable _).comp (measurable_id.sub measurable_const)) ?_
      exact condInt_measurable x1 (w :: vs) hF' measurable_id

/-! ## the sampler -/

/-- Bridge values computed one after the other from the draws. -/
noncomputable def brList (x1 : ℝ) : List ℝ → ℝ → List ℝ → List ℝ
  | v :: w :: vs, x, z :: zs =>
    (x + (x1 - x) * v / (v :: w :: vs).sum + Real.sqrt (v * (w :: vs).sum / (v :: w :: vs).sum) * z) ::
      brList x1 (w :: vs) (x + (x1 - x) * v / (v :: w :: vs).sum + Real.sqrt (v * (w :: vs).sum / (v :: w :: vs).sum) * z) zs
  | _, _, _ => []

theorem br_step {T a v R x x1 z : ℝ} (hT : T = a + R) (ha : 0 ≤ a) (hv : 0 < v) (hR : v < R) :
    Real.sqrt T * ((1 - (a + v) / T) * (x / ((1 - a / T) * Real.sqrt T) +
      (Real.sqrt ((a + v) / T / (1 - (a + v) / T) - a / T / (1 - a / T)) * z +
        ((a + v) / T / (1 - (a + v) / T) - a / T / (1 - a / T)) * (x1 / Real.sqrt T)))) =
      x + (x1 - x) * v / R + Real.sqrt (v * (R - v) / R) * z := by
  have hTp : 0 < T := by linarith
  have hR0 : 0 < R := hv.trans hR
  have hsq : Real.sqrt T ≠ 0 := (Real.sqrt_pos.2 hTp).ne'
  have h1 : 1 - (a + v) / T = (R - v) / T := by field_simp; linarith
  have h2 : 1 - a / T = R / T := by field_simp; linarith
  have hd : (a + v) / T / (1 - (a + v) / T) - a / T / (1 - a / T) = T * v / (R * (R - v)) := by
    have h3 : 0 < R - v := sub_pos.2 hR
    rw [h1, h2]
    field_simp
    subst hT
    ring
  have h3 : 0 < R - v := sub_pos.2 hR
  have hs : Real.sqrt T * ((R - v) / T) * Real.sqrt (T * v / (R * (R - v))) = Real.sqrt (v * (R - v) / R) := by
    have hc : 0 ≤ Real.sqrt T * ((R - v) / T) := by positivity
    rw [← Real.sqrt_sq hc, ← Real.sqrt_mul (sq_nonneg _), mul_pow, Real.sq_sqrt hTp.le]
    congr 1
    field_simp
  rw [hd, h1, h2, ← hs]
  field_simp
  ring

theorem brList_values (x1 T : ℝ) (init : ℝ) : ∀ (vs : List ℝ), vs ≠ [] → (∀ v ∈ vs, 0 < v) → ∀ (a acc x : ℝ) (zs : List ℝ), zs.length = vs.length - 1 →
    0 ≤ a → T = a + vs.sum → acc + init = x / ((1 - a / T) * Real.sqrt T) →
    (List.zipWith (fun s y => (1 - s) * y) (((cumsumFrom a vs).dropLast).map (· / T))
      ((cumsumFrom acc (List.zipWith (fun dt z => Real.sqrt dt * z + dt * (x1 / Real.sqrt T))
        (diffFrom (a / T / (1 - a / T)) (((cumsumFrom a vs).dropLast).map fun b => b / T / (1 - b / T))) zs)).map (· + init))).map (Real.sqrt T * ·) =
      brList x1 vs x zs
  | [], h, _, _, _, _, _, _, _, _, _ => absurd rfl h
  | [v], _, _, a, acc, x, zs, hz, _, _, _ => by
    simp at hz; subst hz
    simp [cumsumFrom, brList]
  | v :: w :: vs, _, hp, a, acc, x, zs, hz, ha, hT, hacc => by
    cases zs with
    | nil => simp at hz
    | cons z zs =>
      have hp' : ∀ u ∈ w :: vs, 0 < u := fun u hu => hp u (List.mem_cons_of_mem _ hu)
      have hs : 0 < (w :: vs).sum := List.sum_pos _ hp' (by simp)
      have hv : 0 < v := hp v List.mem_cons_self
      have hR : (v :: w :: vs).sum - v = (w :: vs).sum := by simp
      have hdl : (cumsumFrom a (v :: w :: vs)).dropLast = (a + v) :: (cumsumFrom (a + v) (w :: vs)).dropLast := by
        simp [cumsumFrom]
      have hstep := br_step (T := T) (a := a) (v := v) (R := (v :: w :: vs).sum) (x := x) (x1 := x1) (z := z) hT ha hv (by rw [List.sum_cons]; linarith)
      rw [hR] at hstep
      have hT0 : 0 < T := by rw [hT, List.sum_cons]; linarith
      have hav : 0 < 1 - (a + v) / T := by
        rw [sub_pos, div_lt_one hT0, hT, List.sum_cons]; linarith
      have hhead : Real.sqrt T * ((1 - (a + v) / T) * (acc + (Real.sqrt ((a + v) / T / (1 - (a + v) / T) - a / T / (1 - a / T)) * z +
          ((a + v) / T / (1 - (a + v) / T) - a / T / (1 - a / T)) * (x1 / Real.sqrt T)) + init)) =
          x + (x1 - x) * v / (v :: w :: vs).sum + Real.sqrt (v * (w :: vs).sum / (v :: w :: vs).sum) * z := by
        rw [← hstep, ← hacc]
        ring
      rw [hdl]
      simp only [List.map_cons, diffFrom_cons, List.zipWith_cons_cons, cumsumFrom, brList]
      rw [hhead]
      congr 1
      refine brList_values x1 T init (w :: vs) (by simp) hp' (a + v) _ _ zs (by simpa using hz) (by linarith) (by rw [hT, List.sum_cons]; ring) ?_
      rw [← hhead]
      have : Real.sqrt T ≠ 0 := (Real.sqrt_pos.2 hT0).ne'
      rw [eq_div_iff (mul_ne_zero hav.ne' this)]
      ring

theorem brList_exp (x1 : ℝ) : ∀ (vs : List ℝ), vs ≠ [] → (∀ v ∈ vs, 0 < v) → ∀ (x : ℝ) (F : List ℝ → ℝ≥0∞), MeasN (vs.length - 1) (fun (_ : Unit) => F) →
    ∀ g : Res (List ℝ) → ℝ≥0∞, (∀ zs, g (.ok zs) = F (brList x1 vs x zs)) →
    (Prog.replicate (vs.length - 1) (Prog.draw (.normal 0 1))).lexp g = condInt x1 vs x F
  | [], h, _, _, _, _, _, _ => absurd rfl h
  | [v], _, _, x, F, _, g, hg => by simp [Prog.replicate, Prog.lexp_ret, hg, brList, condInt]
  | v :: w :: vs, _, hp, x, F, hF, g, hg => by
    have hp' : ∀ u ∈ w :: vs, 0 < u := fun u hu => hp u (List.mem_cons_of_mem _ hu)
    have hs : 0 < (w :: vs).sum := List.sum_pos _ hp' (by simp)
    have hv : 0 < v := hp v List.mem_cons_self
    have hF' : MeasN ((w :: vs).length - 1) (fun (y : ℝ) l => F (y :: l)) := by
      exact (MeasN.cons hF).comp (φ := fun y : ℝ => ((), y)) (measurable_const.prodMk measurable_id)
    have hlen : (v :: w :: vs).length - 1 = (w :: vs).length - 1 + 1 := by simp
    have hs' : 0 < (v :: w :: vs).sum := by rw [List.sum_cons]; linarith
    have hm : Measurable fun y => condInt x1 (w :: vs) y fun l => F (y :: l) := condInt_measurable x1 (w :: vs) hF' measurable_id
    rw [hlen, condInt, ← lintegral_normal_affine (by positivity) hm]
    simp only [Prog.replicate, Prog.draw, Prog.real_bind, Prog.ret_bind, Prog.lexp_real]
    have hlaw : (RDist.normal 0 1).law = gaussianReal 0 1 := by
      have h0 : (RDist.normal 0 1).law = gaussianReal 0 (Real.toNNReal ((1 : ℝ) ^ 2)) := rfl
      rw [h0]; simp
    rw [hlaw]
    refine lintegral_congr fun z => ?_
    rw [Prog.lexp_bind]
    refine brList_exp x1 (w :: vs) (by simp) hp' _ (fun l => F (_ :: l)) (hF'.comp (φ := fun _ : Unit => _) measurable_const) _ fun zs => ?_
    rw [Prog.cont_ok, Prog.lexp_ret, hg, brList]

theorem cumsumFrom_getLast (a : ℝ) : ∀ vs : List ℝ, vs ≠ [] → (cumsumFrom a vs).getLast? = some (a + vs.sum)
  | [], h => absurd rfl h
  | [v], _ => by simp [cumsumFrom]
  | v :: w :: vs, _ => by
    have := cumsumFrom_getLast (a + v) (w :: vs) (by simp)
    simp only [cumsumFrom] at this ⊢
    rw [List.getLast?_cons_cons, this]
    simp [add_assoc]

theorem cumsumFrom_length (a : ℝ) (vs : List ℝ) : (cumsumFrom a vs).length = vs.length := by
  induction vs generalizing a with
  | nil => rfl
  | cons v vs ih => simp [cumsumFrom, ih]

theorem cumsumFrom_dropLast_mem (a : ℝ) : ∀ vs : List ℝ, (∀ v ∈ vs, 0 < v) → ∀ b ∈ (cumsumFrom a vs).dropLast, a < b ∧ b < a + vs.sum
  | [], _, b, hb => by simp [cumsumFrom] at hb
  | [v], _, b, hb => by simp [cumsumFrom] at hb
  | v :: w :: vs, hp, b, hb => by
    have hp' : ∀ u ∈ w :: vs, 0 < u := fun u hu => hp u (List.mem_cons_of_mem _ hu)
    have hs : 0 < (w :: vs).sum := List.sum_pos _ hp' (by simp)
    have hv : 0 < v := hp v List.mem_cons_self
    have hdl : (cumsumFrom a (v :: w :: vs)).dropLast = (a + v) :: (cumsumFrom (a + v) (w :: vs)).dropLast := by
      simp [cumsumFrom]
    rw [hdl, List.mem_cons] at hb
    rw [List.sum_cons]
    rcases hb with rfl | hb
    · constructor <;> linarith
    · have := cumsumFrom_dropLast_mem (a + v) (w :: vs) hp' b hb
      constructor <;> linarith

theorem cumsumFrom_dropLast_sorted (a : ℝ) : ∀ vs : List ℝ, (∀ v ∈ vs, 0 < v) → (cumsumFrom a vs).dropLast.Pairwise (· ≤ ·)
  | [], _ => by simp [cumsumFrom]
  | [v], _ => by simp [cumsumFrom]
  | v :: w :: vs, hp => by
    have hp' : ∀ u ∈ w :: vs, 0 < u := fun u hu => hp u (List.mem_cons_of_mem _ hu)
    have hdl : (cumsumFrom a (v :: w :: vs)).dropLast = (a + v) :: (cumsumFrom (a + v) (w :: vs)).dropLast := by
      simp [cumsumFrom]
    rw [hdl, List.pairwise_cons]
    exact ⟨fun b hb => (cumsumFrom_dropLast_mem (a + v) (w :: vs) hp' b hb).1.le, cumsumFrom_dropLast_sorted (a + v) (w :: vs) hp'⟩

/-- The bridge sampler as one sequence of draws. -/
theorem sampleBrownbr_eq (x0 x1 : ℝ) {vs : List ℝ} (h2 : 2 ≤ vs.length) (hp : ∀ v ∈ vs, 0 < v) :
    sampleBrownbr (npCumsum vs).dropLast vs.sum x0 x1 =
      (Prog.replicate (vs.length - 1) (Prog.draw (.normal 0 1))).bind fun zs => Prog.ret (brList x1 vs x0 zs) := by
  have hne : vs ≠ [] := by rintro rfl; simp at h2
  set t := (npCumsum vs).dropLast with ht
  have htl : t.length = vs.length - 1 := by rw [ht, List.length_dropLast, npCumsum, cumsumFrom_length]
  have htne : t ≠ [] := by intro h; rw [h] at htl; simp at htl; omega
  have hmem : ∀ a ∈ t, 0 < a ∧ a < vs.sum := fun a ha => by simpa using cumsumFrom_dropLast_mem 0 vs hp a ha
  have hT : 0 < vs.sum := List.sum_pos _ hp hne
  have hφ : ∀ a ∈ t, a / vs.sum / (1 - a / vs.sum) = a / (vs.sum - a) := by
    intro a ha
    have := sub_pos.2 (hmem a ha).2
    field_simp
  have hpos : ∀ a ∈ (t.map (· / vs.sum)).map (fun s => s / (1 - s)), 0 < a := by
    intro a ha
    rw [List.map_map] at ha
    obtain ⟨b, hb, rfl⟩ := List.mem_map.1 ha
    simp only [Function.comp]
    rw [hφ b hb]
    exact div_pos (hmem b hb).1 (sub_pos.2 (hmem b hb).2)
  have hsort : ((t.map (· / vs.sum)).map (fun s => s / (1 - s))).Pairwise (· ≤ ·) := by
    rw [List.map_map, List.pairwise_map]
    refine (cumsumFrom_dropLast_sorted 0 vs hp).imp_of_mem fun {a b} ha hb hab => ?_
    simp only [Function.comp]
    rw [hφ a ha, hφ b hb, div_le_div_iff₀ (sub_pos.2 (hmem a ha).2) (sub_pos.2 (hmem b hb).2)]
    nlinarith
  rw [sampleBrownbr, if_neg htne, Prog.assert, if_pos hmem, Prog.ret_bind]
  simp only
  rw [sampleWiener, if_neg (by simpa using htne), Prog.assert, if_pos hpos, Prog.ret_bind, if_neg, Prog.bind_assoc]
  · simp only [Prog.ret_bind, List.length_map, htl]
    refine replicate_bind_congr _ _ _ _ fun zs hz => ?_
    congr 1
    have := brList_values x1 vs.sum (x0 / Real.sqrt vs.sum) vs hne hp 0 0 x0 zs hz le_rfl (by simp) (by simp)
    rw [← this, npCumsum, wienerIncs, ediffBegin_eq, List.map_map]
    simp [ht, npCumsum, Function.comp_def]
  · rw [not_not, ediffBegin_eq]
    exact diffFrom_nonneg hsort fun a ha => (hpos a ha).le

end Ctb
