import Verif.Lemmas.Radial
import Verif.Lemmas.MinLaw
import Verif.Model.LayerPaths
import Verif.Spec.Value

/-! # The Bessel bridge sampler has the density of a Bessel bridge -/

set_option linter.unusedSectionVars false

namespace Ctb

open MeasureTheory Set
open scoped ENNReal

theorem measK_step3 : MeasK fun _ : Unit => step3 := fun v => (measurable_step3 v).comp measurable_snd

theorem measurable_killDens (v : ℝ) : Measurable fun p : ℝ × ℝ × ℝ => killDens p.1 v p.2.1 p.2.2 := by
  unfold killDens
  refine Measurable.ite ?_ ?_ measurable_const
  · exact (measurableSet_lt measurable_fst (by fun_prop)).inter (measurableSet_lt measurable_fst (by fun_prop))
  · unfold normDensR; fun_prop

theorem measK_kill : MeasK killDens := measurable_killDens

theorem measK_kill' (m : ℝ) : MeasK fun _ : Unit => killDens m := measK_kill.comp (φ := fun _ : Unit => m) measurable_const

theorem measurable_entrDens (v : ℝ) : Measurable fun p : ℝ × ℝ => entrDens p.1 v p.2 := by
  unfold entrDens
  refine Measurable.ite ?_ ?_ measurable_const
  · exact measurableSet_lt measurable_fst measurable_snd
  · unfold passDens; fun_prop

theorem nrm3_pos {z : ℝ × ℝ × ℝ} (hz : z ≠ 0) : 0 < nrm3 z := by
  refine Real.sqrt_pos.2 ?_
  by_contra h
  have h1 : z.1 = 0 := by nlinarith [sq_nonneg z.1, sq_nonneg z.2.1, sq_nonneg z.2.2]
  have h2 : z.2.1 = 0 := by nlinarith [sq_nonneg z.1, sq_nonneg z.2.1, sq_nonneg z.2.2]
  have h3 : z.2.2 = 0 := by nlinarith [sq_nonneg z.1, sq_nonneg z.2.1, sq_nonneg z.2.2]
  exact hz (Prod.ext h1 (Prod.ext h2 h3))

theorem radialInt {X : ℝ × ℝ × ℝ} (hX : 0 < nrm3 X) : ∀ (vs : List ℝ), vs ≠ [] → (∀ v ∈ vs, 0 < v) → ∀ {K : ℝ → List ℝ → ℝ≥0∞},
    MeasL (vs.length - 1) K →
    ∫⁻ z, kerInt step3 X vs z (fun l => K (nrm3 z) (l.map nrm3)) = ∫⁻ r, ENNReal.ofReal (r / nrm3 X) * kerInt (killDens 0) (nrm3 X) vs r (K r)
  | [], h, _, _, _ => absurd rfl h
  | [v], _, hp, K, hK => by
    simp only [kerInt, List.map_nil]
    have := radial_step (hp v (by simp)) hX (R := fun r => K r []) hK.zero_apply
    rw [lintegral_congr fun z => mul_comm (step3 v z X) _, this]
    refine lintegral_congr fun r => ?_
    ring
  | v :: w :: vs, _, hp, K, hK => by
    have hp' : ∀ u ∈ w :: vs, 0 < u := fun u hu => hp u (List.mem_cons_of_mem _ hu)
    have hv : 0 < v := hp v List.mem_cons_self
    have hK1 : MeasL ((w :: vs).length - 1) fun (q : (ℝ × ℝ × ℝ) × (ℝ × ℝ × ℝ)) (l : List (ℝ × ℝ × ℝ)) => K (nrm3 q.1) (nrm3 q.2 :: l.map nrm3) :=
      (hK.cons.map measurable_nrm3).comp (φ := fun q : (ℝ × ℝ × ℝ) × (ℝ × ℝ × ℝ) => (nrm3 q.1, nrm3 q.2))
        ((measurable_nrm3.comp measurable_fst).prodMk (measurable_nrm3.comp measurable_snd))
    have hm1 : Measurable fun q : (ℝ × ℝ × ℝ) × (ℝ × ℝ × ℝ) => step3 v q.1 q.2 *
        kerInt step3 X (w :: vs) q.2 fun l => K (nrm3 q.1) (nrm3 q.2 :: l.map nrm3) :=
      (measurable_step3 v).mul (kerInt_measurable' X (w :: vs) measK_step3 hK1 measurable_snd)
    set K' : ℝ → List ℝ → ℝ≥0∞ := fun r1 l => ∫⁻ r0, ENNReal.ofReal (r0 / r1) * killDens 0 v r0 r1 * K r0 (r1 :: l) with hK'
    have hKq : MeasL ((w :: vs).length - 1) fun (q : ℝ × ℝ) l => K q.2 (q.1 :: l) := hK.cons.comp (φ := Prod.swap) measurable_swap
    have hcoef : Measurable fun q : ℝ × ℝ => ENNReal.ofReal (q.2 / q.1) * killDens 0 v q.2 q.1 :=
      (by fun_prop : Measurable fun q : ℝ × ℝ => ENNReal.ofReal (q.2 / q.1)).mul ((measK_kill' 0).apply v (p := fun _ => ()) measurable_const measurable_snd measurable_fst)
    have hK'm : MeasL ((w :: vs).length - 1) K' :=
      MeasL.lintegral (F := fun (q : ℝ × ℝ) l => ENNReal.ofReal (q.2 / q.1) * killDens 0 v q.2 q.1 * K q.2 (q.1 :: l)) ((MeasL.of_fst hcoef).mul hKq)
    simp only [kerInt, List.map_cons]
    rw [lintegral_lintegral_swap (f := fun z0 z1 => step3 v z0 z1 * kerInt step3 X (w :: vs) z1 fun l => K (nrm3 z0) (nrm3 z1 :: l.map nrm3)) hm1.aemeasurable]
    have hstep : (fun z1 => ∫⁻ z0, step3 v z0 z1 * kerInt step3 X (w :: vs) z1 fun l => K (nrm3 z0) (nrm3 z1 :: l.map nrm3)) =ᵐ[volume]
        fun z1 => kerInt step3 X (w :: vs) z1 fun l => K' (nrm3 z1) (l.map nrm3) := by
      have h0 : ∀ᵐ z : ℝ × ℝ × ℝ, z ≠ 0 := by
        have e : ({0} : Set (ℝ × ℝ × ℝ)) = {0} ×ˢ {0} := by ext z; simp [Prod.ext_iff]
        have h : (volume : Measure (ℝ × ℝ × ℝ)) {0} = 0 := by
          rw [e, show (volume : Measure (ℝ × ℝ × ℝ)) = (volume : Measure ℝ).prod volume from rfl, Measure.prod_prod, measure_singleton, zero_mul]
        rw [ae_iff]
        simpa using h
      filter_upwards [h0] with z1 hz1
      have hKz : MeasL ((w :: vs).length - 1) fun (z0 : ℝ × ℝ × ℝ) (l : List (ℝ × ℝ × ℝ)) => K (nrm3 z0) (nrm3 z1 :: l.map nrm3) :=
        hK1.comp (φ := fun z0 : ℝ × ℝ × ℝ => (z0, z1)) (measurable_id.prodMk measurable_const)
      have hKz2 : MeasL ((w :: vs).length - 1) fun (z0 : ℝ × ℝ × ℝ) (l : List (ℝ × ℝ × ℝ)) => step3 v z0 z1 * K (nrm3 z0) (nrm3 z1 :: l.map nrm3) :=
        (MeasL.of_fst (measurable_step3_left v z1)).mul hKz
      calc ∫⁻ z0, step3 v z0 z1 * kerInt step3 X (w :: vs) z1 (fun l => K (nrm3 z0) (nrm3 z1 :: l.map nrm3)) =
            ∫⁻ z0, kerInt step3 X (w :: vs) z1 (fun l => step3 v z0 z1 * K (nrm3 z0) (nrm3 z1 :: l.map nrm3)) := by
            refine lintegral_congr fun z0 => ?_
            rw [kerInt_const_mul measK_step3 X _ (w :: vs) z1 (hKz.const z0)]
        _ = kerInt step3 X (w :: vs) z1 (fun l => ∫⁻ z0, step3 v z0 z1 * K (nrm3 z0) (nrm3 z1 :: l.map nrm3)) :=
            kerInt_lintegral measK_step3 X (w :: vs) z1 hKz2
        _ = _ := by
            refine kerInt_congr X (w :: vs) z1 fun l hl => ?_
            have hR : Measurable fun r => K r (nrm3 z1 :: l.map nrm3) := by
              have h1 := hKz
              obtain ⟨f, rfl⟩ : ∃ f : Fin ((w :: vs).length - 1) → ℝ × ℝ × ℝ, l = List.ofFn f := ⟨fun i => l.get (i.cast hl.symm), by
                apply List.ext_getElem
                · simp [hl]
                · intro i h1 h2; simp⟩
              have h2 : Measurable fun r => K r (nrm3 z1 :: List.ofFn fun i => nrm3 (f i)) :=
                Measurable.comp (g := fun p : (ℝ × ℝ) × (Fin ((w :: vs).length - 1) → ℝ) => K p.1.1 (p.1.2 :: List.ofFn p.2)) hK.cons
                  ((measurable_id.prodMk measurable_const).prodMk measurable_const)
              simpa [List.map_ofFn, Function.comp_def] using h2
            have := radial_step hv (nrm3_pos hz1) hR
            rw [lintegral_congr fun z => mul_comm (step3 v z z1) _, this]
    rw [lintegral_congr_ae hstep, radialInt hX (w :: vs) (by simp) hp' hK'm]
    have hm2 : Measurable fun q : ℝ × ℝ => ENNReal.ofReal (q.1 / nrm3 X) * (killDens 0 v q.1 q.2 * kerInt (killDens 0) (nrm3 X) (w :: vs) q.2 fun l => K q.1 (q.2 :: l)) := by
      refine (by fun_prop : Measurable fun q : ℝ × ℝ => ENNReal.ofReal (q.1 / nrm3 X)).mul (Measurable.mul ?_ ?_)
      · exact (measK_kill' 0).apply v (p := fun _ => ()) measurable_const measurable_fst measurable_snd
      · exact kerInt_measurable' (nrm3 X) (w :: vs) (measK_kill' 0) hK.cons measurable_snd
    have hm3 : ∀ r0, Measurable fun r1 => killDens 0 v r0 r1 * kerInt (killDens 0) (nrm3 X) (w :: vs) r1 fun l => K r0 (r1 :: l) := by
      intro r0
      refine Measurable.mul ?_ ?_
      · exact (measK_kill' 0).apply v (p := fun _ => ()) measurable_const measurable_const measurable_id
      · exact kerInt_measurable' (nrm3 X) (w :: vs) (measK_kill' 0) (hK.cons.comp (φ := fun r1 : ℝ => (r0, r1)) (measurable_const.prodMk measurable_id)) measurable_id
    rw [lintegral_congr fun r0 => (lintegral_const_mul (ENNReal.ofReal (r0 / nrm3 X)) (hm3 r0)).symm,
      lintegral_lintegral_swap (f := fun r0 r1 => ENNReal.ofReal (r0 / nrm3 X) * (killDens 0 v r0 r1 * kerInt (killDens 0) (nrm3 X) (w :: vs) r1 fun l => K r0 (r1 :: l)))
        hm2.aemeasurable]
    refine lintegral_congr fun r1 => ?_
    have hKr : MeasL ((w :: vs).length - 1) fun (r0 : ℝ) l => K r0 (r1 :: l) := hK.cons.comp (φ := fun r0 : ℝ => (r0, r1)) (measurable_id.prodMk measurable_const)
    have hcr : Measurable fun r0 : ℝ => ENNReal.ofReal (r0 / r1) * killDens 0 v r0 r1 :=
      (by fun_prop : Measurable fun r0 : ℝ => ENNReal.ofReal (r0 / r1)).mul ((measK_kill' 0).apply v (p := fun _ => ()) measurable_const measurable_id measurable_const)
    rw [hK']
    simp only
    rw [← kerInt_lintegral (measK_kill' 0) (nrm3 X) (w :: vs) r1 ((MeasL.of_fst hcr).mul hKr), ← lintegral_const_mul]
    · refine lintegral_congr fun r0 => ?_
      rw [kerInt_const_mul (measK_kill' 0) (nrm3 X) _ (w :: vs) r1 (hKr.const r0)]
      by_cases h : 0 < r0 ∧ 0 < r1
      · rw [← mul_assoc, ← mul_assoc, ← mul_assoc, ← ENNReal.ofReal_mul (by have := h.2; positivity)]
        congr 3
        have := h.2.ne'
        field_simp
      · have : killDens 0 v r0 r1 = 0 := by rw [killDens, if_neg h]
        simp [this]
    · exact kerInt_measurable' (nrm3 X) (w :: vs) (measK_kill' 0) ((MeasL.of_fst hcr).mul hKr) measurable_const

/-! ## the sampler -/

/-- The normal kernel. -/
noncomputable def normKer (v x y : ℝ) : ℝ≥0∞ := normDens v (y - x)

theorem measK_norm : MeasK fun _ : Unit => normKer := fun v => by
  unfold normKer normDens normDensR; fun_prop

theorem pathInt_kerInt (x1 : ℝ) : ∀ (vs : List ℝ) (x : ℝ) (F : List ℝ → ℝ≥0∞), pathInt x1 vs x F = kerInt normKer x1 vs x F
  | [], _, _ => rfl
  | [v], _, _ => rfl
  | v :: w :: vs, x, F => by
    simp only [pathInt, kerInt]
    refine lintegral_congr fun y => ?_
    rw [pathInt_kerInt x1 (w :: vs)]
    rfl

theorem kerInt_condInt (x1 : ℝ) {vs : List ℝ} (hne : vs ≠ []) (hp : ∀ v ∈ vs, 0 < v) (x : ℝ) {F : List ℝ → ℝ≥0∞}
    (hF : MeasL (vs.length - 1) fun _ : Unit => F) : kerInt normKer x1 vs x F = normKer vs.sum x x1 * condInt x1 vs x F := by
  rw [← pathInt_kerInt, pathInt_eq x1 vs hne hp x F hF]
  rfl

theorem MeasL.congr {α X : Type} [MeasureSpace α] [MeasurableSpace X] {n : ℕ} {F G : X → List α → ℝ≥0∞} (h : MeasL n F)
    (he : ∀ x l, l.length = n → G x l = F x l) : MeasL n G := by
  have e : (fun p : X × (Fin n → α) => G p.1 (List.ofFn p.2)) = fun p => F p.1 (List.ofFn p.2) := by
    funext p
    rw [he _ _ (by simp)]
  unfold MeasL at *
  rw [e]
  exact h

/-- The norms of the first `n` columns, as the sampler computes them. -/
noncomputable def cols3 (n : ℕ) (l1 l2 l3 : List ℝ) : List ℝ := (List.range n).map fun j => colNorm [l1, l2, l3] j

theorem colNorm3 (l1 l2 l3 : List ℝ) (j : ℕ) : colNorm [l1, l2, l3] j = nrm3 (l1.getD j 0, l2.getD j 0, l3.getD j 0) := by
  simp [colNorm, nrm3, add_assoc]

theorem cols3_zip {n : ℕ} {l1 l2 l3 : List ℝ} (h1 : l1.length = n) (h2 : l2.length = n) (h3 : l3.length = n) :
    cols3 n l1 l2 l3 = (l1.zip (l2.zip l3)).map nrm3 := by
  apply List.ext_getElem
  · simp [cols3, h1, h2, h3]
  · intro i g1 g2
    simp only [cols3, List.length_map, List.length_range] at g1
    simp only [cols3, List.getElem_map, List.getElem_range, colNorm3, List.getElem_zip]
    simp [List.getD_eq_getElem?_getD, g1, h1, h2, h3]

theorem measL_cols3 {X : Type} [MeasurableSpace X] {n : ℕ} {F : List ℝ → ℝ≥0∞} (hF : MeasL n fun _ : Unit => F) {A B : X → List ℝ}
    (hA : ∀ j, Measurable fun x => (A x).getD j 0) (hB : ∀ j, Measurable fun x => (B x).getD j 0) :
    MeasL n fun (x : X) l => F (cols3 n (A x) (B x) l) := by
  unfold MeasL at *
  have e : (fun p : X × (Fin n → ℝ) => F (cols3 n (A p.1) (B p.1) (List.ofFn p.2))) =
      (fun p : Unit × (Fin n → ℝ) => F (List.ofFn p.2)) ∘ fun p : X × (Fin n → ℝ) =>
        ((), fun i : Fin n => nrm3 ((A p.1).getD i 0, (B p.1).getD i 0, p.2 i)) := by
    funext p
    simp only [Function.comp]
    congr 1
    apply List.ext_getElem
    · simp [cols3]
    · intro i g1 g2
      simp only [cols3, List.length_map, List.length_range] at g1
      simp [cols3, colNorm3, List.getD_eq_getElem?_getD, g1]
  rw [e]
  refine hF.comp (measurable_const.prodMk (measurable_pi_lambda _ fun i => measurable_nrm3.comp ?_))
  exact ((hA i).comp measurable_fst).prodMk (((hB i).comp measurable_fst).prodMk ((measurable_pi_apply i).comp measurable_snd))

theorem measurable_ofFn_getD (n j : ℕ) : Measurable fun f : Fin n → ℝ => (List.ofFn f).getD j 0 := by
  by_cases h : j < n
  · have : (fun f : Fin n → ℝ => (List.ofFn f).getD j 0) = fun f => f ⟨j, h⟩ := by
      funext f; simp [List.getD_eq_getElem?_getD, h]
    rw [this]; exact measurable_pi_apply _
  · have : (fun f : Fin n → ℝ => (List.ofFn f).getD j 0) = fun f => 0 := by
      funext f; simp [List.getD_eq_getElem?_getD, h]
    rw [this]; exact measurable_const

theorem brownbr_cond (x0 x1 : ℝ) {vs : List ℝ} (h2 : 2 ≤ vs.length) (hp : ∀ v ∈ vs, 0 < v) {F : List ℝ → ℝ≥0∞} (hF : MeasL (vs.length - 1) fun _ : Unit => F)
    {g : Res (List ℝ) → ℝ≥0∞} (hg : ∀ l, g (.ok l) = F l) :
    (sampleBrownbr (npCumsum vs).dropLast vs.sum x0 x1).lexp g = condInt x1 vs x0 F := by
  have hne : vs ≠ [] := by rintro rfl; simp at h2
  rw [sampleBrownbr_eq x0 x1 h2 hp, Prog.lexp_bind]
  refine brList_exp x1 vs hne hp x0 F hF _ fun zs => ?_
  rw [Prog.cont_ok, Prog.lexp_ret, hg]

section
variable {vs : List ℝ} {F : List ℝ → ℝ≥0∞} (hF : MeasL (vs.length - 1) fun _ : Unit => F) (x : ℝ)
include hF

theorem cols_m3 (l1 l2 : List ℝ) : MeasL (vs.length - 1) fun (_ : Unit) l3 => F (cols3 (vs.length - 1) l1 l2 l3) :=
  measL_cols3 hF (A := fun _ => l1) (B := fun _ => l2) (fun j => measurable_const) fun j => measurable_const

theorem cols_m2 (l1 : List ℝ) : MeasL (vs.length - 1) fun (_ : Unit) l2 => condInt x vs 0 fun l3 => F (cols3 (vs.length - 1) l1 l2 l3) :=
  condInt_measurable x vs (X := Unit × (Fin (vs.length - 1) → ℝ)) (x := fun _ => 0)
    (measL_cols3 hF (A := fun _ => l1) (B := fun p : Unit × (Fin (vs.length - 1) → ℝ) => List.ofFn p.2) (fun j => measurable_const)
      fun j => (measurable_ofFn_getD _ j).comp measurable_snd) measurable_const

theorem cols_m1 : MeasL (vs.length - 1) fun (_ : Unit) l1 => condInt 0 vs 0 fun l2 => condInt x vs 0 fun l3 => F (cols3 (vs.length - 1) l1 l2 l3) := by
  refine condInt_measurable 0 vs (X := Unit × (Fin (vs.length - 1) → ℝ)) (x := fun _ => 0) ?_ measurable_const
  exact condInt_measurable x vs (X := (Unit × (Fin (vs.length - 1) → ℝ)) × (Fin (vs.length - 1) → ℝ)) (x := fun _ => 0)
    (measL_cols3 hF (A := fun p : (Unit × (Fin (vs.length - 1) → ℝ)) × (Fin (vs.length - 1) → ℝ) => List.ofFn p.1.2) (B := fun p => List.ofFn p.2)
      (fun j => (measurable_ofFn_getD _ j).comp (measurable_snd.comp measurable_fst))
      fun j => (measurable_ofFn_getD _ j).comp measurable_snd) measurable_const

end

/-- The sampler as three bridges. -/
theorem besselbr_cond (x : ℝ) {vs : List ℝ} (h2 : 2 ≤ vs.length) (hp : ∀ v ∈ vs, 0 < v) {F : List ℝ → ℝ≥0∞} (hF : MeasL (vs.length - 1) fun _ : Unit => F)
    {g : Res (List ℝ) → ℝ≥0∞} (hg : ∀ l, g (.ok l) = F l) :
    (sampleBesselbr (npCumsum vs).dropLast vs.sum x 3).lexp g =
      condInt 0 vs 0 fun l1 => condInt 0 vs 0 fun l2 => condInt x vs 0 fun l3 => F (cols3 (vs.length - 1) l1 l2 l3) := by
  have hne : vs ≠ [] := by rintro rfl; simp at h2
  have htl : (npCumsum vs).dropLast.length = vs.length - 1 := by rw [List.length_dropLast, npCumsum, cumsumFrom_length]
  have htne : (npCumsum vs).dropLast ≠ [] := by intro h; rw [h] at htl; simp at htl; omega
  have hmem : ∀ a ∈ (npCumsum vs).dropLast, 0 < a ∧ a < vs.sum := fun a ha => by simpa using cumsumFrom_dropLast_mem 0 vs hp a ha
  rw [sampleBesselbr, if_neg htne, Prog.assert, if_pos hmem, Prog.ret_bind, Prog.assert, if_pos (by norm_num), Prog.ret_bind]
  simp only [show (3 : ℕ) - 1 = 2 from rfl, List.replicate, List.cons_append, List.nil_append, Prog.mapM', Prog.bind_assoc, Prog.ret_bind, htl]
  rw [Prog.lexp_bind]
  refine brownbr_cond 0 0 h2 hp (cols_m1 hF x) fun l1 => ?_
  rw [Prog.cont_ok, Prog.lexp_bind]
  refine brownbr_cond 0 0 h2 hp (cols_m2 hF x l1) fun l2 => ?_
  rw [Prog.cont_ok, Prog.lexp_bind]
  refine brownbr_cond 0 x h2 hp (cols_m3 hF l1 l2) fun l3 => ?_
  rw [Prog.cont_ok, Prog.lexp_ret, hg, cols3]

/-- The sampler as one path in space. -/
theorem besselbr_space (x : ℝ) {vs : List ℝ} (h2 : 2 ≤ vs.length) (hp : ∀ v ∈ vs, 0 < v) {F : List ℝ → ℝ≥0∞} (hF : MeasL (vs.length - 1) fun _ : Unit => F)
    {g : Res (List ℝ) → ℝ≥0∞} (hg : ∀ l, g (.ok l) = F l) :
    step3 vs.sum 0 (0, 0, x) * (sampleBesselbr (npCumsum vs).dropLast vs.sum x 3).lexp g = kerInt step3 (0, 0, x) vs 0 fun l => F (l.map nrm3) := by
  have hne : vs ≠ [] := by rintro rfl; simp at h2
  have hk2 : MeasK fun _ : Unit => fun v (p q : ℝ × ℝ) => normKer v p.1 q.1 * normKer v p.2 q.2 := fun v => by
    unfold normKer normDens normDensR; fun_prop
  have hG : MeasL (vs.length - 1) fun (_ : Unit) (l : List (ℝ × ℝ × ℝ)) => F (l.map nrm3) := hF.map measurable_nrm3
  have e1 : kerInt step3 (0, 0, x) vs 0 (fun l => F (l.map nrm3)) =
      kerInt normKer 0 vs 0 fun l1 => kerInt (fun v (p q : ℝ × ℝ) => normKer v p.1 q.1 * normKer v p.2 q.2) (0, x) vs (0, 0) fun l' => F ((l1.zip l').map nrm3) :=
    (kerInt_prod measK_norm hk2 0 (0, x) vs 0 (0, 0) hG).symm
  have e2 : ∀ l1 : List ℝ, l1.length = vs.length - 1 →
      kerInt (fun v (p q : ℝ × ℝ) => normKer v p.1 q.1 * normKer v p.2 q.2) (0, x) vs (0, 0) (fun l' => F ((l1.zip l').map nrm3)) =
      kerInt normKer 0 vs 0 fun l2 => kerInt normKer x vs 0 fun l3 => F (cols3 (vs.length - 1) l1 l2 l3) := by
    intro l1 hl1
    have hG1 : MeasL (vs.length - 1) fun (_ : Unit) (l : List (ℝ × ℝ)) => F ((l1.zip l).map nrm3) := by
      obtain ⟨f, rfl⟩ : ∃ f : Fin (vs.length - 1) → ℝ, l1 = List.ofFn f := ⟨fun i => l1.get (i.cast hl1.symm), by
        apply List.ext_getElem
        · simp [hl1]
        · intro i h1 h2; simp⟩
      exact hG.zip.comp (φ := fun _ : Unit => ((), f)) measurable_const
    rw [← kerInt_prod measK_norm measK_norm 0 x vs 0 0 hG1]
    refine kerInt_congr 0 vs 0 fun l2 hl2 => kerInt_congr x vs 0 fun l3 hl3 => ?_
    rw [cols3_zip hl1 hl2 hl3]
  rw [e1, kerInt_congr 0 vs 0 e2, besselbr_cond x h2 hp hF hg]
  simp_rw [kerInt_condInt x hne hp 0 (cols_m3 hF _ _), kerInt_const_mul measK_norm 0 _ vs 0 (cols_m2 hF x _), kerInt_condInt 0 hne hp 0 (cols_m2 hF x _)]
  have m1 := (cols_m1 hF x)
  have m1' : MeasL (vs.length - 1) fun (_ : Unit) l1 => normKer vs.sum 0 0 * condInt 0 vs 0 fun l2 => condInt x vs 0 fun l3 => F (cols3 (vs.length - 1) l1 l2 l3) :=
    (MeasL.of_fst (f := fun _ => normKer vs.sum 0 0) measurable_const).mul m1
  rw [kerInt_const_mul measK_norm 0 _ vs 0 m1', kerInt_const_mul measK_norm 0 _ vs 0 m1, kerInt_condInt 0 hne hp 0 m1]
  simp only [step3, normKer, Prod.fst_zero, Prod.snd_zero]
  ring

theorem step3_origin {v : ℝ} (hv : 0 < v) (z : ℝ × ℝ × ℝ) :
    step3 v 0 z = ENNReal.ofReal (Real.exp (-nrm3 z ^ 2 / (2 * v)) / Real.sqrt (2 * Real.pi * v) ^ 3) := by
  obtain ⟨z', rfl⟩ := toTriple_surj z
  have h := step3_norm hv 0 z'
  rw [show toTriple (0 : E3) = 0 by simp [toTriple], zero_sub, norm_neg, ← nrm3_toTriple] at h
  exact h

theorem passDens_gauss {v r : ℝ} (hv : 0 < v) : 2 * Real.pi * (r * (Real.exp (-r ^ 2 / (2 * v)) / Real.sqrt (2 * Real.pi * v) ^ 3)) = passDens r v := by
  have hpi := Real.pi_pos
  rw [passDens]
  have e : Real.sqrt (2 * Real.pi * v) ^ 3 = 2 * Real.pi * Real.sqrt (2 * Real.pi * v ^ 3) := by
    have h1 : Real.sqrt (2 * Real.pi * v) ^ 3 = 2 * Real.pi * v * Real.sqrt (2 * Real.pi * v) := by
      rw [pow_succ, Real.sq_sqrt (by positivity)]
    have h2 : Real.sqrt (2 * Real.pi * v ^ 3) = v * Real.sqrt (2 * Real.pi * v) := by
      rw [show 2 * Real.pi * v ^ 3 = v ^ 2 * (2 * Real.pi * v) by ring, Real.sqrt_mul (sq_nonneg v), Real.sqrt_sq hv.le]
    rw [h1, h2]; ring
  rw [e]
  have : Real.sqrt (2 * Real.pi * v ^ 3) ≠ 0 := (Real.sqrt_pos.2 (by positivity)).ne'
  field_simp

/-- Law of the Bessel bridge sampler. -/
theorem besselbr_law {x : ℝ} (hx : 0 < x) {vs : List ℝ} (h2 : 2 ≤ vs.length) (hp : ∀ v ∈ vs, 0 < v) {F : List ℝ → ℝ≥0∞}
    (hF : MeasL (vs.length - 1) fun _ : Unit => F) {g : Res (List ℝ) → ℝ≥0∞} (hg : ∀ l, g (.ok l) = F l) :
    entrDens 0 vs.sum x * (sampleBesselbr (npCumsum vs).dropLast vs.sum x 3).lexp g = startInt (entrDens 0) (killDens 0) x vs F := by
  have hsp := besselbr_space x h2 hp hF hg
  obtain ⟨v, w, vs, rfl⟩ : ∃ v w us, vs = v :: w :: us := by
    match vs, h2 with
    | v :: w :: us, _ => exact ⟨v, w, us, rfl⟩
  have hv : 0 < v := hp v (by simp)
  have hp' : ∀ u ∈ w :: vs, 0 < u := fun u hu => hp u (List.mem_cons_of_mem _ hu)
  have hs : 0 < (v :: w :: vs).sum := List.sum_pos _ hp (by simp)
  have hn : nrm3 (0, 0, x) = x := by simp [nrm3, Real.sqrt_sq hx.le]
  have hpi := Real.pi_pos
  set c : ℝ → ℝ≥0∞ := fun r => ENNReal.ofReal (Real.exp (-r ^ 2 / (2 * v)) / Real.sqrt (2 * Real.pi * v) ^ 3) with hc
  have hcm : Measurable c := by rw [hc]; fun_prop
  have hF1 : MeasL ((w :: vs).length - 1) fun (r : ℝ) l => F (r :: l) :=
    (MeasL.cons hF).comp (φ := fun y : ℝ => ((), y)) (measurable_const.prodMk measurable_id)
  have hK : MeasL ((w :: vs).length - 1) fun (r : ℝ) l => c r * F (r :: l) := (MeasL.of_fst hcm).mul hF1
  have hspace : kerInt step3 (0, 0, x) (v :: w :: vs) 0 (fun l => F (l.map nrm3)) =
      ∫⁻ r, ENNReal.ofReal (r / x) * kerInt (killDens 0) x (w :: vs) r fun l => c r * F (r :: l) := by
    have h := radialInt (X := (0, 0, x)) (by rw [hn]; exact hx) (w :: vs) (by simp) hp' hK
    rw [hn] at h
    rw [← h]
    simp only [kerInt]
    refine lintegral_congr fun z => ?_
    have hm : MeasL ((w :: vs).length - 1) fun (_ : Unit) (l : List (ℝ × ℝ × ℝ)) => F (nrm3 z :: l.map nrm3) := (hF1.map measurable_nrm3).const (nrm3 z)
    rw [kerInt_const_mul measK_step3 (0, 0, x) _ (w :: vs) z hm, step3_origin hv]
    rfl
  rw [hspace] at hsp
  have hT : ENNReal.ofReal (2 * Real.pi * x) * step3 (v :: w :: vs).sum 0 (0, 0, x) = entrDens 0 (v :: w :: vs).sum x := by
    rw [step3_origin hs, hn, entrDens, if_pos hx, ← ENNReal.ofReal_mul (by positivity), sub_zero, ← passDens_gauss hs]
    congr 1
    ring
  rw [← hT, mul_assoc, hsp, startInt, ← lintegral_const_mul]
  · refine lintegral_congr fun r => ?_
    rw [kerInt_const_mul (measK_kill' 0) x _ (w :: vs) r (hF1.const r), ← mul_assoc, ← mul_assoc]
    congr 1
    by_cases hr : 0 < r
    · rw [entrDens, if_pos hr, ← ENNReal.ofReal_mul (by positivity), hc, ← ENNReal.ofReal_mul (by positivity), sub_zero, ← passDens_gauss hv]
      congr 1
      field_simp
    · rw [entrDens, if_neg hr, ENNReal.ofReal_of_nonpos (div_nonpos_of_nonpos_of_nonneg (not_lt.1 hr) hx.le)]
      simp
  · exact (by fun_prop : Measurable fun r : ℝ => ENNReal.ofReal (r / x)).mul (kerInt_measurable' x (w :: vs) (measK_kill' 0) hK measurable_id)

end Ctb
