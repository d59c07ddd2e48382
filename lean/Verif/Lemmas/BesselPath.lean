import Verif.Lemmas.BesselLaw
import Verif.Lemmas.Moments
import Verif.Lemmas.HalfLine
import Verif.Lemmas.StripImages
import Verif.Lemmas.SwitchAug
import Verif.Model.Bessel
import Verif.Spec.Bessel

/-! # The Bessel process sampler as a Markov chain of its norms -/

set_option linter.unusedSectionVars false

namespace Ctb

open MeasureTheory Set ProbabilityTheory
open scoped ENNReal

/-! ## the rows as a Markov chain -/

/-- One row after the other. -/
noncomputable def rowChain (n : ℕ) (mu : List ℝ) : List ℝ → List ℝ → Prog (List (List ℝ))
  | [], _ => .ret []
  | d :: ds, w => (Prog.replicate n (Prog.draw (.normal 0 1))).bind fun z =>
    (rowChain n mu ds (List.zipWith (· + ·) w (rowInc mu d z))).bind fun l => .ret (List.zipWith (· + ·) w (rowInc mu d z) :: l)

theorem zipAdd_assoc : ∀ (a b c : List ℝ), List.zipWith (· + ·) a (List.zipWith (· + ·) b c) = List.zipWith (· + ·) (List.zipWith (· + ·) a b) c
  | [], _, _ => by simp
  | _ :: _, [], _ => by simp
  | _ :: _, _ :: _, [] => by simp
  | x :: a, y :: b, z :: c => by simp [zipAdd_assoc a b c, add_assoc]

theorem zipAdd_zero : ∀ (a : List ℝ), List.zipWith (· + ·) a (List.replicate a.length 0) = a
  | [] => rfl
  | x :: a => by simp [List.replicate_succ, zipAdd_zero a]

theorem rowChain_eq (n : ℕ) (mu x : List ℝ) : ∀ (ds acc : List ℝ),
    ((Prog.replicate ds.length (Prog.replicate n (Prog.draw (.normal 0 1)))).bind fun zs =>
      Prog.ret ((cumRows acc (List.zipWith (rowInc mu) ds zs)).map (List.zipWith (· + ·) x))) = rowChain n mu ds (List.zipWith (· + ·) x acc)
  | [], acc => by simp [Prog.replicate, Prog.ret_bind, rowChain, cumRows]
  | d :: ds, acc => by
    simp only [List.length_cons, Prog.replicate, Prog.bind_assoc, Prog.ret_bind, rowChain, List.zipWith_cons_cons, cumRows, List.map_cons]
    congr 1
    funext z
    have := rowChain_eq n mu x ds (List.zipWith (· + ·) acc (rowInc mu d z))
    rw [← zipAdd_assoc, ← this, Prog.bind_assoc]
    simp only [Prog.ret_bind]

variable {t : List ℝ} {x0 : ℝ} {dim : ℕ} {m : Option ℝ}

/-- The starting row. -/
noncomputable def axisRow (dim : ℕ) (x : ℝ) : List ℝ := List.replicate (dim - 1) 0 ++ [x]

theorem axisRow_length (hd : 0 < dim) (x : ℝ) : (axisRow dim x).length = dim := by
  simp [axisRow]; omega

theorem sampleBessel_chain (hne : t ≠ []) (hpos : ∀ a ∈ t, 0 < a) (h : t.Pairwise (· ≤ ·)) (hx : 0 ≤ x0) (hd : 0 < dim) :
    sampleBessel t x0 dim m = (rowChain dim (axisRow dim (m.getD 0)) (ediffBegin t) (axisRow dim x0)).bind fun wt => .ret (wt.map rowNorm) := by
  have hn : ¬ ¬ ∀ d ∈ ediffBegin t, 0 ≤ d := by
    rw [not_not, ediffBegin_eq]
    exact diffFrom_nonneg h fun a ha => (hpos a ha).le
  have hr := rowChain_eq dim (axisRow dim (m.getD 0)) (axisRow dim x0) (ediffBegin t) (List.replicate dim 0)
  have hz := zipAdd_zero (axisRow dim x0)
  rw [axisRow_length hd] at hz
  rw [hz, npDiff_length_zipWith] at hr
  have hl := axisRow_length hd x0
  rw [sampleBessel, if_neg hne, Prog.assert, if_pos hpos, Prog.ret_bind, Prog.assert, if_pos hx, Prog.ret_bind, Prog.assert, if_pos hd, Prog.ret_bind,
    sampleWienerVec, if_neg hne, Prog.assert, if_pos hpos, Prog.ret_bind, if_neg hn, ← hr]
  simp only [axisRow] at hl ⊢
  rw [hl]

/-! ## chains with a free end -/

section
variable {α X : Type} [MeasureSpace α] [MeasurableSpace X] [SigmaFinite (volume : Measure α)] {k : ℝ → α → α → ℝ≥0∞}

theorem freeInt_measurable (hk : MeasK fun _ : Unit => k) : ∀ (vs : List ℝ) {X : Type} [MeasurableSpace X] {F : X → List α → ℝ≥0∞} {x : X → α},
    MeasL vs.length F → Measurable x → Measurable fun p => freeInt k vs (x p) (F p)
  | [], _, _, F, x, hF, _ => by simpa [freeInt] using MeasL.zero_apply hF
  | v :: vs, X, _, F, x, hF, hx => by
    have ih := freeInt_measurable hk vs (X := X × α) (F := fun p l => F p.1 (p.2 :: l)) (x := Prod.snd) (MeasL.cons hF) measurable_snd
    exact ((hk.apply v (p := fun _ : X × α => ()) measurable_const (hx.comp measurable_fst) measurable_snd).mul ih).lintegral_prod_right'

theorem freeInt_congr : ∀ (vs : List ℝ) (x : α) {F G : List α → ℝ≥0∞}, (∀ l, l.length = vs.length → F l = G l) → freeInt k vs x F = freeInt k vs x G
  | [], _, F, G, h => h [] rfl
  | v :: vs, x, F, G, h => by
    simp only [freeInt]
    refine lintegral_congr fun y => ?_
    congr 1
    exact freeInt_congr vs y fun l hl => h _ (by simpa using hl)

end

theorem measurable_normKer (v : ℝ) : Measurable fun p : ℝ × ℝ => normKer v p.1 p.2 := by unfold normKer normDens normDensR; fun_prop

theorem measK_bes3 : MeasK fun _ : Unit => bes3Dens := fun v => by
  have h1 : Measurable fun p : Unit × ℝ × ℝ => ENNReal.ofReal (p.2.2 / p.2.1) * killDens 0 v p.2.1 p.2.2 :=
    (by fun_prop : Measurable fun p : Unit × ℝ × ℝ => ENNReal.ofReal (p.2.2 / p.2.1)).mul (measK_kill' 0 v)
  have h2 : Measurable fun p : Unit × ℝ × ℝ => ENNReal.ofReal (2 * p.2.2) * entrDens 0 v p.2.2 :=
    (by fun_prop : Measurable fun p : Unit × ℝ × ℝ => ENNReal.ofReal (2 * p.2.2)).mul
      ((measurable_entrDens v).comp (measurable_const.prodMk (measurable_snd.comp measurable_snd)))
  unfold bes3Dens
  exact Measurable.ite (measurableSet_lt measurable_const (measurable_fst.comp measurable_snd)) h1 h2

theorem measK_bes1 : MeasK fun _ : Unit => bes1Dens := fun v => by
  unfold bes1Dens
  refine Measurable.ite (measurableSet_lt measurable_const (measurable_snd.comp measurable_snd)) ?_ measurable_const
  unfold normDens normDensR
  fun_prop

/-! ## one step from the origin -/

theorem radial_origin {v : ℝ} (hv : 0 < v) {R : ℝ → ℝ≥0∞} (hR : Measurable R) :
    ∫⁻ z : ℝ × ℝ × ℝ, R (nrm3 z) * step3 v z (0, 0, 0) = ∫⁻ r, ENNReal.ofReal (2 * r) * entrDens 0 v r * R r := by
  have hpi := Real.pi_pos
  have hm : Measurable fun z : ℝ × ℝ × ℝ => R (nrm3 z) * step3 v z (0, 0, 0) :=
    (hR.comp measurable_nrm3).mul (measurable_step3_left v _)
  rw [show (volume : Measure (ℝ × ℝ × ℝ)) = (volume : Measure ℝ).prod volume from rfl, lintegral_prod _ hm.aemeasurable]
  rw [lintegral_congr fun x => plane_step (ρ := 0) hv hR x]
  set C : ℝ → ℝ≥0∞ := fun u => R u * ENNReal.ofReal (u / v * Real.exp (-(u ^ 2 + 0 ^ 2) / (2 * v)) / Real.sqrt (2 * Real.pi * v)) with hC
  have hCm : Measurable C := by rw [hC]; fun_prop
  have e1 : ∀ x : ℝ, ∫⁻ u in Ioi |x|, C u * ENNReal.ofReal (Real.exp (0 / v * x)) =
      ∫⁻ u, {q : ℝ × ℝ | |q.1| < q.2}.indicator (fun q => C q.2) (x, u) := by
    intro x
    rw [← lintegral_indicator measurableSet_Ioi]
    refine lintegral_congr fun u => ?_
    by_cases hx : |x| < u
    · rw [indicator_of_mem (by exact hx), indicator_of_mem (by exact hx)]; simp
    · rw [indicator_of_notMem (by exact hx), indicator_of_notMem (by exact hx)]
  rw [lintegral_congr e1]
  have hS : MeasurableSet {q : ℝ × ℝ | |q.1| < q.2} := measurableSet_lt (by fun_prop) measurable_snd
  have hm2 : Measurable ({q : ℝ × ℝ | |q.1| < q.2}.indicator fun q => C q.2) := Measurable.indicator (by fun_prop) hS
  rw [lintegral_lintegral_swap (f := fun x u => {q : ℝ × ℝ | |q.1| < q.2}.indicator (fun q => C q.2) (x, u)) hm2.aemeasurable]
  refine lintegral_congr fun u => ?_
  by_cases hu : 0 < u
  · have e2 : ∫⁻ x, {q : ℝ × ℝ | |q.1| < q.2}.indicator (fun q => C q.2) (x, u) = ∫⁻ x in Ioo (-u) u, C u := by
      rw [← lintegral_indicator measurableSet_Ioo]
      refine lintegral_congr fun x => ?_
      by_cases hx : |x| < u
      · rw [indicator_of_mem (by exact hx), indicator_of_mem (by exact abs_lt.1 hx)]
      · rw [indicator_of_notMem (by exact hx), indicator_of_notMem (by exact fun h => hx (abs_lt.2 h))]
    rw [e2, setLIntegral_const, Real.volume_Ioo, entrDens, if_pos hu, sub_zero, passDens_norm hv, hC]
    simp only
    rw [mul_assoc, mul_comm, ← ENNReal.ofReal_mul (by positivity), ← ENNReal.ofReal_mul (by positivity)]
    congr 2
    rw [normDensR]
    ring_nf
  · have e2 : ∀ x, {q : ℝ × ℝ | |q.1| < q.2}.indicator (fun q => C q.2) (x, u) = 0 := by
      intro x
      refine indicator_of_notMem ?_ _
      exact fun h : |x| < u => hu ((abs_nonneg x).trans_lt h)
    rw [entrDens, if_neg hu]
    simp [e2]

theorem step3_symm (v : ℝ) (p q : ℝ × ℝ × ℝ) : step3 v p q = step3 v q p := by
  have : ∀ a b : ℝ, normDens v (a - b) = normDens v (b - a) := fun a b => by rw [normDens, normDens, ← neg_sub, normDensR_even]
  rw [step3, step3, this q.1, this q.2.1, this q.2.2]

theorem killDens_symm (m v x y : ℝ) : killDens m v x y = killDens m v y x := by
  rw [killDens, killDens]
  by_cases h : m < x ∧ m < y
  · rw [if_pos h, if_pos h.symm, ← neg_sub x y, normDensR_even, add_comm x y]
  · rw [if_neg h, if_neg fun h' => h h'.symm]

/-- The norm after one step, whatever the starting point. -/
theorem bes3_step {v : ℝ} (hv : 0 < v) (w : ℝ × ℝ × ℝ) {R : ℝ → ℝ≥0∞} (hR : Measurable R) :
    ∫⁻ z, step3 v w z * R (nrm3 z) = ∫⁻ r, bes3Dens v (nrm3 w) r * R r := by
  rw [lintegral_congr fun z => show step3 v w z * R (nrm3 z) = R (nrm3 z) * step3 v z w by rw [step3_symm, mul_comm]]
  by_cases hw : 0 < nrm3 w
  · rw [radial_step hv hw hR]
    refine lintegral_congr fun r => ?_
    rw [bes3Dens, if_pos hw, killDens_symm]
  · have h0 : w = (0, 0, 0) := by
      by_contra h
      exact hw (nrm3_pos h)
    subst h0
    rw [radial_origin hv hR]
    refine lintegral_congr fun r => ?_
    rw [bes3Dens, if_neg hw]

/-! ## the law of the norms in three dimensions -/

theorem std_normal_law : (RDist.normal 0 1).law = gaussianReal 0 1 := by
  have h0 : (RDist.normal 0 1).law = gaussianReal 0 (Real.toNNReal ((1 : ℝ) ^ 2)) := rfl
  rw [h0]; congr 1; simp

theorem row3_step {v : ℝ} (hv : 0 < v) (a b c : ℝ) {R : ℝ × ℝ × ℝ → ℝ≥0∞} (hR : Measurable R) {g : Res (List ℝ) → ℝ≥0∞}
    (hg : ∀ z1 z2 z3, g (.ok [z1, z2, z3]) = R (a + √v * z1, b + √v * z2, c + √v * z3)) :
    (Prog.replicate 3 (Prog.draw (.normal 0 1))).lexp g = ∫⁻ z, step3 v (a, b, c) z * R z := by
  simp only [Prog.replicate, Prog.draw, Prog.real_bind, Prog.ret_bind, Prog.lexp_real, Prog.lexp_ret, hg, std_normal_law]
  have h3 : ∀ y1 y2 : ℝ, ∫⁻ z3, R (y1, y2, c + √v * z3) ∂(gaussianReal 0 1) = ∫⁻ y3, normDens v (y3 - c) * R (y1, y2, y3) := fun y1 y2 =>
    lintegral_normal_affine hv (f := fun y3 => R (y1, y2, y3)) (by fun_prop)
  have m3 : Measurable fun p : (ℝ × ℝ) × ℝ => normDens v (p.2 - c) * R (p.1.1, p.1.2, p.2) := by
    unfold normDens normDensR; fun_prop
  have m2 : Measurable fun p : ℝ × ℝ => ∫⁻ y3, normDens v (y3 - c) * R (p.1, p.2, y3) := m3.lintegral_prod_right'
  have h2 : ∀ y1 : ℝ, ∫⁻ z2, (∫⁻ y3, normDens v (y3 - c) * R (y1, b + √v * z2, y3)) ∂(gaussianReal 0 1) =
      ∫⁻ y2, normDens v (y2 - b) * ∫⁻ y3, normDens v (y3 - c) * R (y1, y2, y3) := fun y1 =>
    lintegral_normal_affine hv (f := fun y2 => ∫⁻ y3, normDens v (y3 - c) * R (y1, y2, y3)) (m2.comp (measurable_const.prodMk measurable_id))
  have mn : ∀ e : ℝ, Measurable fun y : ℝ => normDens v (y - e) := fun e => (normDens_measurable v).comp (by fun_prop)
  have m1 : Measurable fun y1 : ℝ => ∫⁻ y2, normDens v (y2 - b) * ∫⁻ y3, normDens v (y3 - c) * R (y1, y2, y3) :=
    (((mn b).comp measurable_snd).mul m2).lintegral_prod_right'
  have h1 := lintegral_normal_affine (m := a) hv m1
  simp only [h3, h2]
  rw [h1]
  have hs : Measurable fun z : ℝ × ℝ × ℝ => step3 v (a, b, c) z * R z := by
    unfold step3 normDens normDensR; fun_prop
  rw [show (volume : Measure (ℝ × ℝ × ℝ)) = (volume : Measure ℝ).prod volume from rfl, lintegral_prod _ hs.aemeasurable]
  refine lintegral_congr fun y1 => ?_
  have hs1 : Measurable fun z : ℝ × ℝ => step3 v (a, b, c) (y1, z) * R (y1, z) := hs.comp (measurable_const.prodMk measurable_id)
  rw [show (volume : Measure (ℝ × ℝ)) = (volume : Measure ℝ).prod volume from rfl, lintegral_prod _ hs1.aemeasurable, ← lintegral_const_mul]
  · refine lintegral_congr fun y2 => ?_
    rw [← lintegral_const_mul, ← lintegral_const_mul]
    · refine lintegral_congr fun y3 => ?_
      simp only [step3]
      ring
    · exact ((mn c).mul (hR.comp (by fun_prop))).const_mul _
    · exact (mn c).mul (hR.comp (by fun_prop))
  · exact (mn b).mul (m2.comp (measurable_const.prodMk measurable_id))

theorem rowNorm3 (a b c : ℝ) : rowNorm [a, b, c] = nrm3 (a, b, c) := by simp [rowNorm, nrm3, add_assoc]

theorem chain3_law : ∀ (ds : List ℝ), (∀ d ∈ ds, 0 < d) → ∀ (a b c : ℝ) {F : List ℝ → ℝ≥0∞}, MeasL ds.length (fun _ : Unit => F) →
    ∀ {g : Res (List (List ℝ)) → ℝ≥0∞}, (∀ l, g (.ok l) = F (l.map rowNorm)) →
    (rowChain 3 [0, 0, 0] ds [a, b, c]).lexp g = freeInt bes3Dens ds (nrm3 (a, b, c)) F
  | [], _, a, b, c, F, _, g, hg => by simp [rowChain, Prog.lexp_ret, hg, freeInt]
  | d :: ds, hp, a, b, c, F, hF, g, hg => by
    have hF1 : MeasL ds.length fun (r : ℝ) l => F (r :: l) := (MeasL.cons hF).comp (φ := fun y : ℝ => ((), y)) (measurable_const.prodMk measurable_id)
    have hm : Measurable fun r : ℝ => freeInt bes3Dens ds r fun l => F (r :: l) := freeInt_measurable measK_bes3 ds hF1 measurable_id
    rw [rowChain, Prog.lexp_bind, row3_step (hp d (by simp)) a b c (R := fun z => freeInt bes3Dens ds (nrm3 z) fun l => F (nrm3 z :: l))
      (hm.comp measurable_nrm3)]
    · rw [bes3_step (hp d (by simp)) (a, b, c) hm]
      rfl
    · intro z1 z2 z3
      have e : List.zipWith (· + ·) [a, b, c] (rowInc [0, 0, 0] d [z1, z2, z3]) = [a + √d * z1, b + √d * z2, c + √d * z3] := by simp [rowInc]
      rw [Prog.cont_ok, Prog.lexp_bind, e]
      refine chain3_law ds (fun u hu => hp u (List.mem_cons_of_mem _ hu)) _ _ _ (hF1.const _) fun l => ?_
      rw [Prog.cont_ok, Prog.lexp_ret, hg, List.map_cons, rowNorm3]

/-! ## the law in one dimension -/

theorem bes1_step {v : ℝ} (w : ℝ) {R : ℝ → ℝ≥0∞} (hR : Measurable R) :
    ∫⁻ z, normDens v (z - w) * R |z| = ∫⁻ r, bes1Dens v |w| r * R r := by
  have hf : Measurable fun z : ℝ => normDens v (z - w) * R |z| := by unfold normDens normDensR; fun_prop
  have h1 : ∫⁻ z, normDens v (z - w) * R |z| = (∫⁻ z in Ioi 0, normDens v (z - w) * R |z|) + ∫⁻ z in Iio 0, normDens v (z - w) * R |z| := by
    rw [← lintegral_union measurableSet_Iio (by
      rw [Set.disjoint_left]; intro z h h'; exact absurd (mem_Ioi.1 h) (not_lt.2 (mem_Iio.1 h').le)), Ioi_union_Iio]
    rw [restrict_compl_singleton]
  have h2 : ∫⁻ z in Iio 0, normDens v (z - w) * R |z| = ∫⁻ z in Ioi 0, normDens v (z + w) * R |z| := by
    rw [← lintegral_indicator measurableSet_Iio, ← lintegral_indicator measurableSet_Ioi, ← lintegral_neg_eq_self]
    refine lintegral_congr fun z => ?_
    by_cases hz : 0 < z
    · rw [indicator_of_mem (by exact neg_lt_zero.2 hz), indicator_of_mem (by exact hz), abs_neg, normDens, normDens, ← normDensR_even]
      congr 3; ring
    · rw [indicator_of_notMem (by simpa using hz), indicator_of_notMem (by exact hz)]
  rw [h1, h2, ← lintegral_add_left hf, ← lintegral_indicator measurableSet_Ioi]
  refine lintegral_congr fun z => ?_
  by_cases hz : 0 < z
  · rw [indicator_of_mem (by exact hz), bes1Dens, if_pos hz, abs_of_pos hz, ← add_mul]
    congr 1
    rcases abs_cases w with ⟨h, -⟩ | ⟨h, -⟩
    · rw [h]
    · rw [h, add_comm]; congr 2; ring
  · rw [indicator_of_notMem (by exact hz), bes1Dens, if_neg hz, zero_mul]

theorem chain1_law : ∀ (ds : List ℝ), (∀ d ∈ ds, 0 < d) → ∀ (a : ℝ) {F : List ℝ → ℝ≥0∞}, MeasL ds.length (fun _ : Unit => F) →
    ∀ {g : Res (List (List ℝ)) → ℝ≥0∞}, (∀ l, g (.ok l) = F (l.map rowNorm)) →
    (rowChain 1 [0] ds [a]).lexp g = freeInt bes1Dens ds |a| F
  | [], _, a, F, _, g, hg => by simp [rowChain, Prog.lexp_ret, hg, freeInt]
  | d :: ds, hp, a, F, hF, g, hg => by
    have hF1 : MeasL ds.length fun (r : ℝ) l => F (r :: l) := (MeasL.cons hF).comp (φ := fun y : ℝ => ((), y)) (measurable_const.prodMk measurable_id)
    have hm : Measurable fun r : ℝ => freeInt bes1Dens ds r fun l => F (r :: l) := freeInt_measurable measK_bes1 ds hF1 measurable_id
    rw [rowChain, Prog.lexp_bind]
    simp only [Prog.replicate, Prog.draw, Prog.real_bind, Prog.ret_bind, Prog.lexp_real, Prog.lexp_ret, std_normal_law, Prog.cont_ok]
    have e : ∀ z, List.zipWith (· + ·) [a] (rowInc [0] d [z]) = [a + √d * z] := fun z => by simp [rowInc]
    have ih : ∀ z, ((rowChain 1 [0] ds [a + √d * z]).bind fun l => Prog.ret ([a + √d * z] :: l)).lexp g =
        freeInt bes1Dens ds |a + √d * z| fun l => F (|a + √d * z| :: l) := by
      intro z
      rw [Prog.lexp_bind]
      refine chain1_law ds (fun u hu => hp u (List.mem_cons_of_mem _ hu)) _ (hF1.const _) fun l => ?_
      rw [Prog.cont_ok, Prog.lexp_ret, hg, List.map_cons]
      simp [rowNorm, Real.sqrt_sq_eq_abs]
    simp only [e, ih]
    rw [lintegral_normal_affine (hp d (by simp)) (f := fun y => freeInt bes1Dens ds |y| fun l => F (|y| :: l)) (hm.comp (by fun_prop)), bes1_step a hm]
    rfl

/-! ## Laplace transform of the square, in any dimension and with drift -/

theorem normDens_conv {V v : ℝ} (hV : 0 < V) (hv : 0 ≤ v) (a : ℝ) : ∫⁻ z, normDens V (a + √v * z) ∂(gaussianReal 0 1) = normDens (V + v) a := by
  rcases hv.eq_or_lt with rfl | hv
  · simp
  rw [lintegral_normal_affine hv (normDens_measurable V)]
  have e : ∀ y, normDens v (y - a) * normDens V y = normDens (V + v) a * normDens (v * V / (V + v)) (y - (a + (0 - a) * v / (V + v))) := by
    intro y
    have h := normDens_mul (v := v) (R := V + v) (x := a) (y := y) (x1 := 0) hv (by linarith)
    rw [show V + v - v = V by ring, zero_sub, zero_sub, normDens, normDens, normDensR_even, normDens, normDensR_even] at h
    rw [normDens, normDens, h, zero_sub]
    rfl
  have hv' : 0 < v * V / (V + v) := by positivity
  have hm : Measurable fun y : ℝ => normDens (v * V / (V + v)) (y - (a + (0 - a) * v / (V + v))) := (normDens_measurable _).comp (by fun_prop)
  rw [lintegral_congr e, lintegral_const_mul _ hm, lintegral_congr fun y => normDens_eq_pdf hv' _ y,
    lintegral_gaussianPDF_eq_one _ (by simpa using hv'), mul_one]

/-- Product of normal densities of the entries, moved by the drift for the time `s`. -/
noncomputable def densRow (V s : ℝ) (w mu : List ℝ) : ℝ≥0∞ := (List.zipWith (fun wi mi => normDens (V + s) (wi + mi * s)) w mu).prod

theorem rep_dens {V s d : ℝ} (hV : 0 < V) (hs : 0 ≤ s) (hd : 0 ≤ d) : ∀ (n : ℕ) (w mu : List ℝ), w.length = n → mu.length = n → ∀ (K : ℝ≥0∞)
    (g : Res (List ℝ) → ℝ≥0∞), (∀ z, z.length = n → g (.ok z) = K * densRow V s (List.zipWith (· + ·) w (rowInc mu d z)) mu) →
    (Prog.replicate n (Prog.draw (.normal 0 1))).lexp g = K * densRow V (s + d) w mu
  | 0, w, mu, hw, hm, K, g, hg => by
    rw [List.length_eq_zero_iff] at hw hm
    subst hw hm
    rw [Prog.replicate, Prog.lexp_ret, hg [] rfl]
    simp [densRow]
  | n + 1, [], mu, hw, _, K, g, hg => by simp at hw
  | n + 1, _ :: _, [], _, hm, K, g, hg => by simp at hm
  | n + 1, a :: w, b :: mu, hw, hm, K, g, hg => by
    simp only [Prog.replicate, Prog.draw, Prog.real_bind, Prog.ret_bind, Prog.lexp_real, std_normal_law]
    have ih : ∀ z : ℝ, ((Prog.replicate n (Prog.draw (.normal 0 1))).bind fun l => Prog.ret (z :: l)).lexp g =
        K * normDens (V + s) ((a + b * (s + d)) + √d * z) * densRow V (s + d) w mu := by
      intro z
      rw [Prog.lexp_bind]
      refine rep_dens hV hs hd n w mu (by simpa using hw) (by simpa using hm) _ _ fun zs hz => ?_
      rw [Prog.cont_ok, Prog.lexp_ret, hg _ (by simp [hz])]
      simp only [densRow, rowInc, List.zipWith_cons_cons, List.prod_cons]
      rw [mul_assoc]
      congr 3
      ring
    simp only [Prog.draw] at ih
    simp only [ih]
    have hm : Measurable fun z : ℝ => normDens (V + s) ((a + b * (s + d)) + √d * z) := (normDens_measurable _).comp (by fun_prop)
    rw [lintegral_mul_const _ (hm.const_mul K), lintegral_const_mul _ hm, normDens_conv (by linarith) hd]
    simp only [densRow, List.zipWith_cons_cons, List.prod_cons]
    rw [mul_assoc, add_assoc]

theorem replicate_normal_const (n : ℕ) (c : ℝ≥0∞) (g : Res (List ℝ) → ℝ≥0∞) (hg : ∀ z, z.length = n → g (.ok z) = c) :
    (Prog.replicate n (Prog.draw (.normal 0 1))).lexp g = c := by
  induction n generalizing g with
  | zero => rw [Prog.replicate, Prog.lexp_ret, hg [] rfl]
  | succ n ih =>
    simp only [Prog.replicate, Prog.draw, Prog.real_bind, Prog.ret_bind, Prog.lexp_real, std_normal_law]
    have : ∀ z : ℝ, ((Prog.replicate n (Prog.draw (.normal 0 1))).bind fun l => Prog.ret (z :: l)).lexp g = c := by
      intro z
      rw [Prog.lexp_bind]
      refine ih _ fun zs hz => ?_
      rw [Prog.cont_ok, Prog.lexp_ret, hg _ (by simp [hz])]
    simp only [Prog.draw] at this
    simp [this]

theorem row_length {n : ℕ} {w mu z : List ℝ} {d : ℝ} (hw : w.length = n) (hm : mu.length = n) (hz : z.length = n) :
    (List.zipWith (· + ·) w (rowInc mu d z)).length = n := by simp [rowInc, hw, hm, hz]

theorem rowChain_const {n : ℕ} {mu : List ℝ} (hm : mu.length = n) (c : ℝ≥0∞) : ∀ (ds w : List ℝ), w.length = n → ∀ (g : Res (List (List ℝ)) → ℝ≥0∞),
    (∀ l, l.length = ds.length → (∀ r ∈ l, r.length = n) → g (.ok l) = c) → (rowChain n mu ds w).lexp g = c
  | [], w, _, g, hg => by rw [rowChain, Prog.lexp_ret, hg [] rfl (by simp)]
  | d :: ds, w, hw, g, hg => by
    rw [rowChain, Prog.lexp_bind]
    refine replicate_normal_const n c _ fun z hz => ?_
    rw [Prog.cont_ok, Prog.lexp_bind]
    refine rowChain_const hm c ds _ (row_length hw hm hz) _ fun l hl hr => ?_
    rw [Prog.cont_ok, Prog.lexp_ret, hg _ (by simp [hl])]
    intro r hr'
    rcases List.mem_cons.1 hr' with rfl | h
    · exact row_length hw hm hz
    · exact hr r h

theorem chain_dens {n : ℕ} {mu : List ℝ} (hm : mu.length = n) {V : ℝ} (hV : 0 < V) : ∀ (ds : List ℝ), (∀ d ∈ ds, 0 ≤ d) → ∀ (w : List ℝ), w.length = n →
    ∀ (j : ℕ), j < ds.length → ∀ (g : Res (List (List ℝ)) → ℝ≥0∞),
    (∀ l, l.length = ds.length → (∀ r ∈ l, r.length = n) → g (.ok l) = densRow V 0 (l.getD j []) mu) →
    (rowChain n mu ds w).lexp g = densRow V (ds.take (j + 1)).sum w mu
  | [], _, _, _, _, hj, _, _ => by simp at hj
  | d :: ds, hp, w, hw, j, hj, g, hg => by
    have hd : 0 ≤ d := hp d (by simp)
    have hp' : ∀ u ∈ ds, 0 ≤ u := fun u hu => hp u (List.mem_cons_of_mem _ hu)
    have hrows : ∀ {z : List ℝ} {l : List (List ℝ)}, z.length = n → (∀ r ∈ l, r.length = n) →
        ∀ r ∈ List.zipWith (· + ·) w (rowInc mu d z) :: l, r.length = n := by
      intro z l hz hr r hr'
      rcases List.mem_cons.1 hr' with rfl | h
      · exact row_length hw hm hz
      · exact hr r h
    rw [rowChain, Prog.lexp_bind]
    cases j with
    | zero =>
      have := rep_dens (V := V) (s := 0) (d := d) hV le_rfl hd n w mu hw hm 1
      simp only [one_mul, zero_add] at this
      simp only [List.take_succ_cons, List.take_zero, List.sum_cons, List.sum_nil, zero_add, add_zero]
      refine this _ fun z hz => ?_
      rw [Prog.cont_ok, Prog.lexp_bind]
      refine rowChain_const hm _ ds _ (row_length hw hm hz) _ fun l hl hr => ?_
      rw [Prog.cont_ok, Prog.lexp_ret, hg _ (by simp [hl]) (hrows hz hr)]
      rfl
    | succ j =>
      have hs : 0 ≤ (ds.take (j + 1)).sum := List.sum_nonneg fun u hu => hp' u (List.mem_of_mem_take hu)
      have := rep_dens (V := V) (s := (ds.take (j + 1)).sum) (d := d) hV hs hd n w mu hw hm 1
      simp only [one_mul] at this
      rw [List.take_succ_cons, List.sum_cons, add_comm d]
      refine this _ fun z hz => ?_
      rw [Prog.cont_ok, Prog.lexp_bind]
      refine chain_dens hm hV ds hp' _ (row_length hw hm hz) j (by simpa using hj) _ fun l hl hr => ?_
      rw [Prog.cont_ok, Prog.lexp_ret, hg _ (by simp [hl]) (hrows hz hr)]
      rfl

theorem densRow_zero {V : ℝ} : ∀ {w mu : List ℝ}, w.length = mu.length →
    densRow V 0 w mu = ENNReal.ofReal (Real.exp (-rowNorm w ^ 2 / (2 * V)) / √(2 * Real.pi * V) ^ mu.length)
  | [], [], _ => by simp [densRow, rowNorm]
  | [], _ :: _, h => by simp at h
  | _ :: _, [], h => by simp at h
  | a :: w, b :: mu, h => by
    have ih := densRow_zero (V := V) (w := w) (mu := mu) (by simpa using h)
    have hw : 0 ≤ (w.map (· ^ 2)).sum := List.sum_nonneg (by simp; intro a _; positivity)
    simp only [densRow, List.zipWith_cons_cons, List.prod_cons] at ih ⊢
    rw [ih, normDens, normDensR, ← ENNReal.ofReal_mul (by positivity)]
    congr 1
    rw [div_mul_div_comm, ← Real.exp_add, rowNorm, rowNorm, List.map_cons, List.sum_cons, Real.sq_sqrt hw, Real.sq_sqrt (by positivity),
      List.length_cons, pow_succ' (√(2 * Real.pi * V)), mul_zero, add_zero, add_zero]
    congr 2
    ring

theorem densRow_axis {V s x b : ℝ} : ∀ {n : ℕ}, densRow V s (List.replicate n 0 ++ [x]) (List.replicate n 0 ++ [b]) =
    normDens (V + s) 0 ^ n * normDens (V + s) (x + b * s)
  | 0 => by simp [densRow]
  | n + 1 => by
    have ih := densRow_axis (V := V) (s := s) (x := x) (b := b) (n := n)
    simp only [densRow, List.replicate_succ, List.cons_append, List.zipWith_cons_cons, List.prod_cons] at ih ⊢
    rw [ih, zero_mul, zero_add, pow_succ']
    ring

/-! ## the end of the path -/

theorem MeasL.snocP {X : Type} [MeasurableSpace X] {n : ℕ} {F : X → List ℝ → ℝ≥0∞} (h : MeasL (n + 1) F) : MeasL n fun (p : X × ℝ) l => F p.1 (l ++ [p.2]) := by
  unfold MeasL at *
  have : (fun q : (X × ℝ) × (Fin n → ℝ) => F q.1.1 (List.ofFn q.2 ++ [q.1.2])) =
      (fun p : X × (Fin (n + 1) → ℝ) => F p.1 (List.ofFn p.2)) ∘ fun q : (X × ℝ) × (Fin n → ℝ) => (q.1.1, (Fin.snoc q.2 q.1.2 : Fin (n + 1) → ℝ)) := by
    funext q
    simp only [Function.comp]
    congr 1
    rw [List.ofFn_succ']
    simp [List.concat_eq_append]
  rw [this]
  refine h.comp ((measurable_fst.comp measurable_fst).prodMk ?_)
  rw [measurable_pi_iff]
  intro i
  refine Fin.lastCases ?_ (fun k => ?_) i
  · simpa using (by fun_prop : Measurable fun x : (X × ℝ) × (Fin n → ℝ) => x.1.2)
  · simpa using (by fun_prop : Measurable fun x : (X × ℝ) × (Fin n → ℝ) => x.2 k)

/-- The ground state factors of consecutive steps cancel. -/
theorem bes3_end : ∀ (vs : List ℝ), vs ≠ [] → ∀ {x : ℝ}, 0 < x → ∀ {F : List ℝ → ℝ≥0∞}, MeasL vs.length (fun _ : Unit => F) →
    freeInt bes3Dens vs x F = ∫⁻ r, ENNReal.ofReal (r / x) * kerInt (killDens 0) r vs x fun l => F (l ++ [r])
  | [], h, _, _, _, _ => absurd rfl h
  | [v], _, x, hx, F, hF => by
    simp only [freeInt, kerInt, bes3Dens, if_pos hx, List.nil_append]
    exact lintegral_congr fun y => by ring
  | v :: w :: vs, _, x, hx, F, hF => by
    have hF1 : MeasL (w :: vs).length fun (y : ℝ) l => F (y :: l) := (MeasL.cons hF).comp (φ := fun y : ℝ => ((), y)) (measurable_const.prodMk measurable_id)
    have hF2 : MeasL ((w :: vs).length - 1) fun (p : ℝ × ℝ) l => F (p.1 :: (l ++ [p.2])) := MeasL.snocP hF1
    have mk : Measurable fun p : ℝ × ℝ => kerInt (killDens 0) p.2 (w :: vs) p.1 fun l => F (p.1 :: (l ++ [p.2])) :=
      kerInt_measurable_end (w :: vs) (k := fun _ => killDens 0) ((measK_kill' 0).comp (φ := fun _ : ℝ × ℝ => ()) measurable_const) hF2 measurable_fst measurable_snd
    have mkill : Measurable fun p : ℝ × ℝ => killDens 0 v x p.1 := (measK_kill' 0).apply v (p := fun _ => ()) measurable_const measurable_const measurable_fst
    have e1 : ∀ y, bes3Dens v x y * freeInt bes3Dens (w :: vs) y (fun l => F (y :: l)) =
        ∫⁻ r, ENNReal.ofReal (r / x) * (killDens 0 v x y * kerInt (killDens 0) r (w :: vs) y fun l => F (y :: (l ++ [r]))) := by
      intro y
      by_cases hy : 0 < y
      · have m1 : Measurable fun r : ℝ => kerInt (killDens 0) r (w :: vs) y fun l => F (y :: (l ++ [r])) := mk.comp (measurable_const.prodMk measurable_id)
        have m2 : Measurable fun r : ℝ => ENNReal.ofReal (r / y) * kerInt (killDens 0) r (w :: vs) y fun l => F (y :: (l ++ [r])) :=
          (by fun_prop : Measurable fun r : ℝ => ENNReal.ofReal (r / y)).mul m1
        rw [bes3_end (w :: vs) (by simp) hy (hF1.const y), bes3Dens, if_pos hx]
        rw [← lintegral_const_mul _ m2]
        refine lintegral_congr fun r => ?_
        rw [show r / x = y / x * (r / y) by field_simp, ENNReal.ofReal_mul (by positivity)]
        ring
      · have : killDens 0 v x y = 0 := by rw [killDens, if_neg fun h => hy h.2]
        rw [bes3Dens, if_pos hx]
        simp [this]
    rw [freeInt, lintegral_congr e1, lintegral_lintegral_swap
      (f := fun y r => ENNReal.ofReal (r / x) * (killDens 0 v x y * kerInt (killDens 0) r (w :: vs) y fun l => F (y :: (l ++ [r]))))]
    · refine lintegral_congr fun r => ?_
      have m3 : Measurable fun y : ℝ => killDens 0 v x y * kerInt (killDens 0) r (w :: vs) y fun l => F (y :: (l ++ [r])) :=
        (mkill.mul mk).comp (measurable_id.prodMk measurable_const)
      rw [lintegral_const_mul _ m3]
      rfl
    · exact ((by fun_prop : Measurable fun p : ℝ × ℝ => ENNReal.ofReal (p.2 / x)).mul (mkill.mul mk)).aemeasurable

theorem bes3_end_zero {vs : List ℝ} (h2 : 2 ≤ vs.length) {F : List ℝ → ℝ≥0∞} (hF : MeasL vs.length fun _ : Unit => F) :
    freeInt bes3Dens vs 0 F = ∫⁻ r, ENNReal.ofReal (2 * r) * startInt (entrDens 0) (killDens 0) r vs fun l => F (l ++ [r]) := by
  obtain ⟨v, w, vs, rfl⟩ : ∃ v w us, vs = v :: w :: us := by
    match vs, h2 with
    | v :: w :: us, _ => exact ⟨v, w, us, rfl⟩
  have hF1 : MeasL (w :: vs).length fun (y : ℝ) l => F (y :: l) := (MeasL.cons hF).comp (φ := fun y : ℝ => ((), y)) (measurable_const.prodMk measurable_id)
  have hF2 : MeasL ((w :: vs).length - 1) fun (p : ℝ × ℝ) l => F (p.1 :: (l ++ [p.2])) := MeasL.snocP hF1
  have mk : Measurable fun p : ℝ × ℝ => kerInt (killDens 0) p.2 (w :: vs) p.1 fun l => F (p.1 :: (l ++ [p.2])) :=
    kerInt_measurable_end (w :: vs) (k := fun _ => killDens 0) ((measK_kill' 0).comp (φ := fun _ : ℝ × ℝ => ()) measurable_const) hF2 measurable_fst measurable_snd
  have me : Measurable fun p : ℝ × ℝ => entrDens 0 v p.1 := (measurable_entrDens v).comp (measurable_const.prodMk measurable_fst)
  have h0 : ¬ (0 : ℝ) < 0 := lt_irrefl _
  have e1 : ∀ y, bes3Dens v 0 y * freeInt bes3Dens (w :: vs) y (fun l => F (y :: l)) =
      ∫⁻ r, ENNReal.ofReal (2 * r) * (entrDens 0 v y * kerInt (killDens 0) r (w :: vs) y fun l => F (y :: (l ++ [r]))) := by
    intro y
    by_cases hy : 0 < y
    · have m1 : Measurable fun r : ℝ => kerInt (killDens 0) r (w :: vs) y fun l => F (y :: (l ++ [r])) := mk.comp (measurable_const.prodMk measurable_id)
      have m2 : Measurable fun r : ℝ => ENNReal.ofReal (r / y) * kerInt (killDens 0) r (w :: vs) y fun l => F (y :: (l ++ [r])) :=
        (by fun_prop : Measurable fun r : ℝ => ENNReal.ofReal (r / y)).mul m1
      rw [bes3_end (w :: vs) (by simp) hy (hF1.const y), bes3Dens, if_neg h0]
      rw [← lintegral_const_mul _ m2]
      refine lintegral_congr fun r => ?_
      rw [show 2 * r = 2 * y * (r / y) by field_simp, ENNReal.ofReal_mul (p := 2 * y) (q := r / y) (by positivity)]
      ring
    · have : entrDens 0 v y = 0 := by rw [entrDens, if_neg hy]
      rw [bes3Dens, if_neg h0]
      simp [this]
  rw [freeInt, lintegral_congr e1, lintegral_lintegral_swap
    (f := fun y r => ENNReal.ofReal (2 * r) * (entrDens 0 v y * kerInt (killDens 0) r (w :: vs) y fun l => F (y :: (l ++ [r]))))]
  · refine lintegral_congr fun r => ?_
    have m3 : Measurable fun y : ℝ => entrDens 0 v y * kerInt (killDens 0) r (w :: vs) y fun l => F (y :: (l ++ [r])) :=
      (me.mul mk).comp (measurable_id.prodMk measurable_const)
    rw [lintegral_const_mul _ m3]
    rfl
  · exact ((by fun_prop : Measurable fun p : ℝ × ℝ => ENNReal.ofReal (2 * p.2)).mul (me.mul mk)).aemeasurable

end Ctb
