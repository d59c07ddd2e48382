import Verif.Basic.Law
import Verif.Spec.Value
import Verif.Spec.Rates
import Verif.Spec.SwitchHidden
import Verif.Model.GenGibbs
import Verif.Lemmas.Propose
import Verif.Lemmas.SwitchSplit
import Verif.Props.MjpInference

/-!
# C99: the law of generators drawn by `sample_param` and by the Gibbs step
-/

set_option linter.unusedSectionVars false

namespace Ctb

open MeasureTheory ProbabilityTheory Set
open scoped ENNReal

/-! ## Lemmas -/

theorem ratesInt_congr {l : List (ℕ × ℕ)} {K K' : Mat → ℝ≥0∞} (h : ∀ g, (∀ p ∈ l, 0 < g p.1 p.2) → K g = K' g) :
    l.Nodup → ratesInt l K = ratesInt l K' := by
  induction l generalizing K K' with
  | nil => intro _; exact h _ (by simp)
  | cons p l ih =>
    intro hn
    rw [List.nodup_cons] at hn
    refine setLIntegral_congr_fun measurableSet_Ioi fun x hx => ih (fun g hg => h _ fun q hq => ?_) hn.2
    unfold setRate
    split
    · exact hx
    · rename_i hne
      rcases List.mem_cons.1 hq with rfl | hq
      · exact absurd ⟨rfl, rfl⟩ hne
      · exact hg q hq

theorem ratesInt_const_mul (l : List (ℕ × ℕ)) {c : ℝ≥0∞} (hc : c ≠ ∞) (K : Mat → ℝ≥0∞) :
    ratesInt l (fun g => c * K g) = c * ratesInt l K := by
  induction l generalizing K with
  | nil => rfl
  | cons p l ih =>
    simp only [ratesInt]
    rw [← lintegral_const_mul' _ _ hc]
    exact lintegral_congr fun x => ih _

theorem gamma_lintegral (a b : ℝ) (k : ℝ → ℝ≥0∞) :
    ∫⁻ x, k x ∂(RDist.gamma a (1 / b)).law = ∫⁻ x in Ioi (0 : ℝ), gammaPDF a b x * k x := by
  have hlaw : (RDist.gamma a (1 / b)).law = volume.withDensity (gammaPDF a b) := by
    simp [RDist.law, gammaMeasure]
  have hm : Measurable (gammaPDF a b) := (measurable_gammaPDFReal a b).ennreal_ofReal
  rw [hlaw, lintegral_withDensity_eq_lintegral_mul_non_measurable _ hm (.of_forall fun x => ENNReal.ofReal_lt_top)]
  rw [← lintegral_add_compl _ (measurableSet_Ioi (a := (0 : ℝ))), compl_Ioi]
  have h0 : ∫⁻ x in Iic (0 : ℝ), (gammaPDF a b * k) x = 0 := by
    have : ∀ᵐ x ∂(volume.restrict (Iic (0 : ℝ))), (gammaPDF a b * k) x = 0 := by
      rw [ae_restrict_iff' measurableSet_Iic]
      have h0 : ∀ᵐ x : ℝ, x ≠ 0 := by simp [ae_iff]
      filter_upwards [h0] with x hx hx'
      rw [Pi.mul_apply, gammaPDF_of_neg (lt_of_le_of_ne hx' hx), zero_mul]
    rw [lintegral_congr_ae this, lintegral_zero]
  rw [h0, add_zero]
  rfl

theorem setRate_of_ne {g : Mat} {p q : ℕ × ℕ} {x : ℝ} (h : q ≠ p) : setRate g p x q.1 q.2 = g q.1 q.2 := by
  unfold setRate
  rw [if_neg]
  rintro ⟨h1, h2⟩
  exact h (Prod.ext h1 h2)

/-- The joint law of the raw draws. -/
theorem drawGammas_lexp {alp bet : NMat} {A B : Mat} {l : List (ℕ × ℕ)} (hn : l.Nodup)
    (hd : ∀ p ∈ l, p.1 = p.2 → alp p.1 p.2 = none)
    (ho : ∀ p ∈ l, p.1 ≠ p.2 → alp p.1 p.2 = some (A p.1 p.2) ∧ bet p.1 p.2 = some (B p.1 p.2))
    (hp : ∀ p ∈ l, p.1 ≠ p.2 → 0 < A p.1 p.2 ∧ 0 < B p.1 p.2) (H : Mat → ℝ≥0∞) :
    (drawGammas alp bet l).lexp (onOk fun m => H fun i j => (m i j).getD 0) =
      ratesInt (l.filter fun p => decide (p.1 ≠ p.2)) fun g =>
        ((l.filter fun p => decide (p.1 ≠ p.2)).map fun p => gammaPDF (A p.1 p.2) (B p.1 p.2) (g p.1 p.2)).prod * H g := by
  induction l generalizing H with
  | nil => simp [drawGammas, onOk, ratesInt]
  | cons p l ih =>
    obtain ⟨i, j⟩ := p
    rw [List.nodup_cons] at hn
    have ih' := fun H => ih hn.2 (fun p hp => hd p (List.mem_cons_of_mem _ hp)) (fun p hp => ho p (List.mem_cons_of_mem _ hp)) (fun p h => hp p (List.mem_cons_of_mem _ h)) H
    by_cases hij : i = j
    · have h1 : alp i j = none := hd (i, j) (by simp) hij
      have h2 : drawGammas alp bet ((i, j) :: l) = drawGammas alp bet l := by
        rw [drawGammas]
        simp only [h1]
      rw [h2, ih' H, List.filter_cons_of_neg (by simp [hij])]
    · obtain ⟨h1, h2⟩ := ho (i, j) (by simp) hij
      simp only at h1 h2
      rw [List.filter_cons_of_pos (by simp [hij])]
      have h3 : drawGammas alp bet ((i, j) :: l) = .real (.gamma (A i j) (1 / B i j)) fun x =>
          (drawGammas alp bet l).bind fun g => .ret fun i' j' => if i' = i ∧ j' = j then some x else g i' j' := by
        rw [drawGammas]
        simp only [h1, h2]
        rw [drawGamma_pos (hp (i, j) (by simp) hij).1 (hp (i, j) (by simp) hij).2]
        rfl
      rw [h3, Prog.lexp_real, gamma_lintegral]
      simp only [ratesInt]
      refine lintegral_congr fun x => ?_
      have h4 : ((drawGammas alp bet l).bind fun g => .ret fun i' j' => if i' = i ∧ j' = j then some x else g i' j').lexp
          (onOk fun m => H fun i j => (m i j).getD 0) =
          (drawGammas alp bet l).lexp (onOk fun m => H (setRate (fun i j => (m i j).getD 0) (i, j) x)) := by
        rw [Prog.lexp_bind]
        refine Prog.lexp_congr fun r _ => ?_
        cases r with
        | error e => rfl
        | ok m =>
          simp only [Prog.cont, Prog.lexp_ret, onOk]
          congr 1
          funext i' j'
          unfold setRate
          split <;> simp_all
      rw [h4, ih' fun g => H (setRate g (i, j) x), ← ratesInt_const_mul _ (by exact ENNReal.ofReal_ne_top)]
      congr 1
      funext g
      rw [List.map_cons, List.prod_cons]
      have h5 : setRate g (i, j) x i j = x := by simp [setRate]
      rw [h5, mul_assoc]
      congr 3
      apply List.map_congr_left
      intro q hq
      rw [setRate_of_ne]
      rintro rfl
      exact hn.1 (List.mem_of_mem_filter hq)

theorem ratesInt_gamma_one {A B : Mat} {l : List (ℕ × ℕ)} (hn : l.Nodup) (hA : ∀ p ∈ l, 0 < A p.1 p.2) (hB : ∀ p ∈ l, 0 < B p.1 p.2) :
    ratesInt l (fun g => (l.map fun p => gammaPDF (A p.1 p.2) (B p.1 p.2) (g p.1 p.2)).prod) = 1 := by
  induction l with
  | nil => simp [ratesInt]
  | cons p l ih =>
    rw [List.nodup_cons] at hn
    have ih' := ih hn.2 (fun q hq => hA q (List.mem_cons_of_mem _ hq)) (fun q hq => hB q (List.mem_cons_of_mem _ hq))
    have h1 : ∀ x, (ratesInt l fun g => ((p :: l).map fun q => gammaPDF (A q.1 q.2) (B q.1 q.2) (setRate g p x q.1 q.2)).prod) =
        gammaPDF (A p.1 p.2) (B p.1 p.2) x * 1 := by
      intro x
      rw [← ih', ← ratesInt_const_mul _ (by exact ENNReal.ofReal_ne_top)]
      congr 1
      funext g
      rw [List.map_cons, List.prod_cons]
      congr 1
      · simp [setRate]
      · congr 1
        apply List.map_congr_left
        intro q hq
        rw [setRate_of_ne]
        rintro rfl
        exact hn.1 hq
    simp only [ratesInt]
    rw [lintegral_congr h1, ← gamma_lintegral (A p.1 p.2) (B p.1 p.2) fun _ => 1]
    have hlaw : (RDist.gamma (A p.1 p.2) (1 / B p.1 p.2)).law = gammaMeasure (A p.1 p.2) (B p.1 p.2) := by
      simp [RDist.law]
    have := isProbabilityMeasure_gammaMeasure (hA p (by simp)) (hB p (by simp))
    rw [hlaw]
    simp

theorem pairs_nodup (d : ℕ) : ((List.range d).flatMap fun i => (List.range d).map fun j => (i, j)).Nodup := by
  rw [List.nodup_flatMap]
  refine ⟨fun i _ => (List.nodup_range).map fun a b h => (Prod.mk.inj h).2, ?_⟩
  refine (List.nodup_range (n := d)).imp fun {a b} hab => ?_
  simp only [Function.onFun, List.disjoint_left, List.mem_map, not_exists, not_and]
  rintro x ⟨c, -, rfl⟩ e - he
  exact hab (Prod.mk.inj he).1.symm

theorem offPairs_nodup (d : ℕ) : (offPairs d).Nodup := (pairs_nodup d).filter _

theorem mem_offPairs {d : ℕ} {p : ℕ × ℕ} : p ∈ offPairs d ↔ p.1 < d ∧ p.2 < d ∧ p.1 ≠ p.2 := by
  obtain ⟨i, j⟩ := p
  simp only [offPairs, List.mem_filter, List.mem_flatMap, List.mem_map, List.mem_range, Prod.mk.injEq, decide_eq_true_eq]
  constructor
  · rintro ⟨⟨a, ha, b, hb, rfl, rfl⟩, h⟩; exact ⟨ha, hb, h⟩
  · rintro ⟨h1, h2, h3⟩; exact ⟨⟨i, h1, j, h2, rfl, rfl⟩, h3⟩

theorem offPairs_prod (d : ℕ) {M : Type} [CommMonoid M] (f : ℕ → ℕ → M) :
    ((offPairs d).map fun p => f p.1 p.2).prod = ∏ i : Fin d, ∏ j : Fin d, if i = j then 1 else f i j := by
  rw [← List.prod_toFinset _ (offPairs_nodup d), ← Finset.prod_product']
  rw [← Finset.prod_filter_mul_prod_filter_not _ (fun x : Fin d × Fin d => x.1 = x.2)]
  rw [Finset.prod_eq_one (s := Finset.filter _ _), one_mul]
  · symm
    refine Finset.prod_bij (fun x _ => ((x.1 : ℕ), (x.2 : ℕ))) ?_ ?_ ?_ ?_
    · intro x hx
      simp only [Finset.mem_filter] at hx
      rw [List.mem_toFinset, mem_offPairs]
      exact ⟨x.1.2, x.2.2, fun h => hx.2 (Fin.ext h)⟩
    · intro x _ y _ h
      simp only [Prod.mk.injEq] at h
      exact Prod.ext (Fin.ext h.1) (Fin.ext h.2)
    · intro p hp
      rw [List.mem_toFinset, mem_offPairs] at hp
      exact ⟨(⟨p.1, hp.1⟩, ⟨p.2, hp.2.1⟩), by simp [Fin.ext_iff, hp.2.2], rfl⟩
    · intro x hx
      simp only [Finset.mem_filter] at hx
      rw [if_neg hx.2]
  · intro x hx
    simp only [Finset.mem_filter] at hx
    rw [if_pos hx.2]

theorem readMat_fillDiag {d : ℕ} {m : NMat} (hm : ∀ i < d, m i i = none) :
    readMat d (fillDiag d m) = genOf d fun i j => (m i j).getD 0 := by
  funext i j
  unfold readMat fillDiag genOf
  by_cases hij : i = j
  · subst hij
    simp only [if_true, Option.getD_some, nansum]
    rw [Finset.sum_range]
    congr 1
    apply Finset.sum_congr rfl
    intro k _
    by_cases hk : i = k
    · subst hk; simp [hm i i.2]
    · simp [hk]
  · have : (i : ℕ) ≠ j := fun h => hij (Fin.ext h)
    simp [hij, this]

theorem sampleParam_lexp {d : ℕ} {alp bet : NMat} {A B : Mat} (hh : Hyper d alp bet A B) (F : (Fin d → Fin d → ℝ) → ℝ≥0∞) :
    (sampleParam d alp bet).lexp (onOk fun m => F (readMat d m)) =
      ratesInt (offPairs d) fun g =>
        ((offPairs d).map fun p => gammaPDF (A p.1 p.2) (B p.1 p.2) (g p.1 p.2)).prod * F (genOf d g) := by
  have hmem : ∀ p ∈ (List.range d).flatMap (fun i => (List.range d).map fun j => (i, j)), p.1 < d ∧ p.2 < d := by
    rintro ⟨i, j⟩ hp
    simp only [List.mem_flatMap, List.mem_map, List.mem_range, Prod.mk.injEq] at hp
    obtain ⟨a, ha, b, hb, rfl, rfl⟩ := hp
    exact ⟨ha, hb⟩
  have key := drawGammas_lexp (alp := alp) (bet := bet) (A := A) (B := B) (pairs_nodup d)
    (fun p hp h => by rw [← h]; exact hh.diagA _ (hmem p hp).1)
    (fun p hp h => ⟨hh.offA _ (hmem p hp).1 _ (hmem p hp).2 h, hh.offB _ (hmem p hp).1 _ (hmem p hp).2 h⟩)
    (fun p hp h => ⟨hh.posA _ (hmem p hp).1 _ (hmem p hp).2 h, hh.posB _ (hmem p hp).1 _ (hmem p hp).2 h⟩)
    (fun g => F (genOf d g))
  unfold offPairs
  rw [← key]
  unfold sampleParam
  rw [Prog.lexp_bind]
  refine Prog.lexp_congr fun r hr => ?_
  cases r with
  | error e => rfl
  | ok m =>
    simp only [Prog.cont, Prog.lexp_ret, onOk]
    rw [readMat_fillDiag fun i hi => (drawGammas_out _ _ _ _ hr i i).2 (hh.diagA i hi)]

/-- Normalising constant of the prior. -/
noncomputable def rateConst (d : ℕ) (A B : Mat) : ℝ≥0∞ :=
  ((offPairs d).map fun p => ENNReal.ofReal (B p.1 p.2 ^ A p.1 p.2 / Real.Gamma (A p.1 p.2))).prod

theorem gammaPDF_ker {a b x : ℝ} (ha : 0 < a) (hb : 0 < b) (hx : 0 < x) :
    gammaPDF a b x = ENNReal.ofReal (b ^ a / Real.Gamma a) * ENNReal.ofReal (gammaKer a b x) := by
  have := Real.Gamma_pos_of_pos ha
  rw [gammaPDF_of_nonneg hx.le, ← ENNReal.ofReal_mul (by positivity), gammaKer, mul_assoc]

theorem list_prod_mul_map {M : Type} [CommMonoid M] {ι : Type} (l : List ι) (f g : ι → M) :
    (l.map fun p => f p * g p).prod = (l.map f).prod * (l.map g).prod := List.prod_map_mul

theorem ofReal_list_prod {ι : Type} (l : List ι) (f : ι → ℝ) (h : ∀ p ∈ l, 0 ≤ f p) :
    (l.map fun p => ENNReal.ofReal (f p)).prod = ENNReal.ofReal (l.map f).prod := by
  induction l with
  | nil => simp
  | cons p l ih =>
    rw [List.map_cons, List.prod_cons, List.map_cons, List.prod_cons, ih fun q hq => h q (List.mem_cons_of_mem _ hq),
      ENNReal.ofReal_mul (h p (by simp))]

theorem prod_gamma {d : ℕ} {A B g : Mat} (hA : ∀ p ∈ offPairs d, 0 < A p.1 p.2) (hB : ∀ p ∈ offPairs d, 0 < B p.1 p.2)
    (hg : ∀ p ∈ offPairs d, 0 < g p.1 p.2) :
    ((offPairs d).map fun p => gammaPDF (A p.1 p.2) (B p.1 p.2) (g p.1 p.2)).prod = rateConst d A B * ratePrior d A B g := by
  unfold rateConst ratePrior
  rw [← offPairs_prod d fun i j => gammaKer (A i j) (B i j) (g i j), ← ofReal_list_prod, ← list_prod_mul_map]
  · congr 1
    apply List.map_congr_left
    intro p hp
    exact gammaPDF_ker (hA p hp) (hB p hp) (hg p hp)
  · intro p hp
    have := hg p hp
    unfold gammaKer
    positivity

theorem rateConst_ne {d : ℕ} {A B : Mat} (hA : ∀ p ∈ offPairs d, 0 < A p.1 p.2) (hB : ∀ p ∈ offPairs d, 0 < B p.1 p.2) :
    rateConst d A B ≠ 0 ∧ rateConst d A B ≠ ∞ := by
  unfold rateConst
  generalize offPairs d = l at *
  induction l with
  | nil => simp
  | cons p l ih =>
    obtain ⟨h1, h2⟩ := ih (fun q hq => hA q (List.mem_cons_of_mem _ hq)) (fun q hq => hB q (List.mem_cons_of_mem _ hq))
    have hpos : 0 < B p.1 p.2 ^ A p.1 p.2 / Real.Gamma (A p.1 p.2) :=
      div_pos (Real.rpow_pos_of_pos (hB p (by simp)) _) (Real.Gamma_pos_of_pos (hA p (by simp)))
    rw [List.map_cons, List.prod_cons]
    exact ⟨mul_ne_zero (by simpa using hpos) h1, ENNReal.mul_ne_top ENNReal.ofReal_ne_top h2⟩

/-- The law of the draw as a normalised density. -/
theorem sampleParam_prior {d : ℕ} {alp bet : NMat} {A B : Mat} (hh : Hyper d alp bet A B) (F : (Fin d → Fin d → ℝ) → ℝ≥0∞) :
    (sampleParam d alp bet).lexp (onOk fun m => F (readMat d m)) =
      rateConst d A B * (ratesInt (offPairs d) fun g => ratePrior d A B g * F (genOf d g)) ∧
    rateConst d A B * (ratesInt (offPairs d) fun g => ratePrior d A B g) = 1 ∧ rateConst d A B ≠ 0 ∧ rateConst d A B ≠ ∞ := by
  have hA : ∀ p ∈ offPairs d, 0 < A p.1 p.2 := fun p hp => by
    rw [mem_offPairs] at hp; exact hh.posA _ hp.1 _ hp.2.1 hp.2.2
  have hB : ∀ p ∈ offPairs d, 0 < B p.1 p.2 := fun p hp => by
    rw [mem_offPairs] at hp; exact hh.posB _ hp.1 _ hp.2.1 hp.2.2
  obtain ⟨h0, h1⟩ := rateConst_ne hA hB
  refine ⟨?_, ?_, h0, h1⟩
  · rw [sampleParam_lexp hh, ← ratesInt_const_mul _ h1]
    exact ratesInt_congr (fun g hg => by rw [prod_gamma hA hB hg, mul_assoc]) (offPairs_nodup d)
  · rw [← ratesInt_const_mul _ h1, ← ratesInt_gamma_one (offPairs_nodup d) hA hB]
    exact ratesInt_congr (fun g hg => by rw [prod_gamma hA hB hg]) (offPairs_nodup d)

/-- Conjugacy. -/
theorem prior_density {d : ℕ} {A B g : Mat} (sk : Skel ℝ) (u : ℝ) (hg : ∀ p ∈ offPairs d, 0 < g p.1 p.2) :
    ratePrior d (fun i j => ((sk.xt.zip sk.xt.tail).count (i, j) : ℝ) + A i j)
      (fun i j => (volume (sk.timesIn i u)).toReal + B i j) g = ratePrior d A B g * sk.density (genOf d g) u := by
  have hpos : ∀ i j : Fin d, i ≠ j → 0 < g i j := fun i j h =>
    hg ((i : ℕ), (j : ℕ)) (mem_offPairs.2 ⟨i.2, j.2, fun e => h (Fin.ext e)⟩)
  unfold ratePrior Skel.density
  rw [← ENNReal.ofReal_mul]
  · congr 1
    have h1 : Real.exp (∑ i : Fin d, genOf d g i i * (volume (sk.timesIn i u)).toReal) =
        ∏ i : Fin d, ∏ j : Fin d, if i = j then 1 else Real.exp (-((volume (sk.timesIn i u)).toReal * g i j)) := by
      rw [Real.exp_sum]
      apply Finset.prod_congr rfl
      intro i _
      have h2 : genOf d g i i * (volume (sk.timesIn i u)).toReal =
          ∑ j : Fin d, if i = j then 0 else -((volume (sk.timesIn i u)).toReal * g i j) := by
        simp only [genOf, if_true]
        rw [neg_mul, Finset.sum_mul, ← Finset.sum_neg_distrib]
        apply Finset.sum_congr rfl
        intro j _
        split <;> ring
      rw [h2, Real.exp_sum]
      apply Finset.prod_congr rfl
      intro j _
      split <;> simp
    rw [h1, ← Finset.prod_mul_distrib, ← Finset.prod_mul_distrib]
    apply Finset.prod_congr rfl
    intro i _
    rw [← Finset.prod_mul_distrib, ← Finset.prod_mul_distrib]
    apply Finset.prod_congr rfl
    intro j _
    by_cases hij : i = j
    · simp [hij]
    · have hp := hpos i j hij
      simp only [hij, if_false, genOf, gammaKer]
      rw [add_sub_assoc, Real.rpow_add hp, Real.rpow_natCast, add_mul, neg_add, Real.exp_add]
      ring
  · refine Finset.prod_nonneg fun i _ => Finset.prod_nonneg fun j _ => ?_
    by_cases hij : i = j
    · simp [hij]
    · have hp := hpos i j hij
      simp only [hij, if_false, gammaKer]
      positivity

/-! ## C99 -/

/-- **C99, the draw.** The off-diagonal rates returned by `sample_param` are independent, the rate `(i, j)` with the gamma distribution of shape `alp i j`
and rate `bet i j`; the diagonal is minus the sum of the row.  For every function `F` of the returned matrix. -/
theorem C99_law {d : ℕ} {alp bet : NMat} {A B : Mat} (hh : Hyper d alp bet A B) (F : (Fin d → Fin d → ℝ) → ℝ≥0∞) :
    (sampleParam d alp bet).lexp (onOk fun m => F (readMat d m)) =
      ratesInt (offPairs d) fun g =>
        (∏ i : Fin d, ∏ j : Fin d, if i = j then 1 else gammaPDF (A i j) (B i j) (g i j)) * F (genOf d g) := by
  rw [sampleParam_lexp hh]
  congr 1
  funext g
  rw [← offPairs_prod d fun i j => gammaPDF (A i j) (B i j) (g i j)]

/-- The updated hyper-parameters. -/
theorem update_hyper {y : Skel ℝ} (hv : y.Valid) (hr : y.Reduced) {d : ℕ} (hd : y.StatesLt d) {alp bet : NMat} {A B : Mat}
    (hh : Hyper d alp bet A B) : Hyper d (mjpUpdate y alp bet).1 (mjpUpdate y alp bet).2
      (fun i j => ((y.xt.zip y.xt.tail).count (i, j) : ℝ) + A i j)
      (fun i j => (volume (y.timesIn i (y.t.getLastD 0))).toReal + B i j) := by
  obtain ⟨h1, h2, -⟩ := C17_counts hr hd hh
  refine ⟨h2, ?_, h1, C17_times_partial hv hh, ?_, ?_⟩
  · intro i hi
    simp [mjpUpdate, hh.diagB i hi, nan2]
  · intro i hi j hj hij
    have := hh.posA i hi j hj hij
    positivity
  · intro i hi j hj hij
    have := hh.posB i hi j hj hij
    positivity

theorem prune_states {h : Anchorage ℝ ℝ} {d : ℕ} (hs : ∀ x ∈ h.yt, x < d) {y : Skel ℝ} (hy : pruneAnchorage h = .ok y) :
    y.StatesLt d := by
  unfold pruneAnchorage at hy
  simp only at hy
  split at hy
  · cases hy
  · split at hy
    · cases hy
    · cases hy
      intro x hx
      exact hs x ((select_sublist _ _).subset hx)

/-- **C99, the Gibbs step.** For every anchorage whose regimes are below `d`, `update_generator` draws from the posterior of the rates given the jumps of the
pruned path up to its *last jump*: prior density times path density, normalised.  Missing for the full claim: the time between the last jump and the horizon. -/
theorem C99_posterior_partial {h : Anchorage ℝ ℝ} (hv : h.Valid) (hc : h.Closed) {d : ℕ} (hs : ∀ x ∈ h.yt, x < d) {alp bet : NMat} {A B : Mat}
    (hh : Hyper d alp bet A B) {y : Skel ℝ} (hy : pruneAnchorage h = .ok y) (F : (Fin d → Fin d → ℝ) → ℝ≥0∞) :
    let Z := ratesInt (offPairs d) fun g => ratePrior d A B g * y.density (genOf d g) (y.t.getLastD 0)
    (gibbsGenerator d h alp bet).lexp (onOk fun m => F (readMat d m)) =
      (ratesInt (offPairs d) fun g => ratePrior d A B g * y.density (genOf d g) (y.t.getLastD 0) * F (genOf d g)) / Z ∧
    Z ≠ 0 ∧ Z ≠ ∞ := by
  intro Z
  obtain ⟨y', hy', hyv, hyr, -, -⟩ := prune_sound hv hc
  rw [hy] at hy'
  cases hy'
  have hh' := update_hyper hyv hyr (prune_states hs hy) hh
  obtain ⟨h1, h2, h3, h4⟩ := sampleParam_prior hh' F
  have hg : gibbsGenerator d h alp bet = sampleParam d (mjpUpdate y alp bet).1 (mjpUpdate y alp bet).2 := by
    unfold gibbsGenerator
    rw [hy]
    rfl
  rw [hg, h1]
  set c := rateConst d (fun i j => ((y.xt.zip y.xt.tail).count (i, j) : ℝ) + A i j)
      (fun i j => (volume (y.timesIn i (y.t.getLastD 0))).toReal + B i j)
  have hZ : c * Z = 1 := by
    rw [← h2]
    congr 1
    exact ratesInt_congr (fun g hg => (prior_density y _ hg).symm) (offPairs_nodup d)
  have hZ' : Z = c⁻¹ := ENNReal.eq_inv_of_mul_eq_one_left (by rw [mul_comm]; exact hZ)
  refine ⟨?_, by rw [hZ']; simpa using h4, by rw [hZ']; simpa using h3⟩
  rw [hZ', ENNReal.div_eq_inv_mul, inv_inv]
  congr 1
  exact ratesInt_congr (fun g hg => by rw [prior_density y _ hg]) (offPairs_nodup d)

/-- Laplace transform at 1 of the first rate of a two-state process with unit shapes. -/
theorem two_state_laplace {alp bet : NMat} {A B : Mat} (hh : Hyper 2 alp bet A B) (hA : A 0 1 = 1) :
    (sampleParam 2 alp bet).lexp (onOk fun m => ENNReal.ofReal (Real.exp (-(readMat 2 m 0 1)))) =
      ENNReal.ofReal (B 0 1 / (B 0 1 + 1)) := by
  have hB := hh.posB 0 (by norm_num) 1 (by norm_num) (by norm_num)
  have hB1 := hh.posB 1 (by norm_num) 0 (by norm_num) (by norm_num)
  have hA1 := hh.posA 1 (by norm_num) 0 (by norm_num) (by norm_num)
  have hoff : offPairs 2 = [(0, 1), (1, 0)] := by decide
  rw [sampleParam_lexp hh fun Q => ENNReal.ofReal (Real.exp (-(Q 0 1))), hoff]
  have hone : ∀ a b : ℝ, 0 < a → 0 < b → ∫⁻ x in Ioi (0 : ℝ), gammaPDF a b x = 1 := by
    intro a b ha hb
    have h := gamma_lintegral a b fun _ => 1
    have hlaw : (RDist.gamma a (1 / b)).law = gammaMeasure a b := by simp [RDist.law]
    have := isProbabilityMeasure_gammaMeasure ha hb
    rw [hlaw] at h
    simpa using h.symm
  have h1 : ∀ x ∈ Ioi (0 : ℝ), (ratesInt [(1, 0)] fun g => ([(0, 1), (1, 0)].map fun p => gammaPDF (A p.1 p.2) (B p.1 p.2)
      (setRate g (0, 1) x p.1 p.2)).prod * ENNReal.ofReal (Real.exp (-(genOf 2 (setRate g (0, 1) x) 0 1)))) =
      ENNReal.ofReal (B 0 1 / (B 0 1 + 1)) * gammaPDF 1 (B 0 1 + 1) x := by
    intro x hx
    have hx' : (0 : ℝ) < x := hx
    have h2 : ∀ g : Mat, ([(0, 1), (1, 0)].map fun p => gammaPDF (A p.1 p.2) (B p.1 p.2)
        (setRate g (0, 1) x p.1 p.2)).prod * ENNReal.ofReal (Real.exp (-(genOf 2 (setRate g (0, 1) x) 0 1))) =
        (ENNReal.ofReal (B 0 1 / (B 0 1 + 1)) * gammaPDF 1 (B 0 1 + 1) x) * gammaPDF (A 1 0) (B 1 0) (g 1 0) := by
      intro g
      have e1 : setRate g (0, 1) x 0 1 = x := by simp [setRate]
      have e2 : setRate g (0, 1) x 1 0 = g 1 0 := by simp [setRate]
      have e3 : genOf 2 (setRate g (0, 1) x) 0 1 = x := by simp [genOf, setRate]
      simp only [List.map_cons, List.map_nil, List.prod_cons, List.prod_nil, mul_one, e1, e2, e3, hA]
      rw [mul_right_comm]
      congr 1
      rw [gammaPDF_of_nonneg hx'.le, gammaPDF_of_nonneg hx'.le, ← ENNReal.ofReal_mul (by positivity), ← ENNReal.ofReal_mul (by positivity)]
      congr 1
      rw [add_mul, neg_add, Real.exp_add, one_mul, Real.rpow_one, Real.rpow_one]
      field_simp
    have h3 : (fun g : Mat => ([(0, 1), (1, 0)].map fun p => gammaPDF (A p.1 p.2) (B p.1 p.2)
        (setRate g (0, 1) x p.1 p.2)).prod * ENNReal.ofReal (Real.exp (-(genOf 2 (setRate g (0, 1) x) 0 1)))) = _ := funext h2
    rw [h3, ratesInt_const_mul _ (ENNReal.mul_ne_top ENNReal.ofReal_ne_top (by exact ENNReal.ofReal_ne_top))]
    have h4 : (ratesInt [(1, 0)] fun g => gammaPDF (A 1 0) (B 1 0) (g 1 0)) = 1 := by
      simp only [ratesInt]
      rw [← hone (A 1 0) (B 1 0) hA1 hB1]
      refine lintegral_congr fun z => ?_
      simp [setRate]
    rw [h4, mul_one]
  have h5 : (ratesInt [(0, 1), (1, 0)] fun g => ([(0, 1), (1, 0)].map fun p => gammaPDF (A p.1 p.2) (B p.1 p.2)
      (g p.1 p.2)).prod * ENNReal.ofReal (Real.exp (-(genOf 2 g 0 1)))) =
      ∫⁻ x in Ioi (0 : ℝ), ENNReal.ofReal (B 0 1 / (B 0 1 + 1)) * gammaPDF 1 (B 0 1 + 1) x := by
    rw [ratesInt]
    exact setLIntegral_congr_fun measurableSet_Ioi h1
  rw [h5, lintegral_const_mul' _ _ ENNReal.ofReal_ne_top, hone 1 _ one_pos (by positivity), mul_one]

/-- Two states observed over `[0, 1]` without a jump. -/
def demoStay : Anchorage ℝ ℝ := ⟨[0, 1], [0, 0], [0, 0]⟩

theorem demoStay_ok : demoStay.Valid ∧ demoStay.Closed ∧ (∀ x ∈ demoStay.yt, x < 2) ∧
    pruneAnchorage demoStay = .ok ⟨[0], [0], 1⟩ := by
  refine ⟨⟨rfl, rfl, rfl, by simp [demoStay], by simp [demoStay]⟩, rfl, by simp [demoStay], ?_⟩
  simp [pruneAnchorage, demoStay, select]

theorem demoHyper2 : Hyper 2 demoHyper demoHyper (fun _ _ => 1) (fun _ _ => 1) := by
  constructor <;> intros <;> simp_all [demoHyper]

/-- **C99 is false of the code.** With unit hyper-parameters, a process seen to stay in its first state over `[0, 1]` has a posterior rate of leaving with the
gamma distribution of shape 1 and rate 2, so `e^{-rate}` has the mean 2/3; the Gibbs step draws from the prior and gives 1/2. -/
theorem C99_posterior_violated :
    ∃ (h : Anchorage ℝ ℝ) (y : Skel ℝ) (alp bet : NMat) (A B : Mat), h.Valid ∧ h.Closed ∧ (∀ x ∈ h.yt, x < 2) ∧ Hyper 2 alp bet A B ∧
      pruneAnchorage h = .ok y ∧
      (gibbsGenerator 2 h alp bet).lexp (onOk fun m => ENNReal.ofReal (Real.exp (-(readMat 2 m 0 1)))) = ENNReal.ofReal (1 / 2) ∧
      (ratesInt (offPairs 2) fun g => ratePrior 2 A B g * y.density (genOf 2 g) y.fin * ENNReal.ofReal (Real.exp (-(genOf 2 g 0 1)))) /
        (ratesInt (offPairs 2) fun g => ratePrior 2 A B g * y.density (genOf 2 g) y.fin) = ENNReal.ofReal (2 / 3) := by
  obtain ⟨h1, h2, h3, h4⟩ := demoStay_ok
  refine ⟨demoStay, ⟨[0], [0], 1⟩, demoHyper, demoHyper, fun _ _ => 1, fun _ _ => 1, h1, h2, h3, demoHyper2, h4, ?_, ?_⟩
  · have hg : gibbsGenerator 2 demoStay demoHyper demoHyper =
        sampleParam 2 (mjpUpdate ⟨[0], [0], 1⟩ demoHyper demoHyper).1 (mjpUpdate ⟨[0], [0], 1⟩ demoHyper demoHyper).2 := by
      unfold gibbsGenerator
      rw [h4]
      rfl
    have hyv : (⟨[0], [0], 1⟩ : Skel ℝ).Valid := ⟨rfl, rfl, by simp, by simp⟩
    have hh := update_hyper hyv (by simp [Skel.Reduced]) (d := 2) (by intro x hx; simp at hx; omega) demoHyper2
    rw [hg, two_state_laplace hh (by simp)]
    congr 1
    have : (volume ((⟨[0], [0], 1⟩ : Skel ℝ).timesIn 0 (([0] : List ℝ).getLastD 0))).toReal = 0 := by
      have e : (⟨[0], [0], 1⟩ : Skel ℝ).timesIn 0 (([0] : List ℝ).getLastD 0) = ∅ := by
        ext s
        simp only [Skel.timesIn, List.getLastD_cons, List.getLastD_nil, mem_setOf_eq, mem_empty_iff_false, iff_false]
        rintro ⟨a, b, -⟩
        exact absurd a (not_le.2 b)
      rw [e]; simp
    simp only [this]
    norm_num
  · set y : Skel ℝ := ⟨[0], [0], 1⟩
    let bet' : NMat := fun i j => if i = j then none else some ((volume (y.timesIn i 1)).toReal + 1)
    have hh : Hyper 2 demoHyper bet' (fun i j => ((y.xt.zip y.xt.tail).count (i, j) : ℝ) + 1)
        (fun i j => (volume (y.timesIn i 1)).toReal + 1) := by
      constructor
      · exact demoHyper2.diagA
      · intro i _; simp [bet']
      · intro i hi j hj hij
        rw [demoHyper2.offA i hi j hj hij]
        simp [y]
      · intro i _ j _ hij; simp [bet', hij]
      · intro i _ j _ hij; positivity
      · intro i _ j _ hij; positivity
    obtain ⟨e1, e2, e3, e4⟩ := sampleParam_prior hh fun Q => ENNReal.ofReal (Real.exp (-(Q 0 1)))
    rw [two_state_laplace hh (by simp [y])] at e1
    have hvol : (volume (y.timesIn 0 1)).toReal = 1 := by
      have e : y.timesIn 0 1 = Ico 0 1 := by
        ext s
        simp only [Skel.timesIn, mem_setOf_eq, mem_Ico]
        constructor
        · rintro ⟨a, b, -⟩; exact ⟨a, b⟩
        · rintro ⟨a, b⟩
          refine ⟨a, b, ?_⟩
          simp [Skel.stateAt, stAt, Skel.jumps, y, a]
      rw [e]; simp
    rw [hvol] at e1
    have e5 : (ratesInt (offPairs 2) fun g => ratePrior 2 (fun i j => ((y.xt.zip y.xt.tail).count (i, j) : ℝ) + 1)
        (fun i j => (volume (y.timesIn i 1)).toReal + 1) g * ENNReal.ofReal (Real.exp (-(genOf 2 g 0 1)))) =
        ratesInt (offPairs 2) fun g => ratePrior 2 (fun _ _ => 1) (fun _ _ => 1) g * y.density (genOf 2 g) y.fin *
          ENNReal.ofReal (Real.exp (-(genOf 2 g 0 1))) :=
      ratesInt_congr (fun g hg => by rw [prior_density (A := fun _ _ => 1) (B := fun _ _ => 1) y 1 hg]) (offPairs_nodup 2)
    have e6 : (ratesInt (offPairs 2) fun g => ratePrior 2 (fun i j => ((y.xt.zip y.xt.tail).count (i, j) : ℝ) + 1)
        (fun i j => (volume (y.timesIn i 1)).toReal + 1) g) =
        ratesInt (offPairs 2) fun g => ratePrior 2 (fun _ _ => 1) (fun _ _ => 1) g * y.density (genOf 2 g) y.fin :=
      ratesInt_congr (fun g hg => by rw [prior_density (A := fun _ _ => 1) (B := fun _ _ => 1) y 1 hg]) (offPairs_nodup 2)
    rw [e5] at e1
    rw [e6] at e2
    have e7 := ENNReal.eq_inv_of_mul_eq_one_left ((mul_comm _ _).trans e2)
    rw [e7, ENNReal.div_eq_inv_mul, inv_inv, ← e1]
    congr 1
    norm_num

example : Hyper 3 demoHyper demoHyper (fun _ _ => 1) (fun _ _ => 1) := demoHyper_ok

/-- An anchorage with a jump. -/
example : ∃ (h : Anchorage ℝ ℝ) (y : Skel ℝ), h.Valid ∧ h.Closed ∧ (∀ x ∈ h.yt, x < 2) ∧ pruneAnchorage h = .ok y ∧ y.t.length = 2 := by
  refine ⟨⟨[0, 1, 2], [0, 1, 1], [0, 3, 1]⟩, ⟨[0, 1], [0, 1], 2⟩, ⟨rfl, rfl, rfl, by simp, by simp⟩, rfl, by simp, ?_, rfl⟩
  simp [pruneAnchorage, select]

end Ctb
