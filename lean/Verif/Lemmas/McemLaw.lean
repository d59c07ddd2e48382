import Verif.Lemmas.McemObjective
import Verif.Lemmas.PoissonLaw
import Verif.Lemmas.Diffuse
import Verif.Lemmas.SwitchParams
import Verif.Lemmas.HiddenWeight
import Verif.Spec.Value

set_option linter.unusedSectionVars false

/-! # Expectation of the EM objective over the supports -/

namespace Ctb

open Classical MeasureTheory ProbabilityTheory
open scoped ENNReal

namespace Prog

variable {α β : Type}

/-- Never an error, and every reachable draw has total mass one. -/
def Sure : Prog α → Prop
  | ret _ => True
  | err _ => False
  | real d k => d.law Set.univ = 1 ∧ ∀ x ∈ d.support, (k x).Sure
  | nat d k => d.law Set.univ = 1 ∧ ∀ n ∈ d.support, (k n).Sure

theorem Sure.bind {p : Prog α} {f : α → Prog β} (hp : p.Sure) (hf : ∀ a, p.Out (.ok a) → (f a).Sure) : (p.bind f).Sure := by
  induction p with
  | ret a => exact hf a rfl
  | err e => exact hp.elim
  | real d k ih => exact ⟨hp.1, fun x hx => ih x (hp.2 x hx) fun a ha => hf a ⟨x, hx, ha⟩⟩
  | nat d k ih => exact ⟨hp.1, fun x hx => ih x (hp.2 x hx) fun a ha => hf a ⟨x, hx, ha⟩⟩

theorem Sure.replicate {p : Prog α} (hp : p.Sure) (n : ℕ) : (Prog.replicate n p).Sure := by
  induction n with
  | zero => trivial
  | succ n ih => exact hp.bind fun _ _ => ih.bind fun _ _ => trivial

theorem Sure.mapM' {f : α → Prog β} {l : List α} (hf : ∀ a ∈ l, (f a).Sure) : (Prog.mapM' f l).Sure := by
  induction l with
  | nil => trivial
  | cons a l ih => exact (hf a (by simp)).bind fun _ _ => (ih fun b hb => hf b (by simp [hb])).bind fun _ _ => trivial

theorem Sure.lexp_const_add {p : Prog α} (hp : p.Sure) (c : ℝ≥0∞) (F : α → ℝ≥0∞) :
    p.lexp (onOk fun a => c + F a) = c + p.lexp (onOk F) := by
  induction p with
  | ret a => rfl
  | err e => exact hp.elim
  | real d k ih =>
    rw [lexp_real, lexp_real]
    have h1 : ∀ᵐ x ∂d.law, x ∈ d.support := by rw [ae_iff]; exact RDist.law_support d
    have h2 : ∫⁻ x, (k x).lexp (onOk fun a => c + F a) ∂d.law = ∫⁻ x, (c + (k x).lexp (onOk F)) ∂d.law := by
      refine lintegral_congr_ae ?_
      filter_upwards [h1] with x hx
      exact ih x (hp.2 x hx)
    rw [h2, lintegral_add_left measurable_const, lintegral_const, hp.1, mul_one]
  | nat d k ih =>
    rw [lexp_nat, lexp_nat]
    have h1 : ∀ᵐ x ∂d.law, x ∈ d.support := by rw [ae_iff]; exact NDist.law_support d
    have h2 : ∫⁻ x, (k x).lexp (onOk fun a => c + F a) ∂d.law = ∫⁻ x, (c + (k x).lexp (onOk F)) ∂d.law := by
      refine lintegral_congr_ae ?_
      filter_upwards [h1] with x hx
      exact ih x (hp.2 x hx)
    rw [h2, lintegral_add_left measurable_const, lintegral_const, hp.1, mul_one]

theorem Sure.lexp_const {p : Prog α} (hp : p.Sure) (c : ℝ≥0∞) : p.lexp (onOk fun _ => c) = c := by
  have := hp.lexp_const_add c fun _ => 0
  have h0 : p.lexp (onOk fun _ => 0) = 0 := by
    have e : (onOk fun _ : α => (0 : ℝ≥0∞)) = fun _ => 0 := by funext r; cases r <;> rfl
    rw [e, lexp_zero]
  simpa [h0] using this

theorem Sure.lexp_bind_onOk {p : Prog α} {f : α → Prog β} (F : β → ℝ≥0∞) :
    (p.bind f).lexp (onOk F) = p.lexp (onOk fun a => (f a).lexp (onOk F)) := by
  rw [lexp_bind]
  refine lexp_congr fun r _ => ?_
  cases r <;> rfl

end Prog

theorem uniform_mass_one (lo hi : ℝ) : (RDist.uniform lo hi).law Set.univ = 1 := by
  rw [RDist.law, Measure.map_apply (by fun_prop) MeasurableSet.univ]
  simp

theorem sure_uniform (lo hi : ℝ) : (Prog.draw (.uniform lo hi)).Sure := ⟨uniform_mass_one lo hi, fun _ _ => trivial⟩

/-- Sum over independent uniform points. -/
theorem lexp_replicate_sum {T : ℝ} (G : ℝ → ℝ≥0∞) (m : ℕ) :
    (Prog.replicate m (.draw (.uniform 0 T))).lexp (onOk fun us => (us.map G).sum) = m * ∫⁻ u, G u ∂(RDist.uniform 0 T).law := by
  induction m with
  | zero => simp [Prog.replicate, onOk]
  | succ m ih =>
    have hS : (Prog.replicate m (.real (.uniform 0 T) Prog.ret)).Sure := (sure_uniform 0 T).replicate m
    simp only [Prog.replicate, Prog.draw, Prog.real_bind, Prog.ret_bind, Prog.lexp_real] at ih ⊢
    have h1 : ∀ u : ℝ, ((Prog.replicate m (.real (.uniform 0 T) Prog.ret)).bind fun l => .ret (u :: l)).lexp (onOk fun us => (us.map G).sum) =
        G u + m * ∫⁻ u, G u ∂(RDist.uniform 0 T).law := by
      intro u
      rw [Prog.Sure.lexp_bind_onOk]
      simp only [Prog.lexp_ret, onOk, List.map_cons, List.sum_cons]
      rw [hS.lexp_const_add, ← ih]
    simp only [h1]
    rw [lintegral_add_right _ measurable_const, lintegral_const, uniform_mass_one, mul_one, Nat.cast_succ, add_mul, one_mul, add_comm]

/-- The supports of one interval. -/
noncomputable def supportsOf (m : ℕ) (dt : ℝ) : Prog (List ℝ) :=
  (Prog.replicate m (.draw (.uniform 0 dt))).bind fun us => .ret (npSort us)

theorem drawSupports_eq (m : ℕ) (dts : List ℝ) : drawSupports m dts = Prog.mapM' (supportsOf m) dts := rfl

theorem sure_supportsOf (m : ℕ) (dt : ℝ) : (supportsOf m dt).Sure := ((sure_uniform 0 dt).replicate m).bind fun _ _ => trivial

theorem supportsOf_out {m : ℕ} {dt : ℝ} (hdt : 0 < dt) {ts : List ℝ} (h : (supportsOf m dt).Out (.ok ts)) :
    ts.length = m ∧ ∀ u ∈ ts, 0 ≤ u ∧ u < dt := by
  unfold supportsOf at h
  rw [Prog.out_bind_ok] at h
  obtain ⟨us, h1, h2⟩ := h
  rw [Prog.out_ret] at h2
  cases h2
  rw [Prog.out_replicate_ok] at h1
  refine ⟨by rw [(npSort_perm us).length_eq, h1.1], fun u hu => ?_⟩
  rw [(npSort_perm us).mem_iff] at hu
  have := h1.2 u hu
  rw [Prog.out_draw] at this
  obtain ⟨x, hx, e⟩ := this
  cases e
  exact uniform_mem hdt hx

theorem ofReal_sum_map {g : ℝ → ℝ} : ∀ {ts : List ℝ}, (∀ u ∈ ts, 0 ≤ g u) →
    ENNReal.ofReal (ts.map g).sum = (ts.map fun u => ENNReal.ofReal (g u)).sum
  | [], _ => by simp
  | u :: ts, h => by
    have h1 : 0 ≤ (ts.map g).sum := List.sum_nonneg (by simpa using fun a ha => h a (by simp [ha]))
    rw [List.map_cons, List.sum_cons, ENNReal.ofReal_add (h u (by simp)) h1, ofReal_sum_map fun a ha => h a (by simp [ha])]
    simp

/-- The average at uniform supports is unbiased for the integral. -/
theorem lexp_avgInt {m : ℕ} (hm : 1 ≤ m) {dt : ℝ} (hdt : 0 < dt) {g : ℝ → ℝ} (h0 : ∀ u, 0 ≤ u → u < dt → 0 ≤ g u)
    (hi : IntervalIntegrable g volume 0 dt) :
    (supportsOf m dt).lexp (onOk fun ts => ENNReal.ofReal (avgInt dt ts g)) = ENNReal.ofReal (∫ u in (0 : ℝ)..dt, g u) := by
  have hmpos : (0 : ℝ) < m := by exact_mod_cast hm
  have e1 : (supportsOf m dt).lexp (onOk fun ts => ENNReal.ofReal (avgInt dt ts g)) =
      (supportsOf m dt).lexp (fun r => ENNReal.ofReal (dt / m) * onOk (fun ts => (ts.map fun u => ENNReal.ofReal (g u)).sum) r) := by
    refine Prog.lexp_congr fun r hr => ?_
    cases r with
    | error e => simp [onOk]
    | ok ts =>
      obtain ⟨hl, hts⟩ := supportsOf_out hdt hr
      simp only [onOk]
      have hg : ∀ u ∈ ts, 0 ≤ g u := fun u hu => h0 u (hts u hu).1 (hts u hu).2
      rw [← ofReal_sum_map hg, ← ENNReal.ofReal_mul (by positivity), avgInt, hl]
      congr 1
      ring
  rw [e1, Prog.lexp_const_mul _ _ ENNReal.ofReal_ne_top, supportsOf, Prog.Sure.lexp_bind_onOk]
  simp only [Prog.lexp_ret, onOk]
  have e2 : ∀ us : List ℝ, ((npSort us).map fun u => ENNReal.ofReal (g u)).sum = (us.map fun u => ENNReal.ofReal (g u)).sum :=
    fun us => ((npSort_perm us).map _).sum_eq
  simp only [e2]
  rw [show (fun a : List ℝ => (a.map fun u => ENNReal.ofReal (g u)).sum) = fun us => (us.map fun u => ENNReal.ofReal (g u)).sum from rfl,
    lexp_replicate_sum, lintegral_uniform_ofReal hdt h0 hi]
  have e3 : (m : ℝ≥0∞) = ENNReal.ofReal m := by simp
  have hint : 0 ≤ ∫ u in (0 : ℝ)..dt, g u := by
    refine intervalIntegral.integral_nonneg_of_ae_restrict hdt.le ?_
    rw [Filter.EventuallyLE, ae_restrict_iff' measurableSet_Icc]
    have : ∀ᵐ u : ℝ, u ≠ dt := by simp [ae_iff]
    filter_upwards [this] with u hu hu'
    exact h0 u hu'.1 (lt_of_le_of_ne hu'.2 hu)
  rw [e3, ← ENNReal.ofReal_mul hmpos.le, ← ENNReal.ofReal_mul (by positivity)]
  congr 1
  field_simp

theorem avgInt_nonneg {dt : ℝ} (hdt : 0 ≤ dt) {ts : List ℝ} {g : ℝ → ℝ} (h : ∀ u ∈ ts, 0 ≤ g u) : 0 ≤ avgInt dt ts g := by
  unfold avgInt
  have h1 : 0 ≤ (ts.map g).sum := List.sum_nonneg (by simpa using h)
  positivity

theorem avgInt_add_const {dt : ℝ} {ts : List ℝ} {g : ℝ → ℝ} (h : ts ≠ []) (c : ℝ) : avgInt dt ts (fun u => g u + c) = avgInt dt ts g + c * dt := by
  unfold avgInt
  have hl : (ts.length : ℝ) ≠ 0 := by
    simp [h]
  have : ∀ l : List ℝ, (l.map fun u => g u + c).sum = (l.map g).sum + l.length * c := by
    intro l
    induction l with
    | nil => simp
    | cons a l ih => simp only [List.map_cons, List.sum_cons, ih, List.length_cons]; push_cast; ring
  rw [this]
  field_simp


/-- Sum of the averages over a list of segments. -/
noncomputable def segSum (L : List (ℝ × (ℝ → ℝ))) (supp : List (List ℝ)) : ℝ := (List.zipWith (fun q us => avgInt q.1 us q.2) L supp).sum

theorem segSum_nonneg {m : ℕ} {c : ℝ} (hm : 1 ≤ m) : ∀ (L : List (ℝ × (ℝ → ℝ))) (supp : List (List ℝ)),
    (∀ q ∈ L, 0 < q.1 ∧ ∀ u, 0 ≤ u → u < q.1 → 0 ≤ q.2 u + c) →
    (Prog.mapM' (supportsOf m) (L.map Prod.fst)).Out (.ok supp) → 0 ≤ segSum L supp + c * (L.map Prod.fst).sum
  | [], supp, _, _ => by simp [segSum]
  | q :: L, supp, hc, ho => by
    rw [List.map_cons, Prog.out_mapM'_ok] at ho
    rcases ho with _ | ⟨h1, ho⟩
    rename_i us uss
    rw [← Prog.out_mapM'_ok] at ho
    obtain ⟨hdt, h2⟩ := hc q (by simp)
    obtain ⟨hl, hu⟩ := supportsOf_out hdt h1
    have ih := segSum_nonneg hm L uss (fun r hr => hc r (by simp [hr])) ho
    have h3 : 0 ≤ avgInt q.1 us fun u => q.2 u + c := avgInt_nonneg hdt.le fun u hu' => h2 u (hu u hu').1 (hu u hu').2
    rw [avgInt_add_const (by intro h0; rw [h0] at hl; simp at hl; omega)] at h3
    simp only [segSum, List.zipWith_cons_cons, List.sum_cons, List.map_cons] at ih ⊢
    linarith

theorem lexp_segSum {m : ℕ} {c : ℝ} (hm : 1 ≤ m) : ∀ (L : List (ℝ × (ℝ → ℝ))),
    (∀ q ∈ L, 0 < q.1 ∧ IntervalIntegrable q.2 volume 0 q.1 ∧ ∀ u, 0 ≤ u → u < q.1 → 0 ≤ q.2 u + c) →
    (Prog.mapM' (supportsOf m) (L.map Prod.fst)).lexp (onOk fun supp => ENNReal.ofReal (segSum L supp + c * (L.map Prod.fst).sum)) =
      ENNReal.ofReal ((L.map fun q => ∫ u in (0 : ℝ)..q.1, q.2 u).sum + c * (L.map Prod.fst).sum) ∧
      0 ≤ (L.map fun q => ∫ u in (0 : ℝ)..q.1, q.2 u).sum + c * (L.map Prod.fst).sum
  | [], _ => by simp [segSum, Prog.mapM', onOk]
  | q :: L, hc => by
    obtain ⟨hdt, h2, h3⟩ := hc q (by simp)
    have hc' : ∀ q ∈ L, 0 < q.1 ∧ IntervalIntegrable q.2 volume 0 q.1 ∧ ∀ u, 0 ≤ u → u < q.1 → 0 ≤ q.2 u + c := fun r hr => hc r (by simp [hr])
    obtain ⟨ih, ih0⟩ := lexp_segSum hm L hc'
    have hint : ∫ u in (0 : ℝ)..q.1, (q.2 u + c) = (∫ u in (0 : ℝ)..q.1, q.2 u) + c * q.1 := by
      rw [intervalIntegral.integral_add h2 intervalIntegrable_const]
      simp
      ring
    have hi0 : 0 ≤ ∫ u in (0 : ℝ)..q.1, (q.2 u + c) := by
      refine intervalIntegral.integral_nonneg_of_ae_restrict hdt.le ?_
      rw [Filter.EventuallyLE, ae_restrict_iff' measurableSet_Icc]
      have : ∀ᵐ u : ℝ, u ≠ q.1 := by simp [ae_iff]
      filter_upwards [this] with u hu hu'
      exact h3 u hu'.1 (lt_of_le_of_ne hu'.2 hu)
    rw [hint] at hi0
    simp only [List.map_cons, List.sum_cons]
    refine ⟨?_, by linarith⟩
    rw [show (∫ u in (0 : ℝ)..q.1, q.2 u) + (L.map fun q => ∫ u in (0 : ℝ)..q.1, q.2 u).sum + c * (q.1 + (L.map Prod.fst).sum) =
      ((∫ u in (0 : ℝ)..q.1, q.2 u) + c * q.1) + ((L.map fun q => ∫ u in (0 : ℝ)..q.1, q.2 u).sum + c * (L.map Prod.fst).sum) by ring,
      ENNReal.ofReal_add hi0 ih0, ← ih, ← hint, ← lexp_avgInt hm hdt h3 (h2.add intervalIntegrable_const), Prog.mapM', Prog.Sure.lexp_bind_onOk]
    have hsure : (Prog.mapM' (supportsOf m) (L.map Prod.fst)).Sure := Prog.Sure.mapM' fun d _ => sure_supportsOf m d
    rw [add_comm ((supportsOf m q.1).lexp _), ← (sure_supportsOf m q.1).lexp_const_add]
    refine Prog.lexp_congr fun r hr => ?_
    cases r with
    | error e => rfl
    | ok us =>
      obtain ⟨hl, hu⟩ := supportsOf_out hdt hr
      have hne : us ≠ [] := by intro h0; rw [h0] at hl; simp at hl; omega
      have ha : 0 ≤ avgInt q.1 us fun u => q.2 u + c := avgInt_nonneg hdt.le fun u hu' => h3 u (hu u hu').1 (hu u hu').2
      simp only [onOk]
      rw [Prog.Sure.lexp_bind_onOk, add_comm (Prog.lexp _ _) (ENNReal.ofReal _), ← hsure.lexp_const_add]
      refine Prog.lexp_congr fun r' hr' => ?_
      cases r' with
      | error e => rfl
      | ok uss =>
        simp only [onOk, Prog.lexp_ret]
        have hB := segSum_nonneg hm L uss (fun q hq => ⟨(hc' q hq).1, (hc' q hq).2.2⟩) hr'
        rw [← ENNReal.ofReal_add ha hB, avgInt_add_const hne]
        congr 1
        simp only [segSum, List.zipWith_cons_cons, List.sum_cons]
        ring

section Segs

variable {σ : Type} {red : ℝ → ℝ} {x : σ → ℝ → ℝ}

theorem emDisc_segs (disc : ℝ → ℝ) : ∀ (t vt : List ℝ) (supp : List (List ℝ)) (z : List σ),
    emDisc disc red x t vt supp z = segSum ((emSegs red t vt z).map fun q => (q.1, segDisc disc x q)) supp
  | [], vt, supp, z => by simp [segSum, emSegs, npDiff, emDisc]
  | [_], vt, supp, z => by simp [segSum, emSegs, npDiff, emDisc]
  | t0 :: t1 :: t, [], supp, z => by simp [segSum, emSegs, emDisc]
  | t0 :: t1 :: t, [_], supp, z => by simp [segSum, emSegs, emDisc]
  | t0 :: t1 :: t, v0 :: v1 :: v, [], z => by simp [segSum, emDisc]
  | t0 :: t1 :: t, v0 :: v1 :: v, u :: us, [] => by simp [segSum, emSegs, emDisc]
  | t0 :: t1 :: t, v0 :: v1 :: v, u :: us, z :: zs => by
    rw [emDisc, emDisc_segs disc (t1 :: t) (v1 :: v) us zs]
    simp only [segSum, emSegs, npDiff, List.map_cons, List.tail_cons, List.zip_cons_cons, List.zipWith_cons_cons, List.sum_cons]
    rfl

theorem emSegs_fst {t vt : List ℝ} {z : List σ} (hv : vt.length = t.length) (hz : z.length = (npDiff t).length) :
    (emSegs red t vt z).map Prod.fst = npDiff t := by
  unfold emSegs
  rw [List.map_fst_zip]
  simp only [List.length_zip, List.length_map, List.length_tail, npDiff_len] at hz ⊢
  omega

theorem emDiscSw_segs (disc : ℕ → ℝ → ℝ) (vol : ℕ → ℝ) (sel : ℕ → Prop) : ∀ (t : List ℝ) (yt : List ℕ) (vt : List ℝ) (supp : List (List ℝ)) (z : List σ),
    emDiscSw disc vol red sel x t yt vt supp z = segSum ((emSegsSw red t yt vt z).map fun q => (q.1, segDiscSw disc vol sel x q)) supp
  | [], yt, vt, supp, z => by simp [segSum, emSegsSw, npDiff, emDiscSw]
  | [_], yt, vt, supp, z => by simp [segSum, emSegsSw, npDiff, emDiscSw]
  | t0 :: t1 :: t, [], vt, supp, z => by simp [segSum, emSegsSw, emDiscSw]
  | t0 :: t1 :: t, y :: ys, [], supp, z => by simp [segSum, emSegsSw, emDiscSw]
  | t0 :: t1 :: t, y :: ys, [_], supp, z => by simp [segSum, emSegsSw, emDiscSw]
  | t0 :: t1 :: t, y :: ys, v0 :: v1 :: v, [], z => by simp [segSum, emDiscSw]
  | t0 :: t1 :: t, y :: ys, v0 :: v1 :: v, u :: us, [] => by simp [segSum, emSegsSw, emDiscSw]
  | t0 :: t1 :: t, y :: ys, v0 :: v1 :: v, u :: us, z :: zs => by
    rw [emDiscSw, emDiscSw_segs disc vol sel (t1 :: t) ys (v1 :: v) us zs]
    simp only [segSum, emSegsSw, npDiff, List.map_cons, List.tail_cons, List.zip_cons_cons, List.zipWith_cons_cons, List.sum_cons]
    by_cases hs : sel y
    · have e : segDiscSw disc vol sel x (t1 - t0, y, red v0, red v1, z) =
          fun u => disc y (bridgeAt (t1 - t0) (Real.sqrt (t1 - t0) * vol y) (red v0) (red v1) (x z) u) := by funext u; simp [segDiscSw, hs]
      rw [e, if_pos hs]
    · have e : segDiscSw disc vol sel x (t1 - t0, y, red v0, red v1, z) = fun _ => 0 := by funext u; simp [segDiscSw, hs]
      rw [e, if_neg hs]
      simp [avgInt]

theorem emSegsSw_fst {t : List ℝ} {yt : List ℕ} {vt : List ℝ} {z : List σ} (hy : yt.length = t.length) (hv : vt.length = t.length)
    (hz : z.length = (npDiff t).length) : (emSegsSw red t yt vt z).map Prod.fst = npDiff t := by
  unfold emSegsSw
  rw [List.map_fst_zip]
  simp only [List.length_zip, List.length_map, List.length_tail, npDiff_len] at hz ⊢
  omega

theorem emDiscSw_congr {disc disc' : ℕ → ℝ → ℝ} {vol vol' : ℕ → ℝ} {sel : ℕ → Prop} (h : ∀ y, sel y → disc y = disc' y ∧ vol y = vol' y) :
    ∀ (t : List ℝ) (yt : List ℕ) (vt : List ℝ) (supp : List (List ℝ)) (z : List σ),
      emDiscSw disc vol red sel x t yt vt supp z = emDiscSw disc' vol' red sel x t yt vt supp z := by
  intro t yt vt supp z
  rw [emDiscSw_segs, emDiscSw_segs]
  congr 2
  funext q
  congr 1
  funext u
  unfold segDiscSw
  by_cases hs : sel q.2.1
  · rw [if_pos hs, if_pos hs, (h _ hs).1, (h _ hs).2]
  · rw [if_neg hs, if_neg hs]

theorem emDiscSw_regimes {disc : ℕ → ℝ → ℝ} {vol : ℕ → ℝ} {K : ℕ} : ∀ (t : List ℝ) (yt : List ℕ) (vt : List ℝ) (supp : List (List ℝ)) (z : List σ),
    yt.length = t.length → (∀ y ∈ yt.dropLast, y < K) →
    emDiscSw disc vol red (takesPart none) x t yt vt supp z = ∑ r ∈ Finset.range K, emDiscSw disc vol red (takesPart (some r)) x t yt vt supp z
  | [], yt, vt, supp, z, _, _ => by simp [emDiscSw]
  | [_], yt, vt, supp, z, _, _ => by simp [emDiscSw]
  | t0 :: t1 :: t, [], vt, supp, z, _, _ => by simp [emDiscSw]
  | t0 :: t1 :: t, [_], vt, supp, z, h, _ => by simp at h
  | t0 :: t1 :: t, y :: y' :: ys, [], supp, z, _, _ => by simp [emDiscSw]
  | t0 :: t1 :: t, y :: y' :: ys, [_], supp, z, _, _ => by simp [emDiscSw]
  | t0 :: t1 :: t, y :: y' :: ys, v0 :: v1 :: v, [], z, _, _ => by simp [emDiscSw]
  | t0 :: t1 :: t, y :: y' :: ys, v0 :: v1 :: v, u :: us, [], _, _ => by simp [emDiscSw]
  | t0 :: t1 :: t, y :: y' :: ys, v0 :: v1 :: v, u :: us, z :: zs, h, hK => by
    have ih := emDiscSw_regimes (disc := disc) (vol := vol) (t1 :: t) (y' :: ys) (v1 :: v) us zs (by simpa using h) (fun a ha => hK a (by
      rw [List.dropLast_cons₂]; exact List.mem_cons_of_mem _ ha))
    have hy : y < K := hK y (by simp [List.dropLast_cons₂])
    simp only [emDiscSw]
    rw [ih, Finset.sum_add_distrib]
    congr 1
    rw [if_pos (show takesPart none y from Or.inl rfl), Finset.sum_eq_single y]
    · rw [if_pos (show takesPart (some y) y from Or.inr rfl)]
    · intro r _ hr
      have : ¬ takesPart (some r) y := by
        rintro (h0 | h0)
        · cases h0
        · exact hr (Option.some.inj h0)
      rw [if_neg this]
    · intro h0
      exact absurd (Finset.mem_range.2 hy) h0

end Segs

/-! ## Ties -/

theorem nodup_supports {m : ℕ} {dts h h' : List ℝ} {supp : List (List ℝ)} (hg : (drawSupports m dts).Gen h (.ok supp) h') : ∀ ts ∈ supp, ts.Nodup := by
  have := Prog.gen_mapM' hg
  intro ts hts
  obtain ⟨j, hj, rfl⟩ := List.mem_iff_getElem.1 hts
  obtain ⟨h1, h2, -, hj'⟩ := (List.forall₂_iff_get.1 this).2 j (by rw [this.length_eq]; exact hj) hj
  rw [Prog.gen_bind_ok] at hj'
  obtain ⟨us, h3, h4, h5⟩ := hj'
  rw [Prog.gen_ret] at h5
  simp only [List.get_eq_getElem, Except.ok.injEq] at h5
  rw [h5.1]
  exact (npSort_perm us).nodup_iff.2 (Prog.gen_replicate_draw h4).2.2.1

theorem diffuse_supports {m : ℕ} {dts : List ℝ} (hd : ∀ d ∈ dts, 0 < d) : (drawSupports m dts).Diffuse :=
  Prog.Diffuse.mapM' fun d h => ((diffuse_uniform (hd d h).ne).replicate m).bind fun _ _ => trivial

/-- Whatever follows, the supports have no ties. -/
theorem prob_ties {α : Type} {m : ℕ} {dts : List ℝ} (hd : ∀ d ∈ dts, 0 < d) (f : List (List ℝ) → Prog α) {P : Res α → Prop}
    (hP : ∀ supp r, (∀ ts ∈ supp, ts.Nodup) → (f supp).Out r → ¬ P r) (he : ∀ e, ¬ P (.error e)) : ((drawSupports m dts).bind f).prob P = 0 := by
  unfold Prog.prob
  rw [Prog.lexp_bind, Prog.lexp_congr_gen (diffuse_supports hd) (h := []) (g' := fun _ => 0), Prog.lexp_zero]
  intro r h' hr
  cases r with
  | error e => simp [he e]
  | ok supp =>
    rw [Prog.cont_ok, Prog.lexp_congr (h := fun _ => 0) fun r hr' => if_neg (hP supp r (nodup_supports hr) hr'), Prog.lexp_zero]

/-! ## Rows of the switching objective -/

/-- The discriminant and the volatility of a regime look up its row only. -/
def RegimeFns.Local {p : ℕ} (M : RegimeFns p) : Prop := ∀ thi thi' y, thi y = thi' y → M.disc thi y = M.disc thi' y ∧ M.vol thi y = M.vol thi' y

theorem lik2_some {p : ℕ} (S : SwitchFns p) (K : ℕ) (thi : Thi p) (h : Anchorage ℝ ℝ) (r : ℕ) :
    (evalBiasedLogLik2 S K thi h (some r)).map Prod.fst = evalBiasedLogLik S K thi h r := by
  unfold evalBiasedLogLik2 evalBiasedLogLik sigT
  split_ifs <;> rfl

section Rows

variable {S : SwitchFns 2} (R : RowFns S) {K : ℕ} {h : Anchorage ℝ ℝ} {thi : Thi 2}

theorem lik2_row (hv : h.Valid) (hn : ∀ y ∈ h.yt.dropLast, y < K) (hp : PosRows K thi) (r : ℕ) :
    ∃ b, evalBiasedLogLik2 S K thi h (some r) = .ok (ownLik R h r (thi r), b) := by
  have h1 := lik2_some S K thi h r
  rw [biasedLogLik_row R hv hn hp] at h1
  cases h2 : evalBiasedLogLik2 S K thi h (some r) with
  | error e => rw [h2] at h1; simp [Except.map] at h1
  | ok a =>
    rw [h2] at h1
    simp only [Except.map, Except.ok.injEq] at h1
    exact ⟨a.2, by rw [← h1]⟩

theorem lik2_none (hv : h.Valid) (hn : ∀ y ∈ h.yt.dropLast, y < K) (hp : PosRows K thi) :
    ∃ b, evalBiasedLogLik2 S K thi h none = .ok (∑ r ∈ Finset.range K, ownLik R h r (thi r), b) := by
  obtain ⟨b, hb⟩ := lik2_row R hv hn hp 0
  unfold evalBiasedLogLik2 at hb ⊢
  by_cases h1 : ∃ y ∈ h.yt.dropLast, K ≤ y
  · rw [if_pos h1] at hb; cases hb
  by_cases h2 : h.yt.length ≠ h.t.length ∨ h.vt.length ≠ h.t.length
  · rw [if_neg h1, if_pos h2] at hb; cases hb
  by_cases h3 : h.t = []
  · rw [if_neg h1, if_neg h2, if_pos h3] at hb; cases hb
  by_cases h4 : ∃ s ∈ sigT S thi h, s ≤ 0
  · rw [if_neg h1, if_neg h2, if_neg h3, if_pos h4] at hb; cases hb
  rw [if_neg h1, if_neg h2, if_neg h3, if_neg h4]
  have e : (List.zipWith (· + ·) (pDelTerms S thi h) (normTerms S h.vt (sigT S thi h))) = likTerms S thi h := rfl
  simp only [e]
  have e2 : (select (likTerms S thi h) (h.yt.dropLast.map fun _ => true)).sum = ∑ r ∈ Finset.range K, ownLik R h r (thi r) := by
    rw [select_all _ _ (by rw [likTerms_row R hv, ← segments_yt hv]; simp), likTerms_row R hv]
    unfold ownLik
    have hseg : ∀ q ∈ segments h.t h.yt h.vt, q.2.1 < K := fun q hq => hn _ (by rw [← segments_yt hv]; exact List.mem_map_of_mem hq)
    generalize segments h.t h.yt h.vt = L at hseg
    induction L with
    | nil => simp
    | cons q L ih =>
      simp only [List.map_cons, List.sum_cons]
      rw [Finset.sum_add_distrib, ih fun a ha => hseg a (by simp [ha])]
      congr 1
      rw [Finset.sum_eq_single q.2.1]
      · simp
      · intro r _ hr
        simp [Ne.symm hr]
      · intro h0
        exact absurd (Finset.mem_range.2 (hseg q (by simp))) h0
  rw [e2]
  exact ⟨_, rfl⟩

end Rows

end Ctb
