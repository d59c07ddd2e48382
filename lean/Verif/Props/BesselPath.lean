import Verif.Lemmas.BesselPath
import Verif.Lemmas.StripEdge
import Verif.Props.Moments
import Verif.Props.MjpFixtures

set_option linter.unusedSectionVars false

/-!
# C106: the Bessel process sampler and the seeded Bessel bridge
-/

namespace Ctb

open MeasureTheory Set ProbabilityTheory
open scoped ENNReal

variable {t s : List ℝ} {x0 x T : ℝ} {dim : ℕ} {m : Option ℝ}

/-- Inputs that violate an assertion are rejected without a draw. -/
theorem C106_errors : (t = [] → sampleBessel t x0 dim m = .err .value) ∧
    (t ≠ [] → ¬ ((∀ a ∈ t, 0 < a) ∧ 0 ≤ x0 ∧ 0 < dim) → sampleBessel t x0 dim m = .err .assertion) := by
  refine ⟨fun h => by rw [sampleBessel, if_pos h], fun h h' => ?_⟩
  rw [sampleBessel, if_neg h]
  by_cases h1 : ∀ a ∈ t, 0 < a
  · rw [Prog.assert, if_pos h1, Prog.ret_bind]
    by_cases h2 : 0 ≤ x0
    · rw [Prog.assert, if_pos h2, Prog.ret_bind, Prog.assert, if_neg fun h3 => h' ⟨h1, h2, h3⟩]
      rfl
    · rw [Prog.assert, if_neg h2]
      rfl
  · rw [Prog.assert, if_neg h1]
    rfl

theorem cumRows_length : ∀ (rs : List (List ℝ)) (acc : List ℝ), (cumRows acc rs).length = rs.length
  | [], _ => rfl
  | r :: rs, acc => by simp [cumRows, cumRows_length rs]

/-- Every result has one non-negative value per time. -/
theorem C106_values {xs : List ℝ} (h : (sampleBessel t x0 dim m).Out (.ok xs)) : xs.length = t.length ∧ ∀ y ∈ xs, 0 ≤ y := by
  rw [sampleBessel] at h
  split at h
  · simp at h
  simp only [Prog.out_bind_ok] at h
  obtain ⟨_, -, _, -, _, -, wt, hw, h⟩ := h
  simp only [Prog.out_ret] at h
  cases h
  refine ⟨?_, fun y hy => ?_⟩
  · rw [sampleWienerVec] at hw
    split at hw
    · simp at hw
    simp only [Prog.out_bind_ok] at hw
    obtain ⟨_, -, hw⟩ := hw
    split at hw
    · simp at hw
    simp only [Prog.out_bind_ok] at hw
    obtain ⟨zs, hz, hw⟩ := hw
    simp only [Prog.out_ret] at hw
    cases hw
    have := (Prog.out_replicate_ok.1 hz).1
    simp [cumRows_length, npDiff_length_zipWith, this]
  · obtain ⟨w, -, rfl⟩ := List.mem_map.1 hy
    exact Real.sqrt_nonneg _

theorem diffFrom_prefix : ∀ (t : List ℝ) (c : ℝ) (j : ℕ), j < t.length → ((diffFrom c t).take (j + 1)).sum = t.getD j 0 - c
  | [], _, _, h => by simp at h
  | a :: t, c, 0, _ => by simp [diffFrom_cons]
  | a :: t, c, j + 1, h => by
    have ih := diffFrom_prefix t a j (by simpa using h)
    rw [diffFrom_cons, List.take_succ_cons, List.sum_cons, ih]
    simp

theorem diffFrom_pos : ∀ (t : List ℝ) (c : ℝ), t.Pairwise (· < ·) → (∀ a ∈ t, c < a) → ∀ d ∈ diffFrom c t, 0 < d
  | [], _, _, _ => by simp [diffFrom]
  | a :: t, c, h, hc => by
    rw [List.pairwise_cons] at h
    rw [diffFrom_cons]
    intro d hd
    rcases List.mem_cons.1 hd with rfl | hd
    · linarith [hc a List.mem_cons_self]
    · exact diffFrom_pos t a h.2 h.1 d hd

/-- The square of every value has the Laplace transform of the non-central chi-square distribution, scaled with the time: any dimension, start and drift,
equal times included. -/
theorem C106_square {lam : ℝ} (hl : 0 < lam) (hpos : ∀ a ∈ t, 0 < a) (h : t.Pairwise (· ≤ ·)) (hx : 0 ≤ x0) (hd : 0 < dim) {j : ℕ} (hj : j < t.length) :
    (sampleBessel t x0 dim m).lexp (onOk fun xs => ENNReal.ofReal (Real.exp (-lam * xs.getD j 0 ^ 2))) =
      ENNReal.ofReal (Real.exp (-lam * (x0 + m.getD 0 * t.getD j 0) ^ 2 / (1 + 2 * lam * t.getD j 0)) / √(1 + 2 * lam * t.getD j 0) ^ dim) := by
  have hne : t ≠ [] := by rintro rfl; simp at hj
  have hlen : (ediffBegin t).length = t.length := npDiff_length_zipWith
  have hV : (0 : ℝ) < 1 / (2 * lam) := by positivity
  have ha := axisRow_length hd (m.getD 0)
  have ha' := axisRow_length hd x0
  have hnn : ∀ d ∈ ediffBegin t, 0 ≤ d := by
    rw [ediffBegin_eq]
    exact diffFrom_nonneg h fun a ha => (hpos a ha).le
  have htj : 0 < t.getD j 0 := by
    rw [List.getD_eq_getElem?_getD, List.getElem?_eq_getElem hj]
    exact hpos _ (List.getElem_mem hj)
  have hpi := Real.pi_pos
  set C : ℝ := √(2 * Real.pi * (1 / (2 * lam))) ^ dim with hC
  have hC0 : 0 < C := by rw [hC]; positivity
  have hget : ∀ l : List (List ℝ), l.length = t.length → (l.map rowNorm).getD j 0 = rowNorm (l.getD j []) := by
    intro l hl
    simp [List.getD_eq_getElem?_getD, hl, hj]
  set G : Res (List (List ℝ)) → ℝ≥0∞ := Prog.cont (fun wt => Prog.ret (wt.map rowNorm))
    (onOk fun xs => ENNReal.ofReal (Real.exp (-lam * xs.getD j 0 ^ 2))) Prog.lexp with hG
  have key := chain_dens ha hV (ediffBegin t) hnn (axisRow dim x0) ha' j (by rw [hlen]; exact hj) (fun r => ENNReal.ofReal C⁻¹ * G r) fun l hl hr => by
    have hrow : (l.getD j []).length = dim := by
      rw [List.getD_eq_getElem?_getD, List.getElem?_eq_getElem (by rw [hl, hlen]; exact hj)]
      exact hr _ (List.getElem_mem _)
    rw [hG, Prog.cont_ok, Prog.lexp_ret, densRow_zero (by rw [hrow, ha]), onOk, hget l (by rw [hl, hlen]), ha, ← ENNReal.ofReal_mul (by positivity), hC,
      inv_mul_eq_div]
    congr 3
    field_simp
  rw [Prog.lexp_const_mul _ _ ENNReal.ofReal_ne_top, ediffBegin_eq, diffFrom_prefix t 0 j hj, sub_zero, ← ediffBegin_eq] at key
  rw [sampleBessel_chain hne hpos h hx hd, Prog.lexp_bind, ← hG]
  have hval : (rowChain dim (axisRow dim (m.getD 0)) (ediffBegin t) (axisRow dim x0)).lexp G =
      ENNReal.ofReal C * densRow (1 / (2 * lam)) (t.getD j 0) (axisRow dim x0) (axisRow dim (m.getD 0)) := by
    rw [← key, ← mul_assoc, ← ENNReal.ofReal_mul hC0.le, mul_inv_cancel₀ hC0.ne', ENNReal.ofReal_one, one_mul]
  generalize t.getD j 0 = u at *
  have e1 : 1 / (2 * lam) + u = (1 + 2 * lam * u) / (2 * lam) := by field_simp
  have hu : 0 < 1 + 2 * lam * u := by positivity
  have e2 : √(2 * Real.pi * (1 / (2 * lam) + u)) = √(2 * Real.pi * (1 / (2 * lam))) * √(1 + 2 * lam * u) := by
    rw [← Real.sqrt_mul (by positivity), e1]
    congr 1
    field_simp
  rw [hval, axisRow, axisRow, densRow_axis, normDens, normDens, normDensR, normDensR, ← ENNReal.ofReal_pow (by positivity), ← ENNReal.ofReal_mul (by positivity),
    ← ENNReal.ofReal_mul (by positivity)]
  congr 1
  rw [e2, hC, zero_pow two_ne_zero, neg_zero, zero_div, Real.exp_zero, div_pow, one_pow, div_mul_div_comm, one_mul, ← pow_succ, Nat.sub_add_cancel hd, mul_pow,
    e1]
  have : (√(2 * Real.pi * (1 / (2 * lam)))) ^ dim ≠ 0 := by positivity
  rw [← mul_div_assoc, mul_div_mul_left _ _ this]
  congr 2
  field_simp

/-- In dimension 3 and without drift the values are a Markov chain with the transition density of the three-dimensional Bessel process, from any start. -/
theorem C106_three (hne : t ≠ []) (hpos : ∀ a ∈ t, 0 < a) (h : t.Pairwise (· < ·)) (hx : 0 ≤ x0) {F : List ℝ → ℝ≥0∞} (hF : MeasL t.length fun _ : Unit => F) :
    (sampleBessel t x0 3 none).lexp (onOk F) = freeInt bes3Dens (npDiff (0 :: t)) x0 F := by
  have he : npDiff (0 :: t) = ediffBegin t := by
    cases t with
    | nil => exact absurd rfl hne
    | cons a t => simp [ediffBegin, npDiff]
  rw [sampleBessel_chain hne hpos (h.imp le_of_lt) hx (by norm_num), Prog.lexp_bind, he]
  have hp : ∀ d ∈ ediffBegin t, 0 < d := by
    rw [ediffBegin_eq]
    exact diffFrom_pos t 0 h hpos
  have := chain3_law (ediffBegin t) hp 0 0 x0 (F := F) (by rw [npDiff_length_zipWith]; exact hF)
    (g := Prog.cont (fun wt => Prog.ret (wt.map rowNorm)) (onOk F) Prog.lexp) fun l => rfl
  rw [show nrm3 (0, 0, x0) = x0 by simp [nrm3, Real.sqrt_sq hx]] at this
  exact this

/-- In dimension 1 they are a Brownian motion reflected at 0. -/
theorem C106_one (hne : t ≠ []) (hpos : ∀ a ∈ t, 0 < a) (h : t.Pairwise (· < ·)) (hx : 0 ≤ x0) {F : List ℝ → ℝ≥0∞} (hF : MeasL t.length fun _ : Unit => F) :
    (sampleBessel t x0 1 none).lexp (onOk F) = freeInt bes1Dens (npDiff (0 :: t)) x0 F := by
  have he : npDiff (0 :: t) = ediffBegin t := by
    cases t with
    | nil => exact absurd rfl hne
    | cons a t => simp [ediffBegin, npDiff]
  rw [sampleBessel_chain hne hpos (h.imp le_of_lt) hx (by norm_num), Prog.lexp_bind, he]
  have hp : ∀ d ∈ ediffBegin t, 0 < d := by
    rw [ediffBegin_eq]
    exact diffFrom_pos t 0 h hpos
  have := chain1_law (ediffBegin t) hp x0 (F := F) (by rw [npDiff_length_zipWith]; exact hF)
    (g := Prog.cont (fun wt => Prog.ret (wt.map rowNorm)) (onOk F) Prog.lexp) fun l => rfl
  rw [abs_of_nonneg hx] at this
  exact this

/-- `sample_besselbr` draws from the law of `sample_bessel` given its last value: sampling the end and then the bridge to it is sampling the process. -/
theorem C106_bridge {vs : List ℝ} (h2 : 2 ≤ vs.length) (hp : ∀ v ∈ vs, 0 < v) {F : List ℝ → ℝ≥0∞} (hF : MeasL vs.length fun _ : Unit => F) :
    (sampleBessel (npCumsum vs) 0 3 none).lexp (onOk F) =
      ∫⁻ r, bes3Dens vs.sum 0 r * (sampleBesselbr (npCumsum vs).dropLast vs.sum r 3).lexp (onOk fun l => F (l ++ [r])) := by
  have hne : vs ≠ [] := by rintro rfl; simp at h2
  have hlen : (npCumsum vs).length = vs.length := by rw [npCumsum, cumsumFrom_length]
  have hdiff : npDiff (0 :: npCumsum vs) = vs := npDiff_cumsumFrom vs 0
  have hinc : ∀ (us : List ℝ) (c : ℝ), (∀ u ∈ us, 0 < u) → (cumsumFrom c us).Pairwise (· < ·) ∧ ∀ a ∈ cumsumFrom c us, c < a := by
    intro us
    induction us with
    | nil => intro c _; simp [cumsumFrom]
    | cons u us ih =>
      intro c hu
      obtain ⟨h1, h2⟩ := ih (c + u) fun a ha => hu a (List.mem_cons_of_mem _ ha)
      have h0 := hu u List.mem_cons_self
      refine ⟨List.pairwise_cons.2 ⟨h2, h1⟩, fun a ha => ?_⟩
      rcases List.mem_cons.1 ha with rfl | ha
      · linarith
      · linarith [h2 a ha]
  obtain ⟨h3, h4⟩ := hinc vs 0 hp
  have hne' : npCumsum vs ≠ [] := by rw [ne_eq, ← List.length_eq_zero_iff, hlen]; omega
  rw [C106_three hne' h4 h3 le_rfl (by rw [hlen]; exact hF), hdiff, bes3_end_zero h2 hF]
  refine lintegral_congr fun r => ?_
  rw [bes3Dens, if_neg (lt_irrefl _), mul_assoc]
  by_cases hr : 0 < r
  · congr 1
    have hFr : MeasL (vs.length - 1) fun (_ : Unit) l => F (l ++ [r]) := by
      have h5 : MeasL (vs.length - 1 + 1) fun _ : Unit => F := by rwa [Nat.sub_add_cancel (by omega)]
      exact (MeasL.snocP h5).comp (φ := fun _ : Unit => ((), r)) measurable_const
    exact (besselbr_law hr h2 hp hFr fun l => rfl).symm
  · rw [ENNReal.ofReal_of_nonpos (by linarith)]
    simp

/-! ## the seeded bridge -/

theorem brownbr_bind_congr {β : Type} (hne : s ≠ []) (hp : ∀ a ∈ s, 0 < a ∧ a < 1) (h : s.Pairwise (· ≤ ·)) {f g : List ℝ → Prog β}
    (hfg : ∀ z, z.length = s.length → f z = g z) : (sampleBrownbr s 1 0 0).bind f = (sampleBrownbr s 1 0 0).bind g := by
  obtain ⟨h1, -, -, h4⟩ := sampleBrownbr_affine (x0 := 0) (x1 := 0) hne hp h
  rw [h4, Prog.bind_assoc, Prog.bind_assoc]
  congr 1
  funext zs
  rw [Prog.ret_bind, Prog.ret_bind]
  exact hfg _ (by simp [vadd, matVec, h1])

theorem brownbr_scale (hne : s ≠ []) (hp : ∀ a ∈ s, 0 < a ∧ a < 1) (h : s.Pairwise (· ≤ ·)) (hT : 0 < T) :
    sampleBrownbr (s.map (· * T)) T 0 x = (sampleBrownbr s 1 0 0).bind fun z => .ret (List.zipWith (fun a zi => √T * zi + x * a) s z) := by
  have h1 := congrArg (fun p : Prog (List ℝ × List ℝ) => p.bind fun q => .ret q.2) (C80_pivot (x0 := 0) (x1 := x) hne hp h hT)
  simp only [Prog.bind_assoc, Prog.ret_bind] at h1
  have hr : ∀ p : Prog (List ℝ), (p.bind fun y => .ret y) = p := by
    intro p
    induction p with
    | ret a => rfl
    | err e => rfl
    | real d k ih => rw [Prog.real_bind]; congr 1; funext y; exact ih y
    | nat d k ih => rw [Prog.nat_bind]; congr 1; funext y; exact ih y
  rw [hr] at h1
  rw [← h1]
  congr 1
  funext z
  rw [pivotBrownbr, if_neg hne, if_neg (not_not.2 fun a ha => ⟨(hp a ha).1.le, (hp a ha).2.le⟩), if_neg (not_not.2 hT), Prog.lift, Prog.ret_bind]
  congr 1
  simp only
  congr 1
  funext a zi
  ring

theorem colNorm_scale (hT : 0 < T) {c0 c1 c2 : List ℝ} (h0 : c0.length = s.length) (h1 : c1.length = s.length) (h2 : c2.length = s.length)
    {j : ℕ} (hj : j < s.length) :
    √T * colNorm [List.zipWith (fun zi ti => zi + x * ti / T ^ (3 / 2 : ℝ)) c0 (s.map (· * T)), c1, c2] j =
      colNorm [List.zipWith (fun a zi => √T * zi + 0 * a) s c2, List.zipWith (fun a zi => √T * zi + 0 * a) s c1, List.zipWith (fun a zi => √T * zi + x * a) s c0] j := by
  have e : T ^ (3 / 2 : ℝ) = T * √T := by
    rw [show (3 / 2 : ℝ) = 1 + 1 / 2 by norm_num, Real.rpow_add hT, Real.rpow_one, Real.sqrt_eq_rpow]
  have hq : 0 < √T := Real.sqrt_pos.2 hT
  have hqq : √T ^ 2 = T := Real.sq_sqrt hT.le
  simp only [colNorm, List.map_cons, List.map_nil, List.sum_cons, List.sum_nil, List.getD_eq_getElem?_getD, List.getElem?_zipWith, List.getElem?_map,
    List.getElem?_eq_getElem (h0.symm ▸ hj), List.getElem?_eq_getElem (h1.symm ▸ hj), List.getElem?_eq_getElem (h2.symm ▸ hj), List.getElem?_eq_getElem hj,
    Option.map_some, Option.getD_some, e]
  rw [← Real.sqrt_mul hT.le]
  congr 1
  generalize c0[j]'_ = z0
  generalize c1[j]'_ = z1
  generalize c2[j]'_ = z2
  generalize s[j]'_ = a
  have e2 : x * (a * T) / (T * √T) = x * a / √T := by field_simp
  rw [e2]
  have e3 : √T * z0 + x * a = √T * (z0 + x * a / √T) := by field_simp
  rw [e3]
  simp only [mul_pow, zero_mul, add_zero, hqq]
  ring

/-- Three standard bridges, the last one first, through `gen_seeded_bessel3br` are the same program as `sample_besselbr` on the stretched grid. -/
theorem C106_seeded (hne : s ≠ []) (hp : ∀ a ∈ s, 0 < a ∧ a < 1) (h : s.Pairwise (· ≤ ·)) (hT : 0 < T) :
    ((Prog.replicate 3 (sampleBrownbr s 1 0 0)).bind fun cols => Prog.lift (seededBessel3br s cols.reverse T x)) =
      (sampleBesselbr (s.map (· * T)) T x 3).bind fun y => .ret (s.map (· * T), y) := by
  have hp' : ∀ a ∈ s.map (· * T), 0 < a ∧ a < T := by
    intro a ha
    obtain ⟨b, hb, rfl⟩ := List.mem_map.1 ha
    exact ⟨mul_pos (hp b hb).1 hT, by nlinarith [hp b hb]⟩
  rw [sampleBesselbr, if_neg (by simpa using hne), Prog.assert, if_pos hp', Prog.ret_bind, Prog.assert, if_pos (by norm_num), Prog.ret_bind]
  simp only [Prog.replicate, show (3 : ℕ) - 1 = 2 from rfl, List.replicate, List.cons_append, List.nil_append, Prog.mapM', Prog.bind_assoc, Prog.ret_bind,
    brownbr_scale hne hp h hT]
  refine brownbr_bind_congr hne hp h fun z2 hz2 => brownbr_bind_congr hne hp h fun z1 hz1 => brownbr_bind_congr hne hp h fun z0 hz0 => ?_
  simp only [seededBessel3br, if_neg hne, if_neg (not_not.2 hp), if_neg (not_not.2 hT), List.reverse_cons, List.reverse_nil, List.nil_append, List.cons_append, Prog.lift, List.length_map]
  congr 2
  refine List.map_congr_left fun j hj => ?_
  exact colNorm_scale hT hz0 hz1 hz2 (List.mem_range.1 hj)

theorem measurable_dot : ∀ (r : List ℝ) (n : ℕ), Measurable fun y : Fin n → ℝ => dot r (List.ofFn y)
  | [], n => by simp [dot]
  | a :: r, 0 => by simp [dot]
  | a :: r, n + 1 => by
    have ih := measurable_dot r n
    have e : (fun y : Fin (n + 1) → ℝ => dot (a :: r) (List.ofFn y)) = fun y => a * y 0 + dot r (List.ofFn fun i => y i.succ) := by
      funext y
      rw [List.ofFn_succ, dot_cons]
    rw [e]
    have hm : Measurable fun y : Fin (n + 1) → ℝ => dot r (List.ofFn fun i => y i.succ) := Measurable.comp (g := fun y : Fin n → ℝ => dot r (List.ofFn y)) ih (by fun_prop : Measurable fun (y : Fin (n + 1) → ℝ) (i : Fin n) => y i.succ)
    have h0 : Measurable fun y : Fin (n + 1) → ℝ => a * y 0 := by fun_prop
    exact h0.add hm

/-- The standard bridge as a probability measure. -/
theorem brown_measure (hne : s ≠ []) (hp : ∀ a ∈ s, 0 < a ∧ a < 1) (h : s.Pairwise (· ≤ ·)) : ∃ μ : Measure (Fin s.length → ℝ), IsProbabilityMeasure μ ∧
    ∀ {F : (Fin s.length → ℝ) → ℝ≥0∞}, Measurable F → ∀ {g : Res (List ℝ) → ℝ≥0∞}, (∀ f : Fin s.length → ℝ, g (.ok (List.ofFn f)) = F f) →
      (sampleBrownbr s 1 0 0).lexp g = ∫⁻ f, F f ∂μ := by
  obtain ⟨h1, -, -, h4⟩ := sampleBrownbr_affine (x0 := 0) (x1 := 0) hne hp h
  set b : List ℝ → List ℝ := fun zs => vadd (s.map fun a => 0 + (0 - 0) * a / 1) (matVec (bRows 1 s) zs) with hb
  have hbl : ∀ zs, (b zs).length = s.length := fun zs => by simp [hb, vadd, matVec, h1]
  set B : (Fin s.length → ℝ) → Fin s.length → ℝ := fun y i => (b (List.ofFn y)).getD i 0 with hB
  have hBm : Measurable B := by
    refine measurable_pi_lambda _ fun i => ?_
    have e : (fun y => B y i) = fun y => (s.map fun a => 0 + (0 - 0) * a / 1)[i.1]'(by simp) + dot ((bRows 1 s)[i.1]'(by rw [h1]; exact i.2)) (List.ofFn y) := by
      funext y
      have hi : i.1 < (b (List.ofFn y)).length := by rw [hbl]; exact i.2
      simp only [hB]
      rw [List.getD_eq_getElem?_getD, List.getElem?_eq_getElem hi, Option.getD_some]
      simp only [hb, vadd, matVec, List.getElem_zipWith, List.getElem_map]
    rw [e]
    exact (measurable_dot _ _).const_add _
  refine ⟨(Measure.pi fun _ => (RDist.normal 0 1).law).map B, ?_, fun {F} hF g hg => ?_⟩
  · have : IsProbabilityMeasure (RDist.normal 0 1).law := by rw [std_normal_law]; infer_instance
    exact Measure.isProbabilityMeasure_map hBm.aemeasurable
  · have : SigmaFinite (RDist.normal 0 1).law := by rw [std_normal_law]; infer_instance
    have hm : Measurable fun y => F (B y) := hF.comp hBm
    rw [lintegral_map hF hBm, ← replicate_draw_pi hm, h4, Prog.lexp_bind]
    refine Prog.lexp_congr fun r hr => ?_
    match r, hr with
    | .error e, hr => exact absurd hr replicate_draw_no_error
    | .ok zs, hr =>
      have hl : zs.length = s.length := (Prog.out_replicate_ok.1 hr).1
      rw [Prog.cont_ok, Prog.lexp_ret, onOk]
      have e1 : List.ofFn (fun i : Fin s.length => zs.getD i 0) = zs := by
        apply List.ext_getElem
        · simp [hl]
        · intro i g1 g2
          simp [List.getD_eq_getElem?_getD, g2]
      have e2 : List.ofFn (B fun i => zs.getD i 0) = b zs := by
        apply List.ext_getElem
        · simp [hbl]
        · intro i g1 g2
          simp only [hB, e1, List.getElem_ofFn]
          rw [List.getD_eq_getElem?_getD, List.getElem?_eq_getElem g2, Option.getD_some]
      rw [← hg, e2]

/-- Value of the seeded bridge at the columns. -/
theorem seeded_value (hne : s ≠ []) (hp : ∀ a ∈ s, 0 < a ∧ a < 1) (hT : 0 < T) (c0 c1 c2 : List ℝ) : seededBessel3br s [c0, c1, c2] T x =
    .ok (s.map (· * T), (List.range s.length).map fun j : ℕ =>
      √T * colNorm [List.zipWith (fun zi ti => zi + x * ti / T ^ (3 / 2 : ℝ)) c0 (s.map (· * T)), c1, c2] j) := by
  simp only [seededBessel3br, if_neg hne, if_neg (not_not.2 hp), if_neg (not_not.2 hT)]

/-- `F` of the seeded bridge as a function of the values of the columns. -/
noncomputable def seededFun (s : List ℝ) (T x : ℝ) (F : List ℝ → ℝ≥0∞) (q : (Fin s.length → ℝ) × (Fin s.length → ℝ) × (Fin s.length → ℝ)) : ℝ≥0∞ :=
  F ((List.range s.length).map fun j : ℕ =>
      √T * colNorm [List.zipWith (fun zi ti => zi + x * ti / T ^ (3 / 2 : ℝ)) (List.ofFn q.1) (s.map (· * T)), List.ofFn q.2.1, List.ofFn q.2.2] j)

theorem measurable_seededFun {F : List ℝ → ℝ≥0∞} (hF : MeasL s.length fun _ : Unit => F) : Measurable (seededFun s T x F) := by
  have e : seededFun s T x F = (fun p : Unit × (Fin s.length → ℝ) => F (List.ofFn p.2)) ∘ fun q => ((), fun i : Fin s.length =>
        √T * nrm3 (q.1 i + x * (s[i.1] * T) / T ^ (3 / 2 : ℝ), q.2.1 i, q.2.2 i)) := by
    funext q
    simp only [seededFun, Function.comp]
    congr 1
    apply List.ext_getElem
    · simp
    · intro i g1 g2
      simp only [List.length_map, List.length_range] at g1
      simp [colNorm3, List.getD_eq_getElem?_getD, g1]
  have hm : ∀ i : Fin s.length, Measurable fun q : (Fin s.length → ℝ) × (Fin s.length → ℝ) × (Fin s.length → ℝ) =>
      √T * nrm3 (q.1 i + x * (s[i.1] * T) / T ^ (3 / 2 : ℝ), q.2.1 i, q.2.2 i) := by
    intro i
    unfold nrm3
    fun_prop
  rw [e]
  exact Measurable.comp hF (measurable_const.prodMk (measurable_pi_lambda _ hm))

theorem seeded_val (hne : s ≠ []) (hp : ∀ a ∈ s, 0 < a ∧ a < 1) (hT : 0 < T) (F : List ℝ → ℝ≥0∞) (f0 f1 f2 : Fin s.length → ℝ) :
    (Prog.lift (seededBessel3br s [List.ofFn f0, List.ofFn f1, List.ofFn f2] T x)).lexp (onOk fun q => F q.2) = seededFun s T x F (f0, f1, f2) := by
  rw [seeded_value hne hp hT, Prog.lift, Prog.lexp_ret]
  rfl

section
variable {E : Type} [MeasurableSpace E] {μ : Measure E} [SFinite μ] {H : E × E × E → ℝ≥0∞}

theorem triple_meas2 (hH : Measurable H) (a : E) : Measurable fun b => ∫⁻ c, H (a, b, c) ∂μ :=
  Measurable.lintegral_prod_right' (f := fun q : E × E => H (a, q.1, q.2)) (hH.comp (by fun_prop))

theorem triple_meas1 (hH : Measurable H) : Measurable fun a => ∫⁻ b, ∫⁻ c, H (a, b, c) ∂μ ∂μ :=
  Measurable.lintegral_prod_right' (f := fun q : E × E => ∫⁻ c, H (q.1, q.2, c) ∂μ)
    (Measurable.lintegral_prod_right' (f := fun q : (E × E) × E => H (q.1.1, q.1.2, q.2)) (hH.comp (by fun_prop)))

theorem triple_reverse (hH : Measurable H) : ∫⁻ a, ∫⁻ b, ∫⁻ c, H (a, b, c) ∂μ ∂μ ∂μ = ∫⁻ c, ∫⁻ b, ∫⁻ a, H (a, b, c) ∂μ ∂μ ∂μ := by
  have s1 : ∀ a, ∫⁻ b, ∫⁻ c, H (a, b, c) ∂μ ∂μ = ∫⁻ c, ∫⁻ b, H (a, b, c) ∂μ ∂μ := fun a =>
    lintegral_lintegral_swap (f := fun b c => H (a, b, c)) (hH.comp (by fun_prop : Measurable fun q : E × E => (a, q.1, q.2))).aemeasurable
  have s2 : ∀ c, ∫⁻ b, ∫⁻ a, H (a, b, c) ∂μ ∂μ = ∫⁻ a, ∫⁻ b, H (a, b, c) ∂μ ∂μ := fun c =>
    lintegral_lintegral_swap (f := fun b a => H (a, b, c)) (hH.comp (by fun_prop : Measurable fun q : E × E => (q.2, q.1, c))).aemeasurable
  rw [lintegral_congr s1, lintegral_congr s2]
  have hm : Measurable fun q : E × E => ∫⁻ b, H (q.1, b, q.2) ∂μ :=
    Measurable.lintegral_prod_right' (f := fun q : (E × E) × E => H (q.1.1, q.2, q.1.2)) (hH.comp (by fun_prop))
  exact lintegral_lintegral_swap (f := fun a c => ∫⁻ b, H (a, b, c) ∂μ) hm.aemeasurable

end

/-- Hence three independent standard bridges give the law of the Bessel bridge. -/
theorem C106_seeded_law (hne : s ≠ []) (hp : ∀ a ∈ s, 0 < a ∧ a < 1) (h : s.Pairwise (· ≤ ·)) (hT : 0 < T) {F : List ℝ → ℝ≥0∞}
    (hF : MeasL s.length fun _ : Unit => F) :
    ((Prog.replicate 3 (sampleBrownbr s 1 0 0)).bind fun cols => Prog.lift (seededBessel3br s cols T x)).lexp (onOk fun q => F q.2) =
      (sampleBesselbr (s.map (· * T)) T x 3).lexp (onOk F) := by
  obtain ⟨μ, hμ, hlaw⟩ := brown_measure hne hp h
  have hrev := congrArg (fun p : Prog (List ℝ × List ℝ) => p.lexp (onOk fun q => F q.2)) (C106_seeded (x := x) hne hp h hT)
  simp only at hrev
  rw [Prog.lexp_bind (sampleBesselbr _ _ _ _)] at hrev
  have e : Prog.cont (fun y => Prog.ret (s.map (· * T), y)) (onOk fun q => F q.2) Prog.lexp = onOk F := by
    funext r
    cases r <;> rfl
  rw [e] at hrev
  rw [← hrev]
  have hm : Measurable (seededFun s T x F) := measurable_seededFun hF
  have hm' : Measurable fun q : (Fin s.length → ℝ) × (Fin s.length → ℝ) × (Fin s.length → ℝ) => seededFun s T x F (q.2.2, q.2.1, q.1) := hm.comp (by fun_prop)
  have hA : ((Prog.replicate 3 (sampleBrownbr s 1 0 0)).bind fun cols => Prog.lift (seededBessel3br s cols T x)).lexp (onOk fun q => F q.2) =
      ∫⁻ f0, ∫⁻ f1, ∫⁻ f2, seededFun s T x F (f0, f1, f2) ∂μ ∂μ ∂μ := by
    simp only [Prog.replicate, Prog.bind_assoc, Prog.ret_bind]
    rw [Prog.lexp_bind]
    refine hlaw (triple_meas1 hm) fun f0 => ?_
    rw [Prog.cont_ok, Prog.lexp_bind]
    refine hlaw (triple_meas2 hm f0) fun f1 => ?_
    rw [Prog.cont_ok, Prog.lexp_bind]
    refine hlaw (hm.comp (by fun_prop)) fun f2 => ?_
    rw [Prog.cont_ok, seeded_val hne hp hT]
    rfl
  have hB : ((Prog.replicate 3 (sampleBrownbr s 1 0 0)).bind fun cols => Prog.lift (seededBessel3br s cols.reverse T x)).lexp (onOk fun q => F q.2) =
      ∫⁻ f2, ∫⁻ f1, ∫⁻ f0, seededFun s T x F (f0, f1, f2) ∂μ ∂μ ∂μ := by
    simp only [Prog.replicate, Prog.bind_assoc, Prog.ret_bind]
    rw [Prog.lexp_bind]
    refine hlaw (triple_meas1 hm') fun f2 => ?_
    rw [Prog.cont_ok, Prog.lexp_bind]
    refine hlaw (triple_meas2 hm' f2) fun f1 => ?_
    rw [Prog.cont_ok, Prog.lexp_bind]
    refine hlaw (F := fun f0 => seededFun s T x F (f0, f1, f2)) (hm.comp (by fun_prop)) fun f0 => ?_
    rw [Prog.cont_ok, ← seeded_val hne hp hT]
    rfl
  rw [hA, hB, triple_reverse hm]

/-- Inputs that violate an assertion of the seeded bridge are rejected. -/
theorem C106_seeded_errors (cols : List (List ℝ)) (h : s = [] ∨ (¬ ∀ a ∈ s, 0 < a ∧ a < 1) ∨ ¬ 0 < T) : ∃ e, seededBessel3br s cols T x = .error e := by
  unfold seededBessel3br
  by_cases h1 : s = []
  · exact ⟨_, if_pos h1⟩
  rw [if_neg h1]
  by_cases h2 : ∀ a ∈ s, 0 < a ∧ a < 1
  · rw [if_neg (not_not.2 h2)]
    rcases h with h | h | h
    · exact absurd h h1
    · exact absurd h2 h
    · exact ⟨_, if_pos h⟩
  · exact ⟨_, if_pos h2⟩

/-! ## instances -/

example : (sampleBessel [1, 2] 1 4 (some 3)).lexp (onOk fun xs => ENNReal.ofReal (Real.exp (-(1 / 2) * xs.getD 1 0 ^ 2))) =
    ENNReal.ofReal (Real.exp (-49 / 6) / √3 ^ 4) := by
  rw [C106_square (by norm_num) (by simp) (by simp) (by norm_num) (by norm_num) (by simp)]
  norm_num

example : (sampleBessel [1, 3] 2 3 none).lexp (onOk fun xs => if xs.getD 1 0 < xs.getD 0 0 then 1 else 0) =
    ∫⁻ y, ENNReal.ofReal (y / 2) * killDens 0 1 2 y * ∫⁻ z, bes3Dens 2 y z * if z < y then 1 else 0 := by
  have hF : MeasL 2 fun (_ : Unit) (xs : List ℝ) => if xs.getD 1 0 < xs.getD 0 0 then (1 : ℝ≥0∞) else 0 := by
    unfold MeasL
    refine Measurable.ite ?_ measurable_const measurable_const
    exact measurableSet_lt ((measurable_ofFn_getD 2 1).comp measurable_snd) ((measurable_ofFn_getD 2 0).comp measurable_snd)
  rw [C106_three (t := [1, 3]) (by simp) (by simp) (by simp) (by norm_num) hF]
  norm_num [npDiff, freeInt, bes3Dens]

example : ((Prog.replicate 3 (sampleBrownbr [1 / 4, 1 / 2] 1 0 0)).bind fun cols => Prog.lift (seededBessel3br [1 / 4, 1 / 2] cols.reverse 8 3)) =
    (sampleBesselbr ([1 / 4, 1 / 2].map (· * 8)) 8 3 3).bind fun y => .ret ([1 / 4, 1 / 2].map (· * 8), y) :=
  C106_seeded (by simp) (by simp; norm_num) (by simp; norm_num) (by norm_num)

end Ctb
