import Verif.Lemmas.SdeModels
import Verif.Lemmas.SwitchParams
import Mathlib.Analysis.SpecialFunctions.Sqrt
import Mathlib.Analysis.SpecialFunctions.Log.Deriv
import Mathlib.Analysis.Calculus.Deriv.Pow
import Mathlib.Analysis.Calculus.Deriv.Inv

set_option linter.unusedSectionVars false

/-! # C55 (inequality), C57, C58, C60, C61, C62: diffusion models and normalisation -/

namespace Ctb

/-! ## C57 -/

/-- The answer `b` of `eval_bounds_disc` on `[le, ue]` is exact: the two last components are the least and the greatest value of the
discriminant on the interval, the first is a global lower bound. -/
def BoundsExact (disc : ℝ → ℝ) (le ue : ℝ) (b : DiscBounds) : Prop :=
  (∃ g, b.1 = some g ∧ ∀ x, g ≤ disc x) ∧ IsLeast (disc '' Set.Icc le ue) b.2.1 ∧
    ∃ u : ℝ, b.2.2 = (u : WithTop ℝ) ∧ IsGreatest (disc '' Set.Icc le ue) u

theorem ouBounds_exact {A B : ℝ} (hA : 0 ≤ A) {disc : ℝ → ℝ} (hd : ∀ x, disc x = A * x ^ 2 + B) {inf : ℝ} (hi : inf ≤ B)
    {le ue : ℝ} (h : le ≤ ue) : BoundsExact disc le ue (ouBoundsDisc disc inf le ue) :=
  ⟨⟨inf, rfl, fun x => by rw [hd]; nlinarith [mul_nonneg hA (sq_nonneg x)]⟩, ou_least hA hd h, _, rfl, ou_greatest hA hd h⟩

/-- `ito/models/ou.py`, every parameter and interval. -/
theorem C57_ito (thi : Fin 2 → ℝ) {le ue : ℝ} (h : le ≤ ue) : BoundsExact (itoOu.disc thi) le ue (itoOuBounds thi le ue) := by
  refine ouBounds_exact (A := thi 0 ^ 2 / 2) (B := -thi 0 / 2) (by positivity) (fun x => ?_) le_rfl h
  simp only [ItoFns.disc, itoOu]
  ring

/-- `switching/models/ou.py`, positive parameters. -/
theorem C57_switching_ou {thi : Thi 2} {y : ℕ} (h1 : 0 < thi y 1) {le ue : ℝ} (h : le ≤ ue) :
    BoundsExact (swOu.disc thi y) le ue (swOuBounds thi y le ue) := by
  refine ouBounds_exact (A := (thi y 0 * thi y 1) ^ 2 / 2) (B := -thi y 0 / 2) (by positivity) (fun x => ?_) le_rfl h
  simp only [RegimeFns.disc, swOu]
  field_simp

/-- `switching/models/ou2.py`, positive parameters. -/
theorem C57_switching_ou2 {thi : Thi 2} {y : ℕ} (h0 : 0 < thi y 0) (h1 : 0 < thi y 1) {le ue : ℝ} (h : le ≤ ue) :
    BoundsExact (swOu2.disc thi y) le ue (swOu2Bounds thi y le ue) := by
  refine ouBounds_exact (A := thi y 1 ^ 2 / 2) (B := -thi y 0 / 2) (by positivity) (fun x => ?_) le_rfl h
  simp only [RegimeFns.disc, swOu2]
  field_simp

/-- `switching/models/ou3.py`, positive parameters. -/
theorem C57_switching_ou3 {thi : Thi 2} {y : ℕ} (h0 : 0 < thi y 0) (h1 : 0 < thi y 1) {le ue : ℝ} (h : le ≤ ue) :
    BoundsExact (swOu3.disc thi y) le ue (swOu3Bounds thi y le ue) := by
  refine ouBounds_exact (A := thi y 1 ^ 2 / 2) (B := -(thi y 0 * thi y 1) / 4) (by positivity) (fun x => ?_) ?_ h
  · simp only [RegimeFns.disc, swOu3]
    field_simp
    ring
  · have := mul_pos h0 h1
    linarith

/-- On `[-1, 2]` with drift `-2 x`: minimum `-1` at 0, maximum `7` at 2. -/
example : itoOuBounds ![2, 1] (-1) 2 = (some (-1), -1, ((7 : ℝ) : WithTop ℝ)) := by
  simp only [itoOuBounds, ouBoundsDisc, ItoFns.disc, itoOu]
  norm_num

/-! ## C58 -/

/-- The answer of `eval_bounds_disc` brackets the discriminant on the interval. -/
def Brackets (disc : ℝ → ℝ) (le ue : ℝ) (b : DiscBounds) : Prop :=
  ∀ x, le ≤ x → x ≤ ue → b.2.1 ≤ disc x ∧ (disc x : WithTop ℝ) ≤ b.2.2

/-- For positive parameters and `0 < le ≤ ue` the CIR bounds are returned, and they bracket the discriminant exactly when it is not the
case that `4 κ μ < σ²` and the minimiser lies strictly inside the interval. -/
theorem C58_exact {thi : Fin 3 → ℝ} (h0 : 0 < thi 0) (h1 : 0 < thi 1) (h2 : 0 < thi 2) {le ue : ℝ} (hl : 0 < le) (hlu : le ≤ ue) :
    ∃ b, itoCirBounds thi le ue = .ok b ∧
      (Brackets (itoCir.disc thi) le ue b ↔ ¬ (4 * thi 0 * thi 1 < thi 2 ^ 2 ∧
        le ^ 4 < (4 * thi 1 / thi 2 ^ 2 - 2 / thi 0) ^ 2 - 1 / thi 0 ^ 2 ∧
        (4 * thi 1 / thi 2 ^ 2 - 2 / thi 0) ^ 2 - 1 / thi 0 ^ 2 < ue ^ 4)) := by
  have hu : 0 < ue := hl.trans_le hlu
  have hrad := cir_rad h0 h2
  change ∃ b, _ ∧ (_ ↔ ¬ (_ ∧ le ^ 4 < cirRad thi ∧ cirRad thi < ue ^ 4))
  have hk : 0 < thi 0 ^ 2 / 4 := by positivity
  unfold itoCirBounds
  rw [if_neg (by push Not; exact ⟨hl.ne', hu.ne'⟩)]
  simp only
  by_cases hc : 4 * thi 0 * thi 1 < 3 * thi 2 ^ 2
  · rw [if_pos hc]
    refine ⟨_, rfl, ?_⟩
    -- the coefficient of 1/x²
    by_cases ha : 4 * thi 0 * thi 1 < thi 2 ^ 2
    · -- negative coefficient of the drift
      constructor
      · rintro hb ⟨-, g1, g2⟩
        have hr : 0 < cirRad thi := lt_trans (by positivity) g1
        have hm := cir_argmin_pow hr.le
        have hm0 : 0 ≤ cirArgmin thi := cir_argmin_nonneg hr.le
        have m1 : le < cirArgmin thi := lt_of_pow_lt_pow_left₀ 4 hm0 (by rwa [hm])
        have m2 : cirArgmin thi < ue := lt_of_pow_lt_pow_left₀ 4 hu.le (by rwa [hm])
        have hmp : 0 < cirArgmin thi := hl.trans m1
        obtain ⟨b1, -⟩ := hb _ m1.le m2.le
        simp only at b1
        have e0 : itoCir.disc thi (cirArgmin thi) < itoCir.disc thi le := by
          apply cir_gt hl m1
          rw [← hrad, ← hm]
          apply mul_lt_mul_of_pos_left _ hk
          have : le ^ 2 < cirArgmin thi ^ 2 := pow_lt_pow_left₀ m1 hl.le two_ne_zero
          nlinarith [pow_pos hmp 2]
        have e1 : itoCir.disc thi (cirArgmin thi) < itoCir.disc thi ue := by
          apply cir_lt hmp m2
          rw [← hrad, ← hm]
          apply mul_lt_mul_of_pos_left _ hk
          have : cirArgmin thi ^ 2 < ue ^ 2 := pow_lt_pow_left₀ m2 hmp.le two_ne_zero
          nlinarith [pow_pos hmp 2]
        have := lt_min e0 e1
        linarith
      · intro hn
        have hcase : cirRad thi ≤ le ^ 4 ∨ ue ^ 4 ≤ cirRad thi := by
          by_contra hh
          push Not at hh
          exact hn ⟨ha, hh.1, hh.2⟩
        intro x hx1 hx2
        have hx : 0 < x := hl.trans_le hx1
        rcases hcase with hh | hh
        · have up : ∀ p q : ℝ, le ≤ p → p ≤ q → itoCir.disc thi p ≤ itoCir.disc thi q := by
            intro p q hp hq
            apply cir_le (hl.trans_le hp) hq
            rw [← hrad]
            apply mul_le_mul_of_nonneg_left _ hk.le
            refine hh.trans ?_
            have p1 := pow_le_pow_left₀ hl.le hp 2
            have p2 := pow_le_pow_left₀ hl.le (hp.trans hq) 2
            calc le ^ 4 = le ^ 2 * le ^ 2 := by ring
              _ ≤ p ^ 2 * q ^ 2 := mul_le_mul p1 p2 (by positivity) (by positivity)
          exact ⟨(min_le_left _ _).trans (up _ _ le_rfl hx1), WithTop.coe_le_coe.2 ((up _ _ hx1 hx2).trans (le_max_right _ _))⟩
        · have dn : ∀ p q : ℝ, 0 < p → p ≤ q → q ≤ ue → itoCir.disc thi q ≤ itoCir.disc thi p := by
            intro p q hp hq hqu
            apply cir_ge hp hq
            rw [← hrad]
            apply mul_le_mul_of_nonneg_left _ hk.le
            refine le_trans ?_ hh
            have p1 := pow_le_pow_left₀ hp.le (hq.trans hqu) 2
            have p2 := pow_le_pow_left₀ (hp.le.trans hq) hqu 2
            calc p ^ 2 * q ^ 2 ≤ ue ^ 2 * ue ^ 2 := mul_le_mul p1 p2 (by positivity) (by positivity)
              _ = ue ^ 4 := by ring
          exact ⟨(min_le_right _ _).trans (dn _ _ hx hx2 le_rfl), WithTop.coe_le_coe.2 ((dn _ _ hl hx1 hx2).trans (le_max_left _ _))⟩
    · -- drift coefficient between 0 and 1: increasing
      refine ⟨fun _ h => ha h.1, fun _ x hx1 hx2 => ?_⟩
      have hP : cirP thi ≤ 0 := by
        have b0 : 0 ≤ 2 * thi 0 * thi 1 / thi 2 ^ 2 - 1 / 2 := by
          rw [sub_nonneg, div_le_div_iff₀ two_pos (by positivity)]; push Not at ha; linarith
        have b1 : 2 * thi 0 * thi 1 / thi 2 ^ 2 - 1 / 2 ≤ 1 := by
          rw [sub_le_iff_le_add, div_le_iff₀ (by positivity)]; linarith
        unfold cirP
        nlinarith
      have up : ∀ p q : ℝ, le ≤ p → p ≤ q → itoCir.disc thi p ≤ itoCir.disc thi q := fun p q hp hq =>
        cir_le (hl.trans_le hp) hq (hP.trans (by positivity))
      exact ⟨(min_le_left _ _).trans (up _ _ le_rfl hx1), WithTop.coe_le_coe.2 ((up _ _ hx1 hx2).trans (le_max_right _ _))⟩
  · rw [if_neg hc, if_neg (not_lt.2 hl.le)]
    have hr := cir_rad_nonneg h0 h2 hc
    have hm := cir_argmin_pow hr
    have hm0 := cir_argmin_nonneg hr
    have ha : ¬ 4 * thi 0 * thi 1 < thi 2 ^ 2 := by
      intro h; apply hc; have : 0 < thi 2 ^ 2 := by positivity
      linarith
    have up : ∀ p q : ℝ, 0 < p → cirArgmin thi ≤ p → p ≤ q → itoCir.disc thi p ≤ itoCir.disc thi q := by
      intro p q hp0 hp hq
      apply cir_le hp0 hq
      rw [← hrad, ← hm]
      apply mul_le_mul_of_nonneg_left _ hk.le
      have p1 := pow_le_pow_left₀ hm0 hp 2
      have p2 := pow_le_pow_left₀ hm0 (hp.trans hq) 2
      calc cirArgmin thi ^ 4 = cirArgmin thi ^ 2 * cirArgmin thi ^ 2 := by ring
        _ ≤ p ^ 2 * q ^ 2 := mul_le_mul p1 p2 (by positivity) (by positivity)
    have dn : ∀ p q : ℝ, 0 < p → p ≤ q → q ≤ cirArgmin thi → itoCir.disc thi q ≤ itoCir.disc thi p := by
      intro p q hp hq hqu
      apply cir_ge hp hq
      rw [← hrad, ← hm]
      apply mul_le_mul_of_nonneg_left _ hk.le
      have p1 := pow_le_pow_left₀ hp.le (hq.trans hqu) 2
      have p2 := pow_le_pow_left₀ (hp.le.trans hq) hqu 2
      calc p ^ 2 * q ^ 2 ≤ cirArgmin thi ^ 2 * cirArgmin thi ^ 2 := mul_le_mul p1 p2 (by positivity) (by positivity)
        _ = cirArgmin thi ^ 4 := by ring
    by_cases c1 : cirArgmin thi ≤ le
    · rw [if_pos c1]
      exact ⟨_, rfl, fun _ h => ha h.1, fun _ x hx1 hx2 => ⟨up _ _ hl c1 hx1,
        WithTop.coe_le_coe.2 (up _ _ (hl.trans_le hx1) (c1.trans hx1) hx2)⟩⟩
    rw [if_neg c1]
    by_cases c2 : ue ≤ cirArgmin thi
    · rw [if_pos c2]
      exact ⟨_, rfl, fun _ h => ha h.1, fun _ x hx1 hx2 => ⟨dn _ _ (hl.trans_le hx1) hx2 c2,
        WithTop.coe_le_coe.2 (dn _ _ hl hx1 (hx2.trans c2))⟩⟩
    · rw [if_neg c2]
      refine ⟨_, rfl, fun _ h => ha h.1, fun _ x hx1 hx2 => ?_⟩
      push Not at c1 c2
      have hx : 0 < x := hl.trans_le hx1
      rcases le_total x (cirArgmin thi) with hxm | hxm
      · exact ⟨dn _ _ hx hxm le_rfl, WithTop.coe_le_coe.2 ((dn _ _ hl hx1 hxm).trans (le_max_left _ _))⟩
      · exact ⟨up _ _ (hl.trans c1) le_rfl hxm, WithTop.coe_le_coe.2 ((up _ _ hx hxm hx2).trans (le_max_right _ _))⟩

/-- In particular the bounds are sound whenever `σ² ≤ 4 κ μ`. -/
theorem C58_partial {thi : Fin 3 → ℝ} (h0 : 0 < thi 0) (h1 : 0 < thi 1) (h2 : 0 < thi 2) (h : thi 2 ^ 2 ≤ 4 * thi 0 * thi 1)
    {le ue : ℝ} (hl : 0 < le) (hlu : le ≤ ue) : ∃ b, itoCirBounds thi le ue = .ok b ∧ Brackets (itoCir.disc thi) le ue b := by
  obtain ⟨b, hb, he⟩ := C58_exact h0 h1 h2 hl hlu
  exact ⟨b, hb, he.2 fun g => absurd g.1 (not_lt.2 h)⟩

theorem itoCirBounds_fst {thi : Fin 3 → ℝ} {le ue g : ℝ} {b : ℝ × WithTop ℝ} (hb : itoCirBounds thi le ue = .ok (some g, b)) :
    ¬ 4 * thi 0 * thi 1 < 3 * thi 2 ^ 2 ∧ cirArgmin thi ≠ 0 ∧ g = itoCir.disc thi (cirArgmin thi) := by
  unfold itoCirBounds at hb
  by_cases g1 : le = 0 ∨ ue = 0
  · rw [if_pos g1] at hb; simp at hb
  rw [if_neg g1] at hb
  simp only at hb
  by_cases g2 : 4 * thi 0 * thi 1 < 3 * thi 2 ^ 2
  · rw [if_pos g2] at hb; simp at hb
  rw [if_neg g2] at hb
  by_cases g3 : cirArgmin thi = 0
  · simp only [g3, if_true] at hb
    split_ifs at hb <;> simp at hb
  · simp only [g3, if_false] at hb
    refine ⟨g2, g3, ?_⟩
    split_ifs at hb <;> (simp only [Except.ok.injEq, Prod.mk.injEq, Option.some.injEq] at hb; exact hb.1.symm)

/-- Where a first component is computed it is the global minimum over the positive numbers. -/
theorem C58_global {thi : Fin 3 → ℝ} (h0 : 0 < thi 0) (h2 : 0 < thi 2) {le ue g : ℝ} {b : ℝ × WithTop ℝ}
    (hb : itoCirBounds thi le ue = .ok (some g, b)) : IsLeast (itoCir.disc thi '' Set.Ioi 0) g := by
  obtain ⟨hc, ha, rfl⟩ := itoCirBounds_fst hb
  have hrad := cir_rad h0 h2
  have hr := cir_rad_nonneg h0 h2 hc
  have hm := cir_argmin_pow hr
  have hm0 : 0 < cirArgmin thi := lt_of_le_of_ne (cir_argmin_nonneg hr) (Ne.symm ha)
  have hk : 0 < thi 0 ^ 2 / 4 := by positivity
  refine ⟨⟨_, hm0, rfl⟩, ?_⟩
  rintro _ ⟨x, hx, rfl⟩
  have hx : 0 < x := hx
  rcases le_total x (cirArgmin thi) with h | h
  · apply cir_ge hx h
    rw [← hrad, ← hm]
    apply mul_le_mul_of_nonneg_left _ hk.le
    have := pow_le_pow_left₀ hx.le h 2
    calc x ^ 2 * cirArgmin thi ^ 2 ≤ cirArgmin thi ^ 2 * cirArgmin thi ^ 2 := mul_le_mul_of_nonneg_right this (by positivity)
      _ = _ := by ring
  · apply cir_le hm0 h
    rw [← hrad, ← hm]
    apply mul_le_mul_of_nonneg_left _ hk.le
    have := pow_le_pow_left₀ hm0.le h 2
    calc cirArgmin thi ^ 4 = cirArgmin thi ^ 2 * cirArgmin thi ^ 2 := by ring
      _ ≤ _ := mul_le_mul_of_nonneg_left this (by positivity)

/-- The parameters `κ = μ = 1`, `σ = s`. -/
def cirThi (s : ℝ) : Fin 3 → ℝ := ![1, 1, s]

theorem cirThi_vals (s : ℝ) : cirThi s 0 = 1 ∧ cirThi s 1 = 1 ∧ cirThi s 2 = s := ⟨rfl, rfl, rfl⟩

/-- `κ = μ = 1`, `σ = 4`: on `[1/4, 4]` the returned bounds do not bracket the discriminant. -/
theorem C58_violated : ∃ b, itoCirBounds (cirThi 4) (1 / 4) 4 = .ok b ∧ ¬ Brackets (itoCir.disc (cirThi 4)) (1 / 4) 4 b := by
  obtain ⟨e0, e1, e2⟩ := cirThi_vals 4
  obtain ⟨b, hb, he⟩ := C58_exact (thi := cirThi 4) (by rw [e0]; norm_num) (by rw [e1]; norm_num) (by rw [e2]; norm_num)
    (le := 1 / 4) (ue := 4) (by norm_num) (by norm_num)
  rw [e0, e1, e2] at he
  refine ⟨b, hb, fun h => he.1 h ⟨?_, ?_, ?_⟩⟩ <;> norm_num

/-- Parameters with `σ² ≤ 4 κ μ`. -/
example : cirThi 1 2 ^ 2 ≤ 4 * cirThi 1 0 * cirThi 1 1 := by
  obtain ⟨e0, e1, e2⟩ := cirThi_vals 1
  rw [e0, e1, e2]; norm_num

/-! ## C60 -/

/-- The maps of a pair invert each other, in both orders; the two endpoints become 0 and the interval `[0, dt]` becomes `[0, 1]`. -/
def NormOp.Inverse (n : NormOp) : Prop :=
  (∀ t x, n.denorm (n.norm t (some x)).1 (n.norm t (some x)).2 = (t, some x)) ∧
  (∀ s z, n.norm (n.denorm s (some z)).1 (n.denorm s (some z)).2 = (s, some z)) ∧
  (∀ t, n.denorm (n.norm t none).1 (n.norm t none).2 = (t, none)) ∧
  (∀ s, n.norm (n.denorm s none).1 (n.denorm s none).2 = (s, none)) ∧
  n.norm 0 (some n.x0) = (0, some 0) ∧ n.norm n.finT (some n.x1) = (1, some 0) ∧
  ∀ t, 0 ≤ t ∧ t ≤ n.finT ↔ 0 ≤ (n.norm t none).1 ∧ (n.norm t none).1 ≤ 1

theorem NormOp.inverse {n : NormOp} (hT : 0 < n.finT) (hs : n.scale ≠ 0) : n.Inverse := by
  refine ⟨fun t x => ?_, fun s z => ?_, fun t => ?_, fun s => ?_, ?_, ?_, fun t => ?_⟩
  · simp only [NormOp.norm, NormOp.denorm, Option.map_some, Prod.mk.injEq, Option.some.injEq]
    constructor
    · field_simp
    · field_simp; ring
  · simp only [NormOp.norm, NormOp.denorm, Option.map_some, Prod.mk.injEq, Option.some.injEq]
    constructor
    · field_simp
    · field_simp; ring
  · simp [NormOp.norm, NormOp.denorm, hT.ne']
  · simp [NormOp.norm, NormOp.denorm, hT.ne']
  · simp [NormOp.norm]
  · simp [NormOp.norm, hT.ne']
  · simp only [NormOp.norm]
    rw [div_nonneg_iff, div_le_one hT]
    constructor
    · rintro ⟨h1, h2⟩; exact ⟨Or.inl ⟨h1, hT.le⟩, h2⟩
    · rintro ⟨h1 | h1, h2⟩
      · exact ⟨h1.1, h2⟩
      · linarith [h1.2]

/-- The pairs produced by `gen_normops` of `ito` for increasing times: one per gap, made of the gap's duration and of the reduced data at
its ends, and inverse to each other. -/
theorem C60_ito {p : ℕ} (M : ItoFns p) (thi : Fin p → ℝ) {t vt : List ℝ} (ht : t.Pairwise (· < ·)) (hl : t.length = vt.length) :
    (itoNormops M thi t vt).length = t.length - 1 ∧
    ∀ (i : ℕ) (h : i < (itoNormops M thi t vt).length) (h1 : i + 1 < t.length) (h2 : i + 1 < vt.length),
      (itoNormops M thi t vt)[i].finT = t[i + 1] - t[i] ∧ (itoNormops M thi t vt)[i].x0 = M.reduce thi vt[i] ∧
      (itoNormops M thi t vt)[i].x1 = M.reduce thi vt[i + 1] ∧ (itoNormops M thi t vt)[i].Inverse := by
  have hlen : (itoNormops M thi t vt).length = t.length - 1 := by
    simp [itoNormops, npDiff_len]
    omega
  refine ⟨hlen, fun i h h1 h2 => ?_⟩
  have e : (itoNormops M thi t vt)[i] = ⟨t[i + 1] - t[i], Real.sqrt (t[i + 1] - t[i]), M.reduce thi vt[i], M.reduce thi vt[i + 1]⟩ := by
    simp only [itoNormops, List.getElem_map, List.getElem_zip, npDiff_getElem, List.getElem_tail]
  have hp : 0 < t[i + 1] - t[i] := sub_pos.2 (List.pairwise_iff_getElem.1 ht i (i + 1) _ _ (by omega))
  rw [e]
  exact ⟨rfl, rfl, rfl, NormOp.inverse hp (Real.sqrt_pos.2 hp).ne'⟩

/-- The same for `switching`, for regimes with positive volatility. -/
theorem C60_switching {p : ℕ} (M : RegimeFns p) (thi : Thi p) {t vt : List ℝ} {yt : List ℕ} (ht : t.Pairwise (· < ·))
    (hl : t.length = vt.length) (hy : t.length = yt.length) (hv : ∀ y ∈ yt, 0 < M.vol thi y) :
    (swNormops M thi t yt vt).length = t.length - 1 ∧
    ∀ (i : ℕ) (h : i < (swNormops M thi t yt vt).length) (h1 : i + 1 < t.length) (h2 : i + 1 < vt.length),
      (swNormops M thi t yt vt)[i].finT = t[i + 1] - t[i] ∧ (swNormops M thi t yt vt)[i].x0 = M.reduce vt[i] ∧
      (swNormops M thi t yt vt)[i].x1 = M.reduce vt[i + 1] ∧ (swNormops M thi t yt vt)[i].Inverse := by
  have hlen : (swNormops M thi t yt vt).length = t.length - 1 := by
    simp [swNormops, npDiff_len]
    omega
  refine ⟨hlen, fun i h h1 h2 => ?_⟩
  have hyi : i < yt.length := by omega
  have e : (swNormops M thi t yt vt)[i] =
      ⟨t[i + 1] - t[i], Real.sqrt (t[i + 1] - t[i]) * M.vol thi yt[i], M.reduce vt[i], M.reduce vt[i + 1]⟩ := by
    simp only [swNormops, List.getElem_map, List.getElem_zip, npDiff_getElem, List.getElem_tail, List.getElem_dropLast]
  have hp : 0 < t[i + 1] - t[i] := sub_pos.2 (List.pairwise_iff_getElem.1 ht i (i + 1) _ _ (by omega))
  rw [e]
  exact ⟨rfl, rfl, rfl, NormOp.inverse hp (mul_pos (Real.sqrt_pos.2 hp) (hv _ (List.getElem_mem _))).ne'⟩

/-- Three observations. -/
example : ([0, 1, 3] : List ℝ).Pairwise (· < ·) ∧ ([0, 1, 3] : List ℝ).length = ([2, 2, 5] : List ℝ).length := by
  constructor
  · simp
  · rfl

/-! ## C61 -/

/-- Consistency of the drift functions at `x`. -/
def DriftOk (drift sx dx : ℝ → ℝ) (x : ℝ) : Prop := HasDerivAt sx (drift x) x ∧ HasDerivAt drift (dx x) x

/-- Consistency of the reduction at `v`. -/
def ReduceOk (red dered dv : ℝ → ℝ) (v : ℝ) : Prop := HasDerivAt red (dv v) v ∧ dered (red v) = v

theorem driftOk_quad (c x : ℝ) : DriftOk (fun x => -c * x) (fun x => -c * x ^ 2 / 2) (fun _ => -c) x := by
  constructor
  · have := ((hasDerivAt_pow 2 x).const_mul (-c)).div_const 2
    exact this.congr_deriv (by simp; ring)
  · have := (hasDerivAt_id x).const_mul (-c)
    exact this.congr_deriv (by simp)

theorem C61_ito_ou {thi : Fin 2 → ℝ} (h1 : thi 1 ≠ 0) (x v : ℝ) :
    DriftOk (itoOu.drift thi) (itoOu.sxDrift thi) (itoOu.dxDrift thi) x ∧
    ReduceOk (itoOu.reduce thi) (itoOu.dereduce thi) (itoOu.dvReduce thi) v ∧ itoOu.reduce thi (itoOu.dereduce thi x) = x := by
  refine ⟨?_, ⟨?_, ?_⟩, ?_⟩
  · have := driftOk_quad (thi 0) x
    refine ⟨this.1, this.2.congr_deriv ?_⟩
    simp [itoOu]
  · have := (hasDerivAt_id v).div_const (thi 1)
    exact this.congr_deriv (by simp [itoOu])
  · simp only [itoOu]; field_simp
  · simp only [itoOu]; field_simp

/-- Positive states; `reduce` takes positive data to positive states and back. -/
theorem C61_ito_cir {thi : Fin 3 → ℝ} (h2 : 0 < thi 2) {x v : ℝ} (hx : 0 < x) (hv : 0 < v) :
    DriftOk (itoCir.drift thi) (itoCir.sxDrift thi) (itoCir.dxDrift thi) x ∧
    ReduceOk (itoCir.reduce thi) (itoCir.dereduce thi) (itoCir.dvReduce thi) v ∧ itoCir.reduce thi (itoCir.dereduce thi x) = x ∧
    0 < itoCir.reduce thi v := by
  refine ⟨⟨?_, ?_⟩, ⟨?_, ?_⟩, ?_, ?_⟩
  · have h1 := (Real.hasDerivAt_log hx.ne').const_mul (2 * thi 0 * thi 1 / thi 2 ^ 2 - 1 / 2)
    have h2 := (hasDerivAt_pow 2 x).const_mul (thi 0 / 4)
    refine (h1.sub h2).congr_deriv ?_
    simp only [itoCir]
    field_simp
    ring
  · have h1 := (hasDerivAt_inv hx.ne').const_mul (2 * thi 0 * thi 1 / thi 2 ^ 2 - 1 / 2)
    have h2 := (hasDerivAt_id x).const_mul (thi 0 / 2)
    refine ((h1.sub h2).congr_deriv ?_).congr_of_eventuallyEq ?_
    · simp only [itoCir]
      generalize 2 * thi 0 * thi 1 / thi 2 ^ 2 = a
      field_simp
      ring
    · refine Filter.Eventually.of_forall fun y => ?_
      simp [itoCir, div_eq_mul_inv]
  · have h1 := ((Real.hasDerivAt_sqrt hv.ne').const_mul 2).div_const (thi 2)
    refine h1.congr_deriv ?_
    simp only [itoCir]
    have := Real.sqrt_pos.2 hv
    field_simp
  · simp only [itoCir]
    have : 2 * Real.sqrt v / thi 2 * thi 2 / 2 = Real.sqrt v := by field_simp
    rw [this, Real.sq_sqrt hv.le]
  · simp only [itoCir]
    rw [Real.sqrt_sq (by positivity)]
    field_simp
  · have := Real.sqrt_pos.2 hv
    simp only [itoCir]
    positivity

theorem C61_switching_ou (thi : Thi 2) (y : ℕ) (x v : ℝ) :
    DriftOk (swOu.drift thi y) (swOu.sxDrift thi y) (swOu.dxDrift thi y) x ∧ ReduceOk swOu.reduce swOu.dereduce swOu.dvReduce v ∧
    swOu.reduce (swOu.dereduce x) = x := by
  refine ⟨driftOk_quad (thi y 0) x, ⟨?_, rfl⟩, rfl⟩
  exact (hasDerivAt_id v).congr_deriv (by simp [swOu])

theorem C61_switching_ou2 (thi : Thi 2) (y : ℕ) (x v : ℝ) :
    DriftOk (swOu2.drift thi y) (swOu2.sxDrift thi y) (swOu2.dxDrift thi y) x ∧ ReduceOk swOu2.reduce swOu2.dereduce swOu2.dvReduce v ∧
    swOu2.reduce (swOu2.dereduce x) = x := by
  refine ⟨driftOk_quad (thi y 0) x, ⟨?_, rfl⟩, rfl⟩
  exact (hasDerivAt_id v).congr_deriv (by simp [swOu2])

/-- In `ou3` the two companions belong to half the drift, and the reduction is consistent. -/
theorem C61_partial (thi : Thi 2) (y : ℕ) (x v : ℝ) :
    DriftOk (fun x => swOu3.drift thi y x / 2) (swOu3.sxDrift thi y) (swOu3.dxDrift thi y) x ∧
    ReduceOk swOu3.reduce swOu3.dereduce swOu3.dvReduce v ∧ swOu3.reduce (swOu3.dereduce x) = x := by
  refine ⟨?_, ⟨(hasDerivAt_id v).congr_deriv (by simp [swOu3]), rfl⟩, rfl⟩
  have h := driftOk_quad (thi y 0 * thi y 1 / 2) x
  constructor
  · refine (h.1.congr_deriv ?_).congr_of_eventuallyEq (Filter.Eventually.of_forall fun z => ?_)
    · simp only [swOu3]; ring
    · simp only [swOu3]; ring
  · refine (h.2.congr_deriv ?_).congr_of_eventuallyEq (Filter.Eventually.of_forall fun z => ?_)
    · simp only [swOu3]; ring
    · simp only [swOu3]; ring

/-- `ou3`, all non-zero parameters: `sx_eval_drift` is not an antiderivative of the drift at any `x ≠ 0`, `dx_eval_drift` is nowhere its
derivative. -/
theorem C61_violated {thi : Thi 2} {y : ℕ} (h : thi y 0 * thi y 1 ≠ 0) :
    (∀ x ≠ 0, ¬ HasDerivAt (swOu3.sxDrift thi y) (swOu3.drift thi y x) x) ∧
    ∀ x, ¬ HasDerivAt (swOu3.drift thi y) (swOu3.dxDrift thi y x) x := by
  constructor
  · intro x hx hd
    have := hd.unique (C61_partial thi y x 0).1.1
    simp only [swOu3] at this
    have h3 : thi y 0 * thi y 1 * x = 0 := by linarith
    exact (mul_ne_zero h hx) h3
  · intro x hd
    have := hd.unique (driftOk_quad (thi y 0 * thi y 1) x).2
    simp only [swOu3] at this
    apply h
    linarith

/-! ## C62 -/

/-- Seed values strictly between the bounds of `sample_raw_seed` are denormalised into the open state space, at every time. -/
theorem C62_inside {n : NormOp} (hs : 0 < n.scale) (hT : 0 < n.finT) (lb ub : Option ℝ) {s z : ℝ} (hs0 : 0 ≤ s) (hs1 : s ≤ 1)
    (hl : ∀ l, seedLb n lb = some l → l < z) (hu : ∀ u, seedUb n ub = some u → z < u) :
    ∃ x, (n.denorm s (some z)).2 = some x ∧ (∀ b, lb = some b → b < x) ∧ ∀ b, ub = some b → x < b := by
  refine ⟨_, rfl, ?_, ?_⟩
  · rintro b rfl
    have := hl _ rfl
    simp only [NormOp.norm, NormOp.denorm, Option.map_some, Option.getD_some, max_lt_iff, zero_mul, zero_div, one_mul,
      div_self hT.ne', div_lt_iff₀ hs] at this
    obtain ⟨h0, h1⟩ := this
    have h2 : (1 - s) * (b - n.x0 - 0) ≤ (1 - s) * (z * n.scale) := mul_le_mul_of_nonneg_left h0.le (by linarith)
    have h3 : s * (b - n.x0 - (n.x1 - n.x0)) ≤ s * (z * n.scale) := mul_le_mul_of_nonneg_left h1.le hs0
    rcases hs0.eq_or_lt with rfl | hs0
    · simp only [zero_mul, add_zero]; linarith
    · have h3 : s * (b - n.x0 - (n.x1 - n.x0)) < s * (z * n.scale) := mul_lt_mul_of_pos_left h1 hs0
      nlinarith
  · rintro b rfl
    have := hu _ rfl
    simp only [NormOp.norm, NormOp.denorm, Option.map_some, Option.getD_some, lt_min_iff, zero_mul, zero_div, one_mul,
      div_self hT.ne', lt_div_iff₀ hs] at this
    obtain ⟨h0, h1⟩ := this
    have h2 : (1 - s) * (z * n.scale) ≤ (1 - s) * (b - n.x0 - 0) := mul_le_mul_of_nonneg_left h0.le (by linarith)
    rcases hs0.eq_or_lt with rfl | hs0
    · simp only [zero_mul, add_zero]; linarith
    · have h3 : s * (z * n.scale) < s * (b - n.x0 - (n.x1 - n.x0)) := mul_lt_mul_of_pos_left h1 hs0
      nlinarith

/-- If the data lie inside the state space, the seed bounds are on either side of 0, where every seed starts and ends. -/
theorem C62_zero {n : NormOp} (hs : 0 < n.scale) (hT : 0 < n.finT) {lb ub : Option ℝ} (hl : ∀ b, lb = some b → b < n.x0 ∧ b < n.x1)
    (hu : ∀ b, ub = some b → n.x0 < b ∧ n.x1 < b) : (∀ l, seedLb n lb = some l → l < 0) ∧ ∀ u, seedUb n ub = some u → 0 < u := by
  constructor
  · intro l h
    rcases lb with _ | b
    · simp [seedLb] at h
    · obtain ⟨h1, h2⟩ := hl b rfl
      simp only [seedLb, Option.map_some, Option.some.injEq] at h
      subst h
      simp only [NormOp.norm, NormOp.denorm, Option.map_some, Option.getD_some, max_lt_iff, zero_mul, zero_div, one_mul,
        div_self hT.ne', div_lt_iff₀ hs]
      constructor <;> linarith
  · intro l h
    rcases ub with _ | b
    · simp [seedUb] at h
    · obtain ⟨h1, h2⟩ := hu b rfl
      simp only [seedUb, Option.map_some, Option.some.injEq] at h
      subst h
      simp only [NormOp.norm, NormOp.denorm, Option.map_some, Option.getD_some, lt_min_iff, zero_mul, zero_div, one_mul,
        div_self hT.ne', lt_div_iff₀ hs]
      constructor <;> linarith

/-- A positive state space: data 1 and 3, bounds `-1/2` and no upper bound. -/
example : seedLb ⟨4, 2, 1, 3⟩ (some 0) = some (-1 / 2) ∧ seedUb ⟨4, 2, 1, 3⟩ none = none := by
  constructor
  · simp only [seedLb, NormOp.norm, NormOp.denorm, Option.map_some, Option.getD_some]
    norm_num
  · rfl

/-! ## C55: the intensity dominates the gap -/

theorem C55_ito_bound {nil prime : Fin 2 → ℝ} (hn : ∀ i, 0 < nil i) (hp : ∀ i, 0 < prime i) {T v0 v1 lbz ubz s z : ℝ} (hT : 0 ≤ T)
    (hs0 : 0 ≤ s) (hs1 : s ≤ 1) (hz : z ∈ Set.uIcc lbz ubz) {n n' : NormOp} (h1 : itoNormops itoOu nil [0, T] [v0, v1] = [n])
    (h2 : itoNormops itoOu prime [0, T] [v0, v1] = [n']) {x x' : ℝ} (hx : (n.denorm s (some z)).2 = some x)
    (hx' : (n'.denorm s (some z)).2 = some x') :
    |itoOu.disc prime x' - itoOu.disc nil x| ≤ itoIntensity nil prime (itoOuGrad nil prime T v0 v1 lbz ubz) := by
  simp only [itoNormops, npDiff, List.map_cons, List.map_nil, List.tail_cons, List.zip_cons_cons, List.zip_nil_left, List.cons.injEq,
    and_true, sub_zero] at h1 h2
  subst h1 h2
  simp only [NormOp.denorm, Option.map_some, Option.some.injEq, itoOu] at hx hx'
  subst hx hx'
  have hw : |Real.sqrt T * z| ≤ Real.sqrt T * max |lbz| |ubz| :=
    abs_mul_le' (by rw [abs_of_nonneg (Real.sqrt_nonneg _)]) (abs_le_max hz)
  have hv := interp_mem (a := v0) (b := v1) hs0 hs1
  have hg := ouGap (hn 0) (hp 0) (hn 1) (hp 1) hw hv
  have hS : 0 < min (nil 1) (prime 1) := lt_min (hn 1) (hp 1)
  have hB : 0 < max (nil 0) (prime 0) := lt_max_of_lt_left (hn 0)
  have hZ : 0 ≤ max |lbz| |ubz| := (abs_nonneg _).trans (le_max_left _ _)
  have hV : 0 ≤ max |v0| |v1| := (abs_nonneg _).trans (le_max_left _ _)
  have hT2 : Real.sqrt T ^ 2 = T := Real.sq_sqrt hT
  refine (intensity_ge ?_ ?_).2
  · intro i
    fin_cases i <;> simp [itoOuGrad] <;> positivity
  · have e1 : itoOu.disc prime (z * Real.sqrt T + v0 / prime 1 + s * (v1 / prime 1 - v0 / prime 1)) =
        (prime 0 ^ 2 * (Real.sqrt T * z + (v0 + s * (v1 - v0)) / prime 1) ^ 2 - prime 0) / 2 := by
      simp only [ItoFns.disc, itoOu]; ring
    have e2 : itoOu.disc nil (z * Real.sqrt T + v0 / nil 1 + s * (v1 / nil 1 - v0 / nil 1)) =
        (nil 0 ^ 2 * (Real.sqrt T * z + (v0 + s * (v1 - v0)) / nil 1) ^ 2 - nil 0) / 2 := by
      simp only [ItoFns.disc, itoOu]; ring
    rw [e1, e2]
    refine hg.trans (le_of_eq ?_)
    simp only [itoOuGrad, Matrix.cons_val_zero, Matrix.cons_val_one]
    rw [add_sq, mul_pow, hT2]
    field_simp
    ring

theorem C55_ou_bound {nil prime : Thi 2} {y : ℕ} (hn : ∀ i, 0 < nil y i) (hp : ∀ i, 0 < prime y i) {T v0 v1 lbz ubz s z : ℝ}
    (hT : 0 ≤ T) (hs0 : 0 ≤ s) (hs1 : s ≤ 1) (hz : z ∈ Set.uIcc lbz ubz) {n n' : NormOp}
    (h1 : swNormops swOu nil [0, T] [y, y] [v0, v1] = [n]) (h2 : swNormops swOu prime [0, T] [y, y] [v0, v1] = [n']) {x x' : ℝ}
    (hx : (n.denorm s (some z)).2 = some x) (hx' : (n'.denorm s (some z)).2 = some x') :
    |swOu.disc prime y x' - swOu.disc nil y x| ≤ swIntensity (nil y) (prime y) (swOuGrad (nil y) (prime y) T v0 v1 lbz ubz) := by
  simp only [swNormops, npDiff, List.map_cons, List.map_nil, List.tail_cons, List.zip_cons_cons, List.zip_nil_left, List.cons.injEq,
    and_true, sub_zero, List.dropLast] at h1 h2
  subst h1 h2
  simp only [NormOp.denorm, Option.map_some, Option.some.injEq] at hx hx'
  subst hx hx'
  have hw : |Real.sqrt T * z| ≤ Real.sqrt T * max |lbz| |ubz| :=
    abs_mul_le' (by rw [abs_of_nonneg (Real.sqrt_nonneg _)]) (abs_le_max hz)
  have hv := interp_mem (a := v0) (b := v1) hs0 hs1
  have hg := ouGap1 (hn 0) (hp 0) (hn 1) (hp 1) hw hv
  have hB : 0 < max (nil y 0) (prime y 0) := lt_max_of_lt_left (hn 0)
  have hS : 0 < max (nil y 1) (prime y 1) := lt_max_of_lt_left (hn 1)
  have hZ : 0 ≤ max |lbz| |ubz| := (abs_nonneg _).trans (le_max_left _ _)
  have hV : 0 ≤ max |v0| |v1| := (abs_nonneg _).trans (le_max_left _ _)
  have hT2 : Real.sqrt T ^ 2 = T := Real.sq_sqrt hT
  have e1 : ∀ thi : Thi 2, (∀ i, 0 < thi y i) → swOu.disc thi y
      (z * (Real.sqrt T * swOu.vol thi y) + swOu.reduce v0 + s * (swOu.reduce v1 - swOu.reduce v0)) = (thi y 0 ^ 2 * (Real.sqrt T * z + (v0 + s * (v1 - v0)) * thi y 1) ^ 2 - thi y 0) / 2 := by
    intro thi h
    have h0 := (h 0).ne'
    have h1 := (h 1).ne'
    simp only [RegimeFns.disc, swOu]
    field_simp
    try ring
  refine (intensity_ge ?_ ?_).1
  · intro i
    fin_cases i <;> simp [swOuGrad] <;> positivity
  · rw [e1 nil hn, e1 prime hp]
    refine hg.trans (le_of_eq ?_)
    simp only [swOuGrad, Matrix.cons_val_zero, Matrix.cons_val_one]
    generalize Real.sqrt T = q at hT2
    subst hT2
    ring

theorem C55_ou2_bound {nil prime : Thi 2} {y : ℕ} (hn : ∀ i, 0 < nil y i) (hp : ∀ i, 0 < prime y i) {T v0 v1 lbz ubz s z : ℝ}
    (hT : 0 ≤ T) (hs0 : 0 ≤ s) (hs1 : s ≤ 1) (hz : z ∈ Set.uIcc lbz ubz) {n n' : NormOp}
    (h1 : swNormops swOu2 nil [0, T] [y, y] [v0, v1] = [n]) (h2 : swNormops swOu2 prime [0, T] [y, y] [v0, v1] = [n']) {x x' : ℝ}
    (hx : (n.denorm s (some z)).2 = some x) (hx' : (n'.denorm s (some z)).2 = some x') :
    |swOu2.disc prime y x' - swOu2.disc nil y x| ≤ swIntensity (nil y) (prime y) (swOu2Grad (nil y) (prime y) T v0 v1 lbz ubz) := by
  simp only [swNormops, npDiff, List.map_cons, List.map_nil, List.tail_cons, List.zip_cons_cons, List.zip_nil_left, List.cons.injEq,
    and_true, sub_zero, List.dropLast] at h1 h2
  subst h1 h2
  simp only [NormOp.denorm, Option.map_some, Option.some.injEq] at hx hx'
  subst hx hx'
  have hw : |Real.sqrt T * z| ≤ Real.sqrt T * max |lbz| |ubz| :=
    abs_mul_le' (by rw [abs_of_nonneg (Real.sqrt_nonneg _)]) (abs_le_max hz)
  have hv := interp_mem (a := v0) (b := v1) hs0 hs1
  have hg := ouGap2 (hn 0) (hp 0) (hn 1) (hp 1) hw hv
  have hB : 0 < max (nil y 0) (prime y 0) := lt_max_of_lt_left (hn 0)
  have hS : 0 < max (nil y 1) (prime y 1) := lt_max_of_lt_left (hn 1)
  have hZ : 0 ≤ max |lbz| |ubz| := (abs_nonneg _).trans (le_max_left _ _)
  have hV : 0 ≤ max |v0| |v1| := (abs_nonneg _).trans (le_max_left _ _)
  have hT2 : Real.sqrt T ^ 2 = T := Real.sq_sqrt hT
  have e1 : ∀ thi : Thi 2, (∀ i, 0 < thi y i) → swOu2.disc thi y
      (z * (Real.sqrt T * swOu2.vol thi y) + swOu2.reduce v0 + s * (swOu2.reduce v1 - swOu2.reduce v0)) = ((thi y 0 * (Real.sqrt T * z) + (v0 + s * (v1 - v0)) * thi y 1) ^ 2 - thi y 0) / 2 := by
    intro thi h
    have h0 := (h 0).ne'
    have h1 := (h 1).ne'
    simp only [RegimeFns.disc, swOu2]
    field_simp
    try ring
  refine (intensity_ge ?_ ?_).1
  · intro i
    fin_cases i <;> simp [swOu2Grad] <;> positivity
  · rw [e1 nil hn, e1 prime hp]
    refine hg.trans (le_of_eq ?_)
    simp only [swOu2Grad, Matrix.cons_val_zero, Matrix.cons_val_one]
    generalize Real.sqrt T = q at hT2
    subst hT2
    ring

theorem C55_ou3_bound {nil prime : Thi 2} {y : ℕ} (hn : ∀ i, 0 < nil y i) (hp : ∀ i, 0 < prime y i) {T v0 v1 lbz ubz s z : ℝ}
    (hT : 0 ≤ T) (hs0 : 0 ≤ s) (hs1 : s ≤ 1) (hz : z ∈ Set.uIcc lbz ubz) {n n' : NormOp}
    (h1 : swNormops swOu3 nil [0, T] [y, y] [v0, v1] = [n]) (h2 : swNormops swOu3 prime [0, T] [y, y] [v0, v1] = [n']) {x x' : ℝ}
    (hx : (n.denorm s (some z)).2 = some x) (hx' : (n'.denorm s (some z)).2 = some x') :
    |swOu3.disc prime y x' - swOu3.disc nil y x| ≤ swIntensity (nil y) (prime y) (swOu3Grad (nil y) (prime y) T v0 v1 lbz ubz) := by
  simp only [swNormops, npDiff, List.map_cons, List.map_nil, List.tail_cons, List.zip_cons_cons, List.zip_nil_left, List.cons.injEq,
    and_true, sub_zero, List.dropLast] at h1 h2
  subst h1 h2
  simp only [NormOp.denorm, Option.map_some, Option.some.injEq] at hx hx'
  subst hx hx'
  have hw : |Real.sqrt T * z| ≤ Real.sqrt T * max |lbz| |ubz| :=
    abs_mul_le' (by rw [abs_of_nonneg (Real.sqrt_nonneg _)]) (abs_le_max hz)
  have hv := interp_mem (a := v0) (b := v1) hs0 hs1
  have hg := ouGap3 (hn 0) (hp 0) (hn 1) (hp 1) hw hv
  have hB : 0 < max (nil y 0) (prime y 0) := lt_max_of_lt_left (hn 0)
  have hS : 0 < max (nil y 1) (prime y 1) := lt_max_of_lt_left (hn 1)
  have hZ : 0 ≤ max |lbz| |ubz| := (abs_nonneg _).trans (le_max_left _ _)
  have hV : 0 ≤ max |v0| |v1| := (abs_nonneg _).trans (le_max_left _ _)
  have hT2 : Real.sqrt T ^ 2 = T := Real.sq_sqrt hT
  have e1 : ∀ thi : Thi 2, (∀ i, 0 < thi y i) → swOu3.disc thi y
      (z * (Real.sqrt T * swOu3.vol thi y) + swOu3.reduce v0 + s * (swOu3.reduce v1 - swOu3.reduce v0)) = (thi y 1 ^ 2 * (thi y 0 * (Real.sqrt T * z) + (v0 + s * (v1 - v0))) ^ 2 - thi y 0 * thi y 1 / 2) / 2 := by
    intro thi h
    have h0 := (h 0).ne'
    have h1 := (h 1).ne'
    simp only [RegimeFns.disc, swOu3]
    field_simp
    try ring
  refine (intensity_ge ?_ ?_).1
  · intro i
    fin_cases i <;> simp [swOu3Grad] <;> positivity
  · rw [e1 nil hn, e1 prime hp]
    refine hg.trans (le_of_eq ?_)
    simp only [swOu3Grad, Matrix.cons_val_zero, Matrix.cons_val_one]
    generalize Real.sqrt T = q at hT2
    subst hT2
    ring

/-- The bound at a time and a seed value inside the band, for two parameters of the Ornstein-Uhlenbeck model. -/
example : ∃ x x' : ℝ, |itoOu.disc ![2, 1 / 2] x' - itoOu.disc ![1, 1] x| ≤ itoIntensity ![1, 1] ![2, 1 / 2] (itoOuGrad ![1, 1] ![2, 1 / 2] 4 (-1) 1 (-2) 1) :=
  ⟨_, _, C55_ito_bound (s := 1 / 4) (z := -1) (by intro i; fin_cases i <;> norm_num) (by intro i; fin_cases i <;> norm_num) (by norm_num) (by norm_num)
    (by norm_num) (by rw [Set.mem_uIcc]; norm_num) rfl rfl rfl rfl⟩

example : ∃ x x' : ℝ, |swOu3.disc (fun _ => ![2, 1 / 2]) 0 x' - swOu3.disc (fun _ => ![1, 1]) 0 x| ≤
    swIntensity ![1, 1] ![2, 1 / 2] (swOu3Grad ![1, 1] ![2, 1 / 2] 4 (-1) 1 (-2) 1) :=
  ⟨_, _, C55_ou3_bound (nil := fun _ => ![1, 1]) (prime := fun _ => ![2, 1 / 2]) (y := 0) (s := 1 / 4) (z := -1)
    (by intro i; fin_cases i <;> norm_num) (by intro i; fin_cases i <;> norm_num) (by norm_num) (by norm_num)
    (by norm_num) (by rw [Set.mem_uIcc]; norm_num) rfl rfl rfl rfl⟩

/-! ## C77: `eval_grad` -/

/-- The discriminant of the OU model at time `t` on the path with seed value `z`, as a function of the parameters `(b, g)`. -/
noncomputable def ouDiscAt (finT v0 v1 t z b g : ℝ) : ℝ :=
  itoOu.disc ![b, g] (z * Real.sqrt finT + v0 / g + t / finT * (v1 / g - v0 / g))

/-- The second component of `eval_grad` is the derivative in the volatility; the first is the derivative in the mean reversion, minus one
half. -/
theorem C77_partial {thi : Fin 2 → ℝ} (h1 : thi 1 ≠ 0) {finT : ℝ} (hT : 0 ≤ finT) (v0 v1 t z : ℝ) :
    HasDerivAt (fun g => ouDiscAt finT v0 v1 t z (thi 0) g) (itoOuEvalGrad thi finT v0 v1 t z 1) (thi 1) ∧
    HasDerivAt (fun b => ouDiscAt finT v0 v1 t z b (thi 1)) (itoOuEvalGrad thi finT v0 v1 t z 0 + 1 / 2) (thi 0) := by
  have hT2 : Real.sqrt finT ^ 2 = finT := Real.sq_sqrt hT
  have e : ∀ b g, ouDiscAt finT v0 v1 t z b g =
      (b ^ 2 * (z * Real.sqrt finT + ((1 - t / finT) * v0 + t / finT * v1) * g⁻¹) ^ 2 - b) / 2 := by
    intro b g
    simp only [ouDiscAt, ItoFns.disc, itoOu, Matrix.cons_val_zero, Matrix.cons_val_one, div_eq_mul_inv]
    ring
  simp only [e]
  constructor
  · have h := ((((((hasDerivAt_inv h1).const_mul ((1 - t / finT) * v0 + t / finT * v1)).const_add (z * Real.sqrt finT)).pow 2).const_mul
      (thi 0 ^ 2)).sub_const (thi 0)).div_const 2
    refine h.congr_deriv ?_
    simp only [itoOuEvalGrad, Matrix.cons_val_one, Matrix.cons_val_zero]
    generalize (1 - t / finT) * v0 + t / finT * v1 = v
    simp only [Nat.cast_ofNat, Nat.add_one_sub_one, pow_one, show 2 - 1 = 1 from rfl]
    field_simp
    try ring
  · have h := (((hasDerivAt_pow 2 (thi 0)).mul_const
      ((z * Real.sqrt finT + ((1 - t / finT) * v0 + t / finT * v1) * (thi 1)⁻¹) ^ 2)).sub (hasDerivAt_id (thi 0))).div_const 2
    refine h.congr_deriv ?_
    simp only [itoOuEvalGrad, Matrix.cons_val_zero]
    generalize (1 - t / finT) * v0 + t / finT * v1 = v
    generalize Real.sqrt finT = q at hT2
    subst hT2
    simp only [Nat.cast_ofNat]
    field_simp
    ring

/-- Hence the first component is never the derivative. -/
theorem C77_violated {thi : Fin 2 → ℝ} (h1 : thi 1 ≠ 0) {finT : ℝ} (hT : 0 ≤ finT) (v0 v1 t z : ℝ) :
    ¬ HasDerivAt (fun b => ouDiscAt finT v0 v1 t z b (thi 1)) (itoOuEvalGrad thi finT v0 v1 t z 0) (thi 0) := by
  intro h
  have := h.unique (C77_partial h1 hT v0 v1 t z).2
  linarith

/-- The discriminant of the CIR model on the path with seed value `z`, as a function of the mean reversion. -/
noncomputable def cirDiscAt (thi : Fin 3 → ℝ) (finT v0 v1 t z b : ℝ) : ℝ :=
  itoCir.disc ![b, thi 1, thi 2] (z * Real.sqrt finT + itoCir.reduce ![b, thi 1, thi 2] v0 +
    t / finT * (itoCir.reduce ![b, thi 1, thi 2] v1 - itoCir.reduce ![b, thi 1, thi 2] v0))

/-- The derivative in the mean reversion of the CIR model where the path is positive.  `eval_grad` of that model is zero. -/
theorem C77_cir {thi : Fin 3 → ℝ} {finT v0 v1 t z x : ℝ}
    (hx : x = z * Real.sqrt finT + 2 * Real.sqrt v0 / thi 2 + t / finT * (2 * Real.sqrt v1 / thi 2 - 2 * Real.sqrt v0 / thi 2))
    (hx0 : 0 < x) (h2 : 0 < thi 2) :
    HasDerivAt (cirDiscAt thi finT v0 v1 t z)
      (thi 0 * (x / 2 - 2 * thi 1 / (thi 2 ^ 2 * x)) ^ 2 - 2 * thi 1 / (thi 2 ^ 2 * x ^ 2)) (thi 0) := by
  have e : cirDiscAt thi finT v0 v1 t z = fun b =>
      ((b * (x / 2 - 2 * thi 1 / (thi 2 ^ 2 * x)) + 1 / (2 * x)) ^ 2 + (1 / 2 / x ^ 2 - b * (2 * thi 1 / (thi 2 ^ 2 * x ^ 2) + 1 / 2))) / 2 := by
    funext b
    have : z * Real.sqrt finT + itoCir.reduce ![b, thi 1, thi 2] v0 +
      t / finT * (itoCir.reduce ![b, thi 1, thi 2] v1 - itoCir.reduce ![b, thi 1, thi 2] v0) = x := by
      rw [hx]; simp [itoCir]
    rw [cirDiscAt, this]
    simp only [ItoFns.disc, itoCir, Matrix.cons_val_zero, Matrix.cons_val_one, Matrix.cons_val]
    field_simp
    ring
  rw [e]
  have h := ((((((hasDerivAt_id (thi 0)).mul_const (x / 2 - 2 * thi 1 / (thi 2 ^ 2 * x))).add_const (1 / (2 * x))).pow 2).add
    (((hasDerivAt_id (thi 0)).mul_const (2 * thi 1 / (thi 2 ^ 2 * x ^ 2) + 1 / 2)).const_sub (1 / 2 / x ^ 2)))).div_const 2
  refine h.congr_deriv ?_
  simp only [Nat.cast_ofNat, id, show 2 - 1 = 1 from rfl, pow_one]
  field_simp
  ring

/-- The CIR model's `eval_grad` is not the derivative. -/
theorem C77_cir_violated : ∃ (thi : Fin 3 → ℝ) (finT v0 v1 t z : ℝ), (∀ i, 0 < thi i) ∧ 0 < finT ∧ 0 < v0 ∧ 0 < v1 ∧ 0 ≤ t ∧ t ≤ finT ∧
    ¬ HasDerivAt (cirDiscAt thi finT v0 v1 t z) (itoCirEvalGrad thi finT v0 v1 t z 0) (thi 0) := by
  refine ⟨fun _ => 1, 1, 1 / 4, 1 / 4, 1 / 2, 0, fun _ => one_pos, one_pos, by norm_num, by norm_num, by norm_num, by norm_num, fun h => ?_⟩
  have hs : Real.sqrt (1 / 4) = 1 / 2 := by rw [show (1 / 4 : ℝ) = (1 / 2) ^ 2 by norm_num]; exact Real.sqrt_sq (by norm_num)
  have := h.unique (C77_cir (x := 1) (by rw [hs]; norm_num) one_pos one_pos)
  norm_num [itoCirEvalGrad] at this

example : HasDerivAt (fun g => ouDiscAt 4 (-1) 1 1 2 1 g) (itoOuEvalGrad ![1, 3] 4 (-1) 1 1 2 1) 3 :=
  (C77_partial (thi := ![1, 3]) (by norm_num) (by norm_num) (-1) 1 1 2).1

end Ctb
