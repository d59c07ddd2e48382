import Verif.Lemmas.Ars
import Mathlib.MeasureTheory.Integral.IntervalIntegral.FundThmCalculus

set_option linter.unusedSectionVars false

namespace Ctb

open MeasureTheory Set

/-! ## One piece -/

theorem suppC_coe (p q : ℝ) : suppC (p : EReal) (q : EReal) = Ioc p q := by
  ext t; simp [suppC]

theorem suppC_bot (q : ℝ) : suppC ⊥ (q : EReal) = Iic q := by
  ext t; simp [suppC]

theorem suppC_top (p : ℝ) : suppC (p : EReal) ⊤ = Ioi p := by
  ext t; simp [suppC]

theorem envVol_coe {off a fa d : ℝ} (hd : d ≠ 0) (q : ℝ) : envVol off a fa d (q : EReal) = .ok (Real.exp (d * (q - a) + fa - off) / d) := by
  simp [envVol, hd]

/-- The integral of the exponential of a tangent between two breakpoints. -/
theorem expPiece {off a fa d lo hi : ℝ} {y y' : EReal} (h1 : envVol off a fa d y = .ok lo) (h2 : envVol off a fa d y' = .ok hi)
    (hle : y ≤ y') : IntegrableOn (fun t => Real.exp (fa + (t - a) * d)) (suppC y y') ∧
      ∫ t in suppC y y', Real.exp (fa + (t - a) * d) = Real.exp off * (hi - lo) := by
  have hd : d ≠ 0 := by
    rintro rfl; simp [envVol] at h1
  have e0 : ∀ t, Real.exp (fa + (t - a) * d) = Real.exp (fa - a * d) * Real.exp (d * t) := by
    intro t; rw [← Real.exp_add]; congr 1; ring
  have eoff : ∀ q, Real.exp off * (Real.exp (d * (q - a) + fa - off) / d) = Real.exp (fa - a * d) * Real.exp (d * q) / d := by
    intro q
    rw [← mul_div_assoc, ← Real.exp_add, ← Real.exp_add]
    congr 2; ring
  simp only [e0]
  induction y using EReal.rec with
  | bot =>
    simp only [envVol, hd, if_false, if_true] at h1
    split_ifs at h1 with hp
    simp only [Except.ok.injEq] at h1
    subst h1
    induction y' using EReal.rec with
    | bot =>
      simp only [envVol, hd, if_false, if_true, hp, Except.ok.injEq] at h2
      subst h2
      have : suppC ⊥ ⊥ = ∅ := by ext t; simp [suppC]
      simp [this]
    | top =>
      simp only [envVol, hd, if_false, if_true] at h2
      simp only [top_ne_bot, if_false] at h2
      rw [if_neg (by linarith)] at h2
      simp at h2
    | coe q =>
      rw [envVol_coe hd] at h2
      simp only [Except.ok.injEq] at h2
      subst h2
      rw [suppC_bot, sub_zero, eoff]
      refine ⟨(integrableOn_exp_mul_Iic hp q).const_mul _, ?_⟩
      rw [integral_const_mul, integral_exp_mul_Iic hp, mul_div_assoc]
  | top =>
    have : y' = ⊤ := top_le_iff.1 hle
    subst this
    rw [h1] at h2
    simp only [Except.ok.injEq] at h2
    subst h2
    have : suppC ⊤ ⊤ = ∅ := by ext t; simp [suppC]
    simp [this]
  | coe p =>
    rw [envVol_coe hd] at h1
    simp only [Except.ok.injEq] at h1
    subst h1
    induction y' using EReal.rec with
    | bot => simp at hle
    | top =>
      simp only [envVol, hd, if_false, if_true, top_ne_bot] at h2
      split_ifs at h2 with hn
      simp only [Except.ok.injEq] at h2
      subst h2
      rw [suppC_top, mul_sub, mul_zero, zero_sub, eoff]
      refine ⟨(integrableOn_exp_mul_Ioi hn p).const_mul _, ?_⟩
      rw [integral_const_mul, integral_exp_mul_Ioi hn]; ring
    | coe q =>
      rw [envVol_coe hd] at h2
      simp only [Except.ok.injEq] at h2
      subst h2
      rw [suppC_coe, mul_sub, eoff, eoff]
      have hpq : p ≤ q := EReal.coe_le_coe_iff.1 hle
      have hc : Continuous fun t => Real.exp (fa - a * d) * Real.exp (d * t) := by fun_prop
      refine ⟨(hc.intervalIntegrable p q).1, ?_⟩
      rw [← intervalIntegral.integral_of_le hpq]
      rw [intervalIntegral.integral_eq_sub_of_hasDerivAt (f := fun t => Real.exp (fa - a * d) * Real.exp (d * t) / d)]
      · intro t _
        have : HasDerivAt (fun t => Real.exp (d * t)) (Real.exp (d * t) * d) t := by
          simpa using ((hasDerivAt_id t).const_mul d).exp
        refine ((this.const_mul (Real.exp (fa - a * d))).div_const d).congr_deriv ?_
        rw [← mul_assoc, mul_div_assoc, div_self hd, mul_one]
      · exact hc.intervalIntegrable p q

/-! ## Lists -/

theorem listOk_ok {α : Type} {l : List (Res α)} {as : List α} (h : listOk l = .ok as) :
    as.length = l.length ∧ ∀ (k : ℕ) (hk : k < l.length) (hk' : k < as.length), l[k] = .ok as[k] := by
  induction l generalizing as with
  | nil => simp only [listOk, Except.ok.injEq] at h; subst h; simp
  | cons r l ih =>
    unfold listOk at h
    rcases r with e | a
    · simp [Except.bind] at h
    · rcases hl : listOk l with e | bs
      · rw [hl] at h; simp [Except.bind] at h
      · rw [hl] at h
        simp only [Except.bind, Except.ok.injEq] at h
        subst h
        obtain ⟨h1, h2⟩ := ih hl
        refine ⟨by simp [h1], ?_⟩
        intro k hk hk'
        rcases k with _ | k
        · rfl
        · simpa using h2 k (by simpa using hk) (by simpa using hk')

theorem listOk_total {α : Type} {l : List (Res α)} (h : ∀ r ∈ l, ∃ a, r = .ok a) : ∃ as, listOk l = .ok as := by
  induction l with
  | nil => exact ⟨[], rfl⟩
  | cons r l ih =>
    obtain ⟨a, rfl⟩ := h r (by simp)
    obtain ⟨as, has⟩ := ih fun r hr => h r (by simp [hr])
    exact ⟨a :: as, by simp [listOk, has, Except.bind]⟩

theorem cumsum_get (l : List ℝ) (acc : ℝ) : (acc :: cumsumFrom acc l).length = l.length + 1 ∧
    ∀ (k : ℕ) (hk : k < (acc :: cumsumFrom acc l).length), (acc :: cumsumFrom acc l)[k] = acc + (l.take k).sum := by
  induction l generalizing acc with
  | nil => simp [cumsumFrom]
  | cons a l ih =>
    obtain ⟨h1, h2⟩ := ih (acc + a)
    refine ⟨by simp only [cumsumFrom, List.length_cons] at h1 ⊢; omega, ?_⟩
    intro k hk
    rcases k with _ | k
    · simp
    · have := h2 k (by simpa [cumsumFrom] using hk)
      simp only [cumsumFrom, List.getElem_cons_succ, List.take_succ_cons, List.sum_cons]
      rw [this]; ring

/-! ## The volume as a function of the breakpoint -/

/-- `exp(d (r - a) + fa - off) / d` -/
noncomputable def vol (off a fa d r : ℝ) : ℝ := Real.exp (d * (r - a) + fa - off) / d

theorem vol_strictMono {off a fa d : ℝ} (hd : d ≠ 0) : StrictMono (vol off a fa d) := by
  intro r s hrs
  unfold vol
  rcases lt_or_gt_of_ne hd with h | h
  · rw [div_lt_div_right_of_neg h, Real.exp_lt_exp]; nlinarith
  · rw [div_lt_div_iff_of_pos_right h, Real.exp_lt_exp]; nlinarith

theorem vol_lt {off a fa d lo : ℝ} {y : EReal} (h : envVol off a fa d y = .ok lo) (r : ℝ) :
    (lo < vol off a fa d r ↔ y < (r : EReal)) ∧ (vol off a fa d r < lo ↔ (r : EReal) < y) := by
  have hd : d ≠ 0 := by
    rintro rfl; simp [envVol] at h
  induction y using EReal.rec with
  | bot =>
    simp only [envVol, hd, if_false, if_true] at h
    split_ifs at h with hp
    simp only [Except.ok.injEq] at h
    subst h
    have : 0 < vol off a fa d r := div_pos (Real.exp_pos _) hp
    exact ⟨⟨fun _ => EReal.bot_lt_coe r, fun _ => this⟩, ⟨fun h => absurd h (not_lt.2 this.le), fun h => absurd h not_lt_bot⟩⟩
  | top =>
    simp only [envVol, hd, if_false, if_true, top_ne_bot] at h
    split_ifs at h with hn
    simp only [Except.ok.injEq] at h
    subst h
    have : vol off a fa d r < 0 := div_neg_of_pos_of_neg (Real.exp_pos _) hn
    exact ⟨⟨fun h => absurd h (not_lt.2 this.le), fun h => absurd h not_top_lt⟩, ⟨fun _ => EReal.coe_lt_top r, fun _ => this⟩⟩
  | coe q =>
    rw [envVol_coe hd] at h
    simp only [Except.ok.injEq] at h
    subst h
    change (vol off a fa d q < _ ↔ _) ∧ (_ < vol off a fa d q ↔ _)
    rw [(vol_strictMono hd).lt_iff_lt, (vol_strictMono hd).lt_iff_lt, EReal.coe_lt_coe_iff, EReal.coe_lt_coe_iff]
    exact ⟨Iff.rfl, Iff.rfl⟩

theorem vol_mono {off a fa d lo hi : ℝ} {y y' : EReal} (h : envVol off a fa d y = .ok lo) (h' : envVol off a fa d y' = .ok hi)
    (hlt : y < y') : lo < hi := by
  obtain ⟨r, h1, h2⟩ := EReal.lt_iff_exists_real_btwn.1 hlt
  exact ((vol_lt h r).1.2 h1).trans ((vol_lt h' r).2.2 h2)

/-- Values strictly between the volumes of two breakpoints are volumes. -/
theorem vol_surj {off a fa d lo hi s : ℝ} {y y' : EReal} (h : envVol off a fa d y = .ok lo) (h' : envVol off a fa d y' = .ok hi)
    (h1 : lo < s) (h2 : s ≤ hi) (h3 : y' = ⊤ → s < hi) :
    0 < s * d ∧ vol off a fa d (a + (Real.log (s * d) - fa + off) / d) = s := by
  have hd : d ≠ 0 := by
    rintro rfl; simp [envVol] at h
  have hpos : 0 < s * d := by
    rcases lt_or_gt_of_ne hd with hn | hp
    · refine mul_pos_of_neg_of_neg ?_ hn
      induction y' using EReal.rec with
      | bot => simp only [envVol, hd, if_false, if_true] at h'; rw [if_neg (by linarith)] at h'; simp at h'
      | top =>
        simp only [envVol, hd, if_false, if_true, top_ne_bot, hn, Except.ok.injEq] at h'
        subst h'; exact h3 rfl
      | coe q =>
        rw [envVol_coe hd] at h'
        simp only [Except.ok.injEq] at h'
        subst h'
        exact lt_of_le_of_lt h2 (div_neg_of_pos_of_neg (Real.exp_pos _) hn)
    · refine mul_pos ?_ hp
      induction y using EReal.rec with
      | bot =>
        simp only [envVol, hd, if_false, if_true, hp, Except.ok.injEq] at h
        subst h; exact h1
      | top =>
        simp only [envVol, hd, if_false, if_true, top_ne_bot] at h; rw [if_neg (by linarith)] at h; simp at h
      | coe q =>
        rw [envVol_coe hd] at h
        simp only [Except.ok.injEq] at h
        subst h
        exact lt_trans (div_pos (Real.exp_pos _) hp) h1
  refine ⟨hpos, ?_⟩
  unfold vol
  have : d * (a + (Real.log (s * d) - fa + off) / d - a) + fa - off = Real.log (s * d) := by
    field_simp; ring
  rw [this, Real.exp_log hpos, mul_div_assoc, div_self hd, mul_one]

/-! ## The whole envelope -/

section
variable {f df : ℝ → ℝ} {H : Hull} {lb ub : EReal} {y : List EReal}

theorem hullRows_get {S : Set ℝ} (hH : H.Ok f df S) : (hullRows H.x H.fx H.dfx).length = H.x.length ∧
    ∀ (k : ℕ) (hk : k < (hullRows H.x H.fx H.dfx).length) (hk' : k < H.x.length),
      (hullRows H.x H.fx H.dfx)[k] = (H.x[k], f H.x[k], df H.x[k]) := by
  refine ⟨by simp [hullRows, hH.fx, hH.dfx], ?_⟩
  intro k hk hk'
  simp [hullRows, hH.fx, hH.dfx]

theorem suppC_union {p q r : EReal} (h1 : p ≤ q) (h2 : q ≤ r) : suppC p r = suppC p q ∪ suppC q r ∧ Disjoint (suppC p q) (suppC q r) := by
  constructor
  · ext t
    simp only [suppC, mem_setOf_eq, mem_union]
    constructor
    · rintro ⟨a, b⟩
      rcases le_or_gt (t : EReal) q with h | h
      · exact .inl ⟨a, h⟩
      · exact .inr ⟨h, b⟩
    · rintro (⟨a, b⟩ | ⟨a, b⟩)
      · exact ⟨a, b.trans h2⟩
      · exact ⟨h1.trans_lt a, b⟩
  · rw [Set.disjoint_left]
    rintro t ⟨-, h⟩ ⟨h', -⟩
    exact absurd h' (not_lt.2 h)

theorem measurableSet_suppC (p q : EReal) : MeasurableSet (suppC p q) := by
  have : suppC p q = Real.toEReal ⁻¹' (Ioc p q) := rfl
  rw [this]
  exact measurable_coe_real_ereal measurableSet_Ioc

/-- On a sub-interval of sector `k` the hull integrates to a difference of volumes. -/
theorem sector_integral (hf : ConcaveDiff f df (supp lb ub)) (hH : H.Ok f df (supp lb ub)) (hy : BreaksOk H f df lb ub y)
    {U : ℝ → ℝ} (hU : ∀ t ∈ suppC lb ub, IsUpperHull f df H.x t (U t)) {k : ℕ} (hk : k < H.x.length) (hk' : k + 1 < y.length)
    {off lo hi : ℝ} {e : EReal} (h1 : envVol off H.x[k] (f H.x[k]) (df H.x[k]) y[k] = .ok lo)
    (h2 : envVol off H.x[k] (f H.x[k]) (df H.x[k]) e = .ok hi) (he : y[k] ≤ e) (he' : e ≤ y[k + 1]) :
    IntegrableOn (fun t => Real.exp (U t)) (suppC y[k] e) ∧ ∫ t in suppC y[k] e, Real.exp (U t) = Real.exp off * (hi - lo) := by
  obtain ⟨g1, g2⟩ := expPiece h1 h2 he
  have hlen := hy.len
  have hso := List.pairwise_iff_getElem.1 (hy.sorted hf hH)
  have eq : EqOn (fun t => Real.exp (f H.x[k] + (t - H.x[k]) * df H.x[k])) (fun t => Real.exp (U t)) (suppC y[k] e) := by
    rintro t ⟨t1, t2⟩
    simp only
    congr 1
    have hlb : lb ≤ y[k] := by
      rcases k with _ | k
      · rw [hy.first]
      · rw [← hy.first (by omega)]; exact hso 0 (k + 1) (by omega) (by omega) (by omega)
    have hub : y[k + 1] ≤ ub := by
      by_cases h : k + 1 = H.x.length
      · have := hy.last (by omega)
        simp only [h]; exact this.le
      · rw [← hy.last (by omega)]; exact hso (k + 1) H.x.length (by omega) (by omega) (by omega)
    exact (tangent_least hf hH hy hk hk' t1.le (t2.trans he')).unique (hU t ⟨hlb.trans_lt t1, (t2.trans he').trans hub⟩)
  constructor
  · exact (integrableOn_congr_fun eq (measurableSet_suppC _ _)).1 g1
  · rw [← g2]; exact (setIntegral_congr_fun (measurableSet_suppC _ _) eq).symm

/-- Integral of the hull up to the `k`-th breakpoint. -/
theorem prefix_integral (hf : ConcaveDiff f df (supp lb ub)) (hH : H.Ok f df (supp lb ub)) (hy : BreaksOk H f df lb ub y)
    {U : ℝ → ℝ} (hU : ∀ t ∈ suppC lb ub, IsUpperHull f df H.x t (U t)) {off : ℝ} {lo hi : List ℝ} (l1 : lo.length = H.x.length)
    (l2 : hi.length = H.x.length)
    (hlo : ∀ (k : ℕ) (a : k < H.x.length) (b : k < y.length) (c : k < lo.length), envVol off H.x[k] (f H.x[k]) (df H.x[k]) y[k] = .ok lo[k])
    (hhi : ∀ (k : ℕ) (a : k < H.x.length) (b : k + 1 < y.length) (c : k < hi.length),
      envVol off H.x[k] (f H.x[k]) (df H.x[k]) y[k + 1] = .ok hi[k]) :
    ∀ (k : ℕ) (hk : k < y.length), IntegrableOn (fun t => Real.exp (U t)) (suppC lb y[k]) ∧
      ∫ t in suppC lb y[k], Real.exp (U t) = Real.exp off * ((List.zipWith (· - ·) hi lo).take k).sum := by
  have hlen := hy.len
  have hso := List.pairwise_iff_getElem.1 (hy.sorted hf hH)
  intro k
  induction k with
  | zero =>
    intro hk
    have : suppC lb y[0] = ∅ := by
      rw [hy.first]; ext t; simp only [suppC, mem_setOf_eq, mem_empty_iff_false, iff_false, not_and, not_le]; exact id
    simp [this]
  | succ k ih =>
    intro hk
    obtain ⟨i1, i2⟩ := ih (by omega)
    have hkx : k < H.x.length := by omega
    have hstep := hso k (k + 1) (by omega) hk (by omega)
    obtain ⟨s1, s2⟩ := sector_integral hf hH hy hU hkx hk (hlo k hkx (by omega) (by omega)) (hhi k hkx hk (by omega)) hstep le_rfl
    have hlb : lb ≤ y[k] := by
      rcases k with _ | k
      · rw [hy.first]
      · rw [← hy.first (by omega)]; exact hso 0 (k + 1) (by omega) (by omega) (by omega)
    obtain ⟨u1, u2⟩ := suppC_union hlb hstep
    rw [u1]
    refine ⟨i1.union s1, ?_⟩
    rw [setIntegral_union u2 (measurableSet_suppC _ _) i1 s1, i2, s2, ← mul_add]
    congr 1
    have hlz : k < (List.zipWith (· - ·) hi lo).length := by simp; omega
    rw [List.take_succ_eq_append_getElem hlz, List.sum_append]
    simp

end

end Ctb
