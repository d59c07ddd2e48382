import Verif.Lemmas.ArsEnvelope

set_option linter.unusedSectionVars false

/-! # The envelope draw of adaptive rejection sampling -/

namespace Ctb

open Set MeasureTheory

section
variable {f df : ℝ → ℝ} {H : Hull} {lb ub : EReal} {y : List EReal}

theorem volHi_get (hH : H.Ok f df (supp lb ub)) (hlen : y.length = H.x.length + 1) {off : ℝ} {hi : List ℝ}
    (h : listOk (((hullRows H.x H.fx H.dfx).zip y.tail).map fun q => envVol off q.1.1 q.1.2.1 q.1.2.2 q.2) = .ok hi) :
    hi.length = H.x.length ∧ ∀ (k : ℕ) (a : k < H.x.length) (b : k + 1 < y.length) (c : k < hi.length),
      envVol off H.x[k] (f H.x[k]) (df H.x[k]) y[k + 1] = .ok hi[k] := by
  obtain ⟨r1, r2⟩ := hullRows_get hH
  obtain ⟨h1, h2⟩ := listOk_ok h
  have hl : hi.length = H.x.length := by rw [h1]; simp [r1, hlen]
  refine ⟨hl, fun k a b c => ?_⟩
  have := h2 k (by simp [r1, hlen]; omega) c
  rw [← this]
  simp [r2 k (by omega) a]

theorem volLo_get (hH : H.Ok f df (supp lb ub)) (hlen : y.length = H.x.length + 1) {off : ℝ} {lo : List ℝ}
    (h : listOk (((hullRows H.x H.fx H.dfx).zip y.dropLast).map fun q => envVol off q.1.1 q.1.2.1 q.1.2.2 q.2) = .ok lo) :
    lo.length = H.x.length ∧ ∀ (k : ℕ) (a : k < H.x.length) (b : k < y.length) (c : k < lo.length),
      envVol off H.x[k] (f H.x[k]) (df H.x[k]) y[k] = .ok lo[k] := by
  obtain ⟨r1, r2⟩ := hullRows_get hH
  obtain ⟨h1, h2⟩ := listOk_ok h
  have hl : lo.length = H.x.length := by rw [h1]; simp [r1, hlen]
  refine ⟨hl, fun k a b c => ?_⟩
  have := h2 k (by simp [r1, hlen]; omega) c
  rw [← this]
  simp [r2 k (by omega) a]

theorem take_sum_mono {l : List ℝ} (h : ∀ a ∈ l, 0 ≤ a) {i j : ℕ} (hij : i ≤ j) : (l.take i).sum ≤ (l.take j).sum := by
  obtain ⟨d, rfl⟩ := Nat.exists_eq_add_of_le hij
  rw [List.take_add, List.sum_append]
  have : 0 ≤ ((l.drop i).take d).sum := List.sum_nonneg fun a ha => h a (List.mem_of_mem_drop (List.mem_of_mem_take ha))
  linarith

theorem envelope_draw (hf : ConcaveDiff f df (supp lb ub)) (hH : H.Ok f df (supp lb ub)) (hy : BreaksOk H f df lb ub y)
    {U : ℝ → ℝ} (hU : ∀ t ∈ suppC lb ub, IsUpperHull f df H.x t (U t)) {off : ℝ} {lo hi : List ℝ}
    (hoff : envOffset (hullRows H.x H.fx H.dfx) y = .ok off)
    (hhi : listOk (((hullRows H.x H.fx H.dfx).zip y.tail).map fun q => envVol off q.1.1 q.1.2.1 q.1.2.2 q.2) = .ok hi)
    (hlo : listOk (((hullRows H.x H.fx H.dfx).zip y.dropLast).map fun q => envVol off q.1.1 q.1.2.1 q.1.2.2 q.2) = .ok lo)
    {z : ℝ} (hz0 : 0 < z) (hz1 : z < 1) :
    ∃ r, sampleEnvelope H.x H.fx H.dfx y z = .ok r ∧ r ∈ supp lb ub ∧
      IntegrableOn (fun t => Real.exp (U t)) (suppC lb ub) ∧
      ∫ t in suppC lb (r : EReal), Real.exp (U t) = z * ∫ t in suppC lb ub, Real.exp (U t) := by
  classical
  have hlen := hy.len
  have hn : 0 < H.x.length := List.length_pos_iff.2 hH.ne
  obtain ⟨l2, ghi⟩ := volHi_get hH hlen hhi
  obtain ⟨l1, glo⟩ := volLo_get hH hlen hlo
  have hso := List.pairwise_iff_getElem.1 (hy.sorted hf hH)
  have hpre := prefix_integral hf hH hy hU l1 l2 glo ghi
  obtain ⟨c1, c2⟩ := cumsum_get (List.zipWith (· - ·) hi lo) 0
  set m := List.zipWith (· - ·) hi lo with hm
  have lm : m.length = H.x.length := by simp [hm, l1, l2]
  have gm : ∀ (k : ℕ) (h : k < m.length) (h1 : k < hi.length) (h2 : k < lo.length), m[k] = hi[k] - lo[k] := by
    intro k h h1 h2; simp [hm]
  set cdf := (0 : ℝ) :: cumsumFrom 0 m with hcdf
  have m0 : ∀ a ∈ m, 0 ≤ a := by
    intro a ha
    obtain ⟨k, hk, rfl⟩ := List.getElem_of_mem ha
    rw [gm k hk (by omega) (by omega)]
    rcases (hso k (k + 1) (by omega) (by omega) (by omega)).lt_or_eq with h | h
    · have := vol_mono (glo k (by omega) (by omega) (by omega)) (ghi k (by omega) (by omega) (by omega)) h; linarith
    · have e1 := glo k (by omega) (by omega) (by omega)
      have e2 := ghi k (by omega) (by omega) (by omega)
      rw [← h, e1] at e2
      simp only [Except.ok.injEq] at e2
      linarith
  have cget : ∀ (k : ℕ) (hk : k < cdf.length), cdf[k] = (m.take k).sum := by
    intro k hk; rw [c2 k hk]; simp
  have hlast : cdf.getLast? = some m.sum := by
    rw [List.getLast?_eq_getElem?, c1, List.getElem?_eq_getElem (by omega), cget _ (by omega)]
    simp
  have hfirst : (0 : ℝ) < m[0]'(by omega) := by
    rw [gm 0 (by omega) (by omega) (by omega)]
    have h : y[0] < y[1] := by
      rw [hy.first]
      exact (hH.mem _ (List.getElem_mem hn)).1.trans_le (hy.upper hf hH hn (by omega))
    have := vol_mono (glo 0 (by omega) (by omega) (by omega)) (ghi 0 (by omega) (by omega) (by omega)) h
    exact sub_pos.2 this
  have hnorm : 0 < m.sum := by
    have h1 : (m.take 1).sum ≤ (m.take m.length).sum := take_sum_mono m0 (by omega)
    rw [List.take_length] at h1
    have h2 : m.take 1 = [m[0]'(by omega)] := by
      rw [List.take_succ_eq_append_getElem (by omega)]; simp
    rw [h2] at h1
    simp at h1
    linarith
  -- the sector
  have hsorted : (cdf.map (· / m.sum)).Pairwise (· ≤ ·) := by
    rw [List.pairwise_iff_getElem]
    intro i j hi' hj hij
    simp only [List.getElem_map]
    rw [cget i (by simpa using hi'), cget j (by simpa using hj)]
    exact div_le_div_of_nonneg_right (take_sum_mono m0 hij.le) hnorm.le
  obtain ⟨s1, s2, s3⟩ := searchLeft_spec hsorted z
  have hlc : (cdf.map (· / m.sum)).length = m.length + 1 := by simp [c1]
  have hk0 : searchLeft (cdf.map (· / m.sum)) z ≠ 0 := by
    intro h
    have := s3 0 (by omega) (by omega)
    simp only [List.getElem_map] at this
    rw [cget 0 (by omega)] at this
    simp at this
    linarith
  have hkn : searchLeft (cdf.map (· / m.sum)) z ≤ m.length := by
    by_contra h
    have := s2 m.length (by omega) (by omega)
    simp only [List.getElem_map] at this
    rw [cget _ (by omega), List.take_length, div_self hnorm.ne'] at this
    linarith
  obtain ⟨i, hi'⟩ := Nat.exists_eq_succ_of_ne_zero hk0
  have hik : i < m.length := by omega
  have b1 : (m.take i).sum < m.sum * z := by
    have := s2 i (by omega) (by omega)
    simp only [List.getElem_map] at this
    rw [cget i (by omega), div_lt_iff₀ hnorm] at this
    linarith
  have b2 : m.sum * z ≤ (m.take i).sum + (hi[i]'(by omega) - lo[i]'(by omega)) := by
    have := s3 (i + 1) (by omega) (by omega)
    simp only [List.getElem_map] at this
    rw [cget (i + 1) (by omega), le_div_iff₀ hnorm, List.take_succ_eq_append_getElem hik, List.sum_append,
      gm i hik (by omega) (by omega)] at this
    simp at this
    linarith
  have b3 : i + 1 = m.length → m.sum * z < (m.take i).sum + (hi[i]'(by omega) - lo[i]'(by omega)) := by
    intro h
    have e : m.sum = (m.take i).sum + (hi[i]'(by omega) - lo[i]'(by omega)) := by
      conv_lhs => rw [← List.take_length (l := m), ← h]
      rw [List.take_succ_eq_append_getElem hik, List.sum_append, gm i hik (by omega) (by omega)]
      simp
    rw [← e]
    nlinarith
  have vlo := glo i (by omega) (by omega) (by omega)
  have vhi := ghi i (by omega) (by omega) (by omega)
  set s := m.sum * z - (m.take i).sum + lo[i]'(by omega) with hs
  have htop : y[i + 1]'(by omega) = ⊤ → s < hi[i]'(by omega) := by
    intro h
    have : i + 1 = m.length := by
      by_contra hne
      obtain ⟨-, h2⟩ := hy.inner i (by omega) (by omega)
      rw [h2] at h
      exact EReal.coe_ne_top _ h
    have := b3 this
    rw [hs]; linarith
  obtain ⟨w1, w2⟩ := vol_surj vlo vhi (s := s) (by rw [hs]; linarith) (by rw [hs]; linarith) htop
  set r := H.x[i]'(by omega) + (Real.log (s * df (H.x[i]'(by omega))) - f (H.x[i]'(by omega)) + off) / df (H.x[i]'(by omega)) with hr
  have r1 : y[i]'(by omega) < (r : EReal) := (vol_lt vlo r).1.1 (by rw [w2, hs]; linarith)
  have r2 : (r : EReal) ≤ y[i + 1]'(by omega) := by
    by_contra h
    have := (vol_lt vhi r).1.2 (not_le.1 h)
    rw [w2, hs] at this
    linarith
  have r3 : (r : EReal) < ub := by
    by_cases h : i + 1 = m.length
    · have h1 := (vol_lt vhi r).2.1 (by rw [w2, hs]; have := b3 h; linarith)
      have h2 := hy.last (by omega)
      have h3 : i + 1 = H.x.length := by omega
      simp only [h3] at h1
      rwa [h2] at h1
    · refine (r2.trans (hy.lower hf hH (k := i + 1) (by omega) (by omega))).trans_lt ?_
      exact (hH.mem _ (List.getElem_mem _)).2
  have hlb : lb ≤ y[i]'(by omega) := by
    rcases Nat.eq_zero_or_pos i with h | h
    · simp only [h]; rw [hy.first]
    · rw [← hy.first (by omega)]; exact hso 0 i (by omega) (by omega) h
  refine ⟨r, ?_, ⟨hlb.trans_lt r1, r3⟩, ?_, ?_⟩
  · unfold sampleEnvelope
    simp only [hoff, bind, Except.bind, hhi, hlo]
    rw [← hm, ← hcdf, hlast]
    simp only
    rw [if_neg hnorm.ne', hi']
    have ei : ((Nat.succ i : ℕ) : ℤ) - 1 = (i : ℤ) := by push_cast; ring
    rw [ei, pyGet_nat (l := H.x) (k := i) (by omega), pyGet_nat (l := H.fx) (k := i) (by rw [hH.fx]; simp; omega),
      pyGet_nat (l := H.dfx) (k := i) (by rw [hH.dfx]; simp; omega), pyGet_nat (l := cdf) (k := i) (by omega),
      pyGet_nat (l := lo) (k := i) (by omega)]
    simp only
    have e1 : H.fx[i]'(by rw [hH.fx]; simp; omega) = f (H.x[i]'(by omega)) := by simp [hH.fx]
    have e2 : H.dfx[i]'(by rw [hH.dfx]; simp; omega) = df (H.x[i]'(by omega)) := by simp [hH.dfx]
    rw [e1, e2, cget i (by omega), ← hs, if_neg (not_le.2 w1)]
  · have := (hpre H.x.length (by omega)).1
    rwa [hy.last (by omega)] at this
  · have htot := (hpre H.x.length (by omega)).2
    rw [hy.last (by omega), ← lm, List.take_length] at htot
    obtain ⟨p1, p2⟩ := hpre i (by omega)
    have hd : df (H.x[i]'(by omega)) ≠ 0 := by
      intro h; rw [h] at w1; simp at w1
    have vr : envVol off (H.x[i]'(by omega)) (f (H.x[i]'(by omega))) (df (H.x[i]'(by omega))) (r : EReal) = .ok s := by
      rw [envVol_coe hd, ← w2]; rfl
    obtain ⟨q1, q2⟩ := sector_integral hf hH hy hU (k := i) (by omega) (by omega) vlo vr r1.le r2
    obtain ⟨u1, u2⟩ := suppC_union hlb r1.le
    rw [u1, setIntegral_union u2 (measurableSet_suppC _ _) p1 q1, p2, q2, htot, ← mul_add, hs]
    ring

/-- When the draw is well defined: non-zero slopes, and tangents that bound the mass towards infinite ends. -/
theorem envelope_total (hH : H.Ok f df (supp lb ub)) (hy : BreaksOk H f df lb ub y)
    (h0 : ∀ a ∈ H.x, df a ≠ 0) (hl : lb = ⊥ → 0 < df (H.x.head hH.ne)) (hu : ub = ⊤ → df (H.x.getLast hH.ne) < 0)
    (h2 : 2 ≤ H.x.length ∨ ub ≠ ⊤) :
    ∃ off hi lo, envOffset (hullRows H.x H.fx H.dfx) y = .ok off ∧
      listOk (((hullRows H.x H.fx H.dfx).zip y.tail).map fun q => envVol off q.1.1 q.1.2.1 q.1.2.2 q.2) = .ok hi ∧
      listOk (((hullRows H.x H.fx H.dfx).zip y.dropLast).map fun q => envVol off q.1.1 q.1.2.1 q.1.2.2 q.2) = .ok lo := by
  classical
  have hlen := hy.len
  have hn : 0 < H.x.length := List.length_pos_iff.2 hH.ne
  obtain ⟨r1, r2⟩ := hullRows_get hH
  have hoff : ∃ off, envOffset (hullRows H.x H.fx H.dfx) y = .ok off := by
    unfold envOffset
    simp only
    have hne : (((hullRows H.x H.fx H.dfx).zip y.tail).filterMap fun q => if q.2 = ⊤ then none else
        some (q.1.2.2 * (q.2.toReal - q.1.1) + q.1.2.1)) ≠ [] := by
      intro h
      rw [List.filterMap_eq_nil_iff] at h
      have hl0 : 0 < ((hullRows H.x H.fx H.dfx).zip y.tail).length := by simp [r1, hlen]; exact hn
      have := h _ (List.getElem_mem hl0)
      have hy1 : y[1]'(by omega) ≠ ⊤ := by
        by_cases h1 : 1 < H.x.length
        · rw [(hy.inner 0 (by omega) (by omega)).2]; exact EReal.coe_ne_top _
        · have e : H.x.length = 1 := by omega
          have := hy.last (by omega)
          simp only [e] at this
          rw [this]
          rcases h2 with h2 | h2
          · omega
          · exact h2
      simp [hy1] at this
    split
    · rename_i e; exact absurd e hne
    · exact ⟨_, rfl⟩
  obtain ⟨off, hoff⟩ := hoff
  have key : ∀ (k : ℕ) (hk : k < H.x.length) (e : EReal), (e = ⊥ → k = 0 ∧ lb = ⊥) → (e = ⊤ → k + 1 = H.x.length ∧ ub = ⊤) →
      ∃ v, envVol off H.x[k] (f H.x[k]) (df H.x[k]) e = .ok v := by
    intro k hk e e1 e2
    have hd := h0 _ (List.getElem_mem hk)
    induction e using EReal.rec with
    | bot =>
      obtain ⟨rfl, h⟩ := e1 rfl
      have := hl h
      rw [List.head_eq_getElem] at this
      exact ⟨0, by simp [envVol, hd, this]⟩
    | top =>
      obtain ⟨h', h⟩ := e2 rfl
      have := hu h
      rw [List.getLast_eq_getElem] at this
      have h'' : H.x.length - 1 = k := by omega
      simp only [h''] at this
      exact ⟨0, by simp [envVol, hd, this]⟩
    | coe q => exact ⟨_, envVol_coe hd q⟩
  have hlt : lb < ub := by
    obtain ⟨a, b⟩ := hH.mem _ (List.getElem_mem hn)
    exact a.trans b
  have hyk : ∀ (k : ℕ) (hk : k < y.length), (y[k] = ⊥ → k = 0 ∧ lb = ⊥) ∧ (y[k] = ⊤ → k = H.x.length ∧ ub = ⊤) := by
    intro k hk
    rcases Nat.eq_zero_or_pos k with rfl | hpos
    · rw [hy.first hk]
      exact ⟨fun h => ⟨rfl, h⟩, fun h => absurd hlt (by rw [h]; exact not_top_lt)⟩
    · by_cases h : k = H.x.length
      · subst h
        rw [hy.last hk]
        exact ⟨fun h => absurd hlt (by rw [h]; exact not_lt_bot), fun h => ⟨rfl, h⟩⟩
      · obtain ⟨j, rfl⟩ : ∃ j, k = j + 1 := ⟨k - 1, by omega⟩
        rw [(hy.inner j (by omega) hk).2]
        exact ⟨fun h => absurd h (EReal.coe_ne_bot _), fun h => absurd h (EReal.coe_ne_top _)⟩
  have hhi : ∃ hi, listOk (((hullRows H.x H.fx H.dfx).zip y.tail).map fun q => envVol off q.1.1 q.1.2.1 q.1.2.2 q.2) = .ok hi := by
    refine listOk_total fun r hr => ?_
    obtain ⟨k, hk, rfl⟩ := List.getElem_of_mem hr
    simp only [List.length_map, List.length_zip, r1, List.length_tail, hlen] at hk
    have hk' : k < H.x.length := by omega
    obtain ⟨v, hv⟩ := key k hk' (y[k + 1]'(by omega)) (fun h => by have := ((hyk (k + 1) (by omega)).1 h).1; omega)
      (fun h => (hyk (k + 1) (by omega)).2 h)
    refine ⟨v, ?_⟩
    rw [← hv]
    simp [r2 k (by omega) hk']
  have hlo : ∃ lo, listOk (((hullRows H.x H.fx H.dfx).zip y.dropLast).map fun q => envVol off q.1.1 q.1.2.1 q.1.2.2 q.2) = .ok lo := by
    refine listOk_total fun r hr => ?_
    obtain ⟨k, hk, rfl⟩ := List.getElem_of_mem hr
    simp only [List.length_map, List.length_zip, r1, List.length_dropLast, hlen] at hk
    have hk' : k < H.x.length := by omega
    obtain ⟨v, hv⟩ := key k hk' (y[k]'(by omega)) (fun h => (hyk k (by omega)).1 h)
      (fun h => by have := ((hyk k (by omega)).2 h).1; omega)
    refine ⟨v, ?_⟩
    rw [← hv]
    simp [r2 k (by omega) hk']
  obtain ⟨hi, hhi⟩ := hhi
  obtain ⟨lo, hlo⟩ := hlo
  exact ⟨off, hi, lo, hoff, hhi, hlo⟩

end

end Ctb
