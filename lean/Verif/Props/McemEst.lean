import Verif.Lemmas.McemEst

set_option linter.unusedSectionVars false

/-! # C104: the estimate of the augmented likelihood

On stored paths `exp(est_aug_lik)` should have the augmented likelihood as its expectation: the exponential of the biased log-likelihood minus the
integral of the discriminant, the quantity whose logarithm `est_log_aug_lik` estimates (C89). -/

namespace Ctb

open Classical MeasureTheory
open scoped ENNReal

/-- The bounds of the discriminant on a nondegenerate interval are finite and differ. -/
def ProperBounds (ebd : ℝ → ℝ → Res DiscBounds) : Prop := ∀ lo hi, lo < hi → ∃ c l u, ebd lo hi = .ok (c, l, ((u : ℝ) : WithTop ℝ)) ∧ l < u

/-- The path `x s` of a seed stays between the edges of the seed. -/
def PathInside (x : EaSkel → ℝ → ℝ) (s : EaSkel) : Prop := s.tight ≠ s.loose ∧ ∀ r, 0 ≤ r → r < 1 → x s r ∈ Set.uIcc s.tight s.loose

/-- **C104**, `ito`.  Missing: degenerate or infinite bounds, for which the estimates of single segments fail (C56). -/
theorem C104_ito_partial {p : ℕ} {M : ItoFns p} {t vt : List ℝ} {interp : NormOp → EaSkel → List ℝ → Prog (EaSkel × List ℝ)} {x : EaSkel → ℝ → ℝ}
    (hi : FixedPaths interp x) {z : List EaSkel} {thi : Fin p → ℝ} {ebd : ℝ → ℝ → Res DiscBounds} {l : ℝ} (h : vt.length = t.length)
    (h2 : 2 ≤ t.length) (ht : ∀ d ∈ npDiff t, 0 < d) (hz : z.length = (npDiff t).length) (hl : itoBiasedLogLik M thi t vt = .ok l)
    (hb : SoundBounds (M.disc thi) ebd) (hf : ProperBounds ebd) (hs : ∀ s ∈ z, PathInside x s)
    (hc : ∀ q ∈ emSegs (M.reduce thi) t vt z, IntervalIntegrable (segDisc (M.disc thi) x q) volume 0 q.1) :
    (itoEstAugLik (fun op s => seedEst (interp op) (M.disc thi) op (boundDiscPath ebd op s (.pieces 1)) s) M t vt thi z).lexp expFirst =
      ENNReal.ofReal (Real.exp (l - emInt (M.disc thi) (M.reduce thi) x t vt z)) := by
  have hmem : ∀ q ∈ emSegs (M.reduce thi) t vt z, 0 < q.1 ∧ q.2.2.2 ∈ z := by
    rintro ⟨d, a, b, s⟩ hq
    unfold emSegs at hq
    obtain ⟨h1, h3⟩ := List.of_mem_zip hq
    exact ⟨ht _ h1, (List.of_mem_zip (List.of_mem_zip h3).2).2⟩
  unfold itoEstAugLik
  rw [Prog.lexp_bind, ito_zip_segs]
  have key := mapM'_weight (f := fun q : EaSkel × NormOp => seedEst (interp q.2) (M.disc thi) q.2 (boundDiscPath ebd q.2 q.1 (.pieces 1)) q.1) (w := estWeight)
    (c := fun q => ENNReal.ofReal (Real.exp (-∫ u in (0 : ℝ)..q.2.finT, M.disc thi (bridgeAt q.2.finT q.2.scale q.2.x0 q.2.x1 (x q.1) u)))) estWeight_ne_top
    (fun _ => ENNReal.ofReal_ne_top)
    ((emSegs (M.reduce thi) t vt z).map fun q => (q.2.2.2, (⟨q.1, Real.sqrt q.1, q.2.1, q.2.2.1⟩ : NormOp))) (by
      intro a ha
      obtain ⟨q, hq, rfl⟩ := List.mem_map.1 ha
      obtain ⟨m1, m2⟩ := hmem q hq
      exact seedEst_exp hi m1 (Real.sqrt_pos.2 m1) hb hf (hs _ m2).1 (hs _ m2).2 (hc q hq))
  rw [List.map_map] at key
  have e : (((emSegs (M.reduce thi) t vt z).map ((fun q : EaSkel × NormOp => ENNReal.ofReal (Real.exp (-∫ u in (0 : ℝ)..q.2.finT,
      M.disc thi (bridgeAt q.2.finT q.2.scale q.2.x0 q.2.x1 (x q.1) u)))) ∘ fun q => (q.2.2.2, (⟨q.1, Real.sqrt q.1, q.2.1, q.2.2.1⟩ : NormOp))))).prod =
      ENNReal.ofReal (Real.exp (-emInt (M.disc thi) (M.reduce thi) x t vt z)) :=
    prod_exp_sum (emSegs (M.reduce thi) t vt z) fun q => ∫ u in (0 : ℝ)..q.1, segDisc (M.disc thi) x q u
  rw [sub_eq_add_neg, Real.exp_add, ENNReal.ofReal_mul (by positivity), ← e, ← key, ← Prog.lexp_const_mul _ _ ENNReal.ofReal_ne_top]
  refine Prog.lexp_congr fun r hr => ?_
  rcases r with er | r
  · simp [onOk, expFirst]
  · have hne : r ≠ [] := by
      have := (Prog.out_mapM'_ok.1 hr).length_eq
      rw [List.length_map] at this
      have hlen : (emSegs (M.reduce thi) t vt z).length = (npDiff t).length := by
        rw [← emSegs_fst (red := M.reduce thi) h hz, List.length_map]
      intro h0
      rw [hlen, npDiff_len, h0, List.length_nil] at this
      omega
    simp only [Prog.cont_ok, if_neg hne, hl, Prog.lift, Prog.ret_bind, Prog.lexp_ret, expFirst, onOk]
    exact augSum_weight l r

/-- **C104**, `switching`: what the estimate is unbiased for.  The second output `b` of `eval_biased_loglik` enters too. -/
theorem C104_switching_partial {p : ℕ} {M : RegimeFns p} {S : SwitchFns p} {K : ℕ} {interp : NormOp → EaSkel → List ℝ → Prog (EaSkel × List ℝ)}
    {x : EaSkel → ℝ → ℝ} (hi : FixedPaths interp x) {z : List EaSkel} {thi : Thi p} {h : Anchorage ℝ ℝ} {rs : Option ℕ} {ebd : ℕ → ℝ → ℝ → Res DiscBounds}
    {l b : ℝ} (hL : h.LenOk) (h2 : 2 ≤ h.t.length) (ht : ∀ d ∈ npDiff h.t, 0 < d) (hz : z.length = (npDiff h.t).length)
    (hl : evalBiasedLogLik2 S K thi h rs = .ok (l, b)) (hv : ∀ y ∈ h.yt, Selected rs y → 0 < M.vol thi y ∧ SoundBounds (M.disc thi y) (ebd y) ∧ ProperBounds (ebd y))
    (hs : ∀ s ∈ z, PathInside x s)
    (hc : ∀ q ∈ emSegsSw M.reduce h.t h.yt h.vt z, IntervalIntegrable (segDiscSw (M.disc thi) (M.vol thi) (Selected rs) x q) volume 0 q.1) :
    (swEstAugLik (fun y op s => seedEst (interp op) (M.disc thi y) op (boundDiscPath (ebd y) op s (.pieces 1)) s) M S K thi h rs z).lexp expFirst =
      ENNReal.ofReal (Real.exp (l + b - emIntSw (M.disc thi) (M.vol thi) M.reduce (Selected rs) x h.t h.yt h.vt z)) := by
  rw [selected_eq] at hv hc ⊢
  have hmem : ∀ q ∈ emSegsSw M.reduce h.t h.yt h.vt z, 0 < q.1 ∧ q.2.1 ∈ h.yt ∧ q.2.2.2.2 ∈ z := by
    rintro ⟨d, y, a, b, s⟩ hq
    unfold emSegsSw at hq
    obtain ⟨h1, h3⟩ := List.of_mem_zip hq
    obtain ⟨h4, h5⟩ := List.of_mem_zip h3
    exact ⟨ht _ h1, h4, (List.of_mem_zip (List.of_mem_zip h5).2).2⟩
  unfold swEstAugLik
  rw [Prog.lexp_bind, sw_zip_segs M thi hL]
  have key := mapM'_weight (f := fun q : EaSkel × ℕ × NormOp => if takesPart rs q.2.1 then
      seedEst (interp q.2.2) (M.disc thi q.2.1) q.2.2 (boundDiscPath (ebd q.2.1) q.2.2 q.1 (.pieces 1)) q.1 else .ret (some 0, 0, q.1)) (w := estWeight)
    (c := fun q => ENNReal.ofReal (Real.exp (-∫ u in (0 : ℝ)..q.2.2.finT, if takesPart rs q.2.1 then
      M.disc thi q.2.1 (bridgeAt q.2.2.finT q.2.2.scale q.2.2.x0 q.2.2.x1 (x q.1) u) else 0))) estWeight_ne_top (fun _ => ENNReal.ofReal_ne_top)
    ((emSegsSw M.reduce h.t h.yt h.vt z).map fun q => (q.2.2.2.2, q.2.1, (⟨q.1, Real.sqrt q.1 * M.vol thi q.2.1, q.2.2.1, q.2.2.2.1⟩ : NormOp))) (by
      intro a ha
      obtain ⟨q, hq, rfl⟩ := List.mem_map.1 ha
      obtain ⟨m1, m2, m3⟩ := hmem q hq
      by_cases hp : takesPart rs q.2.1
      · obtain ⟨v1, v2, v3⟩ := hv _ m2 hp
        have hcq := hc q hq
        unfold segDiscSw at hcq
        simp only [if_pos hp] at hcq ⊢
        exact seedEst_exp hi m1 (mul_pos (Real.sqrt_pos.2 m1) v1) v2 v3 (hs _ m3).1 (hs _ m3).2 hcq
      · simp only [if_neg hp]
        simp [onOk, estWeight, expWeight])
  rw [List.map_map] at key
  have e : ((emSegsSw M.reduce h.t h.yt h.vt z).map ((fun q : EaSkel × ℕ × NormOp => ENNReal.ofReal (Real.exp (-∫ u in (0 : ℝ)..q.2.2.finT,
      if takesPart rs q.2.1 then M.disc thi q.2.1 (bridgeAt q.2.2.finT q.2.2.scale q.2.2.x0 q.2.2.x1 (x q.1) u) else 0))) ∘
        fun q => (q.2.2.2.2, q.2.1, (⟨q.1, Real.sqrt q.1 * M.vol thi q.2.1, q.2.2.1, q.2.2.2.1⟩ : NormOp)))).prod =
      ENNReal.ofReal (Real.exp (-emIntSw (M.disc thi) (M.vol thi) M.reduce (takesPart rs) x h.t h.yt h.vt z)) :=
    prod_exp_sum (emSegsSw M.reduce h.t h.yt h.vt z) fun q => ∫ u in (0 : ℝ)..q.1, segDiscSw (M.disc thi) (M.vol thi) (takesPart rs) x q u
  rw [sub_eq_add_neg, Real.exp_add, ENNReal.ofReal_mul (by positivity), ← e, ← key, ← Prog.lexp_const_mul _ _ ENNReal.ofReal_ne_top]
  refine Prog.lexp_congr fun r hr => ?_
  rcases r with er | r
  · simp [onOk, expFirst]
  · have hne : r ≠ [] := by
      have := (Prog.out_mapM'_ok.1 hr).length_eq
      rw [List.length_map] at this
      have hlen : (emSegsSw M.reduce h.t h.yt h.vt z).length = (npDiff h.t).length := by
        rw [← emSegsSw_fst (red := M.reduce) hL.yt hL.vt hz, List.length_map]
      intro h0
      rw [hlen, npDiff_len, h0, List.length_nil] at this
      omega
    simp only [Prog.cont_ok, if_neg hne, hl, Prog.lift, Prog.ret_bind, Prog.lexp_ret, expFirst, onOk]
    exact augSum_weight (l + b) r

/-! ## Instances -/

theorem ouDisc_proper {disc : ℝ → ℝ} {c k inf : ℝ} (hc : 0 < c) (hd : ∀ x, disc x = c * x ^ 2 + k) :
    ProperBounds fun l u => .ok (ouBoundsDisc disc inf l u) := by
  intro lo hi hlt
  refine ⟨_, _, _, rfl, ?_⟩
  have h2 : ∀ a : ℝ, |a| ^ 2 = a ^ 2 := fun a => sq_abs a
  simp only [hd]
  split_ifs with h
  · have : 0 < max |lo| |hi| := lt_max_of_lt_left (abs_pos.2 h.1.ne)
    have := mul_pos hc (pow_pos this 2)
    simpa using this
  · have hne : |lo| ≠ |hi| := by
      intro he
      rcases abs_eq_abs.1 he with e | e
      · exact hlt.ne e
      · exact h ⟨by linarith, by linarith⟩
    have h1 : min |lo| |hi| < max |lo| |hi| := min_lt_max.2 hne
    have h3 : 0 ≤ min |lo| |hi| := le_min (abs_nonneg _) (abs_nonneg _)
    have : (min |lo| |hi|) ^ 2 < (max |lo| |hi|) ^ 2 := pow_lt_pow_left₀ h1 h3 (by norm_num)
    nlinarith

theorem itoOu_proper {thi : Fin 2 → ℝ} (h : thi 0 ≠ 0) : ProperBounds fun l u => .ok (itoOuBounds thi l u) :=
  ouDisc_proper (c := thi 0 ^ 2 / 2) (k := -thi 0 / 2) (by positivity) fun x => by simp only [ItoFns.disc, itoOu]; ring

/-- The interpolation of the paths that are zero in normalised coordinates. -/
noncomputable def flatInterp (op : NormOp) (s : EaSkel) (ts : List ℝ) : Prog (EaSkel × List ℝ) :=
  .ret (s, ts.map (bridgeAt op.finT op.scale op.x0 op.x1 fun _ => 0))

/-- The constant seed between -1 and 1. -/
noncomputable def flatSeed : EaSkel := ⟨[0, 1], [0, 0], -1, 1, 0, none⟩

theorem flat_inside : PathInside (fun _ _ => 0) flatSeed := by
  refine ⟨by norm_num [flatSeed], fun r _ _ => ?_⟩
  simp [flatSeed, Set.mem_uIcc]

/-- The Ornstein-Uhlenbeck model observed at 0 and 2 with values 1 and 3, the bridge being the straight line. -/
example : ∃ l, itoBiasedLogLik itoOu ![1, 1] [0, 2] [1, 3] = .ok l ∧
    (itoEstAugLik (fun op s => seedEst (flatInterp op) (itoOu.disc ![1, 1]) op
      (boundDiscPath (fun l u => .ok (itoOuBounds ![1, 1] l u)) op s (.pieces 1)) s) itoOu [0, 2] [1, 3] ![1, 1] [flatSeed]).lexp expFirst =
      ENNReal.ofReal (Real.exp (l - emInt (itoOu.disc ![1, 1]) (itoOu.reduce ![1, 1]) (fun _ _ => 0) [0, 2] [1, 3] [flatSeed])) := by
  obtain ⟨l, hl⟩ : ∃ l, itoBiasedLogLik itoOu ![1, 1] [0, 2] [1, 3] = .ok l := by
    unfold itoBiasedLogLik
    rw [if_neg (by simp), if_neg (by simp [npDiff, itoOu])]
    exact ⟨_, rfl⟩
  refine ⟨l, hl, C104_ito_partial (x := fun _ _ => 0) (fun _ _ _ => rfl) rfl (by norm_num) (by simp [npDiff]) (by simp [npDiff]) hl ?_
    (itoOu_proper (by simp)) (by simpa using flat_inside) ?_⟩
  · exact (C53_ito_ou ![1, 1] (op := ⟨1, 1, 0, 0⟩) (z := flatSeed) (g := .pieces 1) (by simp [Grid.normed])).1
  · intro q _
    apply Continuous.intervalIntegrable
    unfold segDisc
    simp only [ItoFns.disc, itoOu, bridgeAt]
    fun_prop

/-- One jump at time 1, from regime 0 to regime 1, the path equal to zero throughout. -/
def jumpAnch : Anchorage ℝ ℝ := ⟨[0, 1, 2], [0, 1, 1], [0, 0, 0]⟩

theorem jump_lik : evalBiasedLogLik2 ouFns 2 (fun _ => ![1, 1]) jumpAnch none =
    .ok (-Real.log (2 * Real.pi), Real.log (2 * Real.pi) - Real.log (2 * Real.pi * 2) / 2) := by
  have hs : sigT ouFns (fun _ => ![1, 1]) jumpAnch = [1, 1] := by
    norm_num [sigT, jumpAnch, npDiff, ouFns]
  have ho : isObs jumpAnch.yt = [true, false, true] := by decide
  have hp : pDelTerms ouFns (fun _ => ![1, 1]) jumpAnch = [0, 0] := by
    norm_num [pDelTerms, jumpAnch, ouFns]
  unfold evalBiasedLogLik2
  rw [if_neg (by simp [jumpAnch]), if_neg (by simp [jumpAnch]), if_neg (by simp [jumpAnch]), hs, if_neg (by norm_num), ho, hp]
  congr 1
  simp only [jumpAnch, sigObs, select, normTerms, isObs, npDiff, ouFns]
  norm_num [npSplit, whereFrom, select]
  norm_num [npDiff, select]
  constructor <;> ring

/-- **C104** fails for `switching`: with a change of regime between two observations the expectation differs from the augmented likelihood that
`est_log_aug_lik` aims at, by the factor `exp(b)` of the second output. -/
theorem C104_violated : ∃ (interp : NormOp → EaSkel → List ℝ → Prog (EaSkel × List ℝ)) (x : EaSkel → ℝ → ℝ) (l b : ℝ), FixedPaths interp x ∧
    evalBiasedLogLik2 ouFns 2 (fun _ => ![1, 1]) jumpAnch none = .ok (l, b) ∧
    (swEstAugLik (fun y op s => seedEst (interp op) (swOu.disc (fun _ => ![1, 1]) y) op
        (boundDiscPath (fun l u => .ok (swOuBounds (fun _ => ![1, 1]) y l u)) op s (.pieces 1)) s) swOu ouFns 2 (fun _ => ![1, 1]) jumpAnch none
        [flatSeed, flatSeed]).lexp expFirst ≠
      ENNReal.ofReal (Real.exp (l - emIntSw (swOu.disc fun _ => ![1, 1]) (swOu.vol fun _ => ![1, 1]) swOu.reduce (fun _ => True) x jumpAnch.t jumpAnch.yt
        jumpAnch.vt [flatSeed, flatSeed])) := by
  have ht : Selected none = fun _ => True := by
    funext y
    simp [Selected]
  refine ⟨flatInterp, fun _ _ => 0, _, _, fun _ _ _ => rfl, jump_lik, ?_⟩
  have := C104_switching_partial (M := swOu) (S := ouFns) (K := 2) (interp := flatInterp) (x := fun _ _ => 0) (fun _ _ _ => rfl)
    (z := [flatSeed, flatSeed]) (thi := fun _ => ![1, 1]) (h := jumpAnch) (rs := none) (ebd := fun y l u => .ok (swOuBounds (fun _ => ![1, 1]) y l u))
    ⟨rfl, rfl⟩ (by simp [jumpAnch]) (by norm_num [jumpAnch, npDiff]) (by simp [jumpAnch, npDiff]) jump_lik (by
      intro y _ _
      refine ⟨by simp [swOu], (C53_switching_ou (by simp) (op := ⟨1, 1, 0, 0⟩) (z := flatSeed) (g := .pieces 1) (by simp [Grid.normed])).1,
        ouDisc_proper (c := 1 / 2) (k := -1 / 2) (by norm_num) fun x => ?_⟩
      simp only [RegimeFns.disc, swOu]
      norm_num
      ring) (by simpa using flat_inside) (by
      intro q _
      apply Continuous.intervalIntegrable
      unfold segDiscSw
      simp only [ht, if_true, RegimeFns.disc, swOu, bridgeAt]
      fun_prop)
  rw [this, ht]
  intro he
  rw [ENNReal.ofReal_eq_ofReal_iff (by positivity) (by positivity), Real.exp_eq_exp] at he
  have hb : Real.log (2 * Real.pi) - Real.log (2 * Real.pi * 2) / 2 = 0 := by linarith
  have hpi := Real.two_le_pi
  rw [Real.log_mul (by positivity) (by norm_num : (2 : ℝ) ≠ 0)] at hb
  have : Real.log 2 < Real.log (2 * Real.pi) := Real.log_lt_log (by norm_num) (by linarith)
  linarith

end Ctb
