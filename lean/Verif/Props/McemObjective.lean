import Verif.Lemmas.McemLaw
import Verif.Lemmas.SwitchParams
import Verif.Props.Interp

set_option linter.unusedSectionVars false

/-! # Properties C88 to C90: the objective of the Monte Carlo EM -/

namespace Ctb

open Classical MeasureTheory
open scoped ENNReal

/-! ## C88: the objective is a fixed function -/

section Ito

variable {p : ℕ} {M : ItoFns p} {t vt : List ℝ} {supp : List (List ℝ)} {m n k : ℕ}

/-- After `update_objective` the objective is a function of the parameters: no draw is left, each particle contributes the biased
log-likelihood, the discretised integral along its stored path and the log prior. -/
theorem C88_ito {zz zz' : List (List EaSkel)} {nil : Fin p → ℝ} (h : vt.length = t.length) (h2 : 2 ≤ t.length) (ht : ∀ d ∈ npDiff t, 0 < d)
    (hm : 1 ≤ m) (hz : ∀ z ∈ zz, z.length = (npDiff t).length ∧ ∀ s ∈ z, SeedOk s) (hd : ∀ ts ∈ supp, ts.Nodup)
    (ho : (itoUpdateObjective (interpolateSeed n k) M t vt m nil zz).Out (.ok (supp, zz'))) (logPrior : (Fin p → ℝ) → ℝ)
    (thi : Fin p → ℝ) :
    (∀ l, itoBiasedLogLik M thi t vt = .ok l → itoFObj (interpolateSeed n k) M logPrior t vt (supp, zz') thi =
      .ret (zz'.map fun z => l - emDisc (M.disc thi) (M.reduce thi) EaSkel.at t vt supp z + logPrior thi)) ∧
    ∀ e, itoBiasedLogLik M thi t vt = .error e → itoFObj (interpolateSeed n k) M logPrior t vt (supp, zz') thi = .err e := by
  have hne : zz' ≠ [] := by
    have ho' := ho
    unfold itoUpdateObjective at ho'
    rw [Prog.out_bind_ok] at ho'
    obtain ⟨_, -, ho'⟩ := ho'
    rw [Prog.out_bind_ok] at ho'
    obtain ⟨r, -, ho'⟩ := ho'
    by_cases h0 : r = []
    · rw [if_pos h0, Prog.out_err] at ho'
      cases ho'
    · rw [if_neg h0, Prog.out_ret] at ho'
      simp only [Except.ok.injEq, Prod.mk.injEq] at ho'
      rw [ho'.2]
      simpa using h0
  obtain ⟨hsl, -, hz'⟩ := itoUpdate_out h ht hm hz hd ho
  have key : ∀ z ∈ zz', ∃ z', itoEstLogAugLik (interpolateSeed n k) M t vt thi supp z =
      (Prog.lift (itoBiasedLogLik M thi t vt)).bind fun l => .ret (l - emDisc (M.disc thi) (M.reduce thi) EaSkel.at t vt supp z, z') := by
    intro z hzm
    have := itoEst_known (M := M) (thi := thi) (n := n) (k := k) h h2 ht hsl (hz' z hzm).1 (hz' z hzm).2
    rwa [discSum_eq] at this
  constructor
  · intro l hl
    have : ∀ z, ∃ z', z ∈ zz' → itoEstLogAugLik (interpolateSeed n k) M t vt thi supp z =
        .ret (l - emDisc (M.disc thi) (M.reduce thi) EaSkel.at t vt supp z, z') := by
      intro z
      by_cases hzm : z ∈ zz'
      · obtain ⟨z', e⟩ := key z hzm
        exact ⟨z', fun _ => by rw [e, hl]; rfl⟩
      · exact ⟨[], fun h => absurd h hzm⟩
    choose g hg using this
    unfold itoFObj
    rw [mapM'_ret (g := fun z => (l - emDisc (M.disc thi) (M.reduce thi) EaSkel.at t vt supp z, g z)) fun z hzm => hg z hzm, Prog.ret_bind]
    simp only [List.map_map]
    rfl
  · intro e he
    rcases zz' with _ | ⟨z, zs⟩
    · exact absurd rfl hne
    · obtain ⟨z', e'⟩ := key z (by simp)
      unfold itoFObj
      rw [Prog.mapM', e', he]
      rfl

/-- Supports with ties have probability zero. -/
theorem C88_ito_ties {σ : Type} (interp : NormOp → σ → List ℝ → Prog (σ × List ℝ)) (ht : ∀ d ∈ npDiff t, 0 < d) (nil : Fin p → ℝ) (zz : List (List σ)) :
    (itoUpdateObjective interp M t vt m nil zz).prob (fun r => ∃ supp zz', r = .ok (supp, zz') ∧ ∃ ts ∈ supp, ¬ ts.Nodup) = 0 := by
  refine prob_ties ht _ ?_ (by simp)
  rintro supp r hn ho ⟨supp', zz', rfl, ts, hts, hb⟩
  rw [Prog.out_bind_ok] at ho
  obtain ⟨r, -, ho⟩ := ho
  by_cases h0 : r = []
  · rw [if_pos h0, Prog.out_err] at ho
    cases ho
  · rw [if_neg h0, Prog.out_ret] at ho
    simp only [Except.ok.injEq, Prod.mk.injEq] at ho
    rw [ho.1] at hts
    exact hb (hn ts hts)

theorem ito_no_supports {σ : Type} (interp : NormOp → σ → List ℝ → Prog (σ × List ℝ))
    (hi : ∀ op z r, (interp op z []).Out r → ∃ z', r = .ok (z', [])) (nil : Fin p → ℝ) (zz : List (List σ)) (env : List (List ℝ) × List (List σ)) :
    ¬ (itoUpdateObjective interp M t vt 0 nil zz).Out (.ok env) := by
  intro ho
  unfold itoUpdateObjective at ho
  rw [Prog.out_bind_ok] at ho
  obtain ⟨supp, hs, ho⟩ := ho
  rw [Prog.out_bind_ok] at ho
  obtain ⟨r, hr, ho⟩ := ho
  by_cases h0 : r = []
  · rw [if_pos h0, Prog.out_err] at ho
    cases ho
  rw [Prog.out_mapM'_ok] at hr
  rcases hr with _ | ⟨hr, -⟩
  · exact h0 rfl
  have hs' := drawSupports_out hs
  have hsn : ∀ ts ∈ supp, ts = [] := by
    intro ts hts
    obtain ⟨j, hj, rfl⟩ := List.mem_iff_getElem.1 hts
    have := (List.forall₂_iff_get.1 hs').2 j (by rw [hs'.length_eq]; exact hj) hj
    exact List.length_eq_zero_iff.1 this.1
  unfold itoEstLogAugLik at hr
  rw [Prog.out_bind_ok] at hr
  obtain ⟨q, hq, hr⟩ := hr
  by_cases hq0 : q = []
  · rw [if_pos hq0, Prog.out_err] at hr
    cases hr
  rw [if_neg hq0, Prog.out_bind_ok] at hr
  obtain ⟨st, hst, -⟩ := hr
  rw [Prog.out_lift] at hst
  rw [Prog.out_mapM'_ok] at hq
  have hl := hq.length_eq
  rcases q with _ | ⟨q0, qs⟩
  · exact hq0 rfl
  rw [List.length_zip, List.length_cons] at hl
  have h0' := (List.forall₂_iff_get.1 hq).2 0 (by rw [List.length_zip]; omega) (by simp)
  simp only [List.get_eq_getElem, List.getElem_zip, List.getElem_cons_zero] at h0'
  rw [hsn _ (List.getElem_mem (show 0 < supp.length by omega))] at h0'
  obtain ⟨z', e⟩ := hi _ _ _ h0'
  simp only [Except.ok.injEq] at e
  have hdl := hs'.length_eq
  rcases hN : npDiff t with _ | ⟨d, ds⟩
  · rw [hN, List.length_nil] at hdl
    omega
  · rw [hN, e] at hst
    simp [stDisc, npMean, List.mapM_cons, Except.map] at hst
    cases hst

/-- Without supports there is no objective. -/
theorem C88_ito_no_supports (nil : Fin p → ℝ) (zz : List (List EaSkel)) (env : List (List ℝ) × List (List EaSkel)) :
    ¬ (itoUpdateObjective (interpolateSeed n k) M t vt 0 nil zz).Out (.ok env) := by
  refine ito_no_supports _ ?_ nil zz env
  intro op z r hr
  unfold interpolateSeed interpolateSkel at hr
  simp only [List.map_nil, if_true, Prog.ret_bind, List.length_nil, List.zipWith_nil_left, Prog.out_ret] at hr
  exact ⟨z, hr⟩

/-! ## C89: the supports make the objective unbiased -/

/-- Interpolation answers with the values of a fixed path on `[0, 1]`. -/
def FixedPaths {σ : Type} (interp : NormOp → σ → List ℝ → Prog (σ × List ℝ)) (x : σ → ℝ → ℝ) : Prop :=
  ∀ op z ts, interp op z ts = .ret (z, ts.map (bridgeAt op.finT op.scale op.x0 op.x1 (x z)))

/-- With uniform supports the discretised integral, `l` minus the estimate, has the exact integral as its expectation.  (The constant `c` makes
it nonnegative.) -/
theorem C89_ito {σ : Type} {interp : NormOp → σ → List ℝ → Prog (σ × List ℝ)} {x : σ → ℝ → ℝ} (hi : FixedPaths interp x) {z : List σ}
    {thi : Fin p → ℝ} {l c : ℝ} (h : vt.length = t.length) (h2 : 2 ≤ t.length) (ht : ∀ d ∈ npDiff t, 0 < d) (hz : z.length = (npDiff t).length)
    (hm : 1 ≤ m) (hl : itoBiasedLogLik M thi t vt = .ok l)
    (hc : ∀ q ∈ emSegs (M.reduce thi) t vt z, IntervalIntegrable (segDisc (M.disc thi) x q) volume 0 q.1 ∧
      ∀ u, 0 ≤ u → u < q.1 → -c ≤ segDisc (M.disc thi) x q u) :
    ((drawSupports m (npDiff t)).bind fun supp => itoEstLogAugLik interp M t vt thi supp z).lexp
      (onOk fun r => ENNReal.ofReal (l - r.1 + c * (npDiff t).sum)) =
      ENNReal.ofReal (emInt (M.disc thi) (M.reduce thi) x t vt z + c * (npDiff t).sum) := by
  have key := (lexp_segSum (c := c) hm ((emSegs (M.reduce thi) t vt z).map fun q => (q.1, segDisc (M.disc thi) x q)) (by
    intro q hq
    obtain ⟨q, hq', rfl⟩ := List.mem_map.1 hq
    refine ⟨ht _ ?_, (hc q hq').1, fun u h0 h1 => by linarith [(hc q hq').2 u h0 h1]⟩
    rw [← emSegs_fst (red := M.reduce thi) h hz]
    exact List.mem_map_of_mem hq')).1
  have e1 : ((emSegs (M.reduce thi) t vt z).map fun q => (q.1, segDisc (M.disc thi) x q)).map Prod.fst = npDiff t := by
    rw [List.map_map]
    exact emSegs_fst h hz
  rw [e1, List.map_map] at key
  rw [Prog.Sure.lexp_bind_onOk, drawSupports_eq]
  refine Eq.trans (Prog.lexp_congr fun r hr => ?_) key
  cases r with
  | error e => rfl
  | ok supp =>
    have hs := drawSupports_out (supp := supp) (m := m) (dts := npDiff t) hr
    simp only [onOk]
    obtain ⟨z', e⟩ := itoEst_of_ret (M := M) (thi := thi) (interp := interp) (x := x) (z := z) h h2 hs.length_eq.symm hz (by
      intro ts hts
      obtain ⟨j, hj, rfl⟩ := List.mem_iff_getElem.1 hts
      have := (List.forall₂_iff_get.1 hs).2 j (by rw [hs.length_eq]; exact hj) hj
      intro h0
      simp only [List.get_eq_getElem] at this
      rw [h0] at this
      simp at this
      omega) fun q _ => ⟨q.2.1, hi _ _ _⟩
    rw [e, hl]
    simp only [Prog.lift, Prog.ret_bind, Prog.lexp_ret, onOk]
    rw [discSum_eq, emDisc_segs, sub_sub_cancel]

end Ito

section Switching

variable {p : ℕ} {M : RegimeFns p} {S : SwitchFns p} {K m n k : ℕ}

theorem selected_eq (rs : Option ℕ) : Selected rs = takesPart rs := by
  funext y
  cases rs <;> simp [Selected, takesPart, eq_comm]

/-- The switching objective after `update_objective`: no draw is left.  A particle contributes the part of the biased log-likelihood and of the
discretised integral that belongs to the regime, and the log prior of the whole matrix. -/
theorem C88_switching {zh : List (List EaSkel × Anchorage ℝ ℝ)} {supps : List (List (List ℝ))} {zz' : List (List EaSkel)} {nil : Thi p} (hm : 1 ≤ m)
    (hz : ∀ q ∈ zh, q.2.LenOk ∧ (∀ d ∈ npDiff q.2.t, 0 < d) ∧ q.1.length = (npDiff q.2.t).length ∧ ∀ s ∈ q.1, SeedOk s)
    (h2 : ∀ q ∈ zh, 2 ≤ q.2.t.length) (hd : ∀ supp ∈ supps, ∀ ts ∈ supp, ts.Nodup)
    (ho : (swUpdateObjective (interpolateSeed n k) M S K m nil zh).Out (.ok (supps, zz'))) (logPrior : Thi p → ℝ) (thi : Thi p) (r : ℕ)
    (lik : Anchorage ℝ ℝ → ℝ) (hl : ∀ q ∈ zh, ∃ b, evalBiasedLogLik2 S K thi q.2 (some r) = .ok (lik q.2, b)) :
    swFObj (interpolateSeed n k) M S K logPrior (zh.map Prod.snd) (supps, zz') thi r =
      .ret ((zz'.zip ((zh.map Prod.snd).zip supps)).map fun q => lik q.2.1 -
        emDiscSw (M.disc thi) (M.vol thi) M.reduce (fun y => y = r) EaSkel.at q.2.1.t q.2.1.yt q.2.1.vt q.2.2 q.1 + logPrior thi) := by
  rw [show (fun y => y = r) = takesPart (some r) by funext y; simp [takesPart, eq_comm]]
  obtain ⟨hsl, hzl, hq⟩ := swUpdate_out hm hz hd ho
  have key : ∀ q : List EaSkel × Anchorage ℝ ℝ × List (List ℝ), ∃ z', q ∈ zz'.zip ((zh.map Prod.snd).zip supps) →
      swEstLogAugLik (interpolateSeed n k) M S K thi q.2.1 (some r) q.2.2 q.1 = .ret (lik q.2.1 -
        emDiscSw (M.disc thi) (M.vol thi) M.reduce (takesPart (some r)) EaSkel.at q.2.1.t q.2.1.yt q.2.1.vt q.2.2 q.1, z') := by
    intro q
    by_cases hqm : q ∈ zz'.zip ((zh.map Prod.snd).zip supps)
    · have h1 := hq q hqm
      have hh : q.2.1 ∈ zh.map Prod.snd := (List.of_mem_zip (List.of_mem_zip (show (q.1, q.2) ∈ _ from hqm)).2).1
      obtain ⟨a, ha, he⟩ := List.mem_map.1 hh
      have hza := hz a ha
      have h2a := h2 a ha
      obtain ⟨b, hb⟩ := hl a ha
      rw [he] at hza h2a hb
      obtain ⟨z', e⟩ := swEst_known (M := M) (S := S) (K := K) (thi := thi) (rs := some r) (n := n) (k := k) hza.1 h2a hza.2.1 h1.1 h1.2.1 h1.2.2
      refine ⟨z', fun _ => ?_⟩
      rw [e, hb]
      have := swDiscSum_eq (M := M) (thi := thi) (rs := some r) EaSkel.at q.2.1.t q.2.1.yt q.2.1.vt q.2.2 q.1 hza.1.yt
      rw [← this]
      rfl
    · exact ⟨[], fun h => absurd h hqm⟩
  choose g hg using key
  unfold swFObj
  rw [mapM'_ret fun q hqm => hg q hqm, Prog.ret_bind, List.map_map]
  rfl

/-- Supports with ties have probability zero. -/
theorem C88_switching_ties {σ : Type} (interp : NormOp → σ → List ℝ → Prog (σ × List ℝ)) (nil : Thi p) (zh : List (List σ × Anchorage ℝ ℝ))
    (ht : ∀ q ∈ zh, ∀ d ∈ npDiff q.2.t, 0 < d) :
    (swUpdateObjective interp M S K m nil zh).prob
      (fun r => ∃ supps zz', r = .ok (supps, zz') ∧ ∃ supp ∈ supps, ∃ ts ∈ supp, ¬ ts.Nodup) = 0 := by
  unfold Prog.prob swUpdateObjective
  rw [Prog.lexp_bind, Prog.lexp_congr_gen (Prog.Diffuse.mapM' fun q hq => diffuse_supports (ht q hq)) (h := []) (g' := fun _ => 0), Prog.lexp_zero]
  intro r h' hr
  cases r with
  | error e => simp
  | ok supps =>
    have hn : ∀ supp ∈ supps, ∀ ts ∈ supp, ts.Nodup := by
      have := Prog.gen_mapM' hr
      intro supp hs
      obtain ⟨j, hj, rfl⟩ := List.mem_iff_getElem.1 hs
      obtain ⟨h1, h2, -, hj'⟩ := (List.forall₂_iff_get.1 this).2 j (by rw [this.length_eq]; exact hj) hj
      exact nodup_supports hj'
    rw [Prog.cont_ok, Prog.lexp_congr (h := fun _ => 0), Prog.lexp_zero]
    intro r ho
    refine if_neg ?_
    rintro ⟨supps', zz', rfl, supp, hs, ts, hts, hb⟩
    rw [Prog.out_bind_ok] at ho
    obtain ⟨r, -, ho⟩ := ho
    by_cases h0 : r = []
    · rw [if_pos h0, Prog.out_err] at ho
      cases ho
    · rw [if_neg h0, Prog.out_ret] at ho
      simp only [Except.ok.injEq, Prod.mk.injEq] at ho
      rw [ho.1] at hs
      exact hb (hn supp hs ts hts)

/-- The switching estimate is unbiased over the supports, with or without restriction to a regime. -/
theorem C89_switching {σ : Type} {interp : NormOp → σ → List ℝ → Prog (σ × List ℝ)} {x : σ → ℝ → ℝ} (hi : FixedPaths interp x) {z : List σ}
    {h : Anchorage ℝ ℝ} {thi : Thi p} {rs : Option ℕ} {l b c : ℝ} (hL : h.LenOk) (h2 : 2 ≤ h.t.length) (ht : ∀ d ∈ npDiff h.t, 0 < d)
    (hz : z.length = (npDiff h.t).length) (hm : 1 ≤ m) (hl : evalBiasedLogLik2 S K thi h rs = .ok (l, b))
    (hc : ∀ q ∈ emSegsSw M.reduce h.t h.yt h.vt z,
      IntervalIntegrable (segDiscSw (M.disc thi) (M.vol thi) (Selected rs) x q) volume 0 q.1 ∧
      ∀ u, 0 ≤ u → u < q.1 → -c ≤ segDiscSw (M.disc thi) (M.vol thi) (Selected rs) x q u) :
    ((drawSupports m (npDiff h.t)).bind fun supp => swEstLogAugLik interp M S K thi h rs supp z).lexp
      (onOk fun r => ENNReal.ofReal (l - r.1 + c * (npDiff h.t).sum)) =
      ENNReal.ofReal (emIntSw (M.disc thi) (M.vol thi) M.reduce (Selected rs) x h.t h.yt h.vt z + c * (npDiff h.t).sum) := by
  rw [selected_eq] at hc ⊢
  have key := (lexp_segSum (c := c) hm ((emSegsSw M.reduce h.t h.yt h.vt z).map fun q => (q.1, segDiscSw (M.disc thi) (M.vol thi) (takesPart rs) x q)) (by
    intro q hq
    obtain ⟨q, hq', rfl⟩ := List.mem_map.1 hq
    refine ⟨ht _ ?_, (hc q hq').1, fun u h0 h1 => by linarith [(hc q hq').2 u h0 h1]⟩
    rw [← emSegsSw_fst (red := M.reduce) hL.yt hL.vt hz]
    exact List.mem_map_of_mem hq')).1
  have e1 : ((emSegsSw M.reduce h.t h.yt h.vt z).map fun q => (q.1, segDiscSw (M.disc thi) (M.vol thi) (takesPart rs) x q)).map Prod.fst = npDiff h.t := by
    rw [List.map_map]
    exact emSegsSw_fst hL.yt hL.vt hz
  rw [e1, List.map_map] at key
  rw [Prog.Sure.lexp_bind_onOk, drawSupports_eq]
  refine Eq.trans (Prog.lexp_congr fun r hr => ?_) key
  cases r with
  | error e => rfl
  | ok supp =>
    have hs := drawSupports_out (supp := supp) (m := m) (dts := npDiff h.t) hr
    simp only [onOk]
    obtain ⟨z', e⟩ := swEst_of_ret (M := M) (S := S) (K := K) (thi := thi) (rs := rs) (interp := interp) (x := x) (z := z) hL h2 hs.length_eq.symm hz (by
      intro ts hts
      obtain ⟨j, hj, rfl⟩ := List.mem_iff_getElem.1 hts
      have := (List.forall₂_iff_get.1 hs).2 j (by rw [hs.length_eq]; exact hj) hj
      intro h0
      simp only [List.get_eq_getElem] at this
      rw [h0] at this
      simp at this
      omega) fun q _ => ⟨q.2.2.1, hi _ _ _⟩
    rw [e, hl]
    have := swDiscSum_eq (M := M) (thi := thi) (rs := rs) x h.t h.yt h.vt supp z hL.yt
    simp only [Prog.lift, Prog.ret_bind, Prog.lexp_ret, onOk]
    rw [this, emDiscSw_segs, sub_sub_cancel]

end Switching

/-! ## C90: the reported objective -/

section Reported

variable {M : RegimeFns 2} {S : SwitchFns 2} {K n k : ℕ} {hh : List (Anchorage ℝ ℝ)} {supps : List (List (List ℝ))} {zz : List (List EaSkel)}

/-- What the captured variables of `f_obj` satisfy after `update_objective` (`swUpdate_out`): anchorages with regimes below `K`, and the
supports stored in the seeds. -/
structure Captured (K : ℕ) (hh : List (Anchorage ℝ ℝ)) (supps : List (List (List ℝ))) (zz : List (List EaSkel)) : Prop where
  ne : zz.zip (hh.zip supps) ≠ []
  valid : ∀ h ∈ hh, h.Valid ∧ ∀ y ∈ h.yt.dropLast, y < K
  segs : ∀ q ∈ zz.zip (hh.zip supps), q.2.2.length = (npDiff q.2.1.t).length ∧ q.1.length = (npDiff q.2.1.t).length ∧
    ∀ r ∈ (npDiff q.2.1.t).zip (q.2.2.zip q.1), SegOk r.1 r.2.1 r.2.2

/-- The discretised log-likelihood of a particle: biased log-likelihood minus the discretised integral, all regimes. -/
noncomputable def fullVal (M : RegimeFns 2) (thi : Thi 2) (lik : Anchorage ℝ ℝ → ℝ) (q : List EaSkel × Anchorage ℝ ℝ × List (List ℝ)) : ℝ :=
  lik q.2.1 - emDiscSw (M.disc thi) (M.vol thi) M.reduce (fun _ => True) EaSkel.at q.2.1.t q.2.1.yt q.2.1.vt q.2.2 q.1

/-- Average of a list. -/
noncomputable def avg (l : List ℝ) : ℝ := l.sum / l.length

theorem sum_range_list (f : ℕ → ℝ) (K : ℕ) : ((List.range K).map f).sum = ∑ i ∈ Finset.range K, f i := by
  simp only [Finset.sum, Finset.range_val, Multiset.range, Multiset.map_coe, Multiset.sum_coe]

theorem avg_add_const {α : Type} {L : List α} (h : L ≠ []) (f : α → ℝ) (c : ℝ) : avg (L.map fun q => f q + c) = avg (L.map f) + c := by
  unfold avg
  have hl : (L.length : ℝ) ≠ 0 := by simp [h]
  have : (L.map fun q => f q + c).sum = (L.map f).sum + L.length * c := by
    clear h hl
    induction L with
    | nil => simp
    | cons a L ih => simp only [List.map_cons, List.sum_cons, ih, List.length_cons]; push_cast; ring
  rw [this, List.length_map, List.length_map]
  field_simp

theorem avg_sum {α : Type} (L : List α) (f : ℕ → α → ℝ) (K : ℕ) : ∑ i ∈ Finset.range K, avg (L.map (f i)) = avg (L.map fun q => ∑ i ∈ Finset.range K, f i q) := by
  unfold avg
  simp only [List.length_map]
  rw [← Finset.sum_div]
  congr 1
  induction L with
  | nil => simp
  | cons a L ih => simp only [List.map_cons, List.sum_cons, Finset.sum_add_distrib, ih]

theorem swOu_local : swOu.Local := by
  intro thi thi' y h
  constructor
  · funext x
    simp only [RegimeFns.disc, swOu, h]
  · simp only [swOu, h]

theorem swOu2_local : swOu2.Local := by
  intro thi thi' y h
  constructor
  · funext x
    simp only [RegimeFns.disc, swOu2, h]
  · simp only [swOu2, h]

theorem posRows_update {nil prime : Thi 2} (hn : PosRows K nil) (hp : PosRows K prime) {i : ℕ} (hi : i < K) : PosRows K (Function.update nil i (prime i)) := by
  intro j hj c
  by_cases hji : j = i
  · subst hji; simpa using hp j hj c
  · simpa [Function.update_of_ne hji] using hn j hj c

/-- The restricted value of a particle, a function of the regime's row. -/
noncomputable def ownVal {S : SwitchFns 2} (R : RowFns S) (M : RegimeFns 2) (i : ℕ) (row : Fin 2 → ℝ) (q : List EaSkel × Anchorage ℝ ℝ × List (List ℝ)) : ℝ :=
  ownLik R q.2.1 i row - emDiscSw (M.disc fun _ => row) (M.vol fun _ => row) M.reduce (takesPart (some i)) EaSkel.at q.2.1.t q.2.1.yt q.2.1.vt q.2.2 q.1

theorem swFObj_row (R : RowFns S) (hM : M.Local) (hc : Captured K hh supps zz) {thi : Thi 2} (hp : PosRows K thi) (logPrior : Thi 2 → ℝ) (i : ℕ) :
    swFObj (interpolateSeed n k) M S K logPrior hh (supps, zz) thi i =
      .ret ((zz.zip (hh.zip supps)).map fun q => ownVal R M i (thi i) q + logPrior thi) := by
  have key : ∀ q : List EaSkel × Anchorage ℝ ℝ × List (List ℝ), ∃ z', q ∈ zz.zip (hh.zip supps) →
      swEstLogAugLik (interpolateSeed n k) M S K thi q.2.1 (some i) q.2.2 q.1 = .ret (ownVal R M i (thi i) q, z') := by
    intro q
    by_cases hqm : q ∈ zz.zip (hh.zip supps)
    · have h1 := hc.segs q hqm
      have hh' : q.2.1 ∈ hh := (List.of_mem_zip (List.of_mem_zip (show (q.1, q.2) ∈ _ from hqm)).2).1
      obtain ⟨hv, hn⟩ := hc.valid _ hh'
      obtain ⟨b, hb⟩ := lik2_row R hv hn hp i
      obtain ⟨z', e⟩ := swEst_known (M := M) (S := S) (K := K) (thi := thi) (rs := some i) (n := n) (k := k) ⟨hv.leny, hv.lenv⟩ hv.two
        (npDiff_pos hv.inc) h1.1 h1.2.1 h1.2.2
      refine ⟨z', fun _ => ?_⟩
      rw [e, hb]
      have := swDiscSum_eq (M := M) (thi := thi) (rs := some i) EaSkel.at q.2.1.t q.2.1.yt q.2.1.vt q.2.2 q.1 hv.leny
      have h3 := emDiscSw_congr (red := M.reduce) (x := EaSkel.at) (sel := takesPart (some i)) (disc := M.disc thi) (vol := M.vol thi)
        (disc' := M.disc fun _ => thi i) (vol' := M.vol fun _ => thi i) (fun y hy => by
          rcases hy with h0 | h0
          · cases h0
          · cases h0
            exact hM _ _ _ rfl) q.2.1.t q.2.1.yt q.2.1.vt q.2.2 q.1
      unfold ownVal
      rw [← h3, ← this]
      rfl
    · exact ⟨[], fun h => absurd h hqm⟩
  choose g hg using key
  unfold swFObj
  rw [mapM'_ret fun q hqm => hg q hqm, Prog.ret_bind, List.map_map]
  rfl

/-- The restricted values add up to the full one. -/
theorem ownVal_sum (R : RowFns S) (hM : M.Local) (hc : Captured K hh supps zz) {thi : Thi 2} (hp : PosRows K thi) {lik : Anchorage ℝ ℝ → ℝ}
    (hl : ∀ h ∈ hh, ∃ b, evalBiasedLogLik2 S K thi h none = .ok (lik h, b)) {q : List EaSkel × Anchorage ℝ ℝ × List (List ℝ)}
    (hq : q ∈ zz.zip (hh.zip supps)) : ∑ i ∈ Finset.range K, ownVal R M i (thi i) q = fullVal M thi lik q := by
  have hh' : q.2.1 ∈ hh := (List.of_mem_zip (List.of_mem_zip (show (q.1, q.2) ∈ _ from hq)).2).1
  obtain ⟨hv, hn⟩ := hc.valid _ hh'
  obtain ⟨b, hb⟩ := lik2_none R hv hn hp
  obtain ⟨b', hb'⟩ := hl _ hh'
  rw [hb] at hb'
  simp only [Except.ok.injEq, Prod.mk.injEq] at hb'
  unfold fullVal ownVal
  rw [Finset.sum_sub_distrib, ← hb'.1]
  congr 1
  have e : (fun _ : ℕ => True) = takesPart none := by funext y; simp [takesPart]
  rw [e, emDiscSw_regimes _ _ _ _ _ hv.leny hn]
  refine Finset.sum_congr rfl fun i _ => ?_
  exact (emDiscSw_congr (fun y hy => by
    rcases hy with h0 | h0
    · cases h0
    · cases h0
      exact hM _ _ _ rfl) _ _ _ _ _).symm

/-- The restricted objectives without the prior add up to the full one: the regimes can be optimised one at a time. -/
theorem C90_separates (R : RowFns S) (hM : M.Local) (hc : Captured K hh supps zz) {lik : Thi 2 → Anchorage ℝ ℝ → ℝ}
    (hl : ∀ thi, PosRows K thi → ∀ h ∈ hh, ∃ b, evalBiasedLogLik2 S K thi h none = .ok (lik thi h, b)) :
    ∃ A : ℕ → (Fin 2 → ℝ) → List ℝ, ∀ thi, PosRows K thi →
      (∀ i, swFObj (interpolateSeed n k) M S K (fun _ => 0) hh (supps, zz) thi i = .ret (A i (thi i))) ∧
      ∑ i ∈ Finset.range K, avg (A i (thi i)) = avg ((zz.zip (hh.zip supps)).map (fullVal M thi (lik thi))) := by
  refine ⟨fun i row => (zz.zip (hh.zip supps)).map fun q => ownVal R M i row q, fun thi hp => ⟨fun i => ?_, ?_⟩⟩
  · rw [swFObj_row R hM hc hp]
    simp
  · rw [avg_sum]
    congr 1
    exact List.map_congr_left fun q hq => ownVal_sum R hM hc hp (hl thi hp) hq

/-- What `update_param` reports: the objective at the new matrix, plus the log prior of the old matrix once for every regime but one. -/
theorem C90_reported_partial (R : RowFns S) (hM : M.Local) (hc : Captured K hh supps zz) {nil prime : Thi 2} (hn : PosRows K nil) (hp : PosRows K prime)
    (ρ : (Fin 2 → ℝ) → ℝ) {lik : Anchorage ℝ ℝ → ℝ} (hl : ∀ h ∈ hh, ∃ b, evalBiasedLogLik2 S K prime h none = .ok (lik h, b)) :
    swReportedObj (interpolateSeed n k) M S K (fun thi => ∑ i ∈ Finset.range K, ρ (thi i)) hh (supps, zz) nil prime =
      .ret (avg ((zz.zip (hh.zip supps)).map (fullVal M prime lik)) + ∑ i ∈ Finset.range K, ρ (prime i) +
        (K - 1) * ∑ i ∈ Finset.range K, ρ (nil i)) := by
  set E := zz.zip (hh.zip supps) with hE
  have h1 : ∀ i ∈ List.range K, ((swFObj (interpolateSeed n k) M S K (fun thi => ∑ i ∈ Finset.range K, ρ (thi i)) hh (supps, zz)
      (Function.update nil i (prime i)) i).bind fun v => Prog.lift (npMean v)) =
      .ret (avg (E.map fun q => ownVal R M i (prime i) q) + (∑ j ∈ Finset.range K, ρ (nil j) + (ρ (prime i) - ρ (nil i)))) := by
    intro i hi
    rw [List.mem_range] at hi
    rw [swFObj_row R hM hc (posRows_update hn hp hi), Prog.ret_bind, npMean, if_neg (by simpa using hc.ne)]
    simp only [Function.update_self]
    have e : ∑ j ∈ Finset.range K, ρ (Function.update nil i (prime i) j) = ∑ j ∈ Finset.range K, ρ (nil j) + (ρ (prime i) - ρ (nil i)) := by
      have hm : i ∈ Finset.range K := Finset.mem_range.2 hi
      rw [← Finset.add_sum_erase _ _ hm, ← Finset.add_sum_erase _ (fun k => ρ (nil k)) hm, Function.update_self]
      rw [Finset.sum_congr rfl (g := fun k => ρ (nil k))]
      · ring
      · intro k hk; rw [Function.update_of_ne (Finset.ne_of_mem_erase hk)]
    rw [e]
    have := avg_add_const hc.ne (fun q => ownVal R M i (prime i) q) (∑ j ∈ Finset.range K, ρ (nil j) + (ρ (prime i) - ρ (nil i)))
    rw [← this]
    rfl
  unfold swReportedObj
  rw [mapM'_ret h1, Prog.ret_bind, sum_range_list, Finset.sum_add_distrib, avg_sum, Finset.sum_add_distrib, Finset.sum_sub_distrib, Finset.sum_const,
    Finset.card_range, nsmul_eq_mul]
  congr 1
  rw [List.map_congr_left fun q hq => ownVal_sum R hM hc hp hl hq]
  ring

/-- A seed with the support `1/2`. -/
noncomputable def exSeedEm : EaSkel := ⟨[0, 1 / 2, 1], [0, 3 / 2, 1], 0, 3, 1, some [true, true]⟩

theorem exSeed_ok : SeedOk exSeedEm :=
  ⟨⟨by simp [exSeedEm]; norm_num, rfl, rfl, by simp [exSeedEm]⟩, by constructor <;> norm_num [exSeedEm], by left; constructor <;> norm_num [exSeedEm]⟩

theorem exSeg_ok : SegOk 1 [1 / 2] exSeedEm := ⟨exSeed_ok, by simp, by simp, by simp [exSeedEm]⟩

def exAnch2 : Anchorage ℝ ℝ := ⟨[0, 1], [0, 0], [0, 1]⟩

theorem exAnch2_valid : exAnch2.Valid := ⟨rfl, rfl, rfl, by simp [exAnch2], by simp [exAnch2]⟩

theorem exCaptured : Captured 2 [exAnch2] [[[1 / 2]]] [[exSeedEm]] where
  ne := by simp
  valid := by
    intro h hh
    rw [List.mem_singleton] at hh
    subst hh
    exact ⟨exAnch2_valid, by simp [exAnch2]⟩
  segs := by
    intro q hq
    simp only [List.zip_cons_cons, List.zip_nil_right, List.mem_singleton] at hq
    subst hq
    refine ⟨by simp [exAnch2, npDiff], by simp [exAnch2, npDiff], ?_⟩
    intro r hr
    simp only [exAnch2, npDiff, List.zip_cons_cons, List.zip_nil_right, List.mem_singleton, sub_zero] at hr
    subst hr
    exact exSeg_ok

/-- The reported objective is not the objective: with the log prior of the model it is off by the log prior of the old matrix. -/
theorem C90_violated : ∃ (nil prime : Thi 2) (hh : List (Anchorage ℝ ℝ)) (supps : List (List (List ℝ))) (zz : List (List EaSkel)) (lik : Anchorage ℝ ℝ → ℝ)
    (prior : Thi 2 → ℝ), PosRows 2 nil ∧ PosRows 2 prime ∧ Captured 2 hh supps zz ∧ (∀ thi, PosRows 2 thi → evalLogPrior 2 thi = .ok (some (prior thi))) ∧
    (∀ h ∈ hh, ∃ b, evalBiasedLogLik2 ouFns 2 prime h none = .ok (lik h, b)) ∧
    ∀ n k, ∃ v, swReportedObj (interpolateSeed n k) swOu ouFns 2 prior hh (supps, zz) nil prime = .ret v ∧
      v ≠ avg ((zz.zip (hh.zip supps)).map (fullVal swOu prime lik)) + prior prime := by
  have hp : PosRows 2 (fun _ _ => 1 : Thi 2) := fun _ _ _ => one_pos
  have hn : PosRows 2 (fun _ => ![2, 1] : Thi 2) := by
    intro i _ j
    fin_cases j <;> norm_num
  obtain ⟨b, hb⟩ := lik2_none ouRow exAnch2_valid (exCaptured.valid _ (by simp)).2 hp
  refine ⟨fun _ => ![2, 1], fun _ _ => 1, [exAnch2], [[[1 / 2]]], [[exSeedEm]],
    fun h => ∑ r ∈ Finset.range 2, ownLik ouRow h r fun _ => 1, fun thi => ∑ i ∈ Finset.range 2, -rowPrior (thi i), hn, hp, exCaptured, ?_, ?_, ?_⟩
  · intro thi h
    simp only [logPrior_pos h, Finset.sum_neg_distrib]
  · intro h hh
    rw [List.mem_singleton] at hh
    subst hh
    exact ⟨b, hb⟩
  · intro n k
    refine ⟨_, C90_reported_partial ouRow swOu_local exCaptured hn hp (fun r => -rowPrior r) (lik := fun h => ∑ r ∈ Finset.range 2, ownLik ouRow h r fun _ => 1) (by
      intro h hh
      rw [List.mem_singleton] at hh
      subst hh
      exact ⟨b, hb⟩), ?_⟩
    have h1 : rowPrior ![2, 1] = Real.log 2 + Real.log 2 ^ 2 / 2 := by simp [rowPrior]
    have h2 : 0 < Real.log 2 := Real.log_pos (by norm_num)
    simp only [Finset.sum_range_succ, Finset.sum_range_zero, h1]
    norm_num
    nlinarith [sq_nonneg (Real.log 2)]

/-- The hypotheses of `C90_separates` can be met. -/
example : ∃ A : ℕ → (Fin 2 → ℝ) → List ℝ, ∀ thi, PosRows 2 thi →
    (∀ i, swFObj (interpolateSeed 1 1) swOu ouFns 2 (fun _ => 0) [exAnch2] ([[[1 / 2]]], [[exSeedEm]]) thi i = .ret (A i (thi i))) ∧
      ∑ i ∈ Finset.range 2, avg (A i (thi i)) = avg ([fullVal swOu thi (fun h => ∑ r ∈ Finset.range 2, ownLik ouRow h r (thi r)) ([exSeedEm], exAnch2, [[1 / 2]])]) :=
  C90_separates ouRow swOu_local exCaptured (lik := fun thi h => ∑ r ∈ Finset.range 2, ownLik ouRow h r (thi r)) fun thi hp h hh => by
    rw [List.mem_singleton] at hh
    subst hh
    exact lik2_none ouRow exAnch2_valid (exCaptured.valid _ (by simp)).2 hp

end Reported

/-! ## Examples for C88 and C89 -/

theorem exSkel_seed : SeedOk exSkel := ⟨exSkel_valid, exSkel_within, by left; constructor <;> norm_num [exSkel]⟩

/-- An interpolation of a seed that succeeds. -/
theorem exSeed_fill {op : NormOp} (hop : op.finT = 1) : ∃ v, (interpolateSeed 1 1 op exSkel [1 / 2]).Out (.ok (exSeedEm, v)) := by
  unfold interpolateSeed
  have e : ([1 / 2] : List ℝ).map (fun t => (op.norm t none).1) = [1 / 2] := by simp [NormOp.norm, hop]
  simp only [e, Prog.out_bind_ok]
  refine ⟨List.zipWith (fun s z => (op.denorm s (some z)).2.getD 0) [1 / 2] [3 / 2], _, exSkel_fill, ?_⟩
  rw [if_pos (by rfl), Prog.out_ret]
  rfl

/-- The hypotheses of `C88_ito` can be met. -/
theorem exUpdate : (itoUpdateObjective (interpolateSeed 1 1) itoOu [0, 1] [0, 1] 1 ![1, 1] [[exSkel]]).Out (.ok ([[1 / 2]], [[exSeedEm]])) := by
  have hs : (drawSupports 1 (npDiff [0, 1])).Out (.ok [[1 / 2]]) := by
    unfold drawSupports
    rw [Prog.out_mapM'_ok]
    simp only [npDiff]
    refine List.Forall₂.cons ?_ List.Forall₂.nil
    rw [Prog.out_bind_ok]
    refine ⟨[1 / 2], ?_, ?_⟩
    · rw [Prog.out_replicate_ok]
      refine ⟨rfl, ?_⟩
      intro u hu
      rw [List.mem_singleton] at hu
      subst hu
      rw [Prog.out_draw]
      exact ⟨1 / 2, by simp only [RDist.support]; norm_num, rfl⟩
    · rw [Prog.out_ret]
      rfl
  have hop : itoNormops itoOu ![1, 1] [0, 1] [0, 1] = [⟨1, 1, 0, 1⟩] := by
    simp [itoNormops, npDiff, itoOu]
  obtain ⟨v, hv⟩ := exSeed_fill (op := ⟨1, 1, 0, 1⟩) rfl
  have hvl : v ≠ [] := by
    have h1 := (interpolateSeed_stores (op := ⟨1, 1, 0, 1⟩) exSkel_seed (by norm_num) (by simp) hv).2.2
    rw [h1]
    simp
  have hl : ∃ l, itoBiasedLogLik itoOu ![1, 1] [0, 1] [0, 1] = .ok l := by
    unfold itoBiasedLogLik
    rw [if_neg (by simp), if_neg (by simp [npDiff, itoOu])]
    exact ⟨_, rfl⟩
  obtain ⟨l, hl⟩ := hl
  unfold itoUpdateObjective
  rw [Prog.out_bind_ok]
  refine ⟨_, hs, ?_⟩
  rw [Prog.out_bind_ok]
  obtain ⟨m, hm⟩ : ∃ m, stDisc (itoOu.disc ![1, 1]) 1 v = .ok m := by
    unfold stDisc npMean
    rw [if_neg (by simpa using hvl)]
    exact ⟨_, rfl⟩
  refine ⟨[(l + [m].sum, [exSeedEm])], ?_, ?_⟩
  · rw [Prog.out_mapM'_ok]
    refine List.Forall₂.cons ?_ List.Forall₂.nil
    unfold itoEstLogAugLik
    rw [hop, Prog.out_bind_ok]
    refine ⟨[(exSeedEm, v)], ?_, ?_⟩
    · rw [Prog.out_mapM'_ok]
      exact List.Forall₂.cons hv List.Forall₂.nil
    · rw [if_neg (by simp), Prog.out_bind_ok]
      refine ⟨[m], ?_, ?_⟩
      · rw [Prog.out_lift]
        simp only [npDiff, List.map_cons, List.map_nil, List.zip_cons_cons, List.zip_nil_right, List.mapM_cons, List.mapM_nil, sub_zero, hm]
        rfl
      · rw [hl]
        rfl
  · rw [if_neg (by simp), Prog.out_ret]
    rfl

example (logPrior : (Fin 2 → ℝ) → ℝ) : ∃ l, itoFObj (interpolateSeed 1 1) itoOu logPrior [0, 1] [0, 1] ([[1 / 2]], [[exSeedEm]]) ![2, 1] =
    .ret [l - emDisc (itoOu.disc ![2, 1]) (itoOu.reduce ![2, 1]) EaSkel.at [0, 1] [0, 1] [[1 / 2]] [exSeedEm] + logPrior ![2, 1]] := by
  have hl : ∃ l, itoBiasedLogLik itoOu ![2, 1] [0, 1] [0, 1] = .ok l := by
    unfold itoBiasedLogLik
    rw [if_neg (by simp), if_neg (by simp [npDiff, itoOu])]
    exact ⟨_, rfl⟩
  obtain ⟨l, hl⟩ := hl
  refine ⟨l, (C88_ito rfl (by simp) (by simp [npDiff]) le_rfl ?_ (by simp) exUpdate logPrior ![2, 1]).1 l hl⟩
  intro z hz
  rw [List.mem_singleton] at hz
  subst hz
  exact ⟨by simp [npDiff], by simpa using exSkel_seed⟩

/-- The hypotheses of `C89_ito` can be met. -/
example : ∃ l, ((drawSupports 3 (npDiff [0, 1])).bind fun supp => itoEstLogAugLik
    (fun op (z : Unit) ts => .ret (z, ts.map (bridgeAt op.finT op.scale op.x0 op.x1 fun s => s * (1 - s)))) itoOu [0, 1] [0, 1] ![1, 1] supp [()]).lexp
      (onOk fun r => ENNReal.ofReal (l - r.1 + 1 / 2 * (npDiff [0, 1]).sum)) =
      ENNReal.ofReal (emInt (itoOu.disc ![1, 1]) (itoOu.reduce ![1, 1]) (fun _ s => s * (1 - s)) [0, 1] [0, 1] [()] + 1 / 2 * (npDiff [0, 1]).sum) := by
  have hl : ∃ l, itoBiasedLogLik itoOu ![1, 1] [0, 1] [0, 1] = .ok l := by
    unfold itoBiasedLogLik
    rw [if_neg (by simp), if_neg (by simp [npDiff, itoOu])]
    exact ⟨_, rfl⟩
  obtain ⟨l, hl⟩ := hl
  refine ⟨l, C89_ito (fun _ _ _ => rfl) rfl (by simp) (by simp [npDiff]) (by simp [npDiff]) (by norm_num) hl ?_⟩
  intro q _
  constructor
  · apply Continuous.intervalIntegrable
    unfold segDisc bridgeAt ItoFns.disc itoOu
    fun_prop
  · intro u _ _
    simp only [segDisc, ItoFns.disc, itoOu]
    norm_num
    nlinarith [sq_nonneg (bridgeAt q.1 (Real.sqrt q.1) q.2.1 q.2.2.1 (fun s => s * (1 - s)) u)]

end Ctb
