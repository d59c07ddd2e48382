import Verif.Lemmas.AugLaw

/-! # The weight of a hidden state as an importance weight -/

set_option linter.unusedSectionVars false

namespace Ctb

open MeasureTheory
open scoped ENNReal

variable {ζ : Type}

theorem driftGain_measN (sx : ℕ → ℝ → ℝ) (hsx : ∀ y, Measurable (sx y)) (vol : ℕ → ℝ) : ∀ (η : List ℕ) (n : ℕ) {X : Type} [MeasurableSpace X] (x : X → ℝ),
    Measurable x → Measurable fun p : X × (Fin n → ℝ) => driftGain sx vol (η.zip (x p.1 :: List.ofFn p.2))
  | [], n, X, _, x, hx => by simp [driftGain]
  | [y], n, X, _, x, hx => by simp [driftGain]
  | y :: z :: η, 0, X, _, x, hx => by simp [driftGain]
  | y :: z :: η, n + 1, X, _, x, hx => by
    have ih := driftGain_measN sx hsx vol (z :: η) n (X := X × (Fin (n + 1) → ℝ)) (fun q => q.2 0) (by fun_prop)
    have hc : Measurable fun p : X × (Fin (n + 1) → ℝ) => (p, fun i : Fin n => p.2 i.succ) := by fun_prop
    have h1 := ih.comp hc
    have h2 : Measurable fun p : X × (Fin (n + 1) → ℝ) => (sx y (p.2 0) - sx y (x p.1)) / vol y ^ 2 :=
      (((hsx y).comp (by fun_prop)).sub ((hsx y).comp (hx.comp measurable_fst))).div_const _
    have h3 := h2.add h1
    have : (fun p : X × (Fin (n + 1) → ℝ) => driftGain sx vol ((y :: z :: η).zip (x p.1 :: List.ofFn p.2))) =
        (fun p : X × (Fin (n + 1) → ℝ) => (sx y (p.2 0) - sx y (x p.1)) / vol y ^ 2) +
          (fun p : (X × (Fin (n + 1) → ℝ)) × (Fin n → ℝ) => driftGain sx vol ((z :: η).zip (p.1.2 0 :: List.ofFn p.2))) ∘ fun p => (p, fun i => p.2 i.succ) := by
      funext p
      rw [List.ofFn_succ]
      rfl
    rw [this]
    exact h3

theorem sorted_unique {l m : List ℝ} (hl : l.Pairwise (· < ·)) (hm : m.Pairwise (· < ·)) (h : ∀ s, s ∈ l ↔ s ∈ m) : l = m :=
  List.Perm.eq_of_pairwise' hl hm ((List.perm_ext_iff_of_nodup (hl.imp ne_of_lt) (hm.imp ne_of_lt)).2 h)

theorem Augments.yt_state {y : Skel ℝ} {t vt : List ℝ} {z : List ζ} {h : Anchorage ℝ ℝ} (ha : Augments y t vt z h) : h.t.map y.stateAt = h.yt.map some := by
  have hly := ha.valid.leny
  refine List.ext_getElem (by simp [hly]) fun i i1 i2 => ?_
  simp only [List.getElem_map]
  rw [← ha.state, Anchorage.stateAt]
  have hi1 : i < h.t.length := by simpa using i1
  have hi2 : i < h.yt.length := by simpa using i2
  have hz : (h.t[i], h.yt[i]) ∈ h.t.zip h.yt := by
    rw [List.mem_iff_getElem]
    exact ⟨i, by simp [hi1, hi2], by simp⟩
  exact stAt_self (p := (h.t[i], h.yt[i])) (by
    have := ha.valid.inc
    rw [List.pairwise_iff_getElem] at this ⊢
    intro a b ha hb hab
    simp only [List.getElem_zip]
    exact this a b _ _ hab) hz

theorem Augments.yt_lt {y : Skel ℝ} (hv : y.Valid) {n : ℕ} (hn : ∀ x ∈ y.xt, x < n) {t vt : List ℝ} {z : List ζ} {h : Anchorage ℝ ℝ}
    (ha : Augments y t vt z h) : ∀ x ∈ h.yt, x < n := by
  intro x hx
  have : some x ∈ h.t.map y.stateAt := by rw [ha.yt_state]; exact List.mem_map_of_mem hx
  obtain ⟨s, -, hs⟩ := List.mem_map.1 this
  refine hn x ?_
  rw [(Skel.t_eq_of_len hv.len).2]
  obtain ⟨a, ha, -⟩ := stAt_mem hs
  exact List.mem_map.2 ⟨_, ha, rfl⟩

theorem segSpec_length (vol : ℕ → ℝ) (obs : List (ℝ × ℝ)) : ∀ l : List (ℝ × ℕ), (segSpec vol obs l).length = l.length - 1
  | [] => rfl
  | [_] => rfl
  | (a, y) :: (b, z) :: l => by rw [segSpec, List.length_cons, segSpec_length vol obs ((b, z) :: l)]; simp

theorem zip_unzip_pairs {α β : Type} (l : List (α × β)) : (l.map Prod.fst).zip (l.map Prod.snd) = l := by
  induction l with
  | nil => rfl
  | cons a l ih => simp [ih]

theorem anch_unique {y : Skel ℝ} (hv : y.Valid) (hr : y.Reduced) {t vt : List ℝ} (hg : ObsGrid t vt y.fin) {τ : List ℝ} {η : List ℕ}
    (hτ : τ.Pairwise (· < ·)) (hm : ∀ s, s ∈ τ ↔ s ∈ t ∨ s ∈ y.t) (hη : τ.map y.stateAt = η.map some) : τ = anchTimes y t ∧ η = anchRegimes y t := by
  obtain ⟨z, h, ha, h1, h2⟩ := anch_facts hv hr hg
  have e1 : τ = h.t := sorted_unique hτ ha.valid.inc fun s => by rw [hm, ha.anchors]
  refine ⟨e1.trans h1, ?_⟩
  rw [← h2]
  have e2 := ha.yt_state
  have : η.map some = h.yt.map some := by rw [← hη, e1, e2]
  exact List.map_injective_iff.2 (Option.some_injective _) this

theorem obsLogLik_congr {red dvRed : ℝ → ℝ} {vol : ℕ → ℝ} {st st' : ℝ → Option ℕ} (h : ∀ s, st s = st' s) (l : List (ℝ × ℝ)) :
    obsLogLik red dvRed vol st l = obsLogLik red dvRed vol st' l := by rw [funext h]

theorem anch_segs {vol : ℕ → ℝ} {y : Skel ℝ} (hv : y.Valid) {t : List ℝ} {x0 : ℝ} {ws : List ℝ} (hg : ObsGrid t (x0 :: ws) y.fin) {τ : List ℝ}
    {η : List ℕ} (e1 : τ = anchTimes y t) (e2 : η = anchRegimes y t) (hl : τ.length = η.length) :
    chainSegs vol (piecesOf y t) ws = segSpec vol (t.zip (x0 :: ws)) (τ.zip η) ∧ (segSpec vol (t.zip (x0 :: ws)) (τ.zip η)).length = τ.length - 1 := by
  have hext := hg.eq_ext
  have hinc := hg.inc
  set L := t.tail.dropLast ++ [y.fin] with hL
  have hlw : L.length = ws.length := by have := hg.len; rw [hext] at this; simpa using this
  have hlast : (0 :: L).getLast (by simp) = y.fin := by rw [hL]; simp
  obtain ⟨yl, hyl⟩ : ∃ yl, y.xt.getLast? = some yl := by
    refine ⟨_, List.getLast?_eq_some_getLast ?_⟩
    intro h0; have := hv.len; have h2 := hv.head; rw [h0] at this; simp at this; simp [this] at h2
  refine ⟨?_, by rw [segSpec_length, List.length_zip, ← hl, min_self]⟩
  have hsegs : chainSegs vol (piecesOf y t) ws = segSpec vol (t.zip (x0 :: ws)) (τ.zip η) := by
    have hz : τ.zip η = catJ 0 (piecesOf y t) ++ [(y.fin, yl)] := by
      rw [e1, e2, anchTimes, anchRegimes, hyl, List.zip_append (by simp)]
      rw [zip_unzip_pairs]; rfl
    have := chainSegs_eq (vol := vol) hv (t.zip (x0 :: ws)) yl L ws 0 le_rfl (by rw [← hext]; exact hinc) hlw
      (fun p hp => lookup_zip hinc p (by rw [hext, List.zip_cons_cons]; exact List.mem_cons_of_mem _ hp))
      (fun s hs hsL => lookup_zip_none (by rw [hext, List.mem_cons, not_or]; exact ⟨hs.ne', hsL⟩))
    rw [hlast] at this
    rw [hz]
    conv_lhs => rw [hext]
    rw [this, ← hext]
  exact hsegs

theorem aug_law {vol : ℕ → ℝ} (hvol : ∀ y, vol y ≠ 0) {rawSeed : ℝ → ℕ → ℝ → ℝ → Prog ζ} {y : Skel ℝ} (hv : y.Valid) (hr : y.Reduced)
    {t : List ℝ} {x0 : ℝ} {ws : List ℝ} (hg : ObsGrid t (x0 :: ws) y.fin) {τ : List ℝ} {η : List ℕ} (hτ : τ.Pairwise (· < ·))
    (hm : ∀ s, s ∈ τ ↔ s ∈ t ∨ s ∈ y.t) (hη : τ.map y.stateAt = η.map some) (G : List ζ → Anchorage ℝ ℝ → ℝ≥0∞)
    (hG : MeasN (τ.length - 1) fun (_ : Unit) l => seedVal rawSeed G τ η (x0 :: l)) :
    ENNReal.ofReal (Real.exp (obsLogLik id (fun _ => 1) vol y.stateAt (t.zip (x0 :: ws)))) *
        (sampleAug vol id id rawSeed y t (x0 :: ws)).lexp (onOk fun r => G r.1 r.2) =
      anchInt (segSpec vol (t.zip (x0 :: ws)) (τ.zip η)) x0 fun l => seedVal rawSeed G τ η (x0 :: l) := by
  obtain ⟨e1, e2⟩ := anch_unique hv hr hg hτ hm hη
  obtain ⟨hsegs, hslen⟩ := anch_segs (vol := vol) hv hg e1 e2 (by have := congrArg List.length hη; simpa using this)
  have key := aug_lexp hvol hv hg G (rawSeed := rawSeed) (by rw [hsegs, hslen, ← e1, ← e2]; exact hG)
  rw [hsegs, ← e1, ← e2] at key
  rw [← key]
  congr 1
  have hext := hg.eq_ext
  have hlw : (t.tail.dropLast ++ [y.fin]).length = ws.length := by
    have h1 := hg.len; have h2 := hg.two
    simp at h1 ⊢; omega
  have := chainDens_eq hvol (dvRed := fun _ => 1) hv (t.tail.dropLast ++ [y.fin]) ws 0 x0 le_rfl (by rw [← hext]; exact hg.inc) hlw (fun _ _ => one_ne_zero)
  rw [← hext] at this
  rw [this]
  simp

/-- Value of `G` weighted with the exponential of the integrated lower bounds of the seeds. -/
noncomputable def boundVal (ebd : ℕ → ℝ → ℝ → Res DiscBounds) (ops : Anchorage ℝ ℝ → List NormOp) (G : List EaSkel → Anchorage ℝ ℝ → ℝ≥0∞)
    (z : List EaSkel) (h : Anchorage ℝ ℝ) : ℝ≥0∞ :=
  onOk (fun st => ENNReal.ofReal (Real.exp st.sum) * G z h) ((z.zip (h.yt.zip (ops h))).mapM fun q => integrateDiscBound (ebd q.2.1) q.2.2 q.1)

theorem importance {p : ℕ} {M : SwitchFns p} {n : ℕ} {thi : Thi p} {vol : ℕ → ℝ} {sx : ℕ → ℝ → ℝ} (hM : ∀ ys, M.vol thi ys = ys.map vol)
    (hsx : ∀ ys xs, M.sx thi ys xs = List.zipWith sx ys xs) (hred : M.red = id) (hvol : ∀ y, vol y ≠ 0) (hsm : ∀ y, Measurable (sx y))
    {ebd : ℕ → ℝ → ℝ → Res DiscBounds} {ops : Anchorage ℝ ℝ → List NormOp} {rawSeed : ℝ → ℕ → ℝ → ℝ → Prog EaSkel} {y : Skel ℝ} (hv : y.Valid) (hr : y.Reduced)
    (hn : ∀ x ∈ y.xt, x < n) {t : List ℝ} {x0 : ℝ} {ws : List ℝ} (hg : ObsGrid t (x0 :: ws) y.fin) (hoff : ∀ s ∈ y.t, s ≠ 0 → s ∉ t)
    (hd : ∀ w ∈ ws, M.dvRed w ≠ 0) {τ : List ℝ} {η : List ℕ} (hτ : τ.Pairwise (· < ·)) (hm : ∀ s, s ∈ τ ↔ s ∈ t ∨ s ∈ y.t)
    (hη : τ.map y.stateAt = η.map some) (G : List EaSkel → Anchorage ℝ ℝ → ℝ≥0∞)
    (hG : MeasN (τ.length - 1) fun (_ : Unit) l => seedVal rawSeed (boundVal ebd ops G) τ η (x0 :: l)) :
    (sampleAug vol id id rawSeed y t (x0 :: ws)).lexp (onOk fun r =>
        onOk (fun w => ENNReal.ofReal (Real.exp w) * G r.1 r.2) (evalHiddenWeight M n thi ebd (ops r.2) r.1 r.2)) =
      (ws.map fun w => ENNReal.ofReal |M.dvRed w|).prod * anchInt (segSpec vol (t.zip (x0 :: ws)) (τ.zip η)) x0 fun l =>
        ENNReal.ofReal (Real.exp (driftGain sx vol (η.zip (x0 :: l)))) * seedVal rawSeed (boundVal ebd ops G) τ η (x0 :: l) := by
  obtain ⟨e1, e2⟩ := anch_unique hv hr hg hτ hm hη
  have hext := hg.eq_ext
  have hinc := hg.inc
  set L := t.tail.dropLast ++ [y.fin] with hL
  have hlw : L.length = ws.length := by have := hg.len; rw [hext] at this; simpa using this
  set D := chainDens vol (piecesOf y t) x0 ws with hD
  set P := (ws.map fun w => ENNReal.ofReal |M.dvRed w|).prod with hP
  set G3 : List EaSkel → Anchorage ℝ ℝ → ℝ≥0∞ := fun z h => ENNReal.ofReal (Real.exp (driftGain sx vol (h.yt.zip h.vt))) * boundVal ebd ops G z h with hG3
  have hdens : ENNReal.ofReal (Real.exp (obsLogLik id M.dvRed vol y.stateAt (t.zip (x0 :: ws)))) = P * D := by
    rw [hD, hext]
    exact chainDens_eq hvol hv L ws 0 x0 le_rfl (by rw [← hext]; exact hinc) hlw hd
  have step1 : (sampleAug vol id id rawSeed y t (x0 :: ws)).lexp (onOk fun r =>
        onOk (fun w => ENNReal.ofReal (Real.exp w) * G r.1 r.2) (evalHiddenWeight M n thi ebd (ops r.2) r.1 r.2)) =
      (sampleAug vol id id rawSeed y t (x0 :: ws)).lexp (fun r => (P * D) * onOk (fun r => G3 r.1 r.2) r) := by
    refine Prog.lexp_congr fun r hr' => ?_
    rcases aug_out hvol hv hr hg (fun _ _ => ⟨rfl, rfl⟩) hr' with ⟨z, h, rfl, ha⟩ | ⟨e, _, _, _, _, rfl, -⟩
    · obtain ⟨a, b, h1, h2⟩ := outputs_sum (n := n) hM hsx ha.valid (fun x hx => ha.yt_lt hv hn x (List.mem_of_mem_dropLast hx)) (fun _ _ => hvol _) hg ha.obs (ha.jumpsOffObs hv hr hoff)
      rw [hred, List.map_id, obsLogLik_congr ha.state] at h2
      simp only [onOk, hG3]
      rw [evalHiddenWeight, h1, boundVal]
      cases hq : (z.zip (h.yt.zip (ops h))).mapM fun q => integrateDiscBound (ebd q.2.1) q.2.2 q.1 with
      | error e => simp [Except.bind, onOk]
      | ok st =>
        simp only [Except.bind, onOk]
        rw [h2, Real.exp_add, Real.exp_add, ENNReal.ofReal_mul (by positivity), ENNReal.ofReal_mul (by positivity), hdens]
        ring
    · simp [onOk]
  obtain ⟨hsegs, hslen⟩ := anch_segs (vol := vol) hv hg e1 e2 (by have := congrArg List.length hη; simpa using this)
  have hsv : ∀ l, seedVal rawSeed G3 τ η (x0 :: l) =
      ENNReal.ofReal (Real.exp (driftGain sx vol (η.zip (x0 :: l)))) * seedVal rawSeed (boundVal ebd ops G) τ η (x0 :: l) := by
    intro l
    rw [seedVal, seedVal, ← Prog.lexp_const_mul _ _ ENNReal.ofReal_ne_top]
    congr 1
    ext r
    rcases r with e | z <;> simp [onOk, hG3]
  have hmeas : MeasN (τ.length - 1) fun (_ : Unit) l => seedVal rawSeed G3 τ η (x0 :: l) := by
    simp only [hsv]
    exact (ENNReal.measurable_ofReal.comp (Real.measurable_exp.comp (driftGain_measN sx hsm vol η (τ.length - 1) (fun _ : Unit => x0) measurable_const))).mul hG
  have key := aug_lexp hvol hv hg G3 (rawSeed := rawSeed) (by rw [hsegs, hslen, ← e1, ← e2]; exact hmeas)
  rw [hsegs, ← e1, ← e2] at key
  rw [step1, Prog.lexp_const_mul _ _ (by rw [← hdens]; exact ENNReal.ofReal_ne_top), mul_assoc, key]
  congr 2
  ext l
  exact hsv l

end Ctb
