import Verif.Props.McemEst

/-! # C104: the seeds that `est_aug_lik` returns -/

set_option linter.unusedSectionVars false

namespace Ctb

open Classical

variable {σ : Type}

theorem augSum_spec (l : ℝ) (r : List (Option ℝ × ℝ × σ)) :
    (augSum l r = none ↔ ∃ a ∈ r, a.1 = none) ∧ ∀ w, augSum l r = some w → w = l + (r.map fun a => a.1.getD 0).sum + (r.map fun a => a.2.1).sum := by
  have key : ((r.mapM (m := Option) fun (q : Option ℝ × ℝ × σ) => q.1) = none ↔ ∃ a ∈ r, a.1 = none) ∧
      ∀ e, (r.mapM (m := Option) fun (q : Option ℝ × ℝ × σ) => q.1) = some e → e = r.map fun a => a.1.getD 0 := by
    induction r with
    | nil => simp
    | cons a r ih =>
      obtain ⟨a, b⟩ := a
      obtain ⟨h1, h2⟩ := ih
      rw [List.mapM_cons]
      cases a with
      | none => simp
      | some a =>
        cases hm : r.mapM (m := Option) fun (q : Option ℝ × ℝ × σ) => q.1 with
        | none => simpa [hm] using h1.1 hm
        | some e =>
          rw [hm] at h1
          have h3 := h2 e hm
          refine ⟨by simpa using h1, fun e' he => ?_⟩
          simp only [Option.bind_eq_bind, Option.bind_some, Option.pure_def, Option.some.injEq] at he
          rw [← he, h3]
          rfl
  unfold augSum
  refine ⟨by rw [Option.map_eq_none_iff]; exact key.1, fun w hw => ?_⟩
  obtain ⟨e, he, rfl⟩ := Option.map_eq_some_iff.1 hw
  rw [key.2 e he]

/-- **C104, returned seeds**, `ito`.  Whatever is drawn, every segment is estimated once, with its own duration, end values and seed; the seeds returned are those of these estimates, in order, and the
number returned adds up the biased log-likelihood, the estimates and the lower bounds, `-inf` if one estimate is. -/
theorem C104_ito_returns {p : ℕ} {est : NormOp → σ → Prog (Option ℝ × ℝ × σ)} {M : ItoFns p} {t vt : List ℝ} {thi : Fin p → ℝ} {z z' : List σ} {v : Option ℝ}
    (h : (itoEstAugLik est M t vt thi z).Out (.ok (v, z'))) :
    ∃ l r, itoBiasedLogLik M thi t vt = .ok l ∧
      List.Forall₂ (fun q a => (est ⟨q.1, Real.sqrt q.1, q.2.1, q.2.2.1⟩ q.2.2.2).Out (.ok a)) (emSegs (M.reduce thi) t vt z) r ∧
      z' = r.map (fun a => a.2.2) ∧ (v = none ↔ ∃ a ∈ r, a.1 = none) ∧
      ∀ w, v = some w → w = l + (r.map fun a => a.1.getD 0).sum + (r.map fun a => a.2.1).sum := by
  unfold itoEstAugLik at h
  obtain ⟨r, hr, h⟩ := Prog.out_bind_ok.1 h
  rw [ito_zip_segs, Prog.out_mapM'_ok, List.forall₂_map_left_iff] at hr
  by_cases h0 : r = []
  · rw [if_pos h0] at h
    simp at h
  · rw [if_neg h0] at h
    obtain ⟨l, hl, h⟩ := Prog.out_bind_ok.1 h
    have hl' : itoBiasedLogLik M thi t vt = .ok l := by
      cases hb : itoBiasedLogLik M thi t vt with
      | error e => rw [hb] at hl; simp [Prog.lift] at hl
      | ok b => rw [hb] at hl; simp [Prog.lift] at hl; rw [hl]
    simp only [Prog.out_ret, Except.ok.injEq, Prod.mk.injEq] at h
    obtain ⟨rfl, rfl⟩ := h
    exact ⟨l, r, hl', hr, rfl, (augSum_spec l r).1, (augSum_spec l r).2⟩

/-- **C104, returned seeds**, `switching`.  Segments of regimes that do not take part keep their seeds and count nothing. -/
theorem C104_switching_returns {p : ℕ} {est : ℕ → NormOp → σ → Prog (Option ℝ × ℝ × σ)} {M : RegimeFns p} {S : SwitchFns p} {K : ℕ} {thi : Thi p} {h : Anchorage ℝ ℝ}
    (hL : h.LenOk) {rs : Option ℕ} {z z' : List σ} {v : Option ℝ} (ho : (swEstAugLik est M S K thi h rs z).Out (.ok (v, z'))) :
    ∃ l b r, evalBiasedLogLik2 S K thi h rs = .ok (l, b) ∧
      List.Forall₂ (fun q a => if Selected rs q.2.1 then (est q.2.1 ⟨q.1, Real.sqrt q.1 * M.vol thi q.2.1, q.2.2.1, q.2.2.2.1⟩ q.2.2.2.2).Out (.ok a)
        else a = (some 0, 0, q.2.2.2.2)) (emSegsSw M.reduce h.t h.yt h.vt z) r ∧
      z' = r.map (fun a => a.2.2) ∧ (v = none ↔ ∃ a ∈ r, a.1 = none) ∧
      ∀ w, v = some w → w = l + b + (r.map fun a => a.1.getD 0).sum + (r.map fun a => a.2.1).sum := by
  unfold swEstAugLik at ho
  obtain ⟨r, hr, ho⟩ := Prog.out_bind_ok.1 ho
  rw [sw_zip_segs M thi hL, Prog.out_mapM'_ok, List.forall₂_map_left_iff] at hr
  by_cases h0 : r = []
  · rw [if_pos h0] at ho
    simp at ho
  · rw [if_neg h0] at ho
    obtain ⟨⟨l, b⟩, hl, ho⟩ := Prog.out_bind_ok.1 ho
    have hl' : evalBiasedLogLik2 S K thi h rs = .ok (l, b) := by
      cases hb : evalBiasedLogLik2 S K thi h rs with
      | error e => rw [hb] at hl; simp [Prog.lift] at hl
      | ok b => rw [hb] at hl; simp [Prog.lift] at hl; rw [hl]
    simp only [Prog.out_ret, Except.ok.injEq, Prod.mk.injEq] at ho
    obtain ⟨rfl, rfl⟩ := ho
    refine ⟨l, b, r, hl', hr.imp fun q a hq => ?_, rfl, (augSum_spec (l + b) r).1, (augSum_spec (l + b) r).2⟩
    simp only [← selected_eq] at hq
    split_ifs at hq ⊢
    · exact hq
    · simpa using hq

/-- Two bridges; the estimates renumber their seeds. -/
example : ∃ v, (itoEstAugLik (fun op (s : ℕ) => .ret (some op.finT, 1, s + 1)) itoOu [0, 2, 3] [1, 3, 2] ![1, 1] [5, 7]).Out (.ok (some v, [6, 8])) := by
  obtain ⟨l, hl⟩ : ∃ l, itoBiasedLogLik itoOu ![1, 1] [0, 2, 3] [1, 3, 2] = .ok l := by
    unfold itoBiasedLogLik
    rw [if_neg (by simp), if_neg (by simp [npDiff, itoOu]; norm_num)]
    exact ⟨_, rfl⟩
  refine ⟨l + (2 + 1) + 2, ?_⟩
  unfold itoEstAugLik
  rw [ito_zip_segs, hl]
  simp [emSegs, npDiff, Prog.mapM', Prog.lift, augSum, Prog.bind]
  norm_num

end Ctb
