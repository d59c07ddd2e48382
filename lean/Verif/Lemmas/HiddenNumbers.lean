import Verif.Lemmas.AugMeas
import Verif.Lemmas.SwitchParams
import Verif.Lemmas.SwitchSplit
import Verif.Model.HiddenWeight

/-! # The weights of sections of a hidden path are numbers -/

set_option linter.unusedSectionVars false

namespace Ctb

variable {ζ : Type} {p : ℕ}

/-- Variances of the increments of an anchorage. -/
theorem sigT_pos {M : SwitchFns p} {thi : Thi p} {h : Anchorage ℝ ℝ} (hi : h.t.Pairwise (· < ·)) (hv : ∀ v ∈ M.vol thi h.yt.dropLast, v ≠ 0) : ∀ s ∈ sigT M thi h, 0 < s := by
  intro x hx
  obtain ⟨k, hk, rfl⟩ := List.mem_iff_getElem.1 hx
  simp only [sigT, List.length_zipWith] at hk
  simp only [sigT, List.getElem_zipWith]
  have a1 : 0 < (npDiff h.t)[k]'(by omega) := by
    have := npDiff_getElem (l := h.t) (k := k) (by omega)
    rw [this]
    have hkl : k + 1 < h.t.length := by have := npDiff_len h.t; omega
    exact sub_pos.2 (List.pairwise_iff_getElem.1 hi k (k + 1) (by omega) hkl (by omega))
  have a2 := hv _ (List.getElem_mem (by omega : k < (M.vol thi h.yt.dropLast).length))
  positivity

theorem hiddenWeight_num {M : SwitchFns p} {n : ℕ} {thi : Thi p} {ebd : ℕ → ℝ → ℝ → Res DiscBounds} (he : ∀ y a b, ∃ r, ebd y a b = .ok r) {h : Anchorage ℝ ℝ}
    (hy : h.yt.length = h.t.length) (hv : h.vt.length = h.t.length) (h0 : h.t ≠ []) (hi : h.t.Pairwise (· < ·)) (hn : ∀ y ∈ h.yt, y < n)
    (hM : ∀ v ∈ M.vol thi h.yt.dropLast, v ≠ 0) (ops : List NormOp) (z : List EaSkel) : ∃ w, evalHiddenWeight M n thi ebd ops z h = .ok w := by
  have h1 : ∀ q : EaSkel × ℕ × NormOp, ∃ v, integrateDiscBound (ebd q.2.1) q.2.2 q.1 = .ok v := by
    intro q
    rw [integrateDiscBound_one]
    obtain ⟨r, hr⟩ := he q.2.1 (min (min q.1.tight q.1.loose * q.2.2.scale + q.2.2.x1) (min q.1.tight q.1.loose * q.2.2.scale + q.2.2.x0))
      (max (max q.1.tight q.1.loose * q.2.2.scale + q.2.2.x1) (max q.1.tight q.1.loose * q.2.2.scale + q.2.2.x0))
    rw [hr]
    exact ⟨_, rfl⟩
  choose g hg using h1
  have h2 : ∃ b, evalBiasedLogLik2 M n thi h none = .ok b := by
    unfold evalBiasedLogLik2
    rw [if_neg (by rintro ⟨y, h1, h2⟩; exact absurd (hn y (List.dropLast_subset _ h1)) (not_lt.2 h2)), if_neg (by simp [hy, hv]), if_neg h0,
      if_neg (by rintro ⟨x, hx, hx0⟩; exact absurd (sigT_pos hi hM x hx) (not_lt.2 hx0))]
    exact ⟨_, rfl⟩
  obtain ⟨b, hb⟩ := h2
  unfold evalHiddenWeight
  rw [mapM_ok (g := g) fun a _ => hg a, hb]
  exact ⟨_, rfl⟩

theorem onPairs_inc {β : Type} {f : ℕ → ℕ → β} {l : List ℕ} (hl : l.Pairwise (· < ·)) {x : β} (h : x ∈ onPairs f l) : ∃ a ∈ l, ∃ b ∈ l, a < b ∧ f a b = x := by
  induction l with
  | nil => simp [onPairs] at h
  | cons a l ih =>
    cases l with
    | nil => simp [onPairs] at h
    | cons b l =>
      rcases List.mem_cons.1 h with rfl | h
      · exact ⟨a, by simp, b, by simp, (List.pairwise_cons.1 hl).1 b (by simp), rfl⟩
      · obtain ⟨c, hc, e, he, hf⟩ := ih (List.pairwise_cons.1 hl).2 h
        exact ⟨c, List.mem_cons_of_mem _ hc, e, List.mem_cons_of_mem _ he, hf⟩

/-- Sections are anchorages with increasing times and regimes of the whole. -/
theorem split_sections {h : Anchorage ℝ ℝ} (hv : h.Valid) {z : List ζ} (hz : z.length + 1 = h.t.length) (tc : List ℝ) :
    ∃ zp hp, splitHidden z h tc = .ok (zp, hp) ∧ ∀ k ∈ hp, k.yt.length = k.t.length ∧ k.vt.length = k.t.length ∧ k.t ≠ [] ∧ k.t.Pairwise (· < ·) ∧ ∀ y ∈ k.yt, y ∈ h.yt := by
  have hlen : h.tr.length = h.t.length := by simp [Anchorage.tr, hv.leny, hv.lenv]
  have hsp := splitHidden_ofTr (A := h.tr) z tc (by rw [hlen]; exact hv.two) (by rw [hlen]; exact hz)
  rw [hv.tr_eq] at hsp
  refine ⟨_, _, hsp, fun k hk => ?_⟩
  obtain ⟨hc, hlt⟩ := rowsNat_chain (t := h.t) tc hv.two
  obtain ⟨a, ha, b, hb, hab, rfl⟩ := onPairs_inc hc hk
  have hbl := hlt b hb
  have et : h.t = h.tr.map (·.1) := (congrArg Anchorage.t hv.tr_eq).symm
  have ey : h.yt = h.tr.map (·.2.1) := (congrArg Anchorage.yt hv.tr_eq).symm
  have hinc : h.tr.Pairwise fun p q => p.1 < q.1 := by
    have := hv.inc; rw [et, List.pairwise_map] at this; exact this
  have hsub : (sl h.tr a (b + 1)).Sublist h.tr := (List.drop_sublist _ _).trans (List.take_sublist _ _)
  refine ⟨by simp [ofTr], by simp [ofTr], ?_, ?_, ?_⟩
  · rw [← List.length_pos_iff]
    simp only [ofTr, trPiece, shiftTr, List.length_map]
    rw [sl_length _ (by omega)]; omega
  · simp only [ofTr, trPiece, shiftTr, List.map_map, List.pairwise_map, Function.comp]
    exact (hinc.sublist hsub).imp fun h => by simpa using h
  · intro y hy
    simp only [ofTr, trPiece, shiftTr, List.map_map, List.mem_map, Function.comp] at hy
    obtain ⟨q, hq, rfl⟩ := hy
    rw [ey]
    exact List.mem_map.2 ⟨q, hsub.subset hq, rfl⟩

end Ctb
