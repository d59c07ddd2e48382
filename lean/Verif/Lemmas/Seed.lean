import Verif.Model.Seed
import Verif.Spec.Seed
import Verif.Lemmas.ArsEnvelope

/-! # Lemmas about `bound_disc_path` -/

set_option linter.unusedSectionVars false

namespace Ctb

/-- Lower and upper edge of a seed. -/
theorem edges_mem {z : EaSkel} {w : ℝ} (hw : w ∈ Set.uIcc z.tight z.loose) :
    (if z.tight < z.loose then (z.tight, z.loose) else (z.loose, z.tight)).1 ≤ w ∧
      w ≤ (if z.tight < z.loose then (z.tight, z.loose) else (z.loose, z.tight)).2 := by
  rw [Set.mem_uIcc] at hw
  split_ifs with h <;> rcases hw with hw | hw <;> constructor <;> simp only <;> linarith [hw.1, hw.2]

theorem denorm_val (op : NormOp) (s w : ℝ) : (op.denorm s (some w)).2.getD 0 = w * op.scale + op.x0 + s * (op.x1 - op.x0) := rfl

theorem boundDiscPath_ok {ebd : ℝ → ℝ → Res DiscBounds} {op : NormOp} {z : EaSkel} {g : Grid} {t le : List ℝ} {ue : List (WithTop ℝ)}
    (h : boundDiscPath ebd op z g = .ok (t, le, ue)) :
    t = (g.normed op).map (· * op.finT) ∧ le.length + 1 = t.length ∧ ue.length = le.length ∧ 0 < le.length ∧
      ∀ (i : ℕ) (hi : i < le.length) (hu : i < ue.length) (h0 : i < (g.normed op).length) (h1 : i + 1 < (g.normed op).length), ∃ b,
        (∃ l u, ebd l u = .ok b ∧
          l = min ((if z.tight < z.loose then (z.tight, z.loose) else (z.loose, z.tight)).1 * op.scale + op.x0 + (g.normed op)[i + 1] * (op.x1 - op.x0))
            ((if z.tight < z.loose then (z.tight, z.loose) else (z.loose, z.tight)).1 * op.scale + op.x0 + (g.normed op)[i] * (op.x1 - op.x0)) ∧
          u = max ((if z.tight < z.loose then (z.tight, z.loose) else (z.loose, z.tight)).2 * op.scale + op.x0 + (g.normed op)[i + 1] * (op.x1 - op.x0))
            ((if z.tight < z.loose then (z.tight, z.loose) else (z.loose, z.tight)).2 * op.scale + op.x0 + (g.normed op)[i] * (op.x1 - op.x0))) ∧
        le[i] = b.2.1 ∧ ue[i] = b.2.2 := by
  unfold boundDiscPath at h
  dsimp only at h
  generalize hE : (if z.tight < z.loose then (z.tight, z.loose) else (z.loose, z.tight)) = e at h ⊢
  generalize hS : g.normed op = s at h ⊢
  split at h
  · simp at h
  · simp at h
  · rename_i bs hne hl
    simp only [Except.ok.injEq, Prod.mk.injEq] at h
    obtain ⟨rfl, rfl, rfl⟩ := h
    obtain ⟨h1, h2⟩ := listOk_ok hl
    have hpos : 0 < bs.length := by
      rcases bs with _ | ⟨b, bs⟩
      · exact absurd hl (by simpa using hne)
      · simp
    simp only [List.length_zipWith, List.length_tail, List.length_map, List.length_dropLast, min_self] at h1
    refine ⟨by simp [NormOp.denorm], by simp; omega, by simp, by simpa using hpos, ?_⟩
    intro i hi hu h0 h1'
    have hi' : i < bs.length := by simpa using hi
    have hk := h2 i (by simp; omega) hi'
    refine ⟨bs[i], ⟨_, _, ?_, rfl, rfl⟩, by simp, by simp⟩
    simpa [denorm_val] using hk

theorem listOk_error {α : Type} {l : List (Res α)} {e : PyErr} (h : listOk l = .error e) : ∃ r ∈ l, r = .error e := by
  induction l with
  | nil => simp [listOk] at h
  | cons r l ih =>
    rcases r with e' | a
    · simp only [listOk, Except.bind, Except.error.injEq] at h
      subst h
      exact ⟨_, by simp, rfl⟩
    · simp only [listOk, Except.bind] at h
      cases hl : listOk l with
      | error e' =>
        rw [hl] at h
        simp only [Except.error.injEq] at h
        subst h
        obtain ⟨r, hr, he⟩ := ih hl
        exact ⟨r, by simp [hr], he⟩
      | ok as => rw [hl] at h; simp at h

/-- When `bound_disc_path` returns. -/
theorem boundDiscPath_total {ebd : ℝ → ℝ → Res DiscBounds} {op : NormOp} {z : EaSkel} {g : Grid}
    (he : ∀ l u, (∃ b, ebd l u = .ok b)) (hg : 2 ≤ (g.normed op).length) : ∃ r, boundDiscPath ebd op z g = .ok r := by
  unfold boundDiscPath
  dsimp only
  generalize hE : (if z.tight < z.loose then (z.tight, z.loose) else (z.loose, z.tight)) = e
  generalize hS : g.normed op = s at *
  obtain ⟨bs, hbs⟩ := listOk_total (l := List.zipWith ebd
    (List.zipWith min (s.map fun s => (op.denorm s (some e.1)).2.getD 0).tail (s.map fun s => (op.denorm s (some e.1)).2.getD 0).dropLast)
    (List.zipWith max (s.map fun s => (op.denorm s (some e.2)).2.getD 0).tail (s.map fun s => (op.denorm s (some e.2)).2.getD 0).dropLast))
    (by
      intro r hr
      obtain ⟨k, hk, rfl⟩ := List.mem_iff_getElem.1 hr
      rw [List.getElem_zipWith]
      exact he _ _)
  rw [hbs]
  rcases bs with _ | ⟨b, bs⟩
  · have := (listOk_ok hbs).1
    simp at this
    omega
  · exact ⟨_, rfl⟩

theorem affine_between {a c s0 s1 s : ℝ} (h0 : s0 ≤ s) (h1 : s ≤ s1) : min (a + s1 * c) (a + s0 * c) ≤ a + s * c ∧
    a + s * c ≤ max (a + s1 * c) (a + s0 * c) := by
  rcases le_total 0 c with hc | hc
  · exact ⟨(min_le_right _ _).trans (by nlinarith), le_trans (by nlinarith) (le_max_left _ _)⟩
  · exact ⟨(min_le_left _ _).trans (by nlinarith), le_trans (by nlinarith) (le_max_right _ _)⟩

end Ctb
