import Verif.Lemmas.Seed
import Verif.Props.SdeModels
import Mathlib.MeasureTheory.Integral.IntervalIntegral.Basic

set_option linter.unusedSectionVars false

/-! # C53, C59: bounds of the discriminant along a seed, and the parameter coin of the CIR model -/

namespace Ctb

open MeasureTheory

/-! ## C53 -/

section

variable {ebd : ℝ → ℝ → Res DiscBounds} {disc : ℝ → ℝ} {op : NormOp} {z : EaSkel} {g : Grid} {t le : List ℝ} {ue : List (WithTop ℝ)}

/-- One lower and one upper bound per piece of the grid, valid at every time of the piece for every value of the seed between its edges. -/
theorem C53_brackets (hT : 0 < op.finT) (hs : 0 ≤ op.scale) (hb : SoundBounds disc ebd) (h : boundDiscPath ebd op z g = .ok (t, le, ue)) :
    le.length + 1 = t.length ∧ ue.length = le.length ∧
    ∀ (i : ℕ) (t0 t1 l : ℝ) (u : WithTop ℝ), t[i]? = some t0 → t[i + 1]? = some t1 → le[i]? = some l → ue[i]? = some u →
      ∀ τ, t0 ≤ τ → τ ≤ t1 → ∀ w ∈ Set.uIcc z.tight z.loose, l ≤ disc (pathVal op τ w) ∧ (disc (pathVal op τ w) : WithTop ℝ) ≤ u := by
  obtain ⟨ht, hlen, hul, -, hall⟩ := boundDiscPath_ok h
  refine ⟨hlen, hul, ?_⟩
  intro i t0 t1 l u ht0 ht1 hl hu τ h0 h1 w hw
  obtain ⟨hi, rfl⟩ := List.getElem?_eq_some_iff.1 hl
  obtain ⟨hi', rfl⟩ := List.getElem?_eq_some_iff.1 hu
  subst ht
  simp only [List.length_map] at hlen
  simp only [List.getElem?_map, Option.map_eq_some_iff] at ht0 ht1
  obtain ⟨s0, hs0, rfl⟩ := ht0
  obtain ⟨s1, hs1, rfl⟩ := ht1
  obtain ⟨k0, rfl⟩ := List.getElem?_eq_some_iff.1 hs0
  obtain ⟨k1, rfl⟩ := List.getElem?_eq_some_iff.1 hs1
  obtain ⟨b, ⟨l, u, hbe, rfl, rfl⟩, e1, e2⟩ := hall i hi hi' k0 k1
  obtain ⟨w0, w1⟩ := edges_mem hw
  rw [e1, e2]
  have a0 : (g.normed op)[i] ≤ τ / op.finT := by rwa [le_div_iff₀ hT]
  have a1 : τ / op.finT ≤ (g.normed op)[i + 1] := by rwa [div_le_iff₀ hT]
  generalize (g.normed op)[i] = s0 at *
  generalize (g.normed op)[i + 1] = s1 at *
  generalize (if z.tight < z.loose then (z.tight, z.loose) else (z.loose, z.tight)) = e at *
  have b0 := (affine_between (a := e.1 * op.scale + op.x0) (c := op.x1 - op.x0) a0 a1).1
  have b1 := (affine_between (a := e.2 * op.scale + op.x0) (c := op.x1 - op.x0) a0 a1).2
  have c0 : e.1 * op.scale ≤ w * op.scale := mul_le_mul_of_nonneg_right w0 hs
  have c1 : w * op.scale ≤ e.2 * op.scale := mul_le_mul_of_nonneg_right w1 hs
  refine hb _ _ b ?_ hbe _ ?_ ?_
  · unfold pathVal at *; linarith
  · unfold pathVal; linarith
  · unfold pathVal; linarith

/-- The times returned: `m` equal pieces of `[0, fin_t]`, or the grid that was passed. -/
theorem C53_grid (hT : 0 < op.finT) (h : boundDiscPath ebd op z g = .ok (t, le, ue)) :
    (∀ m, g = .pieces m → t.length = m + 1 ∧ 0 < m ∧ ∀ (i : ℕ) (r : ℝ), t[i]? = some r → r = i * (op.finT / m)) ∧ ∀ l, g = .times l → t = l := by
  obtain ⟨rfl, hlen, -, hpos, -⟩ := boundDiscPath_ok h
  constructor
  · rintro m rfl
    simp only [Grid.normed, List.length_map, List.length_range] at hlen ⊢
    refine ⟨trivial, by omega, ?_⟩
    intro i r hr
    simp only [List.getElem?_map, Option.map_eq_some_iff] at hr
    obtain ⟨a, ⟨b, hb, rfl⟩, rfl⟩ := hr
    obtain ⟨hb, rfl⟩ := List.getElem?_eq_some_iff.1 hb
    simp only [List.getElem_range]
    ring
  · rintro l rfl
    simp only [Grid.normed, NormOp.norm, List.map_map]
    conv_rhs => rw [← List.map_id l]
    refine List.map_congr_left fun r _ => ?_
    simp only [Function.comp_apply, id]
    field_simp

/-- It fails only if the grid has fewer than two times (ValueError) or some call of `eval_bounds_disc` fails. -/
theorem C53_errors {e : PyErr} (h : boundDiscPath ebd op z g = .error e) :
    (e = .value ∧ (g.normed op).length < 2) ∨ ∃ l u, ebd l u = .error e := by
  unfold boundDiscPath at h
  dsimp only at h
  split at h
  · rename_i e' hl
    simp only [Except.error.injEq] at h
    subst h
    obtain ⟨r, hr, he⟩ := listOk_error hl
    obtain ⟨k, hk, rfl⟩ := List.mem_iff_getElem.1 hr
    rw [List.getElem_zipWith] at he
    exact .inr ⟨_, _, he⟩
  · rename_i hl
    simp only [Except.error.injEq] at h
    subst h
    have := (listOk_ok hl).1
    simp at this
    exact .inl ⟨rfl, by omega⟩
  · simp at h

/-- The stored lower bound: `-integral` of the discriminant along every path between the edges is at most what `integrate_disc_bound`
returns. -/
theorem C53_integral (hT : 0 < op.finT) (hs : 0 ≤ op.scale) (hb : SoundBounds disc ebd) {v : ℝ} (h : integrateDiscBound ebd op z = .ok v)
    {W : ℝ → ℝ} (hW : ∀ τ, W τ ∈ Set.uIcc z.tight z.loose)
    (hi : IntervalIntegrable (fun τ => disc (pathVal op τ (W τ))) volume 0 op.finT) :
    -∫ τ in (0 : ℝ)..op.finT, disc (pathVal op τ (W τ)) ≤ v := by
  unfold integrateDiscBound at h
  split at h
  · simp at h
  · rename_i b hb'
    obtain ⟨t, le, ue⟩ := b
    simp only [Except.ok.injEq] at h
    obtain ⟨h1, h2, h3⟩ := C53_brackets hT hs hb hb'
    obtain ⟨g1, g2, g3⟩ := (C53_grid hT hb').1 1 rfl
    have hl : le.length = 1 := by omega
    obtain ⟨l, rfl⟩ := List.length_eq_one_iff.1 hl
    obtain ⟨u, rfl⟩ := List.length_eq_one_iff.1 (h2.trans hl)
    obtain ⟨r0, r1, rfl⟩ := List.length_eq_two.1 g1
    have e0 := g3 0 r0 (by simp)
    have e1 := g3 1 r1 (by simp)
    simp only [Nat.cast_zero, zero_mul, Nat.cast_one, div_one, one_mul] at e0 e1
    subst e0 e1
    have hv : v = -(op.finT * l) := by
      rw [← h]; simp [stLbDisc, npDiff]
    rw [hv]
    have hm : ∫ _ in (0 : ℝ)..op.finT, l ≤ ∫ τ in (0 : ℝ)..op.finT, disc (pathVal op τ (W τ)) := by
      refine intervalIntegral.integral_mono_on hT.le intervalIntegrable_const hi fun τ hτ => ?_
      exact (h3 0 0 op.finT l u (by simp) (by simp) (by simp) (by simp) τ hτ.1 hτ.2 _ (hW τ)).1
    simp at hm
    linarith

end

/-- The Ornstein-Uhlenbeck models: the bounds are always found, and they are sound. -/
theorem C53_ito_ou (thi : Fin 2 → ℝ) {op : NormOp} {z : EaSkel} {g : Grid} (hg : 2 ≤ (g.normed op).length) :
    SoundBounds (itoOu.disc thi) (fun l u => .ok (itoOuBounds thi l u)) ∧
      ∃ r, boundDiscPath (fun l u => .ok (itoOuBounds thi l u)) op z g = .ok r := by
  refine ⟨?_, boundDiscPath_total (fun l u => ⟨_, rfl⟩) hg⟩
  rintro le ue b hle hb x h0 h1
  simp only [Except.ok.injEq] at hb
  subst hb
  obtain ⟨-, hl, u, hu, hg⟩ := C57_ito thi hle
  refine ⟨hl.2 ⟨x, ⟨h0, h1⟩, rfl⟩, ?_⟩
  rw [hu]
  exact WithTop.coe_le_coe.2 (hg.2 ⟨x, ⟨h0, h1⟩, rfl⟩)

theorem C53_switching_ou {thi : Thi 2} {y : ℕ} (hp : 0 < thi y 1) {op : NormOp} {z : EaSkel} {g : Grid} (hg : 2 ≤ (g.normed op).length) :
    SoundBounds (swOu.disc thi y) (fun l u => .ok (swOuBounds thi y l u)) ∧
      ∃ r, boundDiscPath (fun l u => .ok (swOuBounds thi y l u)) op z g = .ok r := by
  refine ⟨?_, boundDiscPath_total (fun l u => ⟨_, rfl⟩) hg⟩
  rintro le ue b hle hb x h0 h1
  simp only [Except.ok.injEq] at hb
  subst hb
  obtain ⟨-, hl, u, hu, hg⟩ := C57_switching_ou hp hle
  refine ⟨hl.2 ⟨x, ⟨h0, h1⟩, rfl⟩, ?_⟩
  rw [hu]
  exact WithTop.coe_le_coe.2 (hg.2 ⟨x, ⟨h0, h1⟩, rfl⟩)

/-- A seed between -1 and 1 for a bridge from 0 to 1 over time 4, Ornstein-Uhlenbeck model with both parameters 1, two pieces. -/
example : boundDiscPath (fun l u => .ok (itoOuBounds (fun _ => 1) l u)) ⟨4, 2, 0, 1⟩ ⟨[0, 1], [0, 0], -1, 1, 0, none⟩ (.pieces 2) =
    .ok ([0, 2, 4], [-1 / 2, -1 / 2], [((21 / 8 : ℝ) : WithTop ℝ), ((4 : ℝ) : WithTop ℝ)]) := by
  have r3 : List.range (2 + 1) = [0, 1, 2] := rfl
  unfold boundDiscPath
  rw [if_pos (by norm_num)]
  simp only [Grid.normed, r3, List.map_cons, List.map_nil, NormOp.denorm, Option.map_some, Option.getD_some, List.tail_cons, List.dropLast,
    List.zipWith_cons_cons, List.zipWith_nil_left, listOk, Except.bind]
  simp only [itoOuBounds, ouBoundsDisc, ItoFns.disc, itoOu]
  norm_num [abs_of_neg, abs_of_pos, max_def, min_def]

/-! ## C59 -/

/-- For the CIR model every parameter coin flip raises AssertionError: the gradient bounds are zero, so the Poisson intensity is zero. -/
theorem C59_violated {guard : Bool} {n k : ℕ} {nil prime : Fin 3 → ℝ} {T v0 v1 : ℝ} {upside : Bool} {size : ℤ} {z : EaSkel} {r : Res (Bool × EaSkel)}
    (h : (itoFlipParam guard n k itoCir itoCirGrad nil prime T v0 v1 upside size z).Out r) : r = .error .assertion := by
  simp only [itoFlipParam, itoNormops, npDiff, List.map_cons, List.map_nil, List.tail_cons, List.zip_cons_cons, List.zip_nil_left] at h
  simp only [flipDualCoin, batchCoin, itoIntensity, itoCirGrad, abs_zero, ite_self, Finset.sum_const_zero, mul_zero, Prog.assert] at h
  rw [if_neg (by simp), Prog.err_bind, Prog.out_err] at h
  exact h

/-- Every model: with equal parameters the coin raises AssertionError too. -/
theorem C59_equal {p : ℕ} {guard : Bool} {n k : ℕ} {M : ItoFns p} {grad : (Fin p → ℝ) → (Fin p → ℝ) → ℝ → ℝ → ℝ → ℝ → ℝ → Fin p → ℝ}
    {thi : Fin p → ℝ} {T v0 v1 : ℝ} {upside : Bool} {size : ℤ} {z : EaSkel} {r : Res (Bool × EaSkel)}
    (h : (itoFlipParam guard n k M grad thi thi T v0 v1 upside size z).Out r) : r = .error .assertion := by
  simp only [itoFlipParam, itoNormops, npDiff, List.map_cons, List.map_nil, List.tail_cons, List.zip_cons_cons, List.zip_nil_left] at h
  simp only [flipDualCoin, batchCoin, itoIntensity, ne_eq, not_true_eq_false, if_false, Finset.sum_const_zero, mul_zero, Prog.assert] at h
  rw [if_neg (by simp), Prog.err_bind, Prog.out_err] at h
  exact h

/-- So the coin cannot return a verdict, although the parameters differ: the property fails at every input. -/
theorem C59_no_verdict {guard : Bool} {n k : ℕ} {nil prime : Fin 3 → ℝ} {T v0 v1 : ℝ} {upside : Bool} {size : ℤ} {z : EaSkel} :
    ¬ ∃ v, (itoFlipParam guard n k itoCir itoCirGrad nil prime T v0 v1 upside size z).Out (.ok v) := by
  rintro ⟨v, h⟩
  simpa using C59_violated h

/-- What is proved in its place: for the Ornstein-Uhlenbeck model with distinct positive parameters the intensity is positive, so the
sampler of the Poisson process starts. -/
theorem C59_ou_partial {nil prime : Fin 2 → ℝ} (hn : ∀ i, 0 < nil i) (hp : ∀ i, 0 < prime i) (hne : nil 0 ≠ prime 0) {T v0 v1 lbz ubz : ℝ}
    (hT : 0 < T) : 0 < itoIntensity nil prime (itoOuGrad nil prime T v0 v1 lbz ubz) := by
  have hS : 0 < min (nil 1) (prime 1) := lt_min (hn 1) (hp 1)
  have hB : 0 < max (nil 0) (prime 0) := lt_max_of_lt_left (hn 0)
  have hz : 0 ≤ max |lbz| |ubz| := (abs_nonneg _).trans (le_max_left _ _)
  have hv : 0 ≤ max |v0| |v1| := (abs_nonneg _).trans (le_max_left _ _)
  unfold itoIntensity
  refine mul_pos ?_ ?_
  · rw [Fin.sum_univ_two, if_pos hne]
    have : 0 < |nil 0 - prime 0| := abs_pos.2 (sub_ne_zero.2 hne)
    have h2 : 0 ≤ if nil 1 ≠ prime 1 then |nil 1 - prime 1| else 0 := by split_ifs <;> positivity
    linarith
  · rw [Fin.sum_univ_two, if_pos hne]
    have h2 : 0 ≤ if nil 1 ≠ prime 1 then |itoOuGrad nil prime T v0 v1 lbz ubz 1| else 0 := by split_ifs <;> positivity
    have h3 : 0 < |itoOuGrad nil prime T v0 v1 lbz ubz 0| := by
      refine abs_pos.2 (ne_of_gt ?_)
      simp only [itoOuGrad, Matrix.cons_val_zero]
      positivity
    linarith

example : 0 < itoIntensity ![1, 1] ![2, 1] (itoOuGrad ![1, 1] ![2, 1] 1 0 1 (-1) 1) :=
  C59_ou_partial (by intro i; fin_cases i <;> simp) (by intro i; fin_cases i <;> simp) (by simp) one_pos

end Ctb
