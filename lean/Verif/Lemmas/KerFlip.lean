import Verif.Lemmas.LayerProb
import Verif.Lemmas.StripLaw
import Verif.Lemmas.SkelFlip

set_option linter.unusedSectionVars false

/-! # Mirror images of integrals over paths -/

namespace Ctb

open MeasureTheory Set
open scoped ENNReal

variable {k k' : ℝ → ℝ → ℝ → ℝ≥0∞}

theorem MeasL.const_cons {n : ℕ} {F : List ℝ → ℝ≥0∞} (hF : MeasL (n + 1) fun _ : Unit => F) (y : ℝ) : MeasL n fun _ : Unit => fun l => F (y :: l) :=
  (MeasL.cons hF).comp (φ := fun _ : Unit => ((), y)) measurable_const

theorem kerInt_rev (hk : MeasK fun _ : Unit => k) (hs : ∀ v x y, k v x y = k v y x) : ∀ (vs : List ℝ) (a b : ℝ) {F : List ℝ → ℝ≥0∞},
    MeasL (vs.length - 1) (fun _ : Unit => F) → kerInt k b vs a F = kerInt k a vs.reverse b fun l => F l.reverse
  | [], _, _, _, _ => rfl
  | [v], a, b, F, _ => by simp [kerInt, hs v a b]
  | v :: w :: vs, a, b, F, hF => by
    rw [List.reverse_cons, kerInt_append hk v a (w :: vs).reverse (by simp) b (G := fun l => F l.reverse)
      (by rw [List.length_reverse]; exact MeasL.reverse hF)]
    simp only [kerInt]
    refine lintegral_congr fun y => ?_
    rw [kerInt_rev hk hs (w :: vs) y b (F := fun l => F (y :: l)) (MeasL.const_cons hF y), hs v a y, mul_comm]
    simp

theorem kerInt_reflect (c : ℝ) (h : ∀ v, 0 < v → ∀ x y, k' v x y = k v (c - x) (c - y)) (b : ℝ) : ∀ (vs : List ℝ), (∀ v ∈ vs, 0 < v) → ∀ (a : ℝ) (F : List ℝ → ℝ≥0∞),
    kerInt k' b vs a F = kerInt k (c - b) vs (c - a) fun l => F (l.map (c - ·))
  | [], _, _, _ => rfl
  | [v], hp, a, F => by simp [kerInt, h v (hp v (by simp))]
  | v :: w :: vs, hp, a, F => by
    have hp' : ∀ u ∈ w :: vs, 0 < u := fun u hu => hp u (List.mem_cons_of_mem _ hu)
    simp only [kerInt]
    rw [← lintegral_sub_left_eq_self _ c]
    refine lintegral_congr fun y => ?_
    rw [h v (hp v (by simp)), kerInt_reflect c h b (w :: vs) hp' (c - y)]
    simp

theorem stripDens_mirror (U m c : ℝ) {v : ℝ} (hv : 0 < v) (x y : ℝ) : stripDens U m v x y = stripDens (c - m) (c - U) v (c - x) (c - y) := by
  by_cases h : m < x ∧ x < U ∧ m < y ∧ y < U
  · rw [← stripDens_reflect hv (lt_min h.1 h.2.2.1) (max_lt h.2.1 h.2.2.2)]
    have e := stripDens_shift (c - m) (c - U) v (U - x) (U - y)
    have e' := stripDens_shift (-m) (-U) v (U - x) (U - y)
    rw [show U - x + (c - U) = c - x by ring, show U - y + (c - U) = c - y by ring] at e
    rw [show U - x + -U = -x by ring, show U - y + -U = -y by ring] at e'
    rw [e, e']
    congr 1
    ring
  · rw [stripDens, if_neg h, stripDens, if_neg]
    rintro ⟨h1, h2, h3, h4⟩
    exact h ⟨by linarith, by linarith, by linarith, by linarith⟩

/-- The mirror image of a path between two levels. -/
theorem kerInt_mirror (U m a b : ℝ) {vs : List ℝ} (hp : ∀ v ∈ vs, 0 < v) {F : List ℝ → ℝ≥0∞} (hF : MeasL (vs.length - 1) fun _ : Unit => F) :
    kerInt (stripDens U m) b vs.reverse a (fun l => F (flipList (a + b) l)) = kerInt (stripDens (a + b - m) (a + b - U)) b vs a F := by
  have hk : MeasK fun _ : Unit => stripDens U m := (measK_strip U).comp (φ := fun _ : Unit => m) measurable_const
  have hF' : MeasL (vs.length - 1) fun _ : Unit => fun l => F (flipList (a + b) l) := by
    unfold flipList
    exact MeasL.reverse (F := fun (_ : Unit) (l : List ℝ) => F (l.map (a + b - ·))) (MeasL.map hF (g := (a + b - ·)) (by fun_prop))
  rw [kerInt_rev hk (fun v x y => stripDens_symm U m v x y) vs.reverse a b (by rw [List.length_reverse]; exact hF'), List.reverse_reverse,
    kerInt_reflect (a + b) (fun v hv x y => stripDens_mirror U m (a + b) hv x y) a vs hp b, show a + b - a = b by ring, show a + b - b = a by ring]
  congr 1
  funext l
  simp [flipList, Function.comp_def]

end Ctb
