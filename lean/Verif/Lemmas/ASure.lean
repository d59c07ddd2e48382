import Verif.Spec.AlmostSure
import Verif.Lemmas.Diffuse
import Verif.Lemmas.MassOne

set_option linter.unusedSectionVars false

namespace Ctb

open Classical MeasureTheory ProbabilityTheory
open scoped ENNReal

variable {α β : Type}

theorem Prog.ASure.mono {p : Prog α} {P Q : Res α → Prop} (hp : p.ASure P) (h : ∀ r, P r → Q r) : p.ASure Q := by
  induction p with
  | ret a => exact h _ hp
  | err e => exact h _ hp
  | real d k ih => exact Filter.Eventually.mono hp fun x hx => ih x hx
  | nat d k ih => exact Filter.Eventually.mono hp fun x hx => ih x hx

theorem Prog.ASure.bind {p : Prog α} {f : α → Prog β} {P : Res α → Prop} {Q : Res β → Prop} (hp : p.ASure P)
    (hf : ∀ a, P (.ok a) → (f a).ASure Q) (he : ∀ e, P (.error e) → Q (.error e)) : (p.bind f).ASure Q := by
  induction p with
  | ret a => exact hf _ hp
  | err e => exact he _ hp
  | real d k ih => exact Filter.Eventually.mono hp fun x hx => ih x hx
  | nat d k ih => exact Filter.Eventually.mono hp fun x hx => ih x hx

/-- What every run does holds almost surely. -/
theorem Prog.ASure.of_out {p : Prog α} {P : Res α → Prop} (h : ∀ r, p.Out r → P r) : p.ASure P := by
  induction p with
  | ret a => exact h _ rfl
  | err e => exact h _ rfl
  | real d k ih =>
    have h1 : ∀ᵐ x ∂d.law, x ∈ d.support := by rw [ae_iff]; exact RDist.law_support d
    exact h1.mono fun x hx => ih x fun r hr => h r ⟨x, hx, hr⟩
  | nat d k ih =>
    have h1 : ∀ᵐ x ∂d.law, x ∈ d.support := by rw [ae_iff]; exact NDist.law_support d
    exact h1.mono fun x hx => ih x fun r hr => h r ⟨x, hx, hr⟩

/-- What every generic run of a diffuse program does holds almost surely. -/
theorem Prog.ASure.of_gen {p : Prog α} (hp : p.Diffuse) {P : Res α → Prop} {h : List ℝ} (hg : ∀ r h', p.Gen h r h' → P r) : p.ASure P := by
  induction p generalizing h with
  | ret a => exact hg _ h ⟨rfl, rfl⟩
  | err e => exact hg _ h ⟨rfl, rfl⟩
  | real d k ih =>
    have h1 : ∀ᵐ x ∂d.law, x ∈ d.support := by rw [ae_iff]; exact RDist.law_support d
    have h2 : ∀ᵐ x ∂d.law, x ∉ h := by
      rw [ae_iff]
      simp only [not_not]
      have : {x : ℝ | x ∈ h} = ⋃ y ∈ h.toFinset, {y} := by ext x; simp
      rw [this]
      exact (measure_biUnion_null_iff h.toFinset.countable_toSet).2 fun y _ => hp.1 y
    show ∀ᵐ x ∂d.law, (k x).ASure P
    filter_upwards [h1, h2] with x hx hxh
    exact ih x (hp.2 x hx) (h := x :: h) fun r h' hr => hg r h' ⟨x, hx, hxh, hr⟩
  | nat d k ih =>
    have h1 : ∀ᵐ x ∂d.law, x ∈ d.support := by rw [ae_iff]; exact NDist.law_support d
    exact h1.mono fun x hx => ih x (hp x hx) fun r h' hr => hg r h' ⟨x, hx, hr⟩

/-- Expectations of results only depend on what holds almost surely. -/
theorem Prog.ASure.lexp_congr {p : Prog α} {P : Res α → Prop} (hp : p.ASure P) {g g' : Res α → ℝ≥0∞} (hg : ∀ r, P r → g r = g' r) : p.lexp g = p.lexp g' := by
  induction p with
  | ret a => exact hg _ hp
  | err e => exact hg _ hp
  | real d k ih => rw [lexp_real, lexp_real]; exact lintegral_congr_ae (Filter.Eventually.mono hp fun x hx => ih x hx)
  | nat d k ih => rw [lexp_nat, lexp_nat]; exact lintegral_congr_ae (Filter.Eventually.mono hp fun x hx => ih x hx)

theorem Prog.ASure.prob_one {p : Prog α} {P : Res α → Prop} (hp : p.ASure P) (hm : Mass1 p) : p.prob P = 1 := by
  unfold Prog.prob
  rw [hp.lexp_congr (g' := fun _ => 1) fun r hr => if_pos hr]
  exact hm.lexp_const 1

end Ctb
