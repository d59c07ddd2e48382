import Verif.Lemmas.ASure
import Verif.Lemmas.Coin

/-! # Coins and streams of proposals, almost surely -/

set_option linter.unusedSectionVars false

namespace Ctb

open Classical MeasureTheory ProbabilityTheory
open scoped ENNReal

variable {α β : Type}

/-- Almost surely a result that is returned satisfies `P`. -/
abbrev Prog.SureOk (p : Prog α) (P : α → Prop) : Prop := p.ASure fun r => ∀ a, r = .ok a → P a

theorem Prog.ASure.and {p : Prog α} {P Q : Res α → Prop} (hp : p.ASure P) (hq : p.ASure Q) : p.ASure fun r => P r ∧ Q r := by
  induction p with
  | ret a => exact ⟨hp, hq⟩
  | err e => exact ⟨hp, hq⟩
  | real d k ih =>
    have h1 : ∀ᵐ x ∂d.law, (k x).ASure P := hp
    have h2 : ∀ᵐ x ∂d.law, (k x).ASure Q := hq
    show ∀ᵐ x ∂d.law, _
    filter_upwards [h1, h2] with x a b
    exact ih x a b
  | nat d k ih =>
    have h1 : ∀ᵐ x ∂d.law, (k x).ASure P := hp
    have h2 : ∀ᵐ x ∂d.law, (k x).ASure Q := hq
    show ∀ᵐ x ∂d.law, _
    filter_upwards [h1, h2] with x a b
    exact ih x a b

theorem Prog.SureOk.ret {P : α → Prop} {a : α} (h : P a) : (Prog.ret a).SureOk P := fun b hb => by cases hb; exact h
theorem Prog.SureOk.err {P : α → Prop} (e : PyErr) : (Prog.err e : Prog α).SureOk P := fun b hb => by cases hb
theorem Prog.SureOk.out {p : Prog α} : p.SureOk fun a => p.Out (.ok a) := Prog.ASure.of_out (by rintro r hr a rfl; exact hr)
theorem Prog.SureOk.mono {p : Prog α} {P Q : α → Prop} (hp : p.SureOk P) (h : ∀ a, P a → Q a) : p.SureOk Q := Prog.ASure.mono hp fun _ hr a ha => h a (hr a ha)
theorem Prog.SureOk.and {p : Prog α} {P Q : α → Prop} (hp : p.SureOk P) (hq : p.SureOk Q) : p.SureOk fun a => P a ∧ Q a :=
  (Prog.ASure.and hp hq).mono fun _ hr a ha => ⟨hr.1 a ha, hr.2 a ha⟩
theorem Prog.SureOk.of_out {p : Prog α} {P : α → Prop} (h : ∀ a, p.Out (.ok a) → P a) : p.SureOk P := Prog.SureOk.out.mono h

theorem Prog.SureOk.bind {p : Prog α} {f : α → Prog β} {P : α → Prop} {Q : β → Prop} (hp : p.SureOk P) (hf : ∀ a, P a → (f a).SureOk Q) : (p.bind f).SureOk Q :=
  Prog.ASure.bind hp (fun a ha => hf a (ha a rfl)) fun e _ b hb => by cases hb

theorem Prog.SureOk.mapM' {f : α → Prog β} {R : α → β → Prop} : ∀ {l : List α}, (∀ a ∈ l, (f a).SureOk (R a)) → (Prog.mapM' f l).SureOk (List.Forall₂ R l)
  | [], _ => .ret .nil
  | a :: l, h => Prog.SureOk.bind (h a (by simp)) fun _ hb => Prog.SureOk.bind (Prog.SureOk.mapM' fun a ha => h a (by simp [ha])) fun _ hbs => .ret (.cons hb hbs)

theorem beta_null (a b x : ℝ) : (RDist.beta a b).law {x} = 0 := by
  rw [RDist.law, betaMeasure]
  exact withDensity_absolutelyContinuous _ _ (by simp)

theorem diffuse_drawRow {T : ℝ} (hT : 0 < T) : (drawRow [T]).Diffuse := by
  rw [drawRow_single]
  exact ⟨uniform_null hT.ne, fun _ _ => trivial⟩

theorem diffuse_pppBatch {m : ℕ} {h T lb : ℝ} (hh : 0 < h) (hT : 0 < T) (i : ℕ) : (pppBatch m h [T] lb i).Diffuse := by
  refine ⟨beta_null _ _, fun z hz => ?_⟩
  have hz0 : 0 < z := hz.1
  refine Prog.Diffuse.bind ?_ fun u0 _ => Prog.Diffuse.bind (Prog.Diffuse.replicate (diffuse_drawRow hT) i) fun _ _ => trivial
  split_ifs
  · trivial
  · exact Prog.Diffuse.bind (Prog.Diffuse.replicate (diffuse_uniform (by have := mul_pos hh hz0; linarith)) _) fun _ _ => trivial

/-- A batch, almost surely: its times are distinct and lie in the interval. -/
theorem pppBatch_sure {m : ℕ} {h T lb : ℝ} (hh : 0 < h) (hT : 0 < T) {i : ℕ} (hi : 0 < i) : (pppBatch m h [T] lb i).SureOk fun r =>
    (((byTime r.2).map Prod.snd).Pairwise (· < ·) ∧ byTime r.2 ≠ [] ∧ ∀ p ∈ byTime r.2, 0 ≤ p.2 ∧ p.2 < T) ∧ (pppBatch m h [T] lb i).Out (.ok r) :=
  Prog.SureOk.and (Prog.ASure.of_gen (diffuse_pppBatch hh hT i) (h := []) (by rintro r h' hr ⟨ub, pts⟩ rfl; exact pppBatch_gen hT hi hr)) Prog.SureOk.out

theorem coinLoop_sure {σ : Type} {step : σ → List (ℝ × ℝ) → Prog (Bool × σ)} {m : ℕ} {h T : ℝ} (hh : 0 < h) (hT : 0 < T) {is : List ℕ}
    (his : ∀ i ∈ is, 0 < i) : ∀ {s : σ} {lb : ℝ}, (coinLoop step m h T s lb is).SureOk fun q =>
      ∃ (bs : List (List (List ℝ))) (j : ℕ), (pppLoop m h [T] lb is).Out (.ok bs) ∧ j ≤ bs.length ∧ (q.1 = true → j = bs.length) ∧
        Searched (BatchStep step T) s (bs.take j) q.1 q.2 := by
  induction is with
  | nil =>
    intro s lb
    exact .ret ⟨[], 0, by simp [pppLoop], le_rfl, fun _ => rfl, .done _⟩
  | cons i is ih =>
    intro s lb
    rw [coinLoop]
    refine Prog.SureOk.bind (pppBatch_sure hh hT (his i (by simp))) ?_
    rintro ⟨ub, pts⟩ ⟨hbg, hb⟩
    refine Prog.SureOk.bind Prog.SureOk.out ?_
    rintro ⟨w, s1⟩ hst
    dsimp only at hst ⊢
    cases w with
    | true =>
      rw [if_pos rfl]
      obtain ⟨rest, hr⟩ := pppLoop_exists m (b0 := h) (T := T) is ub
      refine .ret ⟨pts :: rest, 1, ?_, by simp, by simp, ?_⟩
      · rw [pppLoop, Prog.out_bind_ok]
        refine ⟨_, hb, ?_⟩
        rw [Prog.out_bind_ok]
        exact ⟨rest, hr, by simp⟩
      · simp only [List.take_succ_cons, List.take_zero]
        exact .stop ⟨hbg, hst⟩
    | false =>
      rw [if_neg (by simp)]
      refine (ih fun j hj => his j (by simp [hj])).mono ?_
      rintro ⟨v, s'⟩ ⟨rest, j, h1, h2, h3, h4⟩
      refine ⟨pts :: rest, j + 1, ?_, by simpa using h2, fun h => by simp [h3 h], ?_⟩
      · rw [pppLoop, Prog.out_bind_ok]
        refine ⟨_, hb, ?_⟩
        rw [Prog.out_bind_ok]
        exact ⟨rest, h1, by simp⟩
      · simp only [List.take_succ_cons]
        exact .go ⟨hbg, hst⟩ h4

theorem batchCoin_sure {σ : Type} (step : σ → List (ℝ × ℝ) → Prog (Bool × σ)) (h T : ℝ) (size : ℤ) (s : σ) : (batchCoin step h T size s).SureOk fun q =>
    ∃ (bs : List (List (List ℝ))) (j : ℕ), (sampleBatchPpp 1 [h, T] size).Out (.ok bs) ∧ j ≤ bs.length ∧ (q.1 = true → j = bs.length) ∧
      Searched (BatchStep step T) s (bs.take j) q.1 q.2 := by
  unfold batchCoin
  by_cases hb : ∀ b ∈ [h, T], 0 < b
  · rw [Prog.assert, if_pos hb, Prog.ret_bind]
    by_cases hs : 0 < size
    · rw [Prog.assert, if_pos hs, Prog.ret_bind]
      have hm : ∀ᵐ m ∂(NDist.poisson (1 * [h, T].prod)).law, m ∈ (NDist.poisson (1 * [h, T].prod)).support := by rw [ae_iff]; exact NDist.law_support _
      show ∀ᵐ m ∂(NDist.poisson (1 * [h, T].prod)).law, _
      filter_upwards [hm] with m hm
      refine (coinLoop_sure (hb h (by simp)) (hb T (by simp)) fun i hi => (batchSizes_pos (by omega) i hi).1).mono ?_
      rintro q ⟨bs, j, h1, h2⟩
      refine ⟨bs, j, ?_, h2⟩
      unfold sampleBatchPpp
      simp only [Prog.assert, zero_lt_one, if_true, Prog.ret_bind]
      rw [if_pos hb, Prog.ret_bind, if_pos hs, Prog.ret_bind, Prog.out_nat]
      exact ⟨m, hm, h1⟩
    · rw [Prog.assert, if_neg hs, Prog.err_bind]
      exact .err _
  · rw [Prog.assert, if_neg hb, Prog.err_bind]
    exact .err _

/-! ## Two coins with the same law -/

theorem coinLoop_law_congr {σ : Type} {step1 step2 : σ → List (ℝ × ℝ) → Prog (Bool × σ)} {I : σ → Prop} {m : ℕ} {h T : ℝ} (hh : 0 < h) (hT : 0 < T)
    (hstep : ∀ s ps, I s → (ps.map Prod.snd).Pairwise (· < ·) → (∀ p ∈ ps, 0 ≤ p.2 ∧ p.2 < T) →
      (∀ g, (step1 s ps).lexp g = (step2 s ps).lexp g) ∧ ∀ v s', (step2 s ps).Out (.ok (v, s')) → I s')
    {is : List ℕ} (his : ∀ i ∈ is, 0 < i) : ∀ {s : σ} {lb : ℝ}, I s → ∀ g, (coinLoop step1 m h T s lb is).lexp g = (coinLoop step2 m h T s lb is).lexp g := by
  induction is with
  | nil => intro s lb _ g; rfl
  | cons i is ih =>
    intro s lb hI g
    rw [coinLoop, coinLoop, Prog.lexp_bind, Prog.lexp_bind]
    refine Prog.ASure.lexp_congr (pppBatch_sure hh hT (his i (by simp))) ?_
    rintro (e | ⟨ub, pts⟩) hr
    · rfl
    · obtain ⟨⟨g1, g2, g3⟩, -⟩ := hr _ rfl
      obtain ⟨c1, c2⟩ := hstep s (byTime pts) hI g1 g3
      simp only [Prog.cont_ok]
      rw [Prog.lexp_bind, Prog.lexp_bind, c1]
      refine Prog.lexp_congr fun r hr => ?_
      rcases r with e | ⟨v, s1⟩
      · rfl
      · simp only [Prog.cont_ok]
        cases v with
        | true => rfl
        | false =>
          rw [if_neg (by simp), if_neg (by simp)]
          exact ih (fun j hj => his j (by simp [hj])) (c2 _ _ hr) g

theorem batchCoin_law_congr {σ : Type} {step1 step2 : σ → List (ℝ × ℝ) → Prog (Bool × σ)} {I : σ → Prop} {h T : ℝ} {size : ℤ}
    (hstep : 0 < T → ∀ s ps, I s → (ps.map Prod.snd).Pairwise (· < ·) → (∀ p ∈ ps, 0 ≤ p.2 ∧ p.2 < T) →
      (∀ g, (step1 s ps).lexp g = (step2 s ps).lexp g) ∧ ∀ v s', (step2 s ps).Out (.ok (v, s')) → I s')
    {s : σ} (hI : I s) (g : Res (Bool × σ) → ℝ≥0∞) : (batchCoin step1 h T size s).lexp g = (batchCoin step2 h T size s).lexp g := by
  unfold batchCoin
  by_cases hb : ∀ b ∈ [h, T], 0 < b
  · rw [Prog.assert, if_pos hb, Prog.ret_bind, Prog.ret_bind]
    by_cases hs : 0 < size
    · rw [Prog.assert, if_pos hs, Prog.ret_bind, Prog.ret_bind, Prog.lexp_nat, Prog.lexp_nat]
      refine lintegral_congr fun m => ?_
      exact coinLoop_law_congr (hb h (by simp)) (hb T (by simp)) (hstep (hb T (by simp))) (fun i hi => (batchSizes_pos (by omega) i hi).1) hI g
    · rw [Prog.assert, if_neg hs, Prog.err_bind, Prog.err_bind]
  · rw [Prog.assert, if_neg hb, Prog.err_bind, Prog.err_bind]

end Ctb
