import Verif.Lemmas.WaldLaw
import Verif.Lemmas.BridgeMin
import Verif.Lemmas.BatchLaw
import Verif.Model.SampleSde
import Verif.Model.SeedBridge

/-!
# Every draw of the skeleton samplers has admissible parameters
-/

set_option linter.unusedSectionVars false

namespace Ctb

open MeasureTheory Set Classical ProbabilityTheory
open scoped ENNReal

variable {α β : Type}

/-- Every reachable draw has a law of total mass one. -/
inductive Mass1 : Prog α → Prop
  | ret (a : α) : Mass1 (.ret a)
  | err (e : PyErr) : Mass1 (.err e)
  | real (d : RDist) (k : ℝ → Prog α) : d.law univ = 1 → (∀ x ∈ d.support, Mass1 (k x)) → Mass1 (.real d k)
  | nat (d : NDist) (k : ℕ → Prog α) : d.law univ = 1 → (∀ x ∈ d.support, Mass1 (k x)) → Mass1 (.nat d k)

theorem Mass1.bind {p : Prog α} {f : α → Prog β} (hp : Mass1 p) (hf : ∀ a, p.Out (.ok a) → Mass1 (f a)) : Mass1 (p.bind f) := by
  induction hp with
  | ret a => exact hf a rfl
  | err e => exact .err e
  | real d k hd hk ih => exact .real _ _ hd fun x hx => ih x hx fun a ha => hf a ⟨x, hx, ha⟩
  | nat d k hd hk ih => exact .nat _ _ hd fun x hx => ih x hx fun a ha => hf a ⟨x, hx, ha⟩

theorem Mass1.lift {r : Res α} : Mass1 (Prog.lift r) := by
  cases r
  · exact .err _
  · exact .ret _

theorem Mass1.assert {P : Prop} [Decidable P] : Mass1 (Prog.assert P) := by
  unfold Prog.assert
  split_ifs
  · exact .ret _
  · exact .err _

theorem Mass1.ite {P : Prop} [Decidable P] {p q : Prog α} (hp : P → Mass1 p) (hq : ¬ P → Mass1 q) : Mass1 (if P then p else q) := by
  split_ifs with h
  · exact hp h
  · exact hq h

theorem Mass1.replicate {p : Prog α} (hp : Mass1 p) (n : ℕ) : Mass1 (Prog.replicate n p) := by
  induction n with
  | zero => exact .ret _
  | succ n ih => exact hp.bind fun _ _ => ih.bind fun _ _ => .ret _

theorem Mass1.mapM' {f : α → Prog β} {l : List α} (hf : ∀ a ∈ l, Mass1 (f a)) : Mass1 (Prog.mapM' f l) := by
  induction l with
  | nil => exact .ret _
  | cons a l ih => exact (hf a (by simp)).bind fun _ _ => (ih fun b hb => hf b (by simp [hb])).bind fun _ _ => .ret _

theorem Mass1.draw {d : RDist} (h : d.law univ = 1) : Mass1 (Prog.draw d) := .real _ _ h fun _ _ => .ret _

theorem mass_uniform (lo hi : ℝ) : (RDist.uniform lo hi).law univ = 1 := by
  rw [RDist.law, Measure.map_apply (by fun_prop) MeasurableSet.univ]
  simp

theorem Mass1.unif (lo hi : ℝ) : Mass1 (Prog.draw (.uniform lo hi)) := .draw (mass_uniform lo hi)

theorem mass_wald {m l : ℝ} (hm : 0 < m) (hl : 0 < l) : (RDist.wald m l).law univ = 1 := by
  have := wald_mass hm hl 1
  rwa [lintegral_const, one_mul] at this

theorem mass_normal (m s : ℝ) : (RDist.normal m s).law univ = 1 := by
  show gaussianReal _ _ univ = 1
  exact measure_univ

theorem mass_poisson (l : ℝ) : (NDist.poisson l).law univ = 1 := by
  show poissonMeasure _ univ = 1
  exact measure_univ

theorem mass_beta {a b : ℝ} (ha : 0 < a) (hb : 0 < b) : (RDist.beta a b).law univ = 1 := by
  have := isProbabilityMeasureBeta ha hb
  show betaMeasure a b univ = 1
  exact measure_univ

/-- The expectation of a constant is the constant. -/
theorem Mass1.lexp_const {p : Prog α} (hp : Mass1 p) (c : ℝ≥0∞) : p.lexp (fun _ => c) = c := by
  induction hp with
  | ret a => rfl
  | err e => rfl
  | real d k hd hk ih =>
    rw [Prog.lexp_real]
    have h1 : ∀ᵐ x ∂d.law, x ∈ d.support := by rw [ae_iff]; exact RDist.law_support d
    rw [lintegral_congr_ae (g := fun _ => c) (by filter_upwards [h1] with x hx using ih x hx), lintegral_const, hd, mul_one]
  | nat d k hd hk ih =>
    rw [Prog.lexp_nat]
    have h1 : ∀ᵐ x ∂d.law, x ∈ d.support := by rw [ae_iff]; exact NDist.law_support d
    rw [lintegral_congr_ae (g := fun _ => c) (by filter_upwards [h1] with x hx using ih x hx), lintegral_const, hd, mul_one]

/-! ## Hitting times -/

theorem mass_minTime {T a b m : ℝ} (hT : 0 < T) (ha : m < a) (hb : m < b) : Mass1 (sampleMinTime T a b m) := by
  have h1 : 0 < (b - m) ^ 2 / (2 * T) := by have := sub_pos.2 hb; positivity
  have h2 : 0 < (m - a) ^ 2 / (2 * T) := by have : m - a ≠ 0 := by linarith
                                            positivity
  have h3 : 0 < √((b - m) ^ 2 / (2 * T) / ((m - a) ^ 2 / (2 * T))) := Real.sqrt_pos.2 (div_pos h1 h2)
  unfold sampleMinTime
  dsimp only
  refine (Mass1.unif _ _).bind fun v _ => .ite (fun _ => (Mass1.draw (mass_wald h3 (by linarith))).bind fun _ _ => .ret _)
    fun _ => (Mass1.draw (mass_wald (one_div_pos.2 h3) (by linarith))).bind fun _ _ => .ret _

theorem mass_bridgeMin (T a b : ℝ) (lb ub : Option ℝ) : Mass1 (sampleBridgeMin T a b lb ub) := by
  unfold sampleBridgeMin
  refine Mass1.assert.bind fun _ hT => Mass1.assert.bind fun _ hb => (Mass1.unif _ _).bind fun u hu => Mass1.lift.bind fun o ho => ?_
  rw [Prog.out_assert_ok] at hT hb
  rw [Prog.out_lift] at ho
  cases o with
  | none => exact .err _
  | some m =>
    simp only [Prog.out_draw, Except.ok.injEq] at hu
    obtain ⟨x, hx, rfl⟩ := hu
    have hx' : 0 ≤ u ∧ u < 1 := by simpa [RDist.support] using hx
    by_cases hz : u = 0 → lb ≠ none
    · obtain ⟨m', e, -, -, h4, -, -⟩ := ppfBridgeMin_spec hx'.1 hx'.2.le hT hb hz
      rw [e] at ho
      simp only [Except.ok.injEq, Option.some.injEq] at ho
      subst ho
      have h5 := (h4 hx'.2).trans_le hb.2
      exact (mass_minTime hT (h5.trans_le (min_le_left _ _)) (h5.trans_le (min_le_right _ _))).bind fun _ _ => .ret _
    · simp only [Classical.not_imp, not_not] at hz
      rw [ppfBridgeMin_eq ⟨hx'.1, hx'.2.le⟩ hT hb, hz.1, hz.2] at ho
      simp [ppfMinBase, cdfMinBase] at ho

theorem mass_searchResult (o : Option Bool) : Mass1 (searchResult o) := by
  cases o
  · exact .err _
  · exact .ret _

theorem mass_brownEscSeeded (T a b K : ℝ) (B : Option ℝ) (u : ℝ) : Mass1 (brownEscSeeded T a b K B u) :=
  Mass1.assert.bind fun _ _ => Mass1.assert.bind fun _ _ => .ite (fun _ => .ret _) fun _ => .ite (fun _ => .ret _) fun _ => mass_searchResult _

theorem mass_brownEsc (T a b K : ℝ) (B seed : Option ℝ) : Mass1 (brownEsc T a b K B seed) := by
  cases seed
  · exact (Mass1.unif _ _).bind fun u _ => mass_brownEscSeeded ..
  · exact mass_brownEscSeeded ..

theorem mass_besEscSeeded (T a b K : ℝ) (B : Option ℝ) (u : ℝ) : Mass1 (besEscSeeded T a b K B u) := by
  refine Mass1.assert.bind fun _ _ => Mass1.assert.bind fun _ _ => Mass1.assert.bind fun _ _ => Mass1.assert.bind fun _ _ =>
    .ite (fun _ => .ret _) fun _ => .ite (fun _ => .ret _) fun _ => .ite (fun _ => mass_searchResult _) fun _ => ?_
  split
  · exact mass_searchResult _
  · exact .err _

theorem mass_besEsc (T a b K : ℝ) (B seed : Option ℝ) : Mass1 (besEsc T a b K B seed) := by
  cases seed
  · exact (Mass1.unif _ _).bind fun u _ => mass_besEscSeeded ..
  · exact mass_besEscSeeded ..

theorem mass_layerMinLoop (T a b U : ℝ) (lb ub : Option ℝ) (n : ℕ) : Mass1 (layerMinLoop T a b U lb ub n) := by
  induction n with
  | zero => exact .err _
  | succ n ih => exact (mass_bridgeMin ..).bind fun q _ => (mass_besEsc ..).bind fun _ _ => (mass_besEsc ..).bind fun _ _ => .ite (fun _ => .ret _) fun _ => ih

theorem mass_layerMin (n : ℕ) (T a b : ℝ) (U lb ub : Option ℝ) : Mass1 (sampleLayerMin n T a b U lb ub) := by
  refine Mass1.assert.bind fun _ _ => Mass1.assert.bind fun _ _ => ?_
  cases U
  · exact .ite (fun _ => .err _) fun _ => mass_bridgeMin ..
  · exact mass_layerMinLoop ..

/-! ## Layers and edges -/

theorem mass_layerSeedLoop (T a b l u : ℝ) (n : ℕ) : Mass1 (layerSeedLoop T a b l u n) := by
  induction n with
  | zero => exact .err _
  | succ n ih => exact (Mass1.unif _ _).bind fun _ _ => (mass_brownEsc ..).bind fun _ _ => .ite (fun _ => .ret _) fun _ => ih

theorem mass_layerSeed (n : ℕ) (T a b : ℝ) (lb ub : Option ℝ) : Mass1 (layerSeed n T a b lb ub) := by
  cases lb <;> cases ub
  · exact Mass1.unif _ _
  · exact Mass1.lift.bind fun _ _ => Mass1.unif _ _
  · exact Mass1.lift.bind fun _ _ => Mass1.unif _ _
  · exact mass_layerSeedLoop ..

theorem mass_layerSearch (T a b : ℝ) (lb ub : Option ℝ) (u : ℝ) (F : ℕ) : ∀ l, Mass1 (layerSearch T a b lb ub u F l) := by
  induction F with
  | zero => exact fun _ => .err _
  | succ F ih => exact fun l => Mass1.lift.bind fun _ _ => (mass_brownEsc ..).bind fun _ _ => .ite (fun _ => .ret _) fun _ => ih _

theorem mass_layer (n F : ℕ) (T a b : ℝ) (lb ub : Option ℝ) : Mass1 (sampleLayer n F T a b lb ub) :=
  Mass1.assert.bind fun _ _ => (mass_layerSeed ..).bind fun _ _ => mass_layerSearch ..

theorem mass_anchor (n F : ℕ) (T a b : ℝ) (lb ub : Option ℝ) : Mass1 (sampleAnchor n F T a b lb ub) :=
  Mass1.assert.bind fun _ _ => (mass_layer ..).bind fun _ _ => Mass1.lift.bind fun _ _ => Mass1.lift.bind fun _ _ => Mass1.lift.bind fun _ _ =>
    (Mass1.unif _ _).bind fun _ _ => .ret _

theorem mass_edgesLoop (m : ℕ) (T a b : ℝ) (inf sup : ℝ × ℝ) (n : ℕ) : Mass1 (edgesLoop m T a b inf sup n) := by
  induction n with
  | zero => exact .err _
  | succ n ih =>
    exact (mass_layerMin ..).bind fun _ _ => .ite (fun _ => .ret _) fun _ => (mass_besEsc ..).bind fun _ _ => (mass_besEsc ..).bind fun _ _ =>
      .ite (fun _ => .ret _) fun _ => (Mass1.unif _ _).bind fun _ _ => .ite (fun _ => .ret _) fun _ => ih

theorem mass_edges (m n : ℕ) (T a b : ℝ) (inf sup : ℝ × ℝ) : Mass1 (sampleEdges m n T a b inf sup) :=
  Mass1.assert.bind fun _ _ => Mass1.assert.bind fun _ _ => mass_edgesLoop ..

theorem mass_rawSkel (n F : ℕ) (T a b : ℝ) (lb ub : Option ℝ) : Mass1 (sampleRawSkel n F T a b lb ub) :=
  (mass_anchor ..).bind fun _ _ => (mass_edges ..).bind fun _ _ => (Mass1.unif _ _).bind fun _ _ => .ite (fun _ => .ret _) fun _ => .lift

/-! ## Paths in layers -/

theorem mass_wiener (t : List ℝ) (x mu : ℝ) : Mass1 (sampleWiener t x mu) :=
  .ite (fun _ => .err _) fun _ => Mass1.assert.bind fun _ _ => .ite (fun _ => .err _) fun _ =>
    (Mass1.replicate (Mass1.draw (mass_normal ..)) _).bind fun _ _ => .ret _

theorem mass_brownbr (t : List ℝ) (T x0 x1 : ℝ) : Mass1 (sampleBrownbr t T x0 x1) :=
  .ite (fun _ => .err _) fun _ => Mass1.assert.bind fun _ _ => (mass_wiener ..).bind fun _ _ => .ret _

theorem mass_besselbr (t : List ℝ) (T x : ℝ) (dim : ℕ) : Mass1 (sampleBesselbr t T x dim) :=
  .ite (fun _ => .err _) fun _ => Mass1.assert.bind fun _ _ => Mass1.assert.bind fun _ _ => (Mass1.mapM' fun _ _ => mass_brownbr ..).bind fun _ _ => .ret _

theorem mass_escGaps (t x : List ℝ) (K : ℝ) (B : Option ℝ) : Mass1 (escGaps t x K B) := Mass1.mapM' fun _ _ => mass_besEsc ..

theorem mass_edgeLoop (t : List ℝ) (T x : ℝ) (U L : Option ℝ) (n : ℕ) : Mass1 (edgeLoop t T x U L n) := by
  induction n with
  | zero => exact .err _
  | succ n ih =>
    refine (Mass1.ite (fun _ => .ret _) fun _ => mass_besselbr ..).bind fun _ _ => Mass1.bind ?_ fun _ _ => .ite (fun _ => ih) fun _ => Mass1.bind ?_ fun _ _ => .ret _
    · cases U
      · exact .ret _
      · exact (mass_escGaps ..).bind fun _ _ => .ret _
    · cases L
      · exact .ret _
      · exact mass_escGaps ..

theorem mass_proposeEdge (n : ℕ) (t : List ℝ) (T x : ℝ) (U L : Option ℝ) : Mass1 (proposeEdge n t T x U L) :=
  Mass1.assert.bind fun _ _ => Mass1.assert.bind fun _ _ => mass_edgeLoop ..

theorem mass_layerStep (n : ℕ) (U L : Option ℝ) {rec : LayerProp} (hr : ∀ t T a b m, Mass1 (rec t T a b m)) (t : List ℝ) (T a b m : ℝ) : Mass1 (layerStep n U L rec t T a b m) := by
  refine Mass1.assert.bind fun _ _ => Mass1.assert.bind fun _ _ => Mass1.assert.bind fun _ _ => .ite (fun _ => .err _) fun _ => .ite
    (fun _ => .ite (fun _ => (mass_proposeEdge ..).bind fun _ _ => .ret _) fun _ => (mass_proposeEdge ..).bind fun _ _ => .ret _)
    fun _ => (mass_layerMin ..).bind fun _ _ => (hr ..).bind fun _ _ => (hr ..).bind fun _ _ => ?_
  cases L
  · exact .ret _
  · dsimp only
    split
    · exact .ret _
    · exact .err _

theorem mass_proposeLayer (n : ℕ) (U L : Option ℝ) (t : List ℝ) (T a b m : ℝ) : Mass1 (proposeLayer n U L t T a b m) :=
  mass_layerStep _ _ _ (fun _ _ _ _ _ => mass_layerStep _ _ _ (fun _ _ _ _ _ => .err _) ..) ..

theorem mass_layerbr (n k : ℕ) (t : List ℝ) (T a b m : ℝ) (U L : Option ℝ) : Mass1 (sampleLayerbr n k t T a b m U L) := by
  refine .ite (fun _ => .err _) fun _ => Mass1.assert.bind fun _ _ => Mass1.assert.bind fun _ _ => Mass1.assert.bind fun _ _ => Mass1.assert.bind fun _ _ =>
    Mass1.assert.bind fun _ _ => ?_
  have h : ∀ k, Mass1 (layerbrLoop n t T a b m U L k) := by
    intro k
    induction k with
    | zero => exact .err _
    | succ k ih =>
      refine (mass_proposeLayer ..).bind fun _ _ => ?_
      cases L
      · exact .ret _
      · exact .ite (fun _ => .ret _) fun _ => ih
  exact h k

/-! ## Interpolation and coins -/

theorem mass_fillInner (n k : ℕ) (t x newT : List ℝ) (minX : ℝ) (ue hitX : Option ℝ) (hitI : Option (List Bool)) : Mass1 (fillInner n k t x newT minX ue hitX hitI) := by
  refine .ite (fun _ => .ret _) fun _ => .ite (fun _ => .err _) fun _ => Mass1.assert.bind fun _ _ => .ite (fun _ => .err _) fun _ => Mass1.assert.bind fun _ _ =>
    Mass1.assert.bind fun _ _ => Mass1.assert.bind fun _ _ => (Mass1.mapM' fun i _ => ?_).bind fun _ _ => .ret _
  unfold fillSector
  split
  · exact mass_layerbr ..
  · exact .err _

theorem mass_fillOuter (n k : ℕ) (t x newT : List ℝ) (minX : ℝ) (ue hitX : Option ℝ) (hitI : Option (List Bool)) : Mass1 (fillOuter n k t x newT minX ue hitX hitI) :=
  .ite (fun _ => .err _) fun _ => Mass1.assert.bind fun _ _ => .ite (fun _ => .err _) fun _ => Mass1.assert.bind fun _ _ =>
    Mass1.assert.bind fun _ _ => Mass1.assert.bind fun _ _ => (mass_fillInner ..).bind fun _ _ => .ret _

theorem mass_interpolateSkel (n k : ℕ) (s : EaSkel) (newT : List ℝ) : Mass1 (interpolateSkel n k s newT) := by
  refine .ite (fun _ => .ret _) fun _ => .ite (fun _ => (mass_fillOuter ..).bind fun _ _ => .ret _) fun _ => Mass1.lift.bind fun _ _ => ?_
  split
  · exact .err _
  · exact Mass1.lift.bind fun _ _ => (mass_fillOuter ..).bind fun _ _ => Mass1.lift.bind fun _ _ => .ret _

theorem mass_drawRow (bs : List ℝ) : Mass1 (drawRow bs) := Mass1.mapM' fun _ _ => Mass1.unif _ _

theorem mass_pppBatch {n i : ℕ} (h1 : 1 ≤ i) (h2 : i ≤ n) (b0 : ℝ) (bs : List ℝ) (lb : ℝ) : Mass1 (pppBatch n b0 bs lb i) := by
  have e1 : (1 : ℝ) ≤ i := by exact_mod_cast h1
  have e2 : (i : ℝ) ≤ n := by exact_mod_cast h2
  refine .real _ _ (mass_beta (by linarith) (by linarith)) fun _ _ => Mass1.bind ?_ fun _ _ => (Mass1.replicate (mass_drawRow _) _).bind fun _ _ => .ret _
  exact .ite (fun _ => .ret _) fun _ => (Mass1.replicate (Mass1.unif _ _) _).bind fun _ _ => .ret _

theorem mass_coinLoop {σ : Type} {step : σ → List (ℝ × ℝ) → Prog (Bool × σ)} (hs : ∀ s ps, Mass1 (step s ps)) {m : ℕ} (h T : ℝ) :
    ∀ (is : List ℕ), (∀ i ∈ is, 0 < i ∧ i ≤ m) → ∀ s lb, Mass1 (coinLoop step m h T s lb is)
  | [], _, _, _ => .ret _
  | i :: is, hi, s, lb => (mass_pppBatch (hi i (by simp)).1 (hi i (by simp)).2 ..).bind fun _ _ => (hs ..).bind fun _ _ => .ite (fun _ => .ret _)
      fun _ => mass_coinLoop hs h T is (fun j hj => hi j (List.mem_cons_of_mem _ hj)) ..

theorem mass_batchCoin {σ : Type} {step : σ → List (ℝ × ℝ) → Prog (Bool × σ)} (hs : ∀ s ps, Mass1 (step s ps)) (h T : ℝ) (size : ℤ) (s : σ) :
    Mass1 (batchCoin step h T size s) :=
  Mass1.assert.bind fun _ _ => Mass1.assert.bind fun _ h0 => .nat _ _ (mass_poisson _) fun _ _ =>
    mass_coinLoop hs _ _ _ (batchSizes_le (by rw [Prog.out_assert_ok] at h0; omega)) ..

theorem mass_skelCoin {σ : Type} {interp : σ → List ℝ → Prog (σ × List ℝ)} (hi : ∀ s t, Mass1 (interp s t)) (disc : ℝ → ℝ) (b : DiscBounds) (T : ℝ) (size : ℤ) (s : σ) :
    Mass1 (skelCoin interp disc b T size s) := by
  unfold skelCoin
  split
  · exact mass_batchCoin (fun _ _ => (hi ..).bind fun _ _ => .ite (fun _ => .err _) fun _ => .ret _) ..
  · exact .err _
  · exact .ite (fun _ => .err _) fun _ => .err _

theorem mass_flipSkelCoin (n k : ℕ) (disc : ℝ → ℝ) (ebd : ℝ → ℝ → Res DiscBounds) (size : ℤ) (s : EaSkel) : Mass1 (flipSkelCoin n k disc ebd size s) := by
  refine Mass1.lift.bind fun _ _ => ?_
  split
  · exact .err _
  · exact mass_skelCoin (fun _ _ => mass_interpolateSkel ..) ..

/-! ## Rejection -/

theorem mass_skelTry {σ : Type} {next : σ → Prog (ℝ × σ)} (hn : ∀ s, Mass1 (next s)) {raw : ℝ → Prog EaSkel} (hr : ∀ x, Mass1 (raw x)) {flip : EaSkel → Prog (Bool × EaSkel)}
    (hf : ∀ s, Mass1 (flip s)) : ∀ k s, Mass1 (skelTry next raw flip k s)
  | 0, _ => .err _
  | k + 1, s => (hn s).bind fun _ _ => Mass1.bind ((hr _).bind fun _ _ => hf _) fun _ _ => .ite (fun _ => .ret _) fun _ => mass_skelTry hn hr hf k _

theorem mass_skelStream {σ : Type} {next : σ → Prog (ℝ × σ)} (hn : ∀ s, Mass1 (next s)) {raw : ℝ → Prog EaSkel} (hr : ∀ x, Mass1 (raw x)) {flip : EaSkel → Prog (Bool × EaSkel)}
    (hf : ∀ s, Mass1 (flip s)) {post : EaSkel → Prog β} (hp : ∀ s, Mass1 (post s)) (maxProps : ℕ) : ∀ m s, Mass1 (skelStream next raw flip post maxProps m s)
  | 0, _ => .ret _
  | m + 1, s => (mass_skelTry hn hr hf ..).bind fun _ _ => (hp _).bind fun _ _ => (mass_skelStream hn hr hf hp maxProps m _).bind fun _ _ => .ret _

theorem mass_sampleSde {p : ℕ} (M : ItoFns p) (ebd : (Fin p → ℝ) → ℝ → ℝ → Res DiscBounds) (lb ub : EReal) (B : SdeBudget) (mode : ℝ) (thi : Fin p → ℝ) (t : List ℝ)
    (T v0 v1 : ℝ) (m : ℕ) : Mass1 (sampleSde M ebd lb ub B mode thi t T v0 (some v1) m) :=
  mass_skelStream (fun _ => .ret _) (fun _ => mass_rawSkel ..) (fun _ => mass_flipSkelCoin ..) (fun _ => (mass_interpolateSkel ..).bind fun _ _ => .ret _) ..

/-! ## Seeds -/

theorem mass_interpolateSeed (n k : ℕ) (op : NormOp) (s : EaSkel) (newT : List ℝ) : Mass1 (interpolateSeed n k op s newT) :=
  (mass_interpolateSkel ..).bind fun _ _ => .ite (fun _ => .ret _) fun _ => .err _

theorem mass_flipPoissonCoin (n k : ℕ) (disc : ℝ → ℝ) (ebd : ℝ → ℝ → Res DiscBounds) (op : NormOp) (size : ℤ) (z : EaSkel) : Mass1 (flipPoissonCoin n k disc ebd op size z) := by
  refine Mass1.lift.bind fun _ _ => Mass1.lift.bind fun d _ => ?_
  split
  · exact .ret _
  · exact (mass_batchCoin (fun _ _ => (mass_interpolateSeed ..).bind fun _ _ => Mass1.lift.bind fun _ _ => .ret _) ..).bind fun _ _ => .ret _

theorem mass_seedTry {ζ : Type} {raw : Prog ζ} (hr : Mass1 raw) {flip : ζ → Prog (Bool × ℝ × ζ)} (hf : ∀ z, Mass1 (flip z)) : ∀ k, Mass1 (seedTry raw flip k)
  | 0 => .err _
  | k + 1 => Mass1.bind (hr.bind fun _ _ => (hf _).bind fun _ _ => .ite (fun _ => .real _ _ (mass_uniform ..) fun _ _ => .ret _) fun _ => .ret _)
      fun _ _ => .ite (fun _ => .ret _) fun _ => mass_seedTry hr hf k

theorem mass_sampleSeedBridge (n F k : ℕ) (disc : ℝ → ℝ) (ebd : ℝ → ℝ → Res DiscBounds) (op : NormOp) (lb ub : Option ℝ) (maxProps : ℤ) (m : ℕ) :
    Mass1 (sampleSeedBridge n F k disc ebd op lb ub maxProps m) :=
  .ite (fun _ => .ret _) fun _ => Mass1.assert.bind fun _ _ => Mass1.assert.bind fun _ _ => Mass1.replicate (mass_seedTry (mass_rawSkel ..) (fun _ => mass_flipPoissonCoin ..) _) _

end Ctb
