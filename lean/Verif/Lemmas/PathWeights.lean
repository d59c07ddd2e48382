import Verif.Lemmas.StripMass
import Verif.Props.LayerMin

/-! # Weights of the segments of a path -/

set_option linter.unusedSectionVars false

namespace Ctb

open MeasureTheory Set Filter Topology
open scoped ENNReal

/-- Product of the weights of the segments of a path from `x` to `x1`. -/
noncomputable def pathW (k : ℝ → ℝ → ℝ → ℝ≥0∞) (x1 : ℝ) : List ℝ → ℝ → List ℝ → ℝ≥0∞
  | [v], x, [] => k v x x1
  | v :: w :: vs, x, y :: l => k v x y * pathW k x1 (w :: vs) y l
  | _, _, _ => 0

/-- The same where the first segment has its own weight. -/
noncomputable def startW (e : ℝ → ℝ → ℝ≥0∞) (k : ℝ → ℝ → ℝ → ℝ≥0∞) (x1 : ℝ) : List ℝ → List ℝ → ℝ≥0∞
  | [v], [] => e v x1
  | v :: w :: vs, y :: l => e v y * pathW k x1 (w :: vs) y l
  | _, _ => 0

section
variable {X : Type} [MeasurableSpace X]

theorem MeasL.of_cons {n : ℕ} {F : X → List ℝ → ℝ≥0∞} (h : MeasL n fun (p : X × ℝ) l => F p.1 (p.2 :: l)) : MeasL (n + 1) F := by
  unfold MeasL at *
  have e : (fun p : X × (Fin (n + 1) → ℝ) => F p.1 (List.ofFn p.2)) =
      (fun q : (X × ℝ) × (Fin n → ℝ) => F q.1.1 (q.1.2 :: List.ofFn q.2)) ∘ fun p : X × (Fin (n + 1) → ℝ) => ((p.1, p.2 0), fun i => p.2 i.succ) := by
    funext p
    simp [List.ofFn_succ]
  rw [e]
  refine h.comp ((measurable_fst.prodMk ((measurable_pi_apply 0).comp measurable_snd)).prodMk (measurable_pi_lambda _ fun i => (measurable_pi_apply _).comp measurable_snd))

end

variable {k q : ℝ → ℝ → ℝ → ℝ≥0∞} {e f : ℝ → ℝ → ℝ≥0∞}

theorem measL_pathW (hk : MeasK fun _ : Unit => k) (x1 : ℝ) : ∀ (vs : List ℝ) {X : Type} [MeasurableSpace X] {x : X → ℝ}, Measurable x →
    MeasL (vs.length - 1) fun p l => pathW k x1 vs (x p) l
  | [], _, _, x, _ => by simp only [pathW]; exact measurable_const
  | [v], _, _, x, hx => by
    unfold MeasL
    have : ∀ p : _ × (Fin ([v].length - 1) → ℝ), pathW k x1 [v] (x p.1) (List.ofFn p.2) = k v (x p.1) x1 := by
      intro p
      have : List.ofFn p.2 = [] := List.ofFn_eq_nil_iff.2 rfl
      rw [this, pathW]
    simp only [this]
    exact hk.apply v (p := fun _ => ()) measurable_const (hx.comp measurable_fst) measurable_const
  | v :: w :: vs, X, _, x, hx => by
    refine MeasL.of_cons (n := (w :: vs).length - 1) ?_
    simp only [pathW]
    refine MeasL.mul (MeasL.of_fst (hk.apply v (p := fun _ => ()) measurable_const (hx.comp measurable_fst) measurable_snd)) ?_
    exact measL_pathW hk x1 (w :: vs) measurable_snd

theorem measL_startW (hk : MeasK fun _ : Unit => k) (he : ∀ v, Measurable (e v)) (x1 : ℝ) (vs : List ℝ) :
    MeasL (vs.length - 1) fun (_ : Unit) l => startW e k x1 vs l := by
  match vs with
  | [] => simp only [startW]; exact measurable_const
  | [v] =>
    unfold MeasL
    have : ∀ p : Unit × (Fin ([v].length - 1) → ℝ), startW e k x1 [v] (List.ofFn p.2) = e v x1 := by
      intro p
      have : List.ofFn p.2 = [] := List.ofFn_eq_nil_iff.2 rfl
      rw [this, startW]
    simp only [this]
    exact measurable_const
  | v :: w :: vs =>
    refine MeasL.of_cons (n := (w :: vs).length - 1) ?_
    simp only [startW]
    exact MeasL.mul (MeasL.of_fst ((he v).comp measurable_snd)) (measL_pathW hk x1 (w :: vs) measurable_snd)

theorem kerInt_pathW (hk : MeasK fun _ : Unit => k) (hq : MeasK fun _ : Unit => q) (x1 : ℝ) : ∀ (vs : List ℝ) (x : ℝ) {F : List ℝ → ℝ≥0∞}, MeasL (vs.length - 1) (fun _ : Unit => F) →
    kerInt k x1 vs x (fun l => pathW q x1 vs x l * F l) = kerInt (fun v a b => k v a b * q v a b) x1 vs x F
  | [], _, _, _ => rfl
  | [v], x, F, _ => by simp only [kerInt, pathW]; ring
  | v :: w :: vs, x, F, hF => by
    have hF' : MeasL ((w :: vs).length - 1) (fun (y : ℝ) l => F (y :: l)) :=
      (MeasL.cons hF).comp (φ := fun y : ℝ => ((), y)) (measurable_const.prodMk measurable_id)
    simp only [kerInt, pathW]
    refine lintegral_congr fun y => ?_
    have h2 : MeasL ((w :: vs).length - 1) fun (_ : Unit) l => pathW q x1 (w :: vs) y l * F (y :: l) :=
      (measL_pathW hq x1 (w :: vs) (x := fun _ : Unit => y) measurable_const).mul (hF'.const y)
    rw [← kerInt_pathW hk hq x1 (w :: vs) y (F := fun l => F (y :: l)) (hF'.const y), mul_assoc, ← kerInt_const_mul hk x1 (q v x y) (w :: vs) y h2]
    simp only [mul_assoc]

theorem startInt_startW (hk : MeasK fun _ : Unit => k) (hq : MeasK fun _ : Unit => q) (x1 : ℝ) (vs : List ℝ) {F : List ℝ → ℝ≥0∞} (hF : MeasL (vs.length - 1) fun _ : Unit => F) :
    startInt e k x1 vs (fun l => startW f q x1 vs l * F l) = startInt (fun v y => e v y * f v y) (fun v a b => k v a b * q v a b) x1 vs F := by
  match vs, hF with
  | [], _ => rfl
  | [v], _ => simp only [startInt, startW]; ring
  | v :: w :: vs, hF =>
    have hF' : MeasL ((w :: vs).length - 1) (fun (y : ℝ) l => F (y :: l)) :=
      (MeasL.cons hF).comp (φ := fun y : ℝ => ((), y)) (measurable_const.prodMk measurable_id)
    simp only [startInt, startW]
    refine lintegral_congr fun y => ?_
    have h2 : MeasL ((w :: vs).length - 1) fun (_ : Unit) l => pathW q x1 (w :: vs) y l * F (y :: l) :=
      (measL_pathW hq x1 (w :: vs) (x := fun _ : Unit => y) measurable_const).mul (hF'.const y)
    rw [← kerInt_pathW hk hq x1 (w :: vs) y (F := fun l => F (y :: l)) (hF'.const y), mul_assoc, ← kerInt_const_mul hk x1 (f v y) (w :: vs) y h2]
    simp only [mul_assoc]

theorem startInt_add (hk : MeasK fun _ : Unit => k) (he : ∀ v, Measurable (e v)) (x1 : ℝ) (vs : List ℝ) {F G : List ℝ → ℝ≥0∞}
    (hF : MeasL (vs.length - 1) (fun _ : Unit => F)) : startInt e k x1 vs (fun l => F l + G l) = startInt e k x1 vs F + startInt e k x1 vs G := by
  match vs, hF with
  | [], _ => simp [startInt]
  | [v], _ => simp only [startInt]; ring
  | v :: w :: vs, hF =>
    have hF' : MeasL ((w :: vs).length - 1) (fun (y : ℝ) l => F (y :: l)) :=
      (MeasL.cons hF).comp (φ := fun y : ℝ => ((), y)) (measurable_const.prodMk measurable_id)
    simp only [startInt]
    rw [← lintegral_add_left]
    · refine lintegral_congr fun y => ?_
      rw [kerInt_add hk x1 (w :: vs) y (F := fun l => F (y :: l)) (hF'.const y)]
      ring
    · exact (he v).mul (kerInt_measurable' x1 (w :: vs) hk hF' measurable_id)

theorem startInt_const_mul (hk : MeasK fun _ : Unit => k) (he : ∀ v, Measurable (e v)) (x1 : ℝ) (c : ℝ≥0∞) (vs : List ℝ) {F : List ℝ → ℝ≥0∞}
    (hF : MeasL (vs.length - 1) (fun _ : Unit => F)) : startInt e k x1 vs (fun l => c * F l) = c * startInt e k x1 vs F := by
  match vs, hF with
  | [], _ => simp [startInt]
  | [v], _ => simp only [startInt]; ring
  | v :: w :: vs, hF =>
    have hF' : MeasL ((w :: vs).length - 1) (fun (y : ℝ) l => F (y :: l)) :=
      (MeasL.cons hF).comp (φ := fun y : ℝ => ((), y)) (measurable_const.prodMk measurable_id)
    simp only [startInt]
    rw [← lintegral_const_mul]
    · refine lintegral_congr fun y => ?_
      rw [kerInt_const_mul hk x1 c (w :: vs) y (F := fun l => F (y :: l)) (hF'.const y)]
      ring
    · exact (he v).mul (kerInt_measurable' x1 (w :: vs) hk hF' measurable_id)

theorem startInt_congr (x1 : ℝ) (vs : List ℝ) {F G : List ℝ → ℝ≥0∞} (h : ∀ l, l.length = vs.length - 1 → F l = G l) :
    startInt e k x1 vs F = startInt e k x1 vs G := by
  match vs, h with
  | [], _ => rfl
  | [v], h => simp only [startInt]; rw [h [] rfl]
  | v :: w :: vs, h =>
    simp only [startInt]
    refine lintegral_congr fun y => ?_
    congr 1
    exact kerInt_congr x1 (w :: vs) y fun l hl => h _ (by simpa using hl)

/-! ## one gap -/

variable {v a b K : ℝ}

/-- Probability of no escape of a segment. -/
noncomputable def escK (K v a b : ℝ) : ℝ≥0∞ := stripDens K 0 v a b / killDens 0 v a b

/-- Probability of no escape of the first segment. -/
noncomputable def escE (K v b : ℝ) : ℝ≥0∞ := stripEntr K 0 v b / entrDens 0 v b

open Classical in
/-- Whether the segment is accepted by the assertions. -/
noncomputable def okK (_v a b : ℝ) : ℝ≥0∞ := if 0 < a ∧ 0 < b then 1 else 0

open Classical in
/-- Whether the first segment is accepted by the assertions. -/
noncomputable def okE (_v b : ℝ) : ℝ≥0∞ := if 0 < b then 1 else 0

theorem besEsc_law {p : ℝ} (hT : 0 < v) (ha : 0 ≤ a) (hb : 0 < b) (haK : a < K) (hbK : b < K) (hp : Tendsto (besSeries v a b K) atTop (𝓝 p)) (g : Res Bool → ℝ≥0∞) :
    (besEsc v a b K none none).lexp g = ENNReal.ofReal p * g (.ok true) + ENNReal.ofReal (1 - p) * g (.ok false) := by
  obtain ⟨p', hp1, hp', hp0, i0, hA, hs⟩ := bes_search hT ha hb haK hbK
  obtain rfl := tendsto_nhds_unique hp hp'
  simp only [besEsc, Prog.draw, Prog.real_bind, Prog.ret_bind, Prog.lexp_real]
  refine unif_decide hp0 hp1.le (fun u h0 h1 h => ?_) (fun u h0 h1 h => ?_)
  · rw [hs u h0 h1.le, escSearch_true hA h]; simp [searchResult]
  · rw [hs u h0 h1.le, escSearch_false hA h]; simp [searchResult]

theorem besEsc_over (hT : 0 < v) (ha : 0 ≤ a) (hb : 0 < b) (hK : K ≤ max a b) (g : Res Bool → ℝ≥0∞) : (besEsc v a b K none none).lexp g = g (.ok true) := by
  simp only [besEsc, Prog.draw, Prog.real_bind, Prog.ret_bind, Prog.lexp_real]
  have := unif_decide (p := 1) (F := fun u => (besEscSeeded v a b K none u).lexp g) (A := g (.ok true)) (B := 0) zero_le_one le_rfl (fun u h0 h1 _ => ?_) (fun u _ h1 h => absurd h1 (not_lt.2 h.le))
  · rw [this]; simp
  · simp [besEscSeeded, Prog.assert, hT, ha, hb, h0, h1.le, hK]

theorem besEsc_bad (hb : b ≤ 0) (g : Bool → ℝ≥0∞) : (besEsc v a b K none none).lexp (onOk g) = 0 := by
  simp only [besEsc, Prog.draw, Prog.real_bind, Prog.ret_bind, Prog.lexp_real]
  rw [lintegral_congr (g := fun _ => 0), lintegral_zero]
  intro u
  unfold besEscSeeded Prog.assert
  by_cases h1 : 0 < v
  · by_cases h2 : 0 ≤ a
    · simp [h1, h2, not_lt.2 hb, onOk]
    · simp [h1, h2, onOk]
  · simp [h1, onOk]

theorem gap_E (hv : 0 < v) (b K : ℝ) (hK : 0 < K) : ∃ r, escE K v b + r = okE v b ∧ ∀ g : Bool → ℝ≥0∞, (besEsc v 0 b K none none).lexp (onOk g) = escE K v b * g false + r * g true := by
  by_cases hb : 0 < b
  · have ht : okE v b = 1 := if_pos hb
    by_cases hbK : b < K
    · obtain ⟨p, hp0, hp1, hp⟩ := C43_series hv le_rfl hb hK hbK
      have he := stripEntr_esc (m := 0) (U := K) hv hb hbK (p := p) (by simpa using hp)
      have hq : escE K v b = ENNReal.ofReal (1 - p) := by
        have := entrDens_pos hv hb
        rw [escE, he, mul_comm, ENNReal.mul_div_cancel_right this.1 this.2]
      refine ⟨ENNReal.ofReal p, ?_, fun g => ?_⟩
      · rw [hq, ht, ← ENNReal.ofReal_add (by linarith) hp0, sub_add_cancel, ENNReal.ofReal_one]
      · rw [besEsc_law hv le_rfl hb hK hbK hp, hq, add_comm]; rfl
    · have hq : escE K v b = 0 := by rw [escE, stripEntr_high (not_lt.1 hbK), ENNReal.zero_div]
      exact ⟨1, by rw [hq, ht, zero_add], fun g => by rw [besEsc_over hv le_rfl hb ((not_lt.1 hbK).trans (le_max_right _ _)), hq, zero_mul, zero_add, one_mul]; rfl⟩
  · have ht : okE v b = 0 := if_neg hb
    have hq : escE K v b = 0 := by rw [escE, stripEntr_low (not_lt.1 hb), ENNReal.zero_div]
    exact ⟨0, by rw [hq, ht, zero_add], fun g => by rw [besEsc_bad (not_lt.1 hb), hq]; simp⟩

theorem gap_K (hv : 0 < v) (ha : 0 < a) (b K : ℝ) : ∃ r, escK K v a b + r = okK v a b ∧ ∀ g : Bool → ℝ≥0∞, (besEsc v a b K none none).lexp (onOk g) = escK K v a b * g false + r * g true := by
  by_cases hb : 0 < b
  · have ht : okK v a b = 1 := if_pos ⟨ha, hb⟩
    by_cases hbK : a < K ∧ b < K
    · obtain ⟨p, hp0, hp1, hp⟩ := C43_series hv ha.le hb hbK.1 hbK.2
      have he := stripDens_esc (m := 0) (U := K) hv ha hbK.1 hb hbK.2 (p := p) (by simpa using hp)
      have hq : escK K v a b = ENNReal.ofReal (1 - p) := by
        have := killDens_pos hv (lt_min ha hb)
        rw [escK, he, mul_comm, ENNReal.mul_div_cancel_right this.1 this.2]
      refine ⟨ENNReal.ofReal p, ?_, fun g => ?_⟩
      · rw [hq, ht, ← ENNReal.ofReal_add (by linarith) hp0, sub_add_cancel, ENNReal.ofReal_one]
      · rw [besEsc_law hv ha.le hb hbK.1 hbK.2 hp, hq, add_comm]; rfl
    · have hq : escK K v a b = 0 := by rw [escK, stripDens, if_neg fun h => hbK ⟨h.2.1, h.2.2.2⟩, ENNReal.zero_div]
      have hm : K ≤ max a b := by
        by_contra h
        exact hbK (max_lt_iff.1 (not_le.1 h))
      exact ⟨1, by rw [hq, ht, zero_add], fun g => by rw [besEsc_over hv ha.le hb hm, hq, zero_mul, zero_add, one_mul]; rfl⟩
  · have ht : okK v a b = 0 := if_neg fun h => hb h.2
    have hq : escK K v a b = 0 := by rw [escK, stripDens, if_neg fun h => hb h.2.2.1, ENNReal.zero_div]
    exact ⟨0, by rw [hq, ht, zero_add], fun g => by rw [besEsc_bad (not_lt.1 hb), hq]; simp⟩

end Ctb
