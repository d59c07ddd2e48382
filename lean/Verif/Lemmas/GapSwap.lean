import Verif.Lemmas.SecOp

set_option linter.unusedSectionVars false

/-! # Exchanging integrals over the values in different gaps -/

namespace Ctb

open Classical MeasureTheory Set
open scoped ENNReal

variable {U m : ℝ} {newT : List ℝ}

/-- Functionals of functions of `M` values that may be exchanged with integrals. -/
structure Swap (M : ℕ) (Ψ : (List ℝ → ℝ≥0∞) → ℝ≥0∞) : Prop where
  meas : ∀ {X : Type} [MeasurableSpace X] {F : X → List ℝ → ℝ≥0∞}, MeasL M F → Measurable fun p => Ψ (F p)
  mul : ∀ (c : ℝ≥0∞) {F : List ℝ → ℝ≥0∞}, MeasL M (fun _ : Unit => F) → Ψ (fun l => c * F l) = c * Ψ F
  int : ∀ {F : ℝ → List ℝ → ℝ≥0∞}, MeasL M F → ∫⁻ z, Ψ (F z) = Ψ fun l => ∫⁻ z, F z l
  congr : ∀ {F G : List ℝ → ℝ≥0∞}, (∀ l, l.length = M → F l = G l) → Ψ F = Ψ G

theorem swap_kerInt {K : ℝ → ℝ → ℝ → ℝ≥0∞} (hK : MeasK fun _ : Unit => K) (vs : List ℝ) (x y : ℝ) : Swap (vs.length - 1) (kerInt K y vs x) where
  meas hF := kerInt_measurable' y vs hK hF measurable_const
  mul c F hF := kerInt_const_mul hK y c vs x hF
  int hF := kerInt_lintegral hK y vs x hF
  congr h := kerInt_congr y vs x h

theorem swap_lim (U m : ℝ) (newT : List ℝ) (s t x y : ℝ) : Swap (between newT s t).length (limOp U m newT s t x y) := by
  have h := swap_kerInt (measK_edge U m) (stepsIn newT s t) x y
  rw [stepsIn_length] at h
  unfold limOp
  by_cases hg : s < t ∧ Good U m x y
  · simp only [if_pos hg]
    refine ⟨fun hF => (h.meas hF).div_const _, fun c F hF => by rw [h.mul c hF, mul_div_assoc], fun hF => ?_, fun e => by rw [h.congr e]⟩
    simp only [ENNReal.div_eq_inv_mul]
    rw [lintegral_const_mul _ (h.meas hF), h.int hF]
  · simp only [if_neg hg]
    exact ⟨fun _ => measurable_const, by simp, by simp, fun _ => rfl⟩

/-- Gap operators that are integrals. -/
def SwapOp (N : ℝ → ℝ → ℕ) (O : GapOp) : Prop := GapLin N O ∧ ∀ s t x y, Swap (N s t) (O s t x y)

theorem swapOp_lim (U m : ℝ) (hN : newT.Pairwise (· < ·)) : SwapOp (fun s t => (between newT s t).length) (limOp U m newT) :=
  ⟨(gapLim_sec U m hN).lim, swap_lim U m newT⟩

variable {N : ℝ → ℝ → ℕ} {O : GapOp} {M : ℕ} {Ψ : (List ℝ → ℝ≥0∞) → ℝ≥0∞}

theorem ofFn_get {N : ℕ} {zs : List ℝ} (hz : zs.length = N) : zs = List.ofFn fun i : Fin N => zs[i]'(by omega) :=
  List.ext_getElem (by simpa using hz) fun i h1 h2 => by simp

theorem MeasL.at_list {X : Type} [MeasurableSpace X] {n k : ℕ} {F : X → List ℝ → ℝ≥0∞} (h : MeasL (n + (k + 1)) F) (y : ℝ) {zs : List ℝ} (hz : zs.length = n) :
    MeasL k fun (p : X) ws => F p (zs ++ y :: ws) := by
  have := (MeasL.split h).comp (φ := fun p : X => ((p, y), fun i : Fin n => zs[i]'(by omega))) (by fun_prop)
  simp only at this
  rwa [← ofFn_get hz] at this

theorem swap_fold (h : SwapOp N O) : ∀ (l : List (ℝ × ℝ)) (s x : ℝ), Swap (foldLen N s (l.map Prod.fst)) (foldOp O s x l)
  | [], _, _ => ⟨fun hF => MeasL.zero_apply hF, fun _ _ _ => rfl, fun _ => rfl, fun e => e [] rfl⟩
  | (t, y) :: l, s, x => by
    have ih := swap_fold h l t y
    have ho := h.2 s t x y
    have hin : ∀ {X : Type} [MeasurableSpace X] {F : X → List ℝ → ℝ≥0∞}, MeasL (foldLen N s (((t, y) :: l).map Prod.fst)) F →
        MeasL (N s t) fun p zs => foldOp O t y l fun ws => F p (zs ++ y :: ws) := by
      intro X _ F hF
      refine foldOp_measurable' h.1 l t y (X := X × (Fin (N s t) → ℝ)) (F := fun p ws => F p.1 (List.ofFn p.2 ++ y :: ws)) ?_
      exact (MeasL.split hF).comp (φ := fun p : X × (Fin (N s t) → ℝ) => ((p.1, y), p.2)) (by fun_prop)
    refine ⟨fun hF => ho.meas (hin hF), fun c F hF => ?_, fun hF => ?_, fun e => ?_⟩
    · simp only [foldOp]
      rw [← ho.mul c (hin hF)]
      exact ho.congr fun zs hz => ih.mul c (MeasL.at_list hF y hz)
    · simp only [foldOp]
      rw [ho.int (hin hF)]
      exact ho.congr fun zs hz => ih.int (MeasL.at_list hF y hz)
    · exact ho.congr fun zs hz => ih.congr fun ws hw => e _ (by simp [foldLen, hz, hw])

theorem MeasL.sections {n M : ℕ} {H : List ℝ → List ℝ → ℝ≥0∞} (hH : MeasL n fun (u : Fin M → ℝ) l => H l (List.ofFn u)) {l : List ℝ} (hl : l.length = n) :
    MeasL M fun _ : Unit => H l := by
  have : Measurable fun p : Unit × (Fin M → ℝ) => (p.2, fun i : Fin n => l[i]'(by omega)) := by fun_prop
  have h2 := Measurable.comp hH this
  unfold MeasL
  refine (funext fun p => ?_ : (fun p : Unit × (Fin M → ℝ) => H l (List.ofFn p.2)) = _) ▸ h2
  simp only [Function.comp]
  rw [← ofFn_get hl]

theorem kerInt_swap (h : Swap M Ψ) {K : ℝ → ℝ → ℝ → ℝ≥0∞} (hK : MeasK fun _ : Unit => K) (x1 : ℝ) : ∀ (vs : List ℝ), vs ≠ [] → ∀ (x : ℝ) {H : List ℝ → List ℝ → ℝ≥0∞},
    MeasL (vs.length - 1) (fun (u : Fin M → ℝ) l => H l (List.ofFn u)) → kerInt K x1 vs x (fun l => Ψ (H l)) = Ψ fun us => kerInt K x1 vs x fun l => H l us
  | [], h0, _, _, _ => absurd rfl h0
  | [v], _, x, H, hH => by
    simp only [kerInt]
    exact (h.mul _ (MeasL.sections hH rfl)).symm
  | v :: w :: vs, _, x, H, hH => by
    simp only [kerInt]
    have hc : MeasL ((w :: vs).length - 1) fun (p : (Fin M → ℝ) × ℝ) l => H (p.2 :: l) (List.ofFn p.1) := MeasL.cons hH
    have hy : ∀ y, MeasL ((w :: vs).length - 1) fun (u : Fin M → ℝ) l => H (y :: l) (List.ofFn u) := fun y =>
      hc.comp (φ := fun u : Fin M → ℝ => (u, y)) (by fun_prop)
    have hk : ∀ y, MeasL M fun (_ : Unit) us => kerInt K x1 (w :: vs) y fun l => H (y :: l) us := by
      intro y
      exact kerInt_measurable' x1 (w :: vs) (X := Unit × (Fin M → ℝ)) (F := fun p l => H (y :: l) (List.ofFn p.2)) (x := fun _ => y) hK ((hy y).comp measurable_snd) measurable_const
    have hj : MeasL M fun (y : ℝ) us => K v x y * kerInt K x1 (w :: vs) y fun l => H (y :: l) us := by
      refine (hK.apply v (Y := ℝ × (Fin M → ℝ)) (p := fun _ => ()) measurable_const measurable_const measurable_fst).mul ?_
      exact kerInt_measurable' x1 (w :: vs) (X := ℝ × (Fin M → ℝ)) (F := fun p l => H (p.1 :: l) (List.ofFn p.2)) (x := Prod.fst) hK
        (hc.comp (φ := fun p : ℝ × (Fin M → ℝ) => (p.2, p.1)) (by fun_prop)) measurable_fst
    rw [← h.int hj]
    refine lintegral_congr fun y => ?_
    rw [kerInt_swap h hK x1 (w :: vs) (by simp) y (hy y), h.mul _ (hk y)]

theorem lim_swap (h : Swap M Ψ) (s t x y : ℝ) {H : List ℝ → List ℝ → ℝ≥0∞} (hH : MeasL (between newT s t).length fun (u : Fin M → ℝ) l => H l (List.ofFn u)) :
    limOp U m newT s t x y (fun l => Ψ (H l)) = Ψ fun us => limOp U m newT s t x y fun l => H l us := by
  have hH' := hH
  rw [← stepsIn_length] at hH'
  unfold limOp
  by_cases hg : s < t ∧ Good U m x y
  · simp only [if_pos hg]
    rw [kerInt_swap h (measK_edge U m) y _ (stepsIn_ne s t) x hH']
    simp only [ENNReal.div_eq_inv_mul]
    refine (h.mul _ ?_).symm
    exact kerInt_measurable' y _ (X := Unit × (Fin M → ℝ)) (F := fun p l => H l (List.ofFn p.2)) (x := fun _ => x) (measK_edge U m) (hH'.comp measurable_snd) measurable_const
  · simp only [if_neg hg]
    have := h.mul 0 (F := fun _ => 0) measurable_const
    simpa using this.symm

theorem fold_swap (h : Swap M Ψ) (hN : newT.Pairwise (· < ·)) : ∀ (l : List (ℝ × ℝ)) (s x : ℝ) {H : List ℝ → List ℝ → ℝ≥0∞},
    MeasL (foldLen (fun s t => (between newT s t).length) s (l.map Prod.fst)) (fun (u : Fin M → ℝ) l => H l (List.ofFn u)) →
    foldOp (limOp U m newT) s x l (fun ws => Ψ (H ws)) = Ψ fun us => foldOp (limOp U m newT) s x l fun ws => H ws us
  | [], _, _, H, _ => rfl
  | (t, y) :: l, s, x, H, hH => by
    simp only [foldOp]
    have hs := MeasL.split hH
    rw [← lim_swap (newT := newT) (U := U) (m := m) h s t x y (H := fun zs us => foldOp (limOp U m newT) t y l fun ws => H (zs ++ y :: ws) us)]
    · refine (swap_lim U m newT s t x y).congr fun zs hz => ?_
      exact fold_swap h hN l t y (H := fun ws => H (zs ++ y :: ws)) (MeasL.at_list hH y hz)
    · refine foldOp_measurable' (swapOp_lim U m hN).1 l t y (X := (Fin M → ℝ) × (Fin _ → ℝ)) (F := fun p ws => H (List.ofFn p.2 ++ y :: ws) (List.ofFn p.1)) ?_
      exact hs.comp (φ := fun p : (Fin M → ℝ) × (Fin (between newT s t).length → ℝ) => ((p.1, y), p.2)) (by fun_prop)

theorem foldOp_append (O : GapOp) (t y : ℝ) (Q : List (ℝ × ℝ)) : ∀ (P : List (ℝ × ℝ)) (s x : ℝ) (F : List ℝ → ℝ≥0∞),
    foldOp O s x (P ++ (t, y) :: Q) F = foldOp O s x (P ++ [(t, y)]) fun us => foldOp O t y Q fun vs => F (us ++ vs)
  | [], s, x, F => by simp [foldOp]
  | (r, z) :: P, s, x, F => by
    simp only [List.cons_append, foldOp]
    congr 1
    funext zs
    rw [foldOp_append O t y Q P r z]
    simp

/-- A path is cut at one of its times. -/
theorem kerInt_join {K : ℝ → ℝ → ℝ → ℝ≥0∞} (hK : MeasK fun _ : Unit => K) (a : ℝ) {vs : List ℝ} (hv : vs ≠ []) : ∀ (ws : List ℝ), ws ≠ [] → ∀ (x : ℝ) {G : List ℝ → ℝ≥0∞},
    MeasL (ws.length - 1 + (vs.length - 1 + 1)) (fun _ : Unit => G) →
    ∫⁻ z, kerInt K z ws x (fun us => kerInt K a vs z fun l => G (us ++ z :: l)) = kerInt K a (ws ++ vs) x G
  | [], h, _, _, _ => absurd rfl h
  | [u], _, x, G, _ => by
    obtain ⟨v, vs, rfl⟩ := List.exists_cons_of_ne_nil hv
    simp [kerInt]
  | u :: w :: ws, _, x, G, hG => by
    have hG' : MeasL ((w :: ws).length - 1 + (vs.length - 1 + 1)) fun (y : ℝ) l => G (y :: l) := by
      have : (u :: w :: ws).length - 1 + (vs.length - 1 + 1) = (w :: ws).length - 1 + (vs.length - 1 + 1) + 1 := by simp; omega
      rw [this] at hG
      exact (MeasL.cons hG).comp (φ := fun y : ℝ => ((), y)) (by fun_prop)
    simp only [List.cons_append, kerInt]
    have hm : Measurable fun p : ℝ × ℝ => K u x p.2 * kerInt K p.1 (w :: ws) p.2 fun us => kerInt K a vs p.1 fun l => G (p.2 :: (us ++ p.1 :: l)) := by
      refine (hK.apply u (Y := ℝ × ℝ) (p := fun _ => ()) measurable_const measurable_const measurable_snd).mul ?_
      refine kerInt_measurable_end (w :: ws) (k := fun _ => K) (F := fun (p : ℝ × ℝ) us => kerInt K a vs p.1 fun l => G (p.2 :: (us ++ p.1 :: l))) (hK.comp (φ := fun _ : ℝ × ℝ => ()) measurable_const) ?_
        measurable_snd measurable_fst
      refine kerInt_measurable' a vs (X := (ℝ × ℝ) × (Fin ((w :: ws).length - 1) → ℝ)) (F := fun p l => G (p.1.2 :: (List.ofFn p.2 ++ p.1.1 :: l))) (x := fun p => p.1.1) hK ?_ (by fun_prop)
      exact (MeasL.split hG').comp (φ := fun p : (ℝ × ℝ) × (Fin ((w :: ws).length - 1) → ℝ) => ((p.1.2, p.1.1), p.2)) (by fun_prop)
    rw [lintegral_lintegral_swap hm.aemeasurable]
    refine lintegral_congr fun y => ?_
    have hm' : Measurable fun z : ℝ => kerInt K z (w :: ws) y fun us => kerInt K a vs z fun l => G (y :: (us ++ z :: l)) := by
      refine kerInt_measurable_end (w :: ws) (k := fun _ => K) (F := fun (z : ℝ) us => kerInt K a vs z fun l => G (y :: (us ++ z :: l))) (hK.comp (φ := fun _ : ℝ => ()) measurable_const) ?_
        measurable_const measurable_id
      refine kerInt_measurable' a vs (X := ℝ × (Fin ((w :: ws).length - 1) → ℝ)) (F := fun p l => G (y :: (List.ofFn p.2 ++ p.1 :: l))) (x := fun p => p.1) hK ?_ (by fun_prop)
      exact (MeasL.split hG').comp (φ := fun p : ℝ × (Fin ((w :: ws).length - 1) → ℝ) => ((y, p.1), p.2)) (by fun_prop)
    rw [lintegral_const_mul _ hm', ← List.cons_append, ← kerInt_join hK a hv (w :: ws) (by simp) y (G := fun l => G (y :: l)) (hG'.const y)]

end Ctb
