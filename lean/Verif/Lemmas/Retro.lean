import Verif.Lemmas.GapSwap
import Verif.Lemmas.SkelFill
import Verif.Lemmas.BesselPath

set_option linter.unusedSectionVars false

/-! # Filling in a path in two rounds -/

namespace Ctb

open Classical MeasureTheory Set
open scoped ENNReal

variable {U m : ℝ} {A B C newT : List ℝ}

/-- The times of `weave`. -/
noncomputable def weaveT (newT : List ℝ) : ℝ → List ℝ → List ℝ
  | _, [] => []
  | s, t :: l => between newT s t ++ t :: weaveT newT t l

theorem weave_times : ∀ (l : List (ℝ × Option ℝ)) (s : ℝ), (weave newT s l).map Prod.fst = weaveT newT s (l.map Prod.fst)
  | [], _ => rfl
  | q :: l, s => by
    simp only [weave, weaveT, List.map_append, List.map_cons, List.map_map, weave_times l]
    congr 1
    exact List.map_id'' (fun _ => rfl) _

theorem weaveT_length : ∀ (ts : List ℝ) (s : ℝ), foldLen (fun s t => (between newT s t).length) s ts = (weaveT newT s ts).length
  | [], _ => rfl
  | t :: ts, s => by simp [foldLen, weaveT, weaveT_length ts]

theorem weaveT_mem {r : ℝ} : ∀ {ts : List ℝ} {s : ℝ}, (s :: ts).Pairwise (· < ·) → (r ∈ weaveT newT s ts ↔ r ∈ ts ∨ (r ∈ newT ∧ s < r ∧ ∃ t ∈ ts, r < t))
  | [], s, _ => by simp [weaveT]
  | t :: ts, s, h => by
    rw [List.pairwise_cons] at h
    have ht := (List.pairwise_cons.1 h.2).1
    rw [weaveT, List.mem_append, List.mem_cons, weaveT_mem h.2, List.mem_cons]
    constructor
    · rintro (h1 | h1 | h1 | ⟨h1, h2, q, h3, h4⟩)
      · obtain ⟨a, b, c⟩ := between_mem h1
        exact Or.inr ⟨a, b, t, List.mem_cons_self, c⟩
      · exact Or.inl (Or.inl h1)
      · exact Or.inl (Or.inr h1)
      · exact Or.inr ⟨h1, (h.1 t List.mem_cons_self).trans h2, q, List.mem_cons_of_mem _ h3, h4⟩
    · rintro ((h1 | h1) | ⟨h1, h2, q, h3, h4⟩)
      · exact Or.inr (Or.inl h1)
      · exact Or.inr (Or.inr (Or.inl h1))
      · rcases lt_trichotomy r t with h5 | h5 | h5
        · exact Or.inl (by simp [between, h1, h2, h5])
        · exact Or.inr (Or.inl h5)
        · rcases List.mem_cons.1 h3 with rfl | h3
          · linarith
          · exact Or.inr (Or.inr (Or.inr ⟨h1, h5, q, h3, h4⟩))

theorem weaveT_sorted (hN : newT.Pairwise (· < ·)) : ∀ {ts : List ℝ} {s : ℝ}, (s :: ts).Pairwise (· < ·) → (s :: weaveT newT s ts).Pairwise (· < ·)
  | [], s, _ => by simp [weaveT]
  | t :: ts, s, h => by
    rw [List.pairwise_cons] at h
    have hst := h.1 t List.mem_cons_self
    have ih := weaveT_sorted hN h.2
    have hb := between_sorted hN hst
    rw [weaveT, ← List.cons_append, List.pairwise_append]
    rw [← List.cons_append, List.pairwise_append] at hb
    refine ⟨hb.1, ih, fun a ha b hb' => ?_⟩
    have hat : a < t := hb.2.2 a ha t (by simp)
    rcases List.mem_cons.1 hb' with rfl | hb'
    · exact hat
    · exact hat.trans ((List.pairwise_cons.1 ih).1 b hb')

theorem weaveT_between (hA : A.Pairwise (· < ·)) (hB : B.Pairwise (· < ·)) (hC : C.Pairwise (· < ·)) (h : ∀ r, r ∈ C ↔ r ∈ A ∨ r ∈ B) {s t : ℝ} (hst : s < t) :
    weaveT B s (between A s t ++ [t]) = between C s t ++ [t] := by
  have hs := between_sorted hA hst
  refine sorted_ext (List.pairwise_cons.1 (weaveT_sorted hB hs)).2 (List.pairwise_cons.1 (between_sorted hC hst)).2 fun r => ?_
  rw [weaveT_mem hs]
  simp only [between, List.mem_append, List.mem_filter, List.mem_singleton, decide_eq_true_eq, h]
  constructor
  · rintro ((⟨h1, h2⟩ | h1) | ⟨h1, h2, q, h3 | rfl, h4⟩)
    · exact Or.inl ⟨Or.inl h1, h2⟩
    · exact Or.inr h1
    · exact Or.inl ⟨Or.inr h1, h2, h4.trans h3.2.2⟩
    · exact Or.inl ⟨Or.inr h1, h2, h4⟩
  · rintro (⟨h1 | h1, h2⟩ | h1)
    · exact Or.inl (Or.inl ⟨h1, h2⟩)
    · exact Or.inr ⟨h1, h2.1, t, Or.inr rfl, h2.2⟩
    · exact Or.inl (Or.inr h1)

theorem weaveT_weaveT (hA : A.Pairwise (· < ·)) (hB : B.Pairwise (· < ·)) (hC : C.Pairwise (· < ·)) (h : ∀ r, r ∈ C ↔ r ∈ A ∨ r ∈ B) {s : ℝ} {ts : List ℝ}
    (hs : (s :: ts).Pairwise (· < ·)) : weaveT B s (weaveT A s ts) = weaveT C s ts := by
  have h1 := weaveT_sorted hA hs
  refine sorted_ext (List.pairwise_cons.1 (weaveT_sorted hB h1)).2 (List.pairwise_cons.1 (weaveT_sorted hC hs)).2 fun r => ?_
  rw [weaveT_mem h1, weaveT_mem hs, weaveT_mem hs, h]
  constructor
  · rintro ((h2 | ⟨h2, h3⟩) | ⟨h2, h3, q, h4, h5⟩)
    · exact Or.inl h2
    · exact Or.inr ⟨Or.inl h2, h3⟩
    · rw [weaveT_mem hs] at h4
      rcases h4 with h4 | ⟨-, -, q', h4, h6⟩
      · exact Or.inr ⟨Or.inr h2, h3, q, h4, h5⟩
      · exact Or.inr ⟨Or.inr h2, h3, q', h4, h5.trans h6⟩
  · rintro (h2 | ⟨h2 | h2, h3, q, h4, h5⟩)
    · exact Or.inl (Or.inl h2)
    · exact Or.inl (Or.inr ⟨h2, h3, q, h4, h5⟩)
    · exact Or.inr ⟨h2, h3, q, (weaveT_mem hs).2 (Or.inl h4), h5⟩

/-- Neighbouring values are in the strip and not both at its lower edge. -/
def GoodChain (U m : ℝ) : ℝ → List (ℝ × ℝ) → Prop
  | _, [] => True
  | x, (_, y) :: l => Good U m x y ∧ GoodChain U m y l

/-- Number of new times in a gap. -/
noncomputable abbrev newN (newT : List ℝ) : ℝ → ℝ → ℕ := fun s t => (between newT s t).length

theorem durs_cons_append (r : ℝ) (l l' : List ℝ) (s : ℝ) : durs s (l ++ r :: l') = durs s (l ++ [r]) ++ durs r l' := by
  rw [show l ++ r :: l' = (l ++ [r]) ++ l' by simp, durs_append]
  simp

theorem cells (hU : m < U) (hB : B.Pairwise (· < ·)) {t y : ℝ} (hy : m ≤ y ∧ y < U) : ∀ (ts : List ℝ) (s x : ℝ), (s :: (ts ++ [t])).Pairwise (· < ·) → (m ≤ x ∧ x < U) →
    (ts = [] → m < x ∨ m < y) → ∀ {F : List ℝ → ℝ≥0∞}, MeasL (foldLen (newN B) s (ts ++ [t])) (fun _ : Unit => F) →
    kerInt (edgeKer U m) y (durs s (ts ++ [t])) x (fun zs => foldOp (limOp U m B) s x ((ts ++ [t]).zip (zs ++ [y])) F) =
      kerInt (edgeKer U m) y (durs s (weaveT B s (ts ++ [t]))) x fun us => F (us ++ [y])
  | [], s, x, hs, hx, hg, F, hF => by
    have hst : s < t := by simpa using hs
    have hG : Good U m x y := ⟨hx, hy, hg rfl⟩
    obtain ⟨h1, h2⟩ := edgeKer_pos (sub_pos.2 hst) hG
    simp only [List.nil_append, durs, kerInt, List.zip_cons_cons, List.zip_nil_left, foldOp, weaveT]
    rw [limOp, if_pos ⟨hst, hG⟩, ENNReal.mul_div_cancel h1 h2, stepsIn]
  | r :: ts, s, x, hs, hx, hg, F, hF => by
    have hs' := hs
    rw [List.cons_append, List.pairwise_cons] at hs
    have hsr : s < r := hs.1 r List.mem_cons_self
    set D := durs r (ts ++ [t]) with hD
    set W := weaveT B r (ts ++ [t]) with hW
    have hDl : D.length - 1 = ts.length := by simp [hD, durs_length]
    have hWl : (durs r W).length = foldLen (newN B) r (ts ++ [t]) := by rw [durs_length, hW, weaveT_length]
    have hWne : durs r W ≠ [] := by
      rw [← List.length_pos_iff, hWl]
      cases ts <;> simp [foldLen]
    have hlen : (stepsIn B s r).length - 1 = newN B s r := stepsIn_length s r
    have hlen2 : (durs r W).length - 1 + 1 = foldLen (newN B) r (ts ++ [t]) := by
      have := List.length_pos_iff.2 hWne
      omega
    have hFc : MeasL (newN B s r + (foldLen (newN B) r (ts ++ [t]) + 1)) fun _ : Unit => F := hF
    have hDne : ∃ w ws, D = w :: ws := by
      refine List.exists_cons_of_ne_nil ?_
      rw [← List.length_pos_iff, hD, durs_length]
      simp
    obtain ⟨w, ws, hDw⟩ := hDne
    have hL : kerInt (edgeKer U m) y (durs s (r :: ts ++ [t])) x (fun zs => foldOp (limOp U m B) s x ((r :: ts ++ [t]).zip (zs ++ [y])) F) =
        ∫⁻ z, edgeKer U m (r - s) x z * kerInt (edgeKer U m) y D z fun zs => limOp U m B s r x z fun us =>
          foldOp (limOp U m B) r z ((ts ++ [t]).zip (zs ++ [y])) fun ws => F (us ++ z :: ws) := by
      rw [List.cons_append, durs, ← hD, hDw]
      rfl
    have hR : kerInt (edgeKer U m) y (durs s (weaveT B s (r :: ts ++ [t]))) x (fun us => F (us ++ [y])) =
        ∫⁻ z, kerInt (edgeKer U m) z (stepsIn B s r) x fun us => kerInt (edgeKer U m) y (durs r W) z fun l => F (us ++ z :: (l ++ [y])) := by
      rw [List.cons_append, weaveT, durs_cons_append, ← hW, ← stepsIn, ← kerInt_join (measK_edge U m) y hWne _ (stepsIn_ne s r) x]
      · simp
      · rw [hlen, hlen2]
        have h1 : MeasL (newN B s r + foldLen (newN B) r (ts ++ [t]) + 1) fun _ : Unit => F := by rwa [add_assoc]
        exact (MeasL.snocP h1).comp (φ := fun _ : Unit => ((), y)) measurable_const
    rw [hL, hR]
    refine lintegral_congr_ae ?_
    filter_upwards [measure_eq_zero_iff_ae_notMem.1 (measure_singleton m)] with z hz
    have hz : z ≠ m := by simpa using hz
    by_cases hzi : m < z ∧ z < U
    · have hG : Good U m x z := ⟨hx, ⟨hzi.1.le, hzi.2⟩, Or.inr hzi.1⟩
      obtain ⟨h1, h2⟩ := edgeKer_pos (sub_pos.2 hsr) hG
      have hz' : MeasL (foldLen (newN B) r (ts ++ [t])) fun (p : Fin (newN B s r) → ℝ) ws => F (List.ofFn p ++ z :: ws) :=
        (MeasL.split hFc).comp (φ := fun p : Fin (newN B s r) → ℝ => (((), z), p)) (by fun_prop)
      have hm1 : MeasL (D.length - 1) fun (u : Fin (between B s r).length → ℝ) zs =>
          foldOp (limOp U m B) r z ((ts ++ [t]).zip (zs ++ [y])) fun ws => F (List.ofFn u ++ z :: ws) := by
        rw [hDl]
        have h3 := foldOp_measurable (gapLim_sec U m hB).lim (ts ++ [t]) r (x := fun _ => z) hz' measurable_const
        have h4 : MeasL (ts.length + 1) fun (p : Fin (newN B s r) → ℝ) ys => foldOp (limOp U m B) r z ((ts ++ [t]).zip ys) fun ws => F (List.ofFn p ++ z :: ws) := by
          simpa using h3
        exact (MeasL.snocP h4).comp (φ := fun p : Fin (newN B s r) → ℝ => (p, y)) (by fun_prop)
      rw [kerInt_swap (swap_lim U m B s r x z) (measK_edge U m) y D (by rw [hDw]; simp) z
        (H := fun zs us => foldOp (limOp U m B) r z ((ts ++ [t]).zip (zs ++ [y])) fun ws => F (us ++ z :: ws)) hm1]
      rw [(swap_lim U m B s r x z).congr (G := fun us => kerInt (edgeKer U m) y (durs r W) z fun l => F (us ++ z :: (l ++ [y])))]
      · rw [limOp, if_pos ⟨hsr, hG⟩, ENNReal.mul_div_cancel h1 h2]
      · intro us hus
        rw [hD, hW]
        exact cells hU hB hy ts r z hs.2 ⟨hzi.1.le, hzi.2⟩ (fun _ => Or.inl hzi.1) (F := fun l => F (us ++ z :: l)) (MeasL.at_list hFc z hus)
    · have ho : z < m ∨ U ≤ z := by
        by_contra hc
        push Not at hc
        exact hzi ⟨lt_of_le_of_ne hc.1 (Ne.symm hz), hc.2⟩
      rw [edgeKer_out hU ho, zero_mul, kerInt_end_zero fun v x => edgeKer_out hU ho]

theorem GoodChain.head {x : ℝ} {q : ℝ × ℝ} {l : List (ℝ × ℝ)} (h : GoodChain U m x (q :: l)) : Good U m x q.2 ∧ GoodChain U m q.2 l := h

theorem two_rounds (hA : A.Pairwise (· < ·)) (hB : B.Pairwise (· < ·)) (hC : C.Pairwise (· < ·)) (h : ∀ r, r ∈ C ↔ r ∈ A ∨ r ∈ B) :
    ∀ (l : List (ℝ × ℝ)) (s x : ℝ), (s :: l.map Prod.fst).Pairwise (· < ·) → GoodChain U m x l → ∀ {F : List ℝ → ℝ≥0∞},
    MeasL (foldLen (newN C) s (l.map Prod.fst)) (fun _ : Unit => F) →
    foldOp (limOp U m A) s x l (fun ws => foldOp (limOp U m B) s x ((weaveT A s (l.map Prod.fst)).zip ws) F) = foldOp (limOp U m C) s x l F
  | [], _, _, _, _, F, _ => rfl
  | (t, y) :: l, s, x, hs, hg, F, hF => by
    have hs0 := hs
    rw [List.map_cons, List.pairwise_cons] at hs
    have hst : s < t := hs.1 t List.mem_cons_self
    obtain ⟨hG, hg'⟩ := hg
    have hU : m < U := hG.1.1.trans_lt hG.1.2
    set ts := l.map Prod.fst with hts
    set P := between A s t with hP
    have hbw := weaveT_between hA hB hC h hst
    have hww := weaveT_weaveT hA hB hC h hs.2
    -- lengths
    have hl1 : foldLen (newN B) s (P ++ [t]) = newN C s t + 1 := by
      rw [weaveT_length, hP, hbw]
      simp
    have hl2 : foldLen (newN B) t (weaveT A t ts) = foldLen (newN C) t ts := by rw [weaveT_length, weaveT_length, hww]
    have hF1 : MeasL (newN C s t + (foldLen (newN C) t ts + 1)) fun _ : Unit => F := hF
    have hF2 : MeasL (foldLen (newN C) t ts) fun (p : Fin (newN C s t + 1) → ℝ) ws => F (List.ofFn p ++ ws) := by
      have : MeasL (newN C s t + 1 + foldLen (newN C) t ts) fun _ : Unit => F := by
        rwa [show newN C s t + 1 + foldLen (newN C) t ts = newN C s t + (foldLen (newN C) t ts + 1) by omega]
      exact (MeasL.append this).comp (φ := fun p : Fin (newN C s t + 1) → ℝ => ((), p)) (by fun_prop)
    simp only [foldOp]
    have e1 : ∀ zs : List ℝ, zs.length = P.length → (foldOp (limOp U m A) t y l fun ws => foldOp (limOp U m B) s x ((weaveT A s (((t, y) :: l).map Prod.fst)).zip (zs ++ y :: ws)) F) =
        foldOp (limOp U m B) s x ((P ++ [t]).zip (zs ++ [y])) fun us => foldOp (limOp U m C) t y l fun ws => F (us ++ ws) := by
      intro zs hz
      have hzip : ∀ ws : List ℝ, (weaveT A s (((t, y) :: l).map Prod.fst)).zip (zs ++ y :: ws) = P.zip zs ++ (t, y) :: (weaveT A t ts).zip ws := by
        intro ws
        rw [List.map_cons, weaveT, List.zip_append hz.symm, List.zip_cons_cons]
      have hzip2 : (P ++ [t]).zip (zs ++ [y]) = P.zip zs ++ [(t, y)] := by
        rw [List.zip_append hz.symm]
        rfl
      have hfst : (P.zip zs ++ [(t, y)]).map Prod.fst = P ++ [t] := by
        rw [List.map_append, List.map_fst_zip hz.symm.le]
        rfl
      have hsw := swap_fold (swapOp_lim U m hB) (P.zip zs ++ [(t, y)]) s x
      rw [hfst, hl1] at hsw
      rw [hzip2]
      have happ : ∀ ws : List ℝ, foldOp (limOp U m B) s x ((weaveT A s (((t, y) :: l).map Prod.fst)).zip (zs ++ y :: ws)) F =
          foldOp (limOp U m B) s x (P.zip zs ++ [(t, y)]) fun us => foldOp (limOp U m B) t y ((weaveT A t ts).zip ws) fun vs => F (us ++ vs) := by
        intro ws
        rw [hzip, foldOp_append]
      simp only [happ]
      rw [fold_swap hsw hA l t y (H := fun ws us => foldOp (limOp U m B) t y ((weaveT A t ts).zip ws) fun vs => F (us ++ vs))]
      · refine hsw.congr fun us hus => ?_
        refine two_rounds hA hB hC h l t y hs.2 hg' (F := fun l => F (us ++ l)) ?_
        have := hF2.comp (φ := fun _ : Unit => fun i : Fin (newN C s t + 1) => us[i]'(by omega)) measurable_const
        rwa [← ofFn_get hus] at this
      · rw [weaveT_length]
        refine foldOp_measurable (gapLim_sec U m hB).lim (weaveT A t ts) t (X := Fin (newN C s t + 1) → ℝ) (F := fun p vs => F (List.ofFn p ++ vs)) (x := fun _ => y) ?_ measurable_const
        rw [hl2]
        exact hF2
    rw [(swap_lim U m A s t x y).congr e1]
    have hcell := cells hU hB hG.2.1 P s x (between_sorted hA hst) hG.1 (fun _ => hG.2.2) (F := fun us => foldOp (limOp U m C) t y l fun ws => F (us ++ ws)) (by
      rw [hl1]
      exact foldOp_measurable' (gapLim_sec U m hC).lim l t y (X := Unit × (Fin (newN C s t + 1) → ℝ)) (F := fun p ws => F (List.ofFn p.2 ++ ws)) (hF2.comp measurable_snd))
    rw [hP, hbw, ← hP] at hcell
    rw [limOp, limOp, if_pos ⟨hst, hG⟩, if_pos ⟨hst, hG⟩, stepsIn, stepsIn, hcell]
    simp

/-! ## closed form -/

theorem pinInt_block (K : ℝ → ℝ → ℝ → ℝ≥0∞) (t y : ℝ) (l : List (ℝ × Option ℝ)) : ∀ (ts : List ℝ) (s x : ℝ) (F : List ℝ → ℝ≥0∞),
    pinInt K s x (ts.map (fun r => (r, none)) ++ (t, some y) :: l) F = kerInt K y (durs s (ts ++ [t])) x fun zs => pinInt K t y l fun ws => F (zs ++ y :: ws)
  | [], s, x, F => by simp [pinInt, durs, kerInt]
  | r :: ts, s, x, F => by
    obtain ⟨w, ws, hD⟩ : ∃ w ws, durs r (ts ++ [t]) = w :: ws := by
      refine List.exists_cons_of_ne_nil ?_
      rw [← List.length_pos_iff, durs_length]
      simp
    simp only [List.map_cons, List.cons_append, pinInt, durs]
    rw [hD]
    simp only [kerInt]
    refine lintegral_congr fun z => ?_
    rw [pinInt_block K t y l ts r z, hD]
    simp

/-- Known points. -/
def known (l : List (ℝ × ℝ)) : List (ℝ × Option ℝ) := l.map fun q => (q.1, some q.2)

theorem known_dens : ∀ (l : List (ℝ × ℝ)) (s x : ℝ), (s :: l.map Prod.fst).Pairwise (· < ·) → GoodChain U m x l →
    pinInt (edgeKer U m) s x (known l) (fun _ => 1) ≠ 0 ∧ pinInt (edgeKer U m) s x (known l) (fun _ => 1) ≠ ∞
  | [], _, _, _, _ => by simp [known, pinInt]
  | (t, y) :: l, s, x, hs, hg => by
    rw [List.map_cons, List.pairwise_cons] at hs
    obtain ⟨h1, h2⟩ := edgeKer_pos (sub_pos.2 (hs.1 t List.mem_cons_self)) hg.1
    obtain ⟨h3, h4⟩ := known_dens l t y hs.2 hg.2
    simp only [known, List.map_cons, pinInt]
    exact ⟨mul_ne_zero h1 h3, ENNReal.mul_ne_top h2 h4⟩

theorem pin_fold (hN : newT.Pairwise (· < ·)) : ∀ (l : List (ℝ × ℝ)) (s x : ℝ), (s :: l.map Prod.fst).Pairwise (· < ·) → GoodChain U m x l → ∀ {F : List ℝ → ℝ≥0∞},
    MeasL (foldLen (newN newT) s (l.map Prod.fst)) (fun _ : Unit => F) →
    pinInt (edgeKer U m) s x (weave newT s (known l)) F = pinInt (edgeKer U m) s x (known l) (fun _ => 1) * foldOp (limOp U m newT) s x l F
  | [], _, _, _, _, F, _ => by simp [known, weave, pinInt, foldOp]
  | (t, y) :: l, s, x, hs, hg, F, hF => by
    rw [List.map_cons, List.pairwise_cons] at hs
    have hst := hs.1 t List.mem_cons_self
    obtain ⟨h1, h2⟩ := edgeKer_pos (sub_pos.2 hst) hg.1
    have hF1 : MeasL (newN newT s t + (foldLen (newN newT) t (l.map Prod.fst) + 1)) fun _ : Unit => F := hF
    have e : kerInt (edgeKer U m) y (durs s (between newT s t ++ [t])) x (fun zs => pinInt (edgeKer U m) t y (weave newT t (known l)) fun ws => F (zs ++ y :: ws)) =
        pinInt (edgeKer U m) t y (known l) (fun _ => 1) * kerInt (edgeKer U m) y (durs s (between newT s t ++ [t])) x fun zs => foldOp (limOp U m newT) t y l fun ws => F (zs ++ y :: ws) := by
      rw [← kerInt_const_mul (measK_edge U m)]
      · refine kerInt_congr _ _ _ fun zs hz => ?_
        have hz' : zs.length = newN newT s t := by rw [hz]; exact stepsIn_length s t
        exact pin_fold hN l t y hs.2 hg.2 (MeasL.at_list hF1 y hz')
      · have := stepsIn_length (newT := newT) s t
        rw [stepsIn] at this
        rw [this]
        refine foldOp_measurable' (gapLim_sec U m hN).lim l t y (X := Unit × (Fin (newN newT s t) → ℝ)) (F := fun p ws => F (List.ofFn p.2 ++ y :: ws)) ?_
        exact (MeasL.split hF1).comp (φ := fun p : Unit × (Fin (newN newT s t) → ℝ) => ((p.1, y), p.2)) (by fun_prop)
    simp only [known, List.map_cons, weave, pinInt, foldOp]
    rw [pinInt_block]
    refine e.trans ?_
    rw [limOp, if_pos ⟨hst, hg.1⟩, stepsIn, mul_right_comm, ENNReal.mul_div_cancel h1 h2, mul_comm]
    rfl

end Ctb
