import Verif.Lemmas.Retro

set_option linter.unusedSectionVars false

/-! # Two rounds of sampling with growing budgets -/

namespace Ctb

open Classical MeasureTheory Set Filter Topology
open scoped ENNReal

variable {U m : ℝ} {A B C newT : List ℝ} {n k : ℕ}

/-! ## paths without two neighbours at the lower edge -/

/-- An operator without new values that checks the ends of the gap. -/
noncomputable def goodOp (U m : ℝ) : GapOp := fun _ _ x y F => if Good U m x y then F [] else 0

theorem gapLin_good (U m : ℝ) : GapLin (fun _ _ => 0) (goodOp U m) where
  meas s t X _ F x y hF hx hy := Measurable.ite (measurableSet_Good U m hx hy) (MeasL.zero_apply hF) measurable_const
  mono s t x y F G h := by
    unfold goodOp
    split_ifs
    · exact h [] rfl
    · exact le_rfl

theorem fold_good : ∀ (l : List (ℝ × ℝ)) (s x : ℝ), foldOp (goodOp U m) s x l (fun _ => 1) = if GoodChain U m x l then 1 else 0
  | [], _, _ => by simp [foldOp, GoodChain]
  | (t, y) :: l, s, x => by
    simp only [foldOp, goodOp, fold_good l t y]
    by_cases h1 : Good U m x y <;> by_cases h2 : GoodChain U m y l <;> simp [GoodChain, h1, h2]

theorem measurableSet_chain (U m x : ℝ) (ts : List ℝ) : MeasurableSet {p : Unit × (Fin ts.length → ℝ) | GoodChain U m x (ts.zip (List.ofFn p.2))} := by
  have h := foldOp_measurable (gapLin_good U m) ts 0 (X := Unit) (F := fun _ _ => 1) (x := fun _ => x) measurable_const measurable_const
  have e : {p : Unit × (Fin ts.length → ℝ) | GoodChain U m x (ts.zip (List.ofFn p.2))} =
      (fun p : Unit × (Fin ts.length → ℝ) => foldOp (goodOp U m) 0 x (ts.zip (List.ofFn p.2)) (fun _ => 1)) ⁻¹' {1} := by
    ext p
    simp [fold_good]
  rw [e]
  exact h (measurableSet_singleton 1)

theorem MeasL.chain {ts : List ℝ} {x : ℝ} {f g : List ℝ → ℝ≥0∞} (hf : MeasL ts.length fun _ : Unit => f) (hg : MeasL ts.length fun _ : Unit => g) :
    MeasL ts.length fun _ : Unit => fun ws => if GoodChain U m x (ts.zip ws) then f ws else g ws :=
  Measurable.ite (measurableSet_chain U m x ts) hf hg

theorem goodChain_append {t y : ℝ} {Q : List (ℝ × ℝ)} : ∀ {P : List (ℝ × ℝ)} {x : ℝ}, GoodChain U m x (P ++ (t, y) :: Q) ↔ GoodChain U m x (P ++ [(t, y)]) ∧ GoodChain U m y Q
  | [], x => by simp [GoodChain]
  | (r, z) :: P, x => by
    have ih := goodChain_append (t := t) (y := y) (Q := Q) (P := P) (x := z)
    simp only [List.cons_append, GoodChain, ih, and_assoc]

theorem kerInt_good_congr (hU : m < U) {t y : ℝ} (hy : m ≤ y ∧ y < U) : ∀ (ts : List ℝ) (s x : ℝ), (m ≤ x ∧ x < U) → (ts = [] → m < x ∨ m < y) → ∀ {F G : List ℝ → ℝ≥0∞},
    (∀ zs, zs.length = ts.length → GoodChain U m x ((ts ++ [t]).zip (zs ++ [y])) → F zs = G zs) →
    kerInt (edgeKer U m) y (durs s (ts ++ [t])) x F = kerInt (edgeKer U m) y (durs s (ts ++ [t])) x G
  | [], s, x, hx, hg, F, G, h => by
    simp only [List.nil_append, durs, kerInt]
    rw [h [] rfl ⟨⟨hx, hy, hg rfl⟩, trivial⟩]
  | r :: ts, s, x, hx, hg, F, G, h => by
    obtain ⟨w, ws, hD⟩ : ∃ w ws, durs r (ts ++ [t]) = w :: ws := by
      refine List.exists_cons_of_ne_nil ?_
      rw [← List.length_pos_iff, durs_length]
      simp
    rw [List.cons_append, durs, hD]
    simp only [kerInt]
    rw [← hD]
    refine lintegral_congr_ae ?_
    filter_upwards [measure_eq_zero_iff_ae_notMem.1 (measure_singleton m)] with z hz
    have hz : z ≠ m := by simpa using hz
    by_cases hzi : m < z ∧ z < U
    · congr 1
      refine kerInt_good_congr hU hy ts r z ⟨hzi.1.le, hzi.2⟩ (fun _ => Or.inl hzi.1) fun zs hzs hc => ?_
      exact h (z :: zs) (by simp [hzs]) ⟨⟨hx, ⟨hzi.1.le, hzi.2⟩, Or.inr hzi.1⟩, hc⟩
    · have ho : z < m ∨ U ≤ z := by
        by_contra hc
        push Not at hc
        exact hzi ⟨lt_of_le_of_ne hc.1 (Ne.symm hz), hc.2⟩
      rw [edgeKer_out hU ho, zero_mul, zero_mul]

theorem fold_good_congr : ∀ (l : List (ℝ × ℝ)) (s x : ℝ), (s :: l.map Prod.fst).Pairwise (· < ·) → GoodChain U m x l → ∀ {F G : List ℝ → ℝ≥0∞},
    (∀ ws, ws.length = (weaveT newT s (l.map Prod.fst)).length → GoodChain U m x ((weaveT newT s (l.map Prod.fst)).zip ws) → F ws = G ws) →
    foldOp (limOp U m newT) s x l F = foldOp (limOp U m newT) s x l G
  | [], _, _, _, _, F, G, h => h [] rfl trivial
  | (t, y) :: l, s, x, hs, hg, F, G, h => by
    rw [List.map_cons, List.pairwise_cons] at hs
    have hst : s < t := hs.1 t List.mem_cons_self
    obtain ⟨hG, hg'⟩ := hg
    have hU : m < U := hG.1.1.trans_lt hG.1.2
    simp only [foldOp]
    rw [limOp, limOp, if_pos ⟨hst, hG⟩, if_pos ⟨hst, hG⟩]
    congr 1
    refine kerInt_good_congr hU hG.2.1 _ s x hG.1 (fun _ => hG.2.2) fun zs hz hc => ?_
    refine fold_good_congr l t y hs.2 hg' fun ws hw hc' => h _ ?_ ?_
    · simp [weaveT, hz, hw]
    · rw [List.map_cons, weaveT, List.zip_append hz.symm, List.zip_cons_cons, goodChain_append]
      refine ⟨?_, hc'⟩
      rwa [List.zip_append hz.symm] at hc

/-! ## programs -/

/-- Sampling the gaps one after the other. -/
noncomputable def gapProg (n k : ℕ) (newT : List ℝ) (m U : ℝ) : ℝ → ℝ → List (ℝ × ℝ) → Prog (List ℝ)
  | _, _, [] => .ret []
  | s, x, (t, y) :: l => (secBr n k ((between newT s t).map (· - s)) (t - s) x y m (some U)).bind fun q =>
    (gapProg n k newT m U t y l).bind fun ws => .ret (q.1 ++ y :: ws)

theorem secBr_length {t : List ℝ} {T a b m : ℝ} {U : Option ℝ} {q : List ℝ × Option (List Bool)} (h : (secBr n k t T a b m U).Out (.ok q)) : q.1.length = t.length := by
  unfold secBr at h
  split_ifs at h with h0
  · rw [Prog.out_ret] at h
    cases h
    simp [h0]
  · obtain ⟨j, hp, -⟩ := sampleLayerbr_out h
    exact hp.len

theorem gapProg_length : ∀ {l : List (ℝ × ℝ)} {s x : ℝ} {ws : List ℝ}, (gapProg n k newT m U s x l).Out (.ok ws) → ws.length = (weaveT newT s (l.map Prod.fst)).length
  | [], s, x, ws, h => by
    rw [gapProg, Prog.out_ret] at h
    cases h
    rfl
  | (t, y) :: l, s, x, ws, h => by
    rw [gapProg] at h
    simp only [Prog.out_bind_ok] at h
    obtain ⟨q, hq, ws', hw, he⟩ := h
    rw [Prog.out_ret] at he
    cases he
    simp [weaveT, secBr_length hq, gapProg_length hw]

theorem gapProg_law (hk : 0 < k) (hN : newT.Pairwise (· < ·)) : ∀ (l : List (ℝ × ℝ)) (s x : ℝ), (s :: l.map Prod.fst).Pairwise (· < ·) → GoodChain U m x l → ∀ {F : List ℝ → ℝ≥0∞},
    MeasL (foldLen (newN newT) s (l.map Prod.fst)) (fun _ : Unit => F) → (gapProg n k newT m U s x l).lexp (onOk F) = foldOp (secOp U m newT n) s x l F
  | [], _, _, _, _, F, _ => by rw [gapProg, Prog.lexp_ret]; rfl
  | (t, y) :: l, s, x, hs, hg, F, hF => by
    rw [List.map_cons, List.pairwise_cons] at hs
    have hst := hs.1 t List.mem_cons_self
    have hF1 : MeasL (newN newT s t + (foldLen (newN newT) t (l.map Prod.fst) + 1)) fun _ : Unit => F := hF
    rw [gapProg, Prog.lexp_bind, foldOp, ← secBr_op hk hN hst hg.1]
    · refine Prog.lexp_congr ?_
      rintro (e | q) hq
      · rfl
      rw [Prog.cont_ok, Prog.lexp_bind, onOk]
      have hl : q.1.length = newN newT s t := by rw [secBr_length hq, List.length_map]
      rw [← gapProg_law hk hN l t y hs.2 hg.2 (MeasL.at_list hF1 y hl)]
      congr 1
    · refine foldOp_measurable' ((gapLim_sec U m hN).lin n) l t y (X := Unit × (Fin (newN newT s t) → ℝ)) (F := fun p ws => F (List.ofFn p.2 ++ y :: ws)) ?_
      exact (MeasL.split hF1).comp (φ := fun p : Unit × (Fin (newN newT s t) → ℝ) => ((p.1, y), p.2)) (by fun_prop)

theorem gapProg_lim (hk : 0 < k) (hN : newT.Pairwise (· < ·)) {l : List (ℝ × ℝ)} {s x : ℝ} (hs : (s :: l.map Prod.fst).Pairwise (· < ·)) (hg : GoodChain U m x l) {F : List ℝ → ℝ≥0∞}
    (hF : MeasL (weaveT newT s (l.map Prod.fst)).length fun _ : Unit => F) :
    (Monotone fun n => (gapProg n k newT m U s x l).lexp (onOk F)) ∧ ⨆ n, (gapProg n k newT m U s x l).lexp (onOk F) = foldOp (limOp U m newT) s x l F := by
  rw [← weaveT_length] at hF
  simp only [gapProg_law hk hN l s x hs hg hF]
  have := (gapLim_sec U m hN).fold l s x (F := fun _ => F) (fun _ => hF) (fun _ _ => monotone_const)
  simpa using this

/-- Two rounds: `Q n ws` is a second round that runs on the values `ws` of the first one. -/
theorem gapProg_two (hk : 0 < k) (hA : A.Pairwise (· < ·)) (hB : B.Pairwise (· < ·)) (hC : C.Pairwise (· < ·)) (h : ∀ r, r ∈ C ↔ r ∈ A ∨ r ∈ B)
    {l : List (ℝ × ℝ)} {s x : ℝ} (hs : (s :: l.map Prod.fst).Pairwise (· < ·)) (hg : GoodChain U m x l) {F : List ℝ → ℝ≥0∞}
    (hF : MeasL (weaveT C s (l.map Prod.fst)).length fun _ : Unit => F) {Q : ℕ → List ℝ → ℝ≥0∞}
    (hQ : ∀ n ws, ws.length = (weaveT A s (l.map Prod.fst)).length → GoodChain U m x ((weaveT A s (l.map Prod.fst)).zip ws) →
      Q n ws = (gapProg n k B m U s x ((weaveT A s (l.map Prod.fst)).zip ws)).lexp (onOk F)) :
    Tendsto (fun n => (gapProg n k A m U s x l).lexp (onOk (Q n))) atTop (𝓝 (foldOp (limOp U m C) s x l F)) ∧
      ∀ n, (gapProg n k A m U s x l).lexp (onOk (Q n)) ≤ foldOp (limOp U m C) s x l F := by
  set ts := l.map Prod.fst with hts
  set W := weaveT A s ts with hW
  have hWs : (s :: W).Pairwise (· < ·) := weaveT_sorted hA hs
  have hwl : ∀ ws : List ℝ, ws.length = W.length → (W.zip ws).map Prod.fst = W := fun ws hw => List.map_fst_zip hw.ge
  have hF1 : MeasL (foldLen (newN B) s W) fun _ : Unit => F := by rwa [weaveT_length, hW, weaveT_weaveT hA hB hC h hs]
  have hF2 : MeasL (foldLen (newN C) s ts) fun _ : Unit => F := by rwa [weaveT_length]
  have hQ' : ∀ n ws, ws.length = W.length → GoodChain U m x (W.zip ws) → Q n ws = foldOp (secOp U m B n) s x (W.zip ws) F := by
    intro n ws hw hc
    rw [hQ n ws hw hc, gapProg_law hk hB _ s x (by rwa [hwl ws hw]) hc (by rwa [hwl ws hw])]
  have hlim : ∀ ws : List ℝ, ws.length = W.length → (Monotone fun n => foldOp (secOp U m B n) s x (W.zip ws) F) ∧ ⨆ n, foldOp (secOp U m B n) s x (W.zip ws) F = foldOp (limOp U m B) s x (W.zip ws) F := by
    intro ws hw
    have := (gapLim_sec U m hB).fold (W.zip ws) s x (F := fun _ => F) (fun _ => by rwa [hwl ws hw]) (fun _ _ => monotone_const)
    simpa using this
  have hmn : ∀ n, MeasL W.length fun _ : Unit => fun ws => foldOp (secOp U m B n) s x (W.zip ws) F := fun n =>
    foldOp_measurable ((gapLim_sec U m hB).lin n) W s (X := Unit) (x := fun _ => x) hF1 measurable_const
  have hml : MeasL W.length fun _ : Unit => fun ws => foldOp (limOp U m B) s x (W.zip ws) F :=
    foldOp_measurable (gapLim_sec U m hB).lim W s (X := Unit) (x := fun _ => x) hF1 measurable_const
  have hWl : foldLen (newN A) s ts = W.length := weaveT_length _ _
  set lo : ℕ → List ℝ → ℝ≥0∞ := fun n ws => if GoodChain U m x (W.zip ws) then foldOp (secOp U m B n) s x (W.zip ws) F else 0 with hlo
  set hi : List ℝ → ℝ≥0∞ := fun ws => if GoodChain U m x (W.zip ws) then foldOp (limOp U m B) s x (W.zip ws) F else ∞ with hhi
  have hlom : ∀ n, MeasL W.length fun _ : Unit => lo n := fun n => MeasL.chain (hmn n) (g := fun _ => 0) measurable_const
  have hhim : MeasL W.length fun _ : Unit => hi := MeasL.chain hml (g := fun _ => ∞) measurable_const
  have htwo := two_rounds (U := U) (m := m) hA hB hC h l s x hs hg hF2
  have hup : ∀ n, (gapProg n k A m U s x l).lexp (onOk (Q n)) ≤ foldOp (limOp U m C) s x l F := by
    intro n
    calc (gapProg n k A m U s x l).lexp (onOk (Q n)) ≤ (gapProg n k A m U s x l).lexp (onOk hi) := by
          have e : (gapProg n k A m U s x l).lexp (onOk hi) = (gapProg n k A m U s x l).lexp (onOk fun ws => max (Q n ws) (hi ws)) := by
            refine Prog.lexp_congr ?_
            rintro (e | ws) hw
            · rfl
            have hw' := gapProg_length hw
            simp only [onOk]
            rw [max_eq_right]
            simp only [hhi]
            split_ifs with hc
            · rw [hQ' n ws hw' hc, ← (hlim ws hw').2]
              exact le_iSup (fun n => foldOp (secOp U m B n) s x (W.zip ws) F) n
            · exact le_top
          rw [e]
          refine Prog.lexp_mono _ ?_
          rintro (e | ws)
          · exact le_rfl
          · exact le_max_left _ _
      _ ≤ foldOp (limOp U m A) s x l hi := by
          rw [← (gapProg_lim hk hA hs hg hhim).2]
          exact le_iSup (fun n => (gapProg n k A m U s x l).lexp (onOk hi)) n
      _ = foldOp (limOp U m A) s x l fun ws => foldOp (limOp U m B) s x (W.zip ws) F := by
          refine fold_good_congr l s x hs hg fun ws _ hc => ?_
          simp only [hhi]
          rw [if_pos hc]
      _ = _ := htwo
  refine ⟨?_, hup⟩
  have hlow := (gapLim_sec U m hA).fold l s x (F := lo) (fun n => by rw [← hts, hWl]; exact hlom n) (fun ws hw => by
    rw [← hts, hWl] at hw
    intro i j hij
    simp only [hlo]
    split_ifs
    · exact (hlim ws hw).1 hij
    · exact le_rfl)
  have hlow2 : (foldOp (limOp U m A) s x l fun ws => ⨆ n, lo n ws) = foldOp (limOp U m C) s x l F := by
    rw [← htwo]
    refine fold_good_congr l s x hs hg fun ws hw hc => ?_
    rw [← (hlim ws hw).2]
    refine iSup_congr fun n => ?_
    simp only [hlo]
    rw [if_pos hc]
  have ht := tendsto_atTop_iSup hlow.1
  rw [hlow.2, hlow2] at ht
  refine tendsto_of_tendsto_of_tendsto_of_le_of_le ht tendsto_const_nhds (fun n => ?_) hup
  have e1 : foldOp (secOp U m A n) s x l (lo n) = (gapProg n k A m U s x l).lexp (onOk (lo n)) :=
    (gapProg_law hk hA l s x hs hg (by rw [← hts, hWl]; exact hlom n)).symm
  have e2 : (gapProg n k A m U s x l).lexp (onOk (lo n)) = (gapProg n k A m U s x l).lexp (onOk fun ws => min (Q n ws) (lo n ws)) := by
    refine Prog.lexp_congr ?_
    rintro (e | ws) hw
    · rfl
    have hw' := gapProg_length hw
    simp only [onOk]
    rw [min_eq_right]
    simp only [hlo]
    split_ifs with hc
    · rw [hQ' n ws hw' hc]
    · exact zero_le
  simp only
  rw [e1, e2]
  refine Prog.lexp_mono _ ?_
  rintro (e | ws)
  · exact le_rfl
  · exact min_le_left _ _

end Ctb
