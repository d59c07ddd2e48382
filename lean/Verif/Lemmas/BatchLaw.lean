import Verif.Lemmas.PoissonLaw

/-! # Law of the points of `sample_batch_ppp` seen through a product over the points -/

set_option linter.unusedSectionVars false

namespace Ctb

open Classical MeasureTheory ProbabilityTheory
open scoped ENNReal

/-- `g mark time` for a row. -/
noncomputable def rowVal (g : ℝ → ℝ → ℝ≥0∞) (row : List ℝ) : ℝ≥0∞ := g (row.headD 0) (row.tail.headD 0)

/-- Product over the rows. -/
noncomputable def rowsProd (g : ℝ → ℝ → ℝ≥0∞) (rows : List (List ℝ)) : ℝ≥0∞ := (rows.map (rowVal g)).prod

/-- Mean over the time of `g mark`. -/
noncomputable def markMean (g : ℝ → ℝ → ℝ≥0∞) (T a : ℝ) : ℝ≥0∞ := ∫⁻ t, g a t ∂(RDist.uniform 0 T).law

instance uniform_prob (lo hi : ℝ) : IsProbabilityMeasure (RDist.uniform lo hi).law := by
  haveI : IsProbabilityMeasure (volume.restrict (Set.Ico (0 : ℝ) 1)) := ⟨by simp⟩
  exact Measure.isProbabilityMeasure_map (by fun_prop)

theorem markMean_le {g : ℝ → ℝ → ℝ≥0∞} (hg : ∀ a t, g a t ≤ 1) (T a : ℝ) : markMean g T a ≤ 1 := by
  unfold markMean
  calc _ ≤ ∫⁻ _t, 1 ∂(RDist.uniform 0 T).law := lintegral_mono (hg a)
    _ = 1 := by simp

/-- Independent uniform times for given marks. -/
theorem rows_prod {g : ℝ → ℝ → ℝ≥0∞} (hg : ∀ a t, g a t ≤ 1) {T : ℝ} (u0 : List ℝ) :
    (Prog.replicate u0.length (drawRow [T])).lexp (atRows fun rows => rowsProd g (List.zipWith (fun a r => a :: r) u0 rows)) =
      (u0.map (markMean g T)).prod := by
  induction u0 with
  | nil => simp [Prog.replicate, atRows, rowsProd]
  | cons a u0 ih =>
    rw [List.length_cons, Prog.replicate, drawRow_single, Prog.real_bind, Prog.lexp_real]
    simp only [Prog.ret_bind, Prog.lexp_bind]
    rw [← drawRow_single]
    have h1 : ∀ l : List ℝ, (l.map (markMean g T)).prod ≠ ∞ := by
      intro l
      induction l with
      | nil => simp
      | cons b l ihl => simpa using ENNReal.mul_ne_top (ne_top_of_le_ne_top ENNReal.one_ne_top (markMean_le hg T b)) ihl
    have : ∀ t, (Prog.replicate u0.length (drawRow [T])).lexp (Prog.cont (fun l => Prog.ret ([t] :: l))
        (atRows fun rows => rowsProd g (List.zipWith (fun a r => a :: r) (a :: u0) rows)) Prog.lexp) = g a t * (u0.map (markMean g T)).prod := by
      intro t
      rw [← ih, ← Prog.lexp_const_mul _ _ (ne_top_of_le_ne_top ENNReal.one_ne_top (hg a t))]
      refine Prog.lexp_congr fun r _ => ?_
      rcases r with e | rows
      · simp [atRows]
      · simp [atRows, rowsProd, rowVal]
    simp only [this]
    rw [lintegral_mul_const' _ _ (h1 u0)]
    simp [markMean]

/-- A value at a list of draws, zero for an exception. -/
noncomputable def atList (f : List ℝ → ℝ≥0∞) : Res (List ℝ) → ℝ≥0∞
  | .ok l => f l
  | .error _ => 0

/-- Product over independent draws. -/
theorem draws_prod {d : RDist} {G : ℝ → ℝ≥0∞} (hG : ∀ t, G t ≠ ∞) (hI : ∫⁻ t, G t ∂d.law ≠ ∞) (n : ℕ) :
    (Prog.replicate n (Prog.draw d)).lexp (atList fun l => (l.map G).prod) = (∫⁻ t, G t ∂d.law) ^ n := by
  induction n with
  | zero => simp [Prog.replicate, atList]
  | succ n ih =>
    rw [Prog.replicate, Prog.draw, Prog.real_bind, Prog.lexp_real]
    simp only [Prog.ret_bind, Prog.lexp_bind]
    have : ∀ t, (Prog.replicate n (Prog.real d Prog.ret)).lexp (Prog.cont (fun l => Prog.ret (t :: l))
        (atList fun l => (l.map G).prod) Prog.lexp) = G t * (∫⁻ t, G t ∂d.law) ^ n := by
      intro t
      rw [← ih, ← Prog.lexp_const_mul _ _ (hG t)]
      refine Prog.lexp_congr fun r _ => ?_
      rcases r with e | rows
      · simp [atList]
      · simp [atList]
    simp only [this]
    rw [lintegral_mul_const' _ _ (ENNReal.pow_ne_top hI), pow_succ']

/-- Value of a batch: product over the points times a function of the new upper end. -/
noncomputable def atBatch (g : ℝ → ℝ → ℝ≥0∞) (F : ℝ → ℝ≥0∞) : Res (ℝ × List (List ℝ)) → ℝ≥0∞
  | .ok (ub, pts) => rowsProd g pts * F ub
  | .error _ => 0

theorem batch_exp {g : ℝ → ℝ → ℝ≥0∞} (hg : ∀ a t, g a t ≤ 1) {F : ℝ → ℝ≥0∞} (hF : ∀ x, F x ≠ ∞) {n i : ℕ} (hi : 0 < i) {h T lb : ℝ} :
    (pppBatch n h [T] lb i).lexp (atBatch g F) = ∫⁻ z, markMean g T (lb + h * z) *
      (∫⁻ m, markMean g T m ∂(RDist.uniform lb (lb + h * z)).law) ^ (i - 1) * F (lb + h * z) ∂(RDist.beta i (n + 1 - i)).law := by
  unfold pppBatch
  rw [Prog.lexp_real]
  refine lintegral_congr fun z => ?_
  have hne : ∀ t, markMean g T t ≠ ∞ := fun t => ne_top_of_le_ne_top ENNReal.one_ne_top (markMean_le hg T t)
  have hI : ∫⁻ m, markMean g T m ∂(RDist.uniform lb (lb + h * z)).law ≠ ∞ := by
    refine ne_top_of_le_ne_top ENNReal.one_ne_top ?_
    calc _ ≤ ∫⁻ _m, 1 ∂(RDist.uniform lb (lb + h * z)).law := lintegral_mono (markMean_le hg T)
      _ = 1 := by simp
  -- the rows, given the marks
  have hrow : ∀ u0 : List ℝ, u0.length = i → ((Prog.replicate i (drawRow [T])).bind fun u =>
      Prog.ret (lb + h * z, List.zipWith (fun a r => a :: r) u0 u)).lexp (atBatch g F) = (u0.map (markMean g T)).prod * F (lb + h * z) := by
    intro u0 hu0
    subst hu0
    rw [← rows_prod hg, mul_comm (Prog.lexp _ _), ← Prog.lexp_const_mul _ _ (hF _), Prog.lexp_bind]
    refine Prog.lexp_congr fun r _ => ?_
    rcases r with e | rows
    · simp [atBatch, atRows]
    · simp [atBatch, atRows, mul_comm]
  dsimp only
  by_cases h1 : i = 1
  · rw [if_pos h1, Prog.ret_bind, hrow _ (by simp [h1])]
    subst h1
    simp
  · rw [if_neg h1, Prog.bind_assoc, Prog.lexp_bind]
    have hc : markMean g T (lb + h * z) * F (lb + h * z) ≠ ∞ := ENNReal.mul_ne_top (hne _) (hF _)
    rw [mul_right_comm, ← draws_prod hne hI, ← Prog.lexp_const_mul _ _ hc]
    refine Prog.lexp_congr fun r hr => ?_
    rcases r with e | us
    · simp [atBatch, atList]
    · have hl : us.length = i - 1 := (Prog.out_replicate_ok.1 hr).1
      rw [Prog.cont_ok, Prog.ret_bind, hrow _ (by simp [npSort]; omega)]
      have hp : ((npSort us).map (markMean g T)).prod = (us.map (markMean g T)).prod := by
        refine List.Perm.prod_eq (List.Perm.map _ (List.perm_insertionSort _ us))
      simp only [List.map_append, List.prod_append, hp, atList, List.map_cons, List.map_nil, List.prod_singleton]
      ring

/-- Mean of the product over the points of the batches `is`, starting at `lb`; `G` is the mean at a mark. -/
noncomputable def batchLaw (n : ℕ) (h : ℝ) (G : ℝ → ℝ≥0∞) : ℝ → List ℕ → ℝ≥0∞
  | _, [] => 1
  | lb, i :: is => ∫⁻ z, G (lb + h * z) * (∫⁻ m, G m ∂(RDist.uniform lb (lb + h * z)).law) ^ (i - 1) *
      batchLaw n h G (lb + h * z) is ∂(RDist.beta i (n + 1 - i)).law

theorem beta_prob {n i : ℕ} (hi : 0 < i) (hn : i ≤ n) : IsProbabilityMeasure (RDist.beta i (n + 1 - i)).law := by
  have h1 : (0 : ℝ) < i := by exact_mod_cast hi
  have h2 : (0 : ℝ) < n + 1 - i := by
    have : (i : ℝ) ≤ n := by exact_mod_cast hn
    linarith
  exact isProbabilityMeasureBeta h1 h2

theorem mean_uniform_le {G : ℝ → ℝ≥0∞} (hG : ∀ a, G a ≤ 1) (lo hi : ℝ) : ∫⁻ m, G m ∂(RDist.uniform lo hi).law ≤ 1 := by
  calc _ ≤ ∫⁻ _m, 1 ∂(RDist.uniform lo hi).law := lintegral_mono hG
    _ = 1 := by simp

theorem batchLaw_le {n : ℕ} {h : ℝ} {G : ℝ → ℝ≥0∞} (hG : ∀ a, G a ≤ 1) (is : List ℕ) (his : ∀ i ∈ is, 0 < i ∧ i ≤ n) :
    ∀ lb, batchLaw n h G lb is ≤ 1 := by
  induction is with
  | nil => intro lb; simp [batchLaw]
  | cons i is ih =>
    intro lb
    haveI := beta_prob (his i (by simp)).1 (his i (by simp)).2
    rw [batchLaw]
    calc _ ≤ ∫⁻ _z, 1 ∂(RDist.beta i (n + 1 - i)).law := by
          refine lintegral_mono fun z => ?_
          refine mul_le_one' (mul_le_one' (hG _) (pow_le_one' (mean_uniform_le hG _ _) _)) (ih (fun j hj => his j (by simp [hj])) _)
      _ = 1 := by simp

/-- Value of all batches. -/
noncomputable def atBatches (g : ℝ → ℝ → ℝ≥0∞) : Res (List (List (List ℝ))) → ℝ≥0∞
  | .ok bs => rowsProd g bs.flatten
  | .error _ => 0

theorem loop_exp {g : ℝ → ℝ → ℝ≥0∞} (hg : ∀ a t, g a t ≤ 1) {n : ℕ} {h T : ℝ} (is : List ℕ) (his : ∀ i ∈ is, 0 < i ∧ i ≤ n) :
    ∀ lb, (pppLoop n h [T] lb is).lexp (atBatches g) = batchLaw n h (markMean g T) lb is := by
  induction is with
  | nil => intro lb; simp [pppLoop, atBatches, batchLaw, rowsProd]
  | cons i is ih =>
    intro lb
    have his' : ∀ j ∈ is, 0 < j ∧ j ≤ n := fun j hj => his j (by simp [hj])
    rw [pppLoop, Prog.lexp_bind, batchLaw, ← batch_exp hg (F := fun lb => batchLaw n h (markMean g T) lb is)
      (fun x => ne_top_of_le_ne_top ENNReal.one_ne_top (batchLaw_le (markMean_le hg T) is his' x)) (his i (by simp)).1]
    refine Prog.lexp_congr fun r _ => ?_
    rcases r with e | ⟨ub, pts⟩
    · simp [atBatch, atBatches]
    · have hc : rowsProd g pts ≠ ∞ := by
        refine ne_top_of_le_ne_top ENNReal.one_ne_top ?_
        unfold rowsProd
        clear * - hg
        induction pts with
        | nil => simp
        | cons p pts ih => simpa using mul_le_one' (show rowVal g p ≤ 1 from hg _ _) ih
      simp only [Prog.cont_ok, atBatch]
      rw [← ih his', ← Prog.lexp_const_mul _ _ hc, Prog.lexp_bind]
      refine Prog.lexp_congr fun r _ => ?_
      rcases r with e | rest
      · simp [atBatches]
      · simp [atBatches, rowsProd]

theorem batchSizes_le {n size : ℕ} (hs : 0 < size) : ∀ i ∈ batchSizes n size, 0 < i ∧ i ≤ n := by
  intro i hi
  exact ⟨(batchSizes_pos hs i hi).1, (List.le_sum_of_mem hi).trans (batchSizes_sum n size).le⟩

/-- The mean of a product over all points of `sample_batch_ppp`. -/
theorem sampleBatchPpp_exp {g : ℝ → ℝ → ℝ≥0∞} (hg : ∀ a t, g a t ≤ 1) {h T : ℝ} (hh : 0 < h) (hT : 0 < T) {size : ℕ} (hs : 0 < size) :
    (sampleBatchPpp 1 [h, T] size).lexp (atBatches g) =
      ∫⁻ n, batchLaw n h (markMean g T) 0 (batchSizes n size) ∂(NDist.poisson (h * T)).law := by
  have h1 : ∀ b ∈ [h, T], 0 < b := by simp [hh, hT]
  have h2 : (0 : ℤ) < size := by exact_mod_cast hs
  simp only [sampleBatchPpp, Prog.assert]
  rw [if_pos one_pos, Prog.ret_bind, if_pos h1, Prog.ret_bind, if_pos h2, Prog.ret_bind, Prog.lexp_nat]
  simp only [List.prod_cons, List.prod_nil, mul_one, one_mul, Int.toNat_natCast]
  exact lintegral_congr fun n => loop_exp hg _ (batchSizes_le hs) _

/-- No point under the graph, as a product. -/
noncomputable def aboveInd (ψ : ℝ → ℝ) (m t : ℝ) : ℝ≥0∞ := if m < ψ t then 0 else 1

theorem rowsProd_aboveInd (ψ : ℝ → ℝ) (rows : List (List ℝ)) :
    rowsProd (aboveInd ψ) rows = if ∀ row ∈ rows, ¬ (pointOf row).1 < ψ (pointOf row).2 then 1 else 0 := by
  induction rows with
  | nil => simp [rowsProd]
  | cons r rows ih =>
    have : rowsProd (aboveInd ψ) (r :: rows) = rowVal (aboveInd ψ) r * rowsProd (aboveInd ψ) rows := by simp [rowsProd]
    rw [this, ih]
    by_cases h : (pointOf r).1 < ψ (pointOf r).2
    · have h' : rowVal (aboveInd ψ) r = 0 := if_pos h
      rw [h', zero_mul, if_neg]
      intro h2
      exact h2 r (by simp) h
    · have h' : rowVal (aboveInd ψ) r = 1 := if_neg h
      rw [h', one_mul]
      congr 1
      simp [not_lt.1 h]

theorem uniform_ae {lo hi : ℝ} (h : lo ≤ hi) : ∀ᵐ m ∂(RDist.uniform lo hi).law, lo ≤ m ∧ m ≤ hi := by
  filter_upwards [compl_mem_ae_iff.2 (RDist.law_support (.uniform lo hi))] with m hm
  exact uniform_mem' h (not_not.1 hm)

theorem beta_ae (a b : ℝ) : ∀ᵐ z ∂(RDist.beta a b).law, 0 < z ∧ z < 1 := by
  filter_upwards [compl_mem_ae_iff.2 (RDist.law_support (.beta a b))] with z hz
  exact not_not.1 hz

theorem mean_uniform_ge {G : ℝ → ℝ≥0∞} {q : ℝ≥0∞} (hG : ∀ a, 0 ≤ a → q ≤ G a) {lo hi : ℝ} (h0 : 0 ≤ lo) (h : lo ≤ hi) :
    q ≤ ∫⁻ m, G m ∂(RDist.uniform lo hi).law := by
  calc q = ∫⁻ _m, q ∂(RDist.uniform lo hi).law := by simp
    _ ≤ _ := lintegral_mono_ae ((uniform_ae h).mono fun m hm => hG m (h0.trans hm.1))

/-- If each point is harmless with probability at least `q` then all are with at least the power. -/
theorem batchLaw_ge {n : ℕ} {h : ℝ} (hh : 0 < h) {G : ℝ → ℝ≥0∞} {q : ℝ≥0∞} (hG : ∀ a, 0 ≤ a → q ≤ G a) (is : List ℕ)
    (his : ∀ i ∈ is, 0 < i ∧ i ≤ n) : ∀ lb, 0 ≤ lb → q ^ is.sum ≤ batchLaw n h G lb is := by
  induction is with
  | nil => intro lb _; simp [batchLaw]
  | cons i is ih =>
    intro lb hlb
    haveI := beta_prob (his i (by simp)).1 (his i (by simp)).2
    rw [batchLaw]
    calc q ^ (i :: is).sum = ∫⁻ _z, q ^ (i :: is).sum ∂(RDist.beta i (n + 1 - i)).law := by simp
      _ ≤ _ := by
        refine lintegral_mono_ae ((beta_ae _ _).mono fun z hz => ?_)
        have h1 : 0 ≤ h * z := (mul_pos hh hz.1).le
        have hi : (i :: is).sum = 1 + (i - 1) + is.sum := by
          have := (his i (by simp)).1
          simp; omega
        rw [hi, pow_add, pow_add, pow_one]
        gcongr
        · exact hG _ (by linarith)
        · exact mean_uniform_ge hG hlb (by linarith)
        · exact ih (fun j hj => his j (by simp [hj])) _ (by linarith)

theorem beta_half_pos {a b : ℝ} (ha : 0 < a) (hb : 0 < b) : (RDist.beta a b).law (Set.Ici (1 / 2)) ≠ 0 := by
  intro h
  have h2 : (RDist.beta a b).law (Set.Ioo (1 / 2) 1) = 0 := measure_mono_null (fun x hx => hx.1.le) h
  rw [RDist.law, betaMeasure, withDensity_apply_eq_zero (show Measurable (betaPDF a b) from (measurable_betaPDFReal a b).ennreal_ofReal)] at h2
  have h3 : {x | betaPDF a b x ≠ 0} ∩ Set.Ioo (1 / 2) 1 = Set.Ioo (1 / 2 : ℝ) 1 := by
    refine Set.inter_eq_right.2 fun x hx => ?_
    have hx0 : 0 < x := by have := hx.1; norm_num at this; linarith
    have := betaPDFReal_pos hx0 hx.2 ha hb
    simpa [betaPDF] using this
  rw [h3, Real.volume_Ioo] at h2
  norm_num at h2

/-- Two batches drawn independently overshoot the top with positive probability. -/
theorem batchLaw_gt {s : ℕ} (hs : 0 < s) {h : ℝ} (hh : 0 < h) {G : ℝ → ℝ≥0∞} {q : ℝ≥0∞} (hq0 : q ≠ 0) (hq1 : q < 1) (hG : ∀ a, 0 ≤ a → q ≤ G a)
    (hG1 : ∀ a, h ≤ a → G a = 1) : q ^ (s + 1) < batchLaw (s + 1) h G 0 [s, 1] := by
  haveI h1 := beta_prob (n := s + 1) (i := s) hs (by omega)
  haveI h2 := beta_prob (n := s + 1) (i := 1) (by omega) (by omega)
  set μ := (RDist.beta (s : ℕ) ((s + 1 : ℕ) + 1 - (s : ℕ))).law with hμ
  set ν := (RDist.beta ((1 : ℕ) : ℝ) ((s + 1 : ℕ) + 1 - ((1 : ℕ) : ℝ))).law with hν
  have hA : μ (Set.Ici (1 / 2)) ≠ 0 := beta_half_pos (by exact_mod_cast hs) (by push_cast; linarith)
  have hs0 : (0 : ℝ) ≤ s := by positivity
  have hB : ν (Set.Ici (1 / 2)) ≠ 0 := beta_half_pos (by norm_num) (by push_cast; linarith)
  have hin : ∀ z, (Set.Ioo (0 : ℝ) 1) z → q + (Set.Ici (1 / 2 : ℝ)).indicator (fun _ => (1 - q) * ν (Set.Ici (1 / 2))) z ≤
      ∫⁻ w, G (0 + h * z + h * w) ∂ν := by
    intro z hz
    by_cases hz2 : z ∈ Set.Ici (1 / 2 : ℝ)
    · rw [Set.indicator_of_mem hz2]
      calc q + (1 - q) * ν (Set.Ici (1 / 2)) = ∫⁻ w, (q + (Set.Ici (1 / 2 : ℝ)).indicator (fun _ => 1 - q) w) ∂ν := by
            rw [lintegral_add_left measurable_const, lintegral_indicator_const measurableSet_Ici]
            simp
        _ ≤ _ := by
            refine lintegral_mono_ae ((beta_ae _ _).mono fun w hw => ?_)
            by_cases hw2 : w ∈ Set.Ici (1 / 2 : ℝ)
            · rw [Set.indicator_of_mem hw2, add_tsub_cancel_of_le hq1.le, hG1]
              have h3 : (1 : ℝ) / 2 ≤ z := hz2
              have h4 : (1 : ℝ) / 2 ≤ w := hw2
              nlinarith
            · rw [Set.indicator_of_notMem hw2, add_zero]
              exact hG _ (by have := mul_pos hh hz.1; have := mul_pos hh hw.1; linarith)
    · rw [Set.indicator_of_notMem hz2, add_zero]
      calc q = ∫⁻ _w, q ∂ν := by simp
        _ ≤ _ := by
            refine lintegral_mono_ae ((beta_ae _ _).mono fun w hw => ?_)
            exact hG _ (by have := mul_pos hh hz.1; have := mul_pos hh hw.1; linarith)
  have hqt : q ≠ ∞ := hq1.ne_top
  have hq1' : 1 - q ≠ 0 := (tsub_pos_of_lt hq1).ne'
  have hpos : (1 - q) * ν (Set.Ici (1 / 2)) * μ (Set.Ici (1 / 2)) ≠ 0 := mul_ne_zero (mul_ne_zero hq1' hB) hA
  calc q ^ (s + 1) = q ^ s * q := pow_succ _ _
    _ < q ^ s * (q + (1 - q) * ν (Set.Ici (1 / 2)) * μ (Set.Ici (1 / 2))) := by
        refine ENNReal.mul_lt_mul_right (pow_ne_zero _ hq0) (ENNReal.pow_ne_top hqt) ?_
        exact ENNReal.lt_add_right hqt hpos
    _ = ∫⁻ z, q ^ s * (q + (Set.Ici (1 / 2 : ℝ)).indicator (fun _ => (1 - q) * ν (Set.Ici (1 / 2))) z) ∂μ := by
        rw [lintegral_const_mul' _ _ (ENNReal.pow_ne_top hqt), lintegral_add_left measurable_const, lintegral_indicator_const measurableSet_Ici]
        simp
    _ ≤ _ := by
        rw [batchLaw]
        refine lintegral_mono_ae ((beta_ae _ _).mono fun z hz => ?_)
        simp only [batchLaw, Nat.sub_self, pow_zero, mul_one]
        have hz0 : 0 ≤ h * z := (mul_pos hh hz.1).le
        have : q ^ s = q * q ^ (s - 1) := by rw [← pow_succ']; congr 1; omega
        rw [this]
        gcongr
        · exact hG _ (by linarith)
        · exact mean_uniform_ge hG le_rfl (by linarith)
        · exact hin z hz

theorem batchSizes_succ {s : ℕ} (hs : 0 < s) : batchSizes (s + 1) s = [s, 1] := by
  unfold batchSizes
  rcases Nat.lt_or_ge 1 s with h | h
  · have h1 : (s + 1) / s = 1 := by
      rw [Nat.add_div_left _ hs, Nat.div_eq_of_lt h]
    have h2 : (s + 1) % s = 1 := by rw [Nat.add_mod_left, Nat.mod_eq_of_lt h]
    simp [h1, h2]
  · have : s = 1 := by omega
    subst this
    simp

end Ctb
