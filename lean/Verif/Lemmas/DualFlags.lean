import Verif.Lemmas.RetroSeed
import Verif.Props.Retro

set_option linter.unusedSectionVars false

/-! # A second look at a path without its flags -/

namespace Ctb

open Classical MeasureTheory ProbabilityTheory Set Filter Topology
open scoped ENNReal

variable {s z : EaSkel} {n k : ℕ} {U m a r : ℝ}

/-! ## One new time -/

theorem pin_known (K : ℝ → ℝ → ℝ → ℝ≥0∞) : ∀ (l : List (ℝ × ℝ)) (s x : ℝ) (F : List ℝ → ℝ≥0∞), pinInt K s x (known l) F = pinInt K s x (known l) (fun _ => 1) * F (l.map Prod.snd)
  | [], _, _, F => by simp [known, pinInt]
  | (t, y) :: l, s, x, F => by
    have := pin_known K l t y fun ys => F (y :: ys)
    simp only [known, List.map_cons, pinInt] at this ⊢
    rw [this, mul_assoc]

theorem weave_past : ∀ (l : List (ℝ × ℝ)) (t : ℝ), r ≤ t → (t :: l.map Prod.fst).Pairwise (· < ·) → weave [r] t (known l) = known l
  | [], _, _, _ => rfl
  | (u, y) :: l, t, hr, hs => by
    rw [List.map_cons, List.pairwise_cons] at hs
    have htu := hs.1 u (by simp)
    have e : between [r] t u = [] := by simp [between, not_lt.2 hr]
    have := weave_past l u (hr.trans htu.le) hs.2
    simp only [known, List.map_cons, weave, e, List.map_nil, List.nil_append] at this ⊢
    rw [this]

/-- The path can be above `a` at a new time. -/
theorem pin_one (hm : m ≤ a) (haU : a < U) : ∀ (l : List (ℝ × ℝ)) (s x : ℝ), (s :: l.map Prod.fst).Pairwise (· < ·) → GoodChain U m x l → m ≤ x ∧ x < U → s < r → (∃ q ∈ l, r < q.1) → (∀ q ∈ l, q.1 ≠ r) →
    ∀ {F : List ℝ → ℝ≥0∞}, (∀ post, Measurable fun v => F (v :: post)) → (∀ pre post, Measurable fun v => F (pre ++ v :: post)) →
    (∀ ws, (∃ v, a < v ∧ (r, v) ∈ (weaveT [r] s (l.map Prod.fst)).zip ws) → F ws ≠ 0) → pinInt (edgeKer U m) s x (weave [r] s (known l)) F ≠ 0
  | [], _, _, _, _, _, _, h, _, _, _, _, _ => by simp at h
  | (t, y) :: l, s, x, hs, hg, hx, hsr, hl, hne, F, hF0, hF, hpos => by
    rw [List.map_cons, List.pairwise_cons] at hs
    have hst := hs.1 t (by simp)
    have hy : m ≤ y ∧ y < U := hg.1.2.1
    rcases lt_or_gt_of_ne (hne (t, y) (by simp)) with h | h
    · have e : between [r] s t = [] := by simp [between, not_lt.2 h.le]
      simp only [known, List.map_cons, weave, e, List.map_nil, List.nil_append, pinInt]
      refine mul_ne_zero (edgeKer_pos (sub_pos.2 hst) hg.1).1 ?_
      refine pin_one hm haU l t y hs.2 hg.2 hy h ?_ (fun q hq => hne q (by simp [hq])) (F := fun ys => F (y :: ys)) (fun post => hF [y] post) (fun pre post => hF (y :: pre) post) ?_
      · obtain ⟨q, hq, hrq⟩ := hl
        rcases List.mem_cons.1 hq with rfl | hq
        · exact absurd h (not_lt.2 hrq.le)
        · exact ⟨q, hq, hrq⟩
      · rintro ws ⟨v, hv, hmem⟩
        refine hpos _ ⟨v, hv, ?_⟩
        simp only [List.map_cons, weaveT, e, List.nil_append, List.zip_cons_cons, List.mem_cons]
        exact Or.inr hmem
    · have e : between [r] s t = [r] := by simp [between, hsr, h]
      have hw := weave_past l t h.le hs.2
      have e2 : ∀ (s x : ℝ) G, pinInt (edgeKer U m) s x (weave [r] t (known l)) G = pinInt (edgeKer U m) s x (known l) (fun _ => 1) * G (l.map Prod.snd) := by
        intro s x G
        rw [hw, pin_known]
      simp only [known, List.map_cons, weave, e, List.map_nil, List.cons_append, List.nil_append, pinInt] at e2 ⊢
      simp only [e2]
      have hk := (known_dens l t y hs.2 hg.2).1
      rw [known] at hk
      have hK := measK_edge U m
      have hm1 : Measurable fun v : ℝ => edgeKer U m (r - s) x v := (hK _).comp (f := fun v : ℝ => ((), x, v)) (by fun_prop)
      have hm2 : Measurable fun v : ℝ => edgeKer U m (t - r) v y := (hK _).comp (f := fun v : ℝ => ((), v, y)) (by fun_prop)
      have hmF := hF0 (y :: l.map Prod.snd)
      refine LT.lt.ne' ?_
      refine (lintegral_pos_iff_support ?_).2 ?_
      · exact hm1.mul (hm2.mul (measurable_const.mul hmF))
      refine lt_of_lt_of_le ?_ (measure_mono (s := Ioo a U) fun v hv => ?_)
      · simp [haU]
      · have hmv : m < v := hm.trans_lt hv.1
        rw [Function.mem_support]
        refine mul_ne_zero (edgeKer_pos (sub_pos.2 hsr) ⟨hx, ⟨hmv.le, hv.2⟩, Or.inr hmv⟩).1 (mul_ne_zero (edgeKer_pos (sub_pos.2 h) ⟨⟨hmv.le, hv.2⟩, hy, Or.inl hmv⟩).1 (mul_ne_zero hk ?_))
        refine hpos _ ⟨v, hv.1, ?_⟩
        simp [weaveT, e]

theorem measList {F : List ℝ → ℝ≥0∞} (hF : Measurable F) (pre post : List ℝ) : Measurable fun v => F (pre ++ v :: post) := hF.comp (by fun_prop)

theorem roundSup_above (hk : 0 < k) (h : s.Free) (hT : s.Times [r]) (hr : r ∉ s.t) (ha : s.tight ≤ a) (haU : a < s.bound) {F : List ℝ → List ℝ → ℝ≥0∞} (hF : ∀ t, Measurable (F t))
    (hpos : ∀ t x, (∃ v, a < v ∧ (r, v) ∈ t.zip x) → F t x ≠ 0) : roundSup k s [r] (fun q => F q.t q.x) ≠ 0 := by
  obtain ⟨x0, hx⟩ := h.start
  obtain ⟨ts, xs, ht, hxs, hl, hp, hz, hg⟩ := h.split hx
  have hF' : ∀ t n, Measurable fun z : Fin n → ℝ => F t (List.ofFn z) := fun t n => (hF t).comp (measurable_ofFn n)
  obtain ⟨hm, hsup⟩ := interp_fold (F := F) hk h hT hx ht hxs hF'
  have hs : (0 :: (ts.zip xs).map Prod.fst).Pairwise (· < ·) := by rw [hz, ← ht]; exact h.valid.sorted
  have hpin := pin_fold hT.1 (ts.zip xs) 0 x0 hs hg (measAll_fun (hF' (0 :: weaveT [r] 0 ts)) x0 _)
  unfold roundSup roundVal
  rw [hsup]
  intro h0
  rw [h0, mul_zero] at hpin
  have h00 := h.valid.sorted
  have hr0 : 0 < r := lt_of_le_of_ne (hT.2 r (by simp)).1 fun e => hr (by rw [← e, ht]; simp)
  obtain ⟨f, hf, hrf⟩ := (hT.2 r (by simp)).2
  have hrf' : r < f := lt_of_le_of_ne hrf fun e => hr (e ▸ hf)
  refine pin_one ha haU (ts.zip xs) 0 x0 hs hg (h.inside x0 (by rw [hxs]; simp)) hr0 ?_ ?_ (F := fun ws => F (0 :: weaveT [r] 0 ts) (x0 :: ws)) ?_ ?_ ?_ hpin
  · rw [ht, List.mem_cons] at hf
    rcases hf with rfl | hf
    · exact absurd hr0 (not_lt.2 hrf'.le)
    · rw [← hz] at hf
      obtain ⟨q, hq, rfl⟩ := List.mem_map.1 hf
      exact ⟨q, hq, hrf'⟩
  · intro q hq e
    refine hr ?_
    rw [ht, List.mem_cons]
    right
    rw [← hz, ← e]
    exact List.mem_map_of_mem hq
  · exact fun post => measList (hF _) [x0] post
  · exact fun pre post => measList (hF _) (x0 :: pre) post
  · rintro ws ⟨v, hv, hmem⟩
    refine hpos _ _ ⟨v, hv, ?_⟩
    rw [hz] at hmem
    rw [List.zip_cons_cons]
    exact List.mem_cons_of_mem _ hmem

theorem roundSup_add {newT : List ℝ} (hk : 0 < k) (h : s.Plain) (hT : s.Times newT) {F G : EaSkel → ℝ≥0∞} (hF : Measurable F) (hG : Measurable G) :
    roundSup k s newT (fun q => F q + G q) = roundSup k s newT F + roundSup k s newT G := by
  have h1 := tendsto_atTop_iSup (roundVal_mono hk h hT hF)
  have h2 := tendsto_atTop_iSup (roundVal_mono hk h hT hG)
  have h3 := tendsto_atTop_iSup (roundVal_mono hk h hT (hF.add hG))
  refine tendsto_nhds_unique h3 ((h1.add h2).congr fun n => ?_)
  simp only [← roundProg_val]
  rw [← (reg_roundProg n k (X := Unit) measurable_const measurable_const).add () (onOk F) (onOk G) hF]
  congr 1
  funext r
  rcases r with e | q <;> simp [onOk]

/-! ## The witness -/

/-- A path of length 1 from 0 to 0. -/
def oneOp : NormOp := ⟨1, 1, 0, 0⟩

/-- A discriminant that is positive above 2 only. -/
noncomputable def disc2 (x : ℝ) : ℝ := if 2 < x then 1 else 0

theorem meas_disc2 : Measurable disc2 := Measurable.ite measurableSet_Ioi measurable_const measurable_const

theorem disc2_mem (x : ℝ) : 0 ≤ disc2 x ∧ disc2 x ≤ 1 := by
  unfold disc2
  split_ifs <;> norm_num

theorem one_path (t w : ℝ) : pathVal oneOp t w = w := by simp [pathVal, oneOp]

theorem gap2 (x : ℝ) : dualGap true 0 (disc2 x) = disc2 x := by
  unfold dualGap disc2
  split_ifs <;> simp_all

/-- The condition of the coin. -/
def flagBad : ℝ × ℝ → ℝ → Prop := normBad 1 (dualBad oneOp oneOp (fun _ => 0) disc2 true)

theorem flagBad_iff (p : ℝ × ℝ) (w : ℝ) : flagBad p w ↔ p.1 < disc2 w := by
  unfold flagBad normBad dualBad
  rw [one_path, gap2]

theorem meas_flagBad : MeasBad flagBad := meas_normBad (meas_dualBad measurable_const meas_disc2 true)

theorem drop_free (h : s.Free) : s.drop.Free := by
  refine ⟨⟨h.valid.sorted, h.valid.start, h.valid.len, ?_⟩, h.hit, ?_, ?_, h.apart⟩
  · intro hs e
    cases e
  · intro hs e
    cases e
  · intro v hv
    exact ⟨(h.inside v hv).1, (h.inside v hv).2.trans_le (bound_le h.hit)⟩

theorem drop_bound (s : EaSkel) : s.drop.bound = s.loose := by simp [EaSkel.drop, EaSkel.bound]

@[fun_prop] theorem meas_drop {X : Type} [MeasurableSpace X] {s : X → EaSkel} (hs : Measurable s) : Measurable fun y => (s y).drop := by
  unfold EaSkel.drop
  fun_prop

/-- The path is revealed at once; probability that a point is bad. -/
noncomputable def failSup (k : ℕ) (s : EaSkel) (ps : List (ℝ × ℝ)) : ℝ≥0∞ := roundSup k s (timesOf ps) fun q => 1 - clr flagBad ps q.t q.x

theorem meas_failSup {X : Type} [MeasurableSpace X] {s : X → EaSkel} {p : X → List (ℝ × ℝ)} (hs : Measurable s) (hp : Measurable p) : Measurable fun y => failSup k (s y) (p y) :=
  meas_roundSup k hs (meas_timesOf hp) (measurable_const.sub (meas_clr meas_flagBad (by fun_prop) (by fun_prop) (by fun_prop)))

theorem clear_fail {ps : List (ℝ × ℝ)} (hk : 0 < k) (h : s.Plain) (hT : s.Times (timesOf ps)) : clearSup k flagBad s ps + failSup k s ps = 1 := by
  have hm : Measurable fun q : EaSkel => clr flagBad ps q.t q.x := meas_clr meas_flagBad measurable_const (by fun_prop) (by fun_prop)
  have hm' : Measurable fun q : EaSkel => 1 - clr flagBad ps q.t q.x := measurable_const.sub hm
  unfold clearSup failSup
  rw [← roundSup_add hk h hT hm hm']
  refine Eq.trans ?_ (roundSup_one hk h hT)
  congr 1
  funext q
  have : clr flagBad ps q.t q.x ≤ 1 := by
    unfold clr
    split_ifs <;> simp
  exact add_tsub_cancel_of_le this

theorem fail_pos {mk : ℝ} (hk : 0 < k) (h : s.Free) (hb : s.tight ≤ 2 ∧ 2 < s.bound) (hmk : mk < 1) (hT : s.Times [r]) (hr : r ∉ s.t) : failSup k s [(mk, r)] ≠ 0 := by
  have e : timesOf [(mk, r)] = [r] := by simp [timesOf]
  unfold failSup
  rw [e]
  refine roundSup_above (F := fun t x => 1 - clr flagBad [(mk, r)] t x) hk h hT hr hb.1 hb.2 (fun t => measurable_const.sub (meas_clr meas_flagBad measurable_const measurable_const measurable_id)) ?_
  rintro t x ⟨v, hv, hmem⟩
  have : ¬ ClearOf flagBad [(mk, r)] t x := fun hc => by
    refine hc _ hmem (mk, r) (by simp) rfl ((flagBad_iff _ _).2 ?_)
    rw [disc2, if_pos hv]
    exact hmk
  simp [clr, this]

theorem loop_single (ub : ℝ) (F : Res (List (List (List ℝ))) → ℝ≥0∞) : (pppLoop 2 1 [1] ub [1]).lexp F =
    ∫⁻ v, ∫⁻ t, F (.ok [[[ub + v, t]]]) ∂(RDist.uniform 0 1).law ∂(RDist.beta 1 2).law := by
  have e : ((2 : ℕ) : ℝ) + 1 - ((1 : ℕ) : ℝ) = 2 := by norm_num
  simp only [pppLoop, pppBatch, Prog.replicate, drawRow, Prog.mapM', Prog.draw]
  simp [Prog.bind, Prog.lexp]

/-! ## Positive expectations -/

theorem lexp_pos {α : Type} [MeasurableSpace α] {p : Prog α} (hp : Reg fun _ : Unit => p) (mp : Mass1 p) {C : α → Prop} (hC : p.lexp (offInf C) = 0) {G : α → ℝ≥0∞} (hG : Measurable G)
    (h : ∀ a, C a → G a ≠ 0) (h1 : p.lexp (onOk fun _ => 1) ≠ 0) : p.lexp (onOk G) ≠ 0 := by
  intro h0
  refine h1 (le_antisymm ?_ zero_le)
  refine (lexp_le_of_ae hp () hC (f := fun _ => 1) (g := fun a => ∞ * G a) (measurable_const.mul hG) fun a ha => ?_).trans ?_
  · rw [ENNReal.top_mul (h a ha)]
    exact le_top
  · obtain ⟨μ, -, hμ⟩ := okLaw hp mp
    rw [hμ G hG] at h0
    rw [hμ (fun a => ∞ * G a) (measurable_const.mul hG), lintegral_const_mul _ hG, h0, mul_zero]

theorem lexp_ok_one {α : Type} {p : Prog α} (mp : Mass1 p) (h : ∀ e, ¬ p.Out (.error e)) : p.lexp (onOk fun _ => 1) = 1 := by
  refine Eq.trans (Prog.lexp_congr ?_) (Mass1.lexp_const mp 1)
  rintro (e | a) ho
  · exact absurd ho (h e)
  · rfl

theorem lexp_onOk_add {α : Type} [MeasurableSpace α] {p : Prog α} (hp : Reg fun _ : Unit => p) {F G : α → ℝ≥0∞} (hF : Measurable F) : p.lexp (onOk fun a => F a + G a) = p.lexp (onOk F) + p.lexp (onOk G) := by
  rw [← hp.add () (onOk F) (onOk G) hF]
  congr 1
  funext r
  rcases r with e | q <;> simp [onOk]

theorem beta_low {b : ℝ} (hb : 0 < b) : (RDist.beta 1 2).law (Iio b) ≠ 0 := by
  intro h
  have hc : 0 < min b 1 := lt_min hb one_pos
  have h2 : (RDist.beta 1 2).law (Ioo 0 (min b 1)) = 0 := measure_mono_null (fun x hx => hx.2.trans_le (min_le_left _ _)) h
  rw [RDist.law, betaMeasure, withDensity_apply_eq_zero (show Measurable (betaPDF 1 2) from (measurable_betaPDFReal 1 2).ennreal_ofReal)] at h2
  have h3 : {x | betaPDF 1 2 x ≠ 0} ∩ Ioo 0 (min b 1) = Ioo 0 (min b 1) := by
    refine Set.inter_eq_right.2 fun x hx => ?_
    have := betaPDFReal_pos hx.1 (hx.2.trans_le (min_le_right _ _)) one_pos two_pos
    simpa [betaPDF] using this
  rw [h3, Real.volume_Ioo] at h2
  rw [ENNReal.ofReal_eq_zero] at h2
  linarith

/-! ## The second point -/

/-- Probability that the second point is not bad. -/
noncomputable def secondClear (k : ℕ) (s : EaSkel) (ub : ℝ) : ℝ≥0∞ := (pppLoop 2 1 [1] ub [1]).lexp (onOk fun bs => clearSup k flagBad s (ptsOf 1 bs.flatten))

/-- Probability that it is. -/
noncomputable def secondFail (k : ℕ) (s : EaSkel) (ub : ℝ) : ℝ≥0∞ := (pppLoop 2 1 [1] ub [1]).lexp (onOk fun bs => failSup k s (ptsOf 1 bs.flatten))

theorem reg_second : Reg fun q : EaSkel × ℝ => pppLoop 2 1 [1] q.2 [1] := reg_pppLoop 2 measurable_const measurable_const measurable_snd [1]

theorem meas_secondClear (k : ℕ) : Measurable fun q : EaSkel × ℝ => secondClear k q.1 q.2 :=
  reg_second.meas id (fun q => onOk fun bs => clearSup k flagBad q.1 (ptsOf 1 bs.flatten)) measurable_id (meas_clearSup meas_flagBad (by fun_prop) (by fun_prop)) fun e => measurable_const

theorem meas_secondFail (k : ℕ) : Measurable fun q : EaSkel × ℝ => secondFail k q.1 q.2 :=
  reg_second.meas id (fun q => onOk fun bs => failSup k q.1 (ptsOf 1 bs.flatten)) measurable_id (meas_failSup (by fun_prop) (by fun_prop)) fun e => measurable_const

theorem loop_one {m : ℕ} {is : List ℕ} (hi : ∀ i ∈ is, 1 ≤ i ∧ i ≤ m) (ub : ℝ) : (pppLoop m 1 [1] ub is).lexp (onOk fun _ => 1) = 1 := lexp_ok_one (mass_pppLoop _ _ _ hi _) fun _ => pppLoop_no_error _

theorem second_add (hk : 0 < k) (h : s.Plain) (hlast : s.t.getLast? = some 1) (ub : ℝ) : secondClear k s ub + secondFail k s ub = 1 := by
  have rL : Reg fun _ : Unit => pppLoop 2 1 [1] ub [1] := reg_pppLoop 2 measurable_const measurable_const measurable_const [1]
  have m1 : Measurable fun bs : List (List (List ℝ)) => clearSup k flagBad s (ptsOf 1 bs.flatten) := meas_clearSup meas_flagBad measurable_const (by fun_prop)
  have m2 : Measurable fun bs : List (List (List ℝ)) => failSup k s (ptsOf 1 bs.flatten) := meas_failSup measurable_const (by fun_prop)
  unfold secondClear secondFail
  rw [← lexp_onOk_add rL m1, ← loop_one (m := 2) (is := [1]) (by simp) ub]
  refine lexp_congr_ae rL () (loop_good one_pos one_pos (by simp) ub []) (m1.add m2) measurable_const fun bs hbs => ?_
  exact clear_fail hk h (good_times one_pos (by rw [hlast, one_mul]) hbs)

theorem second_pos {ub : ℝ} (hk : 0 < k) (h : s.Free) (hb : s.tight ≤ 2 ∧ 2 < s.bound) (hlast : s.t.getLast? = some 1) (hub : ub < 1) : secondFail k s ub ≠ 0 := by
  unfold secondFail
  rw [loop_single]
  have e : ∀ v t : ℝ, onOk (fun bs : List (List (List ℝ)) => failSup k s (ptsOf 1 bs.flatten)) (.ok [[[ub + v, t]]]) = failSup k s [(ub + v, t)] := by
    intro v t
    simp [onOk, ptsOf, scaled, rowPoint]
  simp only [e]
  intro h0
  have m1 : Measurable fun q : ℝ × ℝ => failSup k s [(ub + q.1, q.2)] := meas_failSup measurable_const (by fun_prop)
  have : SFinite (RDist.uniform 0 1).law := by rw [RDist.law]; infer_instance
  rw [lintegral_eq_zero_iff m1.lintegral_prod_right'] at h0
  refine beta_low (b := 1 - ub) (by linarith) (measure_mono_null (fun v hv => ?_) h0)
  simp only [mem_Iio] at hv
  intro h1
  have mt : Measurable fun t : ℝ => failSup k s [(ub + v, t)] := m1.comp (f := fun t : ℝ => (v, t)) (by fun_prop)
  have h1' : ∫⁻ t, failSup k s [(ub + v, t)] ∂(RDist.uniform 0 1).law = 0 := h1
  rw [lintegral_eq_zero_iff mt] at h1'
  have h2 : ∀ᵐ t ∂(RDist.uniform 0 1).law, False := by
    filter_upwards [h1', unif_avoid one_pos s.t, uniform_ae (lo := 0) (hi := 1) zero_le_one] with t h1 h2 h3
    exact fail_pos hk h hb (by linarith) ⟨by simp, by simpa using ⟨h3.1, 1, List.mem_of_getLast? hlast, h3.2⟩⟩ h2 h1
  have h3 := mass_uniform 0 1
  simp only [ae_iff, not_false_eq_true, setOf_true] at h2
  rw [h2] at h3
  exact zero_ne_one h3

/-! ## The first point -/

/-- The state of the coin after the first batch. -/
theorem demo_after {A : List ℝ} (hfresh : ∃ r ∈ A, r ∉ demoFree.t) (h : AfterRound demoFree A s) : s.Free ∧ s.tight = 0 ∧ s.loose = 3 ∧ s.hitX = 2 ∧ s.bound = 2 ∧ s.t.getLast? = some 1 ∧ DualInv demoFree s.drop := by
  obtain ⟨hp, vals, hst⟩ := h
  have h1 : s.tight = 0 := hst.tight
  have h2 : s.loose = 3 := hst.loose
  have h3 : s.hitX = 2 := hst.hitX
  have hF : s.Free := hp.resolve_right fun hn => by
    have := hn.hit.1
    simp only [EaSkel.neg, h1, h3] at this
    norm_num at this
  obtain ⟨hs', e, -⟩ := hst.flags hfresh _ rfl
  refine ⟨hF, h1, h2, h3, by rw [EaSkel.bound, e, if_neg (by simp), h3], hst.last, ⟨Or.inl hF.hit, h1, h2⟩, rfl⟩

theorem one_round {n k : ℕ} {s : EaSkel} {ps : List (ℝ × ℝ)} {z : EaSkel} (hv : s.Valid) (hI : HitInv z s) (hs : (ps.map Prod.snd).Pairwise (· < ·)) (h0 : ps ≠ []) (hp : ∀ p ∈ ps, 0 ≤ p.2 ∧ p.2 < 1) (K : EaSkel → Prog (Bool × EaSkel)) :
    ((dualStep true (interpolateSeed n k oneOp) (interpolateSeed n k oneOp) (fun _ => 0) disc2 1 true s ps).bind fun q => if q.1 then .ret (false, q.2) else K q.2).prob IsTrue ≤
      roundVal n k s ((scaled 1 ps).map Prod.snd) fun s' => (K s'.drop).prob IsTrue := by
  have hb : ∀ t, 0 ≤ t → t ≤ oneOp.finT → ∀ w ∈ Set.uIcc z.loose z.tight, dualGap true 0 (disc2 (pathVal oneOp t w)) ≤ 1 := fun t _ _ w _ => by
    rw [gap2]
    exact (disc2_mem _).2
  have e1 : oneOp.finT = 1 := rfl
  have := dual_value (n := n) (k := k) (guard := true) (op0 := oneOp) (op1 := oneOp) (disc0 := fun _ => 0) (disc1 := disc2) (upside := true) (h := 1) (z := z) (by rw [e1]; exact one_pos) rfl hb hv hI hs h0 hp fun b u => if b then .ret (false, u) else K u
  rw [this, e1, inv_one]
  unfold roundVal
  refine Prog.lexp_mono _ ?_
  rintro (e | r)
  · exact le_rfl
  simp only [onOk]
  split_ifs
  · rw [Prog.prob, Prog.lexp_ret, if_neg]
    · exact zero_le
    · rintro ⟨_, h⟩
      simp at h
  · exact le_rfl

/-- The coin of the witness after the first batch. -/
theorem second_bound (hk : 0 < k) (h : s.Free) (hI : DualInv demoFree s) (hlast : s.t.getLast? = some 1) (ub : ℝ) (n : ℕ) :
    (coinLoop (dualStep true (interpolateSeed n k oneOp) (interpolateSeed n k oneOp) (fun _ => 0) disc2 1 true) 2 1 1 s ub [1]).prob IsTrue ≤ secondClear k s ub := by
  have hb : ∀ t, 0 ≤ t → t ≤ oneOp.finT → ∀ w ∈ Set.uIcc demoFree.loose demoFree.tight, dualGap true 0 (disc2 (pathVal oneOp t w)) ≤ 1 := fun t _ _ w _ => by
    rw [gap2]
    exact (disc2_mem _).2
  have e1 : oneOp.finT = 1 := rfl
  have hst := dualCoin_step (k := k) (guard := true) (op0 := oneOp) (op1 := oneOp) (by rw [e1]; exact one_pos) rfl (measurable_const (a := (0 : ℝ))) meas_disc2 hb
  rw [e1, inv_one] at hst
  exact (coinLoop_lim hst hk meas_flagBad one_pos one_pos one_pos (m := 2) (is := [1]) (by simp) s ub (Or.inl h) hI (by rw [hlast, one_mul])).2 n

/-- What the first batch leaves to the second one. -/
noncomputable def afterFirst (k : ℕ) (G : EaSkel → ℝ → ℝ≥0∞) (r : ℝ × List (List ℝ)) : ℝ≥0∞ := roundSup k demoFree (timesOf (ptsOf 1 r.2)) fun s' => G s'.drop r.1

theorem meas_afterFirst (k : ℕ) {G : EaSkel → ℝ → ℝ≥0∞} (hG : Measurable fun q : EaSkel × ℝ => G q.1 q.2) : Measurable (afterFirst k G) :=
  meas_roundSup k measurable_const (meas_timesOf (by fun_prop)) (hG.comp (f := fun p : (ℝ × List (List ℝ)) × EaSkel => (p.2.drop, p.1.1)) (by fun_prop))

theorem demo_last : demoFree.t.getLast? = some 1 := rfl

/-- A first batch as it comes almost surely. -/
def GoodFirst (r : ℝ × List (List ℝ)) : Prop := (GoodRows 1 (demoFree.t.map (1⁻¹ * ·)) r.2 ∧ r.2 ≠ []) ∧ r.1 < 1

theorem first_good : (pppBatch 2 1 [1] 0 1).lexp (offInf GoodFirst) = 0 := by
  refine offInf_mono (batch_good one_pos one_pos one_pos 0 (demoFree.t.map (1⁻¹ * ·))) ?_
  rintro ⟨ub, rows⟩ ho ha
  have := (pppBatch_ok one_pos (by simp) one_pos ho).2.1
  exact ⟨ha, by linarith⟩

theorem first_bound {r : ℝ × List (List ℝ)} (hk : 0 < k) (hr : GoodFirst r) (n : ℕ) :
    ((dualStep true (interpolateSeed n k oneOp) (interpolateSeed n k oneOp) (fun _ => 0) disc2 1 true demoFree (byTime r.2)).bind fun q =>
      if q.1 then .ret (false, q.2) else coinLoop (dualStep true (interpolateSeed n k oneOp) (interpolateSeed n k oneOp) (fun _ => 0) disc2 1 true) 2 1 1 q.2 r.1 [1]).prob IsTrue ≤
      afterFirst k (secondClear k) r := by
  obtain ⟨⟨hg, h0⟩, hub⟩ := hr
  have hA := good_times (s := demoFree) one_pos (by rw [demo_last, one_mul]) hg
  have hne : byTime r.2 ≠ [] := fun e => by
    have := (byTime_perm r.2).length_eq
    rw [e] at this
    simp at this
    exact h0 (List.length_eq_zero_iff.1 this.symm)
  have hpw : ((byTime r.2).map Prod.snd).Pairwise (· < ·) := by
    have h1 := byTime_sorted r.2
    have h2 : ((byTime r.2).map Prod.snd).Nodup := by
      rw [((byTime_perm r.2).map Prod.snd).nodup_iff, List.map_map]
      exact hg.1.1
    exact (h1.and h2).imp fun h => lt_of_le_of_ne h.1 h.2
  have hin : ∀ p ∈ byTime r.2, 0 ≤ p.2 ∧ p.2 < 1 := fun p hp => by
    obtain ⟨row, hrow, rfl⟩ := List.mem_map.1 ((byTime_perm r.2).mem_iff.1 hp)
    exact hg.2 _ (List.mem_map_of_mem (f := fun r => (rowPoint r).2) hrow)
  have hfresh := times_fresh (s := demoFree) one_pos h0 hg
  refine (one_round (z := demoFree) demoFree_free.valid ⟨Or.inl demoFree_free.hit, rfl, rfl⟩ hpw hne hin fun q => coinLoop _ 2 1 1 q r.1 [1]).trans ?_
  rw [byTime_scaled one_pos]
  refine le_trans ?_ (le_iSup _ n)
  rw [← roundProg_val, ← roundProg_val]
  refine lexp_le_of_ae (reg_roundProg n k (X := Unit) measurable_const measurable_const) () (roundProg_after hk (Or.inl demoFree_free) hA (times_ne h0) hfresh)
    ((meas_secondClear k).comp (f := fun s' : EaSkel => (s'.drop, r.1)) (by fun_prop)) fun s' hs' => ?_
  obtain ⟨hF, -, -, -, -, hl, hI⟩ := demo_after hfresh hs'
  exact second_bound hk (drop_free hF) hI hl _ n

theorem first_add {r : ℝ × List (List ℝ)} (hk : 0 < k) (hr : GoodFirst r) : afterFirst k (secondClear k) r + afterFirst k (secondFail k) r = 1 := by
  obtain ⟨⟨hg, h0⟩, hub⟩ := hr
  have hA := good_times (s := demoFree) one_pos (by rw [demo_last, one_mul]) hg
  have hfresh := times_fresh (s := demoFree) one_pos h0 hg
  have m1 : Measurable fun s' : EaSkel => secondClear k s'.drop r.1 := (meas_secondClear k).comp (f := fun s' : EaSkel => (s'.drop, r.1)) (by fun_prop)
  have m2 : Measurable fun s' : EaSkel => secondFail k s'.drop r.1 := (meas_secondFail k).comp (f := fun s' : EaSkel => (s'.drop, r.1)) (by fun_prop)
  unfold afterFirst
  rw [← roundSup_add hk (Or.inl demoFree_free) hA m1 m2]
  refine Eq.trans ?_ (roundSup_one hk (Or.inl demoFree_free) hA)
  unfold roundSup
  refine iSup_congr fun n => ?_
  rw [← roundProg_val, ← roundProg_val]
  refine lexp_congr_ae (reg_roundProg n k (X := Unit) measurable_const measurable_const) () (roundProg_after hk (Or.inl demoFree_free) hA (times_ne h0) hfresh) (m1.add m2) measurable_const fun s' hs' => ?_
  obtain ⟨hF, -, -, -, -, hl, hI⟩ := demo_after hfresh hs'
  exact second_add hk (Or.inl (drop_free hF)) hl _

theorem first_pos {r : ℝ × List (List ℝ)} (hk : 0 < k) (hr : GoodFirst r) : afterFirst k (secondFail k) r ≠ 0 := by
  obtain ⟨⟨hg, h0⟩, hub⟩ := hr
  have hA := good_times (s := demoFree) one_pos (by rw [demo_last, one_mul]) hg
  have hfresh := times_fresh (s := demoFree) one_pos h0 hg
  have m2 : Measurable fun s' : EaSkel => secondFail k s'.drop r.1 := (meas_secondFail k).comp (f := fun s' : EaSkel => (s'.drop, r.1)) (by fun_prop)
  have h1 := roundSup_one hk (Or.inl demoFree_free) hA
  have : ∃ n, roundVal n k demoFree (timesOf (ptsOf 1 r.2)) (fun _ => 1) ≠ 0 := by
    by_contra hno
    push Not at hno
    unfold roundSup at h1
    simp [hno] at h1
  obtain ⟨n, hn⟩ := this
  rw [← roundProg_val] at hn
  intro hz
  unfold afterFirst roundSup at hz
  rw [ENNReal.iSup_eq_zero] at hz
  have hz' := hz n
  rw [← roundProg_val] at hz'
  refine lexp_pos (reg_roundProg n k measurable_const measurable_const) mass_roundProg (roundProg_after hk (Or.inl demoFree_free) hA (times_ne h0) hfresh) m2 (fun s' hs' => ?_) hn hz'
  obtain ⟨hF, ht, hlo, -, -, hl, hI⟩ := demo_after hfresh hs'
  refine second_pos hk (drop_free hF) ?_ hl hub
  rw [drop_bound, hlo]
  refine ⟨?_, by norm_num⟩
  show s'.tight ≤ 2
  rw [ht]
  norm_num

/-- Two batches. -/
noncomputable def twoClear (k : ℕ) : ℝ≥0∞ := (pppBatch 2 1 [1] 0 1).lexp (onOk (afterFirst k (secondClear k)))

theorem twoClear_lt (hk : 0 < k) : twoClear k < 1 := by
  have rB : Reg fun _ : Unit => pppBatch 2 1 [1] 0 1 := reg_pppBatch 2 1 measurable_const measurable_const measurable_const
  have mB : Mass1 (pppBatch 2 1 [1] 0 1) := mass_pppBatch (by norm_num) (by norm_num) _ _ _
  have h1 : (pppBatch 2 1 [1] 0 1).lexp (onOk fun _ => 1) = 1 := lexp_ok_one mB fun e he =>
    pppLoop_no_error (n := 2) (b0 := 1) (bs := [1]) [1] (lb := 0) (e := e) (by
      rw [pppLoop, Prog.out_bind_error]
      exact Or.inl he)
  have m1 := meas_afterFirst k (meas_secondClear k)
  have m2 := meas_afterFirst k (meas_secondFail k)
  have e : twoClear k + (pppBatch 2 1 [1] 0 1).lexp (onOk (afterFirst k (secondFail k))) = 1 := by
    rw [twoClear, ← lexp_onOk_add rB m1, ← h1]
    exact lexp_congr_ae rB () first_good (m1.add m2) measurable_const fun r hr => first_add hk hr
  have h2 : (pppBatch 2 1 [1] 0 1).lexp (onOk (afterFirst k (secondFail k))) ≠ 0 := lexp_pos rB mB first_good m2 (fun r hr => first_pos hk hr) (by rw [h1]; exact one_ne_zero)
  refine lt_of_le_of_ne (le_self_add.trans e.le) fun h => ?_
  rw [h] at e
  exact h2 (by simpa using e)

theorem two_bound (hk : 0 < k) (n : ℕ) :
    (coinLoop (dualStep true (interpolateSeed n k oneOp) (interpolateSeed n k oneOp) (fun _ => 0) disc2 1 true) 2 1 1 demoFree 0 [1, 1]).prob IsTrue ≤ twoClear k := by
  have rB : Reg fun _ : Unit => pppBatch 2 1 [1] 0 1 := reg_pppBatch 2 1 measurable_const measurable_const measurable_const
  have e1 : ∀ step : EaSkel → List (ℝ × ℝ) → Prog (Bool × EaSkel), (coinLoop step 2 1 1 demoFree 0 [1, 1]).prob IsTrue = (pppBatch 2 1 [1] 0 1).lexp (onOk fun r =>
      ((step demoFree (byTime r.2)).bind fun q => if q.1 then .ret (false, q.2) else coinLoop step 2 1 1 q.2 r.1 [1]).prob IsTrue) := by
    intro step
    rw [coinLoop, Prog.prob, Prog.lexp_bind]
    congr 1
    funext r
    rcases r with e | r
    · simp [onOk, IsTrue]
    · rfl
  rw [e1]
  exact lexp_le_of_ae rB () first_good (meas_afterFirst k (meas_secondClear k)) fun r hr => first_bound hk hr n

/-- Bound on the probability of the coin. -/
noncomputable def coinBound (k : ℕ) : ℝ≥0∞ := ∫⁻ m, (if m = 2 then twoClear k else 1) ∂(NDist.poisson 1).law

theorem coinBound_lt (hk : 0 < k) : coinBound k < 1 := by
  have hlt := twoClear_lt hk
  have hP : (NDist.poisson 1).law univ = 1 := mass_poisson 1
  have h2 : (NDist.poisson 1).law {2} ≠ 0 := by
    rw [NDist.law, poissonMeasure_singleton]
    simp
    positivity
  have e : coinBound k + (1 - twoClear k) * (NDist.poisson 1).law {2} = 1 := by
    rw [coinBound, ← lintegral_indicator_const (measurableSet_singleton 2), ← lintegral_add_right _ (measurable_const.indicator (measurableSet_singleton 2))]
    refine Eq.trans (lintegral_congr (g := fun _ => 1) fun m => ?_) (by simp [hP])
    by_cases hm : m = 2
    · simp [hm, add_tsub_cancel_of_le hlt.le]
    · simp [hm]
  have hne : (1 - twoClear k) * (NDist.poisson 1).law {2} ≠ 0 := mul_ne_zero (tsub_pos_of_lt hlt).ne' h2
  refine lt_of_le_of_ne (le_self_add.trans e.le) fun h => ?_
  rw [h] at e
  refine hne ?_
  have := (ENNReal.add_right_inj (a := 1) (b := (1 - twoClear k) * (NDist.poisson 1).law {2}) (c := 0) ENNReal.one_ne_top).1 (by rw [e, add_zero])
  exact this

/-! ## All points at once -/

theorem demo_clear {rows : List (List ℝ)} (hk : 0 < k) (hr : GoodRows 1 (demoFree.t.map (1⁻¹ * ·)) rows) (hm : ∀ r ∈ rows, 0 ≤ firstCoord r) : clearSup k flagBad demoFree (ptsOf 1 rows) = 1 := by
  by_cases h0 : rows = []
  · subst h0
    simp [clearSup, ptsOf, scaled, timesOf, roundSup, roundVal, interpolateSkel, clr, ClearOf, onOk]
  have hA := good_times (s := demoFree) one_pos (by rw [demo_last, one_mul]) hr
  have hfresh := times_fresh (s := demoFree) one_pos h0 hr
  unfold clearSup
  refine Eq.trans ?_ (roundSup_one hk (Or.inl demoFree_free) hA)
  unfold roundSup
  refine iSup_congr fun n => ?_
  rw [← roundProg_val, ← roundProg_val]
  refine lexp_congr_ae (reg_roundProg n k (X := Unit) measurable_const measurable_const) () (roundProg_after hk (Or.inl demoFree_free) hA (times_ne h0) hfresh)
    (meas_clr meas_flagBad measurable_const (by fun_prop) (by fun_prop)) measurable_const fun s' hs' => ?_
  obtain ⟨hF, -, -, -, hb, -, -⟩ := demo_after hfresh hs'
  rw [clr, if_pos]
  rintro ⟨t, v⟩ hq p hp -
  rw [flagBad_iff, not_lt]
  have hv := (hF.inside v (List.of_mem_zip hq).2).2
  rw [hb] at hv
  simp only [disc2, if_neg (not_lt.2 hv.le)]
  simp only [ptsOf, scaled, List.map_map, List.mem_map, Function.comp_apply] at hp
  obtain ⟨r, hr', rfl⟩ := hp
  exact hm r hr'

theorem demo_shot (hk : 0 < k) : (sampleBatchPpp 1 [1, 1] 1).lexp (onOk fun bs => clearSup k flagBad demoFree (ptsOf 1 bs.flatten)) = 1 := by
  have e2 : (sampleBatchPpp 1 [1, 1] 1).lexp (onOk fun bs => clearSup k flagBad demoFree (ptsOf 1 bs.flatten)) =
      ∫⁻ m, (pppLoop m 1 [1] 0 (batchSizes m 1)).lexp (onOk fun bs => clearSup k flagBad demoFree (ptsOf 1 bs.flatten)) ∂(NDist.poisson 1).law := by
    unfold sampleBatchPpp
    simp only [Prog.assert, zero_lt_one, if_true, Prog.ret_bind]
    rw [if_pos (by simp), Prog.ret_bind, Prog.lexp_nat]
    norm_num
  rw [e2]
  refine Eq.trans (lintegral_congr (g := fun _ => 1) fun m => ?_) (by simp [mass_poisson])
  have hi : ∀ i ∈ batchSizes m 1, 1 ≤ i ∧ i ≤ m := batchSizes_le one_pos
  rw [← loop_one (m := m) hi 0]
  have hgood : (pppLoop m 1 [1] 0 (batchSizes m 1)).lexp (offInf fun bs => GoodRows 1 (demoFree.t.map (1⁻¹ * ·)) bs.flatten ∧ ∀ r ∈ bs.flatten, 0 ≤ firstCoord r) = 0 :=
    offInf_mono (loop_good one_pos one_pos (fun i h => (hi i h).1) 0 _) fun bs ho hg => ⟨hg, fun r hr => ((pppLoop_ok one_pos (by simp) _ (fun i h => (hi i h).1) ho).2.2.1 r hr).1⟩
  exact lexp_congr_ae (reg_pppLoop m (X := Unit) measurable_const measurable_const measurable_const _) () hgood (meas_clearSup meas_flagBad measurable_const (by fun_prop)) measurable_const fun bs hbs => demo_clear hk hbs.1 hbs.2

end Ctb
