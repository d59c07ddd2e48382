import Verif.Lemmas.RoundTwo
import Verif.Lemmas.Coin

set_option linter.unusedSectionVars false

/-! # Coins on paths that are revealed batch by batch -/

namespace Ctb

open Classical MeasureTheory ProbabilityTheory Set Filter Topology
open scoped ENNReal

variable {s : EaSkel} {A B C newT : List ℝ} {n k : ℕ} {x0 T : ℝ} {disc : ℝ → ℝ} {c : ℝ} {bad : ℝ × ℝ → ℝ → Prop} {ps qs : List (ℝ × ℝ)}

/-- Indicator of `ClearOf`. -/
noncomputable def clr (bad : ℝ × ℝ → ℝ → Prop) (ps : List (ℝ × ℝ)) (t x : List ℝ) : ℝ≥0∞ := if ClearOf bad ps t x then 1 else 0

/-- The path is revealed at the times of all points at once. -/
noncomputable def clearSup (k : ℕ) (bad : ℝ × ℝ → ℝ → Prop) (s : EaSkel) (ps : List (ℝ × ℝ)) : ℝ≥0∞ := roundSup k s (timesOf ps) fun q => clr bad ps q.t q.x

/-- A point lies below the graph of `disc - c`. -/
def belowDisc (disc : ℝ → ℝ) (c : ℝ) (p : ℝ × ℝ) (x : ℝ) : Prop := p.1 < disc x - c

theorem clearSup_eq : clearSup k (belowDisc disc c) s ps = ⨆ n, clearProb n k disc c s ps := rfl

/-- The points, their times multiplied by `a`. -/
def scaled (a : ℝ) (ps : List (ℝ × ℝ)) : List (ℝ × ℝ) := ps.map fun p => (p.1, a * p.2)

/-- The points of batches, their times multiplied by `a`. -/
def ptsOf (a : ℝ) (rows : List (List ℝ)) : List (ℝ × ℝ) := scaled a (rows.map rowPoint)

/-- Measurability of a condition on points and values. -/
def MeasBad (bad : ℝ × ℝ → ℝ → Prop) : Prop := Measurable fun z : (ℝ × ℝ) × ℝ => bad z.1 z.2

theorem measBad_disc (hd : Measurable disc) : MeasBad (belowDisc disc c) := measurableSet_setOf.1 (measurableSet_lt (by fun_prop) (by fun_prop))

variable {X : Type} [MeasurableSpace X]

theorem meas_clr (hd : MeasBad bad) {p : X → List (ℝ × ℝ)} {t x : X → List ℝ} (hp : Measurable p) (ht : Measurable t) (hx : Measurable x) :
    Measurable fun y => clr bad (p y) (t y) (x y) := by
  unfold clr
  refine Measurable.ite ?_ measurable_const measurable_const
  refine measurableSet_setOf.2 ?_
  unfold ClearOf
  refine Measurable.memAll (P := fun y (q : ℝ × ℝ) => ∀ p' ∈ p y, p'.2 = q.1 → ¬ bad p' q.2) (by fun_prop) ?_
  refine Measurable.memAll (l := fun z : X × ℝ × ℝ => p z.1) (P := fun z (p' : ℝ × ℝ) => p'.2 = z.2.1 → ¬ bad p' z.2.2) (by fun_prop) ?_
  have h2 : Measurable fun z : (X × ℝ × ℝ) × ℝ × ℝ => z.2.2 = z.1.2.1 := measurableSet_setOf.1 (measurableSet_eq_fun (by fun_prop) (by fun_prop))
  have h3 : Measurable fun z : (X × ℝ × ℝ) × ℝ × ℝ => bad z.2 z.1.2.2 := Measurable.comp (g := fun z : (ℝ × ℝ) × ℝ => bad z.1 z.2) hd (f := fun z : (X × ℝ × ℝ) × ℝ × ℝ => (z.2, z.1.2.2)) (by fun_prop)
  exact h2.imp h3.not

theorem meas_timesOf {p : X → List (ℝ × ℝ)} (hp : Measurable p) : Measurable fun y => timesOf (p y) := by
  unfold timesOf
  exact Measurable.insertionSort (by fun_prop) (Measurable.listMap hp (by fun_prop))

theorem meas_clearSup (hd : MeasBad bad) {s : X → EaSkel} {p : X → List (ℝ × ℝ)} (hs : Measurable s) (hp : Measurable p) :
    Measurable fun y => clearSup k bad (s y) (p y) :=
  meas_roundSup k hs (meas_timesOf hp) (meas_clr hd (by fun_prop) (by fun_prop) (by fun_prop))

@[fun_prop] theorem meas_ptsOf (a : ℝ) {r : X → List (List ℝ)} (hr : Measurable r) : Measurable fun y => ptsOf a (r y) := by
  unfold ptsOf scaled
  refine Measurable.listMap (Measurable.listMap hr ?_) (by fun_prop)
  unfold rowPoint
  fun_prop

theorem reg_pppLoop (m : ℕ) {h lb : X → ℝ} {bs : X → List ℝ} (hh : Measurable h) (hb : Measurable bs) (hl : Measurable lb) (is : List ℕ) :
    Reg fun y => pppLoop m (h y) (bs y) (lb y) is := by
  have : Reg fun y : (ℝ × List ℝ) × ℝ => pppLoop m y.1.1 y.1.2 y.2 is := by
    induction is with
    | nil => exact Reg.ret (by fun_prop)
    | cons i is ih =>
      simp only [pppLoop]
      refine Reg.bind (reg_pppBatch m i (by fun_prop) (by fun_prop) (by fun_prop)) (Reg.bind ?_ (Reg.ret (by fun_prop)))
      exact ih.comp (f := fun y : ((ℝ × List ℝ) × ℝ) × ℝ × List (List ℝ) => (y.1.1, y.2.1)) (by fun_prop)
  exact this.comp (f := fun y => ((h y, bs y), lb y)) (by fun_prop)

theorem mass_pppLoop {m : ℕ} (h : ℝ) (bs : List ℝ) : ∀ (is : List ℕ), (∀ i ∈ is, 1 ≤ i ∧ i ≤ m) → ∀ lb, Mass1 (pppLoop m h bs lb is)
  | [], _, _ => .ret _
  | i :: is, hi, _ => (mass_pppBatch (hi i (by simp)).1 (hi i (by simp)).2 ..).bind fun _ _ =>
    (mass_pppLoop h bs is (fun j hj => hi j (List.mem_cons_of_mem _ hj)) _).bind fun _ _ => .ret _

/-! ## Times of points -/

theorem byTime_scaled {a : ℝ} (ha : 0 < a) (rows : List (List ℝ)) : (scaled a (byTime rows)).map Prod.snd = timesOf (ptsOf a rows) := by
  refine List.Perm.eq_of_pairwise (le := (· ≤ ·)) (fun a b _ _ h1 h2 => le_antisymm h1 h2) ?_ (List.pairwise_insertionSort _ _)
    ((((byTime_perm rows).map _).map _).trans (List.perm_insertionSort _ _).symm)
  have := byTime_sorted rows
  simp only [scaled, List.map_map, List.pairwise_map, Function.comp_apply] at this ⊢
  exact this.imp fun h => mul_le_mul_of_nonneg_left h ha.le

theorem scaled_perm (a : ℝ) (rows : List (List ℝ)) : (scaled a (byTime rows)).Perm (ptsOf a rows) := (byTime_perm rows).map _

theorem mem_timesOf {r : ℝ} : r ∈ timesOf ps ↔ ∃ p ∈ ps, p.2 = r := by
  rw [timesOf, List.mem_insertionSort]
  simp

theorem timesOf_sorted (h : (ps.map Prod.snd).Nodup) : (timesOf ps).Pairwise (· < ·) := by
  have h1 : (timesOf ps).Pairwise (· ≤ ·) := List.pairwise_insertionSort _ _
  have h2 : (timesOf ps).Nodup := (List.perm_insertionSort _ _).nodup_iff.2 h
  exact (h1.and h2).imp fun h => lt_of_le_of_ne h.1 h.2

theorem ptsOf_times (a : ℝ) (rows : List (List ℝ)) : (ptsOf a rows).map Prod.snd = (rowTimes rows).map (a * ·) := by simp [rowTimes, ptsOf, scaled, Function.comp_def]

/-! ## Values at the times of points -/

theorem zip_val_unique {t x : List ℝ} (h : t.Pairwise (· < ·)) {r a b : ℝ} (ha : (r, a) ∈ t.zip x) (hb : (r, b) ∈ t.zip x) : a = b := by
  obtain ⟨i, hi, e1⟩ := List.mem_iff_getElem.1 ha
  obtain ⟨j, hj, e2⟩ := List.mem_iff_getElem.1 hb
  simp only [List.getElem_zip, Prod.mk.injEq] at e1 e2
  have : i = j := (List.Nodup.getElem_inj_iff (h.imp fun h => h.ne)).1 (e1.1.trans e2.1.symm)
  subst this
  rw [← e1.2, ← e2.2]

theorem clear_perm (h : ps.Perm qs) {t x : List ℝ} : ClearOf bad ps t x ↔ ClearOf bad qs t x := by
  simp only [ClearOf, h.mem_iff]

theorem clear_append {t x : List ℝ} : ClearOf bad (ps ++ qs) t x ↔ ClearOf bad ps t x ∧ ClearOf bad qs t x := by
  simp only [ClearOf, List.mem_append]
  exact ⟨fun h => ⟨fun q hq p hp => h q hq p (Or.inl hp), fun q hq p hp => h q hq p (Or.inr hp)⟩, fun h q hq p hp => hp.elim (h.1 q hq p) (h.2 q hq p)⟩

/-- Points at times that are known already stay clear or not. -/
theorem clear_old {t x newT t' x' vals : List ℝ} (h : Refines t x newT t' x' vals) (hl : x.length = t.length) (hp : ∀ p ∈ ps, p.2 ∈ t) : ClearOf bad ps t' x' ↔ ClearOf bad ps t x := by
  refine ⟨fun H q hq p hpp e => H q (h.old q hq) p hpp e, fun H q hq p hpp e => ?_⟩
  obtain ⟨i, hi, ei⟩ := List.mem_iff_getElem.1 (hp p hpp)
  have hm : (q.1, x[i]'(by omega)) ∈ t.zip x := by
    refine List.mem_iff_getElem.2 ⟨i, by simp; omega, ?_⟩
    simp [ei, e]
  have := H _ hm p hpp e
  rwa [zip_val_unique h.sorted (h.old _ hm) (show (q.1, q.2) ∈ t'.zip x' from hq)] at this

theorem any_iff [∀ p x, Decidable (bad p x)] {t' x' : List ℝ} (ht : t'.Pairwise (· < ·)) : ∀ {ps : List (ℝ × ℝ)} {vals : List ℝ}, List.Forall₂ (fun r v => (r, v) ∈ t'.zip x') (ps.map Prod.snd) vals →
    ((List.zipWith (fun (p : ℝ × ℝ) x => decide (bad p x)) ps vals).any id = false ↔ ClearOf bad ps t' x')
  | [], _, h => by
    cases h
    simp [ClearOf]
  | p :: ps, _, h => by
    rw [List.map_cons] at h
    cases h with
    | @cons _ v _ vs h1 h2 =>
    have := any_iff ht h2
    simp only [List.zipWith_cons_cons, List.any_cons, id, Bool.or_eq_false_iff, decide_eq_false_iff_not, this]
    rw [← List.singleton_append, clear_append]
    refine and_congr_left fun _ => ?_
    simp only [ClearOf, List.mem_singleton, forall_eq]
    refine ⟨fun H q hq e => ?_, fun H => H _ h1 rfl⟩
    rwa [← zip_val_unique ht h1 (show (p.2, q.2) ∈ t'.zip x' from by rw [e]; exact hq)]

/-- A step of a coin reveals the path at the times of the points, multiplied by `a`, and fails if a point is bad. -/
structure RoundStep (k : ℕ) (bad : ℝ × ℝ → ℝ → Prop) (a T : ℝ) (Inv : EaSkel → Prop) (step : ℕ → EaSkel → List (ℝ × ℝ) → Prog (Bool × EaSkel)) : Prop where
  reg : ∀ n, Reg fun q : Unit × EaSkel × List (ℝ × ℝ) => step n q.2.1 q.2.2
  mass : ∀ n s ps, Mass1 (step n s ps)
  keep : ∀ {s A s' vals}, Inv s → SkelStep s A s' vals → Inv s'
  val : ∀ {n s ps}, s.Valid → Inv s → (ps.map Prod.snd).Pairwise (· < ·) → ps ≠ [] → (∀ p ∈ ps, 0 ≤ p.2 ∧ p.2 < T) → ∀ K : EaSkel → Prog (Bool × EaSkel),
    ((step n s ps).bind fun q => if q.1 then .ret (false, q.2) else K q.2).prob IsTrue =
      roundVal n k s ((scaled a ps).map Prod.snd) fun s' => clr bad (scaled a ps) s'.t s'.x * (K s').prob IsTrue

/-- The step raises no exception but those of the interpolation. -/
def EndStep (k : ℕ) (a T : ℝ) (Inv : EaSkel → Prop) (step : ℕ → EaSkel → List (ℝ × ℝ) → Prog (Bool × EaSkel)) : Prop :=
  ∀ {n s ps}, s.Valid → Inv s → (ps.map Prod.snd).Pairwise (· < ·) → ps ≠ [] → (∀ p ∈ ps, 0 ≤ p.2 ∧ p.2 < T) → ∀ K : EaSkel → Prog (Bool × EaSkel),
    ((step n s ps).bind fun q => K q.2).prob IsTrue = roundVal n k s ((scaled a ps).map Prod.snd) fun s' => (K s').prob IsTrue

theorem scaled_one (ps : List (ℝ × ℝ)) : scaled 1 ps = ps := by simp [scaled]

theorem skelCoin_step (hd : Measurable disc) : RoundStep k (belowDisc disc c) 1 T (fun _ => True) fun n => skelStep (interpolateSkel n k) disc c where
  reg n := reg_skelStep (X := Unit) (interp := fun _ => interpolateSkel n k) (disc := fun _ => disc) (c := fun _ => c) (reg_interpolateSkel n k (by fun_prop) (by fun_prop)) (hd.comp measurable_snd) measurable_const
  mass n s ps := (mass_interpolateSkel ..).bind fun _ _ => .ite (fun _ => .err _) fun _ => .ret _
  keep _ _ := trivial
  val {n s ps} hv _ hs h0 _ K := by
    rw [scaled_one]
    unfold skelStep roundVal
    rw [Prog.bind_assoc, Prog.prob, Prog.lexp_bind]
    refine Prog.lexp_congr ?_
    rintro (e | ⟨s', vals⟩) hq
    · simp [onOk, IsTrue]
    have hstep := interpolateSkel_out hv hs (by simpa using h0) hq
    have hlen : vals.length = ps.length := by simpa using hstep.refines.new.length_eq.symm
    rw [Prog.cont_ok]
    simp only [onOk]
    rw [if_neg (by simp [hlen]), Prog.ret_bind]
    have hi : (List.zipWith (fun (p : ℝ × ℝ) x => decide (p.1 < disc x - c)) ps vals).any id = false ↔ ClearOf (belowDisc disc c) ps s'.t s'.x := by
      rw [← any_iff (bad := belowDisc disc c) hstep.refines.sorted hstep.refines.new]
      unfold belowDisc
      congr!
    by_cases hC : ClearOf (belowDisc disc c) ps s'.t s'.x
    · rw [if_neg (by simp only [hi.2 hC]; simp), clr, if_pos hC, one_mul]
      rfl
    · have : (List.zipWith (fun (p : ℝ × ℝ) x => decide (p.1 < disc x - c)) ps vals).any id = true := by
        by_contra hne
        exact hC (hi.1 (by simpa using hne))
      simp only [this, if_true]
      rw [clr, if_neg hC, zero_mul, Prog.lexp_ret, if_neg]
      rintro ⟨_, h⟩
      simp at h

theorem skelCoin_end : EndStep k 1 T (fun _ => True) fun n => skelStep (interpolateSkel n k) disc c := by
  intro n s ps hv _ hs h0 _ K
  rw [scaled_one]
  unfold skelStep roundVal
  rw [Prog.bind_assoc, Prog.prob, Prog.lexp_bind]
  refine Prog.lexp_congr ?_
  rintro (e | ⟨s', vals⟩) hq
  · simp [onOk, IsTrue]
  have hstep := interpolateSkel_out hv hs (by simpa using h0) hq
  have hlen : vals.length = ps.length := by simpa using hstep.refines.new.length_eq.symm
  rw [Prog.cont_ok]
  simp only [onOk]
  rw [if_neg (by simp [hlen]), Prog.ret_bind]
  rfl

/-- The step with a coin that never fails. -/
noncomputable def neverStep (step : ℕ → EaSkel → List (ℝ × ℝ) → Prog (Bool × EaSkel)) (n : ℕ) (s : EaSkel) (ps : List (ℝ × ℝ)) : Prog (Bool × EaSkel) := (step n s ps).bind fun q => .ret (false, q.2)

theorem neverCoin_step {a : ℝ} {Inv : EaSkel → Prop} {step : ℕ → EaSkel → List (ℝ × ℝ) → Prog (Bool × EaSkel)} (hs : RoundStep k bad a T Inv step) (he : EndStep k a T Inv step) :
    RoundStep k (fun _ _ => False) a T Inv (neverStep step) where
  reg n := Reg.bind (hs.reg n) (Reg.ret (by fun_prop))
  mass n s ps := (hs.mass n s ps).bind fun _ _ => .ret _
  keep := hs.keep
  val {n s ps} hv hI h1 h2 h3 K := by
    have := he (n := n) hv hI h1 h2 h3 K
    unfold neverStep
    rw [Prog.bind_assoc]
    simp only [Prog.ret_bind, Bool.false_eq_true, if_false]
    rw [this]
    congr 1
    funext s'
    simp [clr, ClearOf]

theorem interp_old (hv : s.Valid) (hB : B.Pairwise (· < ·)) (hp : ∀ p ∈ ps, p.2 ∈ s.t) {q : EaSkel × List ℝ} (hq : (interpolateSkel n k s B).Out (.ok q)) :
    ClearOf bad ps q.1.t q.1.x ↔ ClearOf bad ps s.t s.x := by
  by_cases h0 : B = []
  · rw [h0] at hq
    simp only [interpolateSkel, if_true, Prog.out_ret, Except.ok.injEq] at hq
    rw [hq]
  · exact clear_old (interpolateSkel_out hv hB h0 hq).refines hv.len hp

theorem clr_pull (hv : s.Valid) (hB : (timesOf qs).Pairwise (· < ·)) (hp : ∀ p ∈ ps, p.2 ∈ s.t) :
    clr bad ps s.t s.x * clearSup k bad s qs = roundSup k s (timesOf qs) fun q => clr bad (ps ++ qs) q.t q.x := by
  unfold clearSup roundSup
  rw [ENNReal.mul_iSup]
  refine iSup_congr fun n => ?_
  unfold roundVal
  by_cases hC : ClearOf bad ps s.t s.x
  · rw [clr, if_pos hC, one_mul]
    refine Prog.lexp_congr ?_
    rintro (e | q) hq
    · rfl
    have := (interp_old hv hB hp hq).2 hC
    simp only [onOk, clr, clear_append, this, true_and]
  · rw [clr, if_neg hC, zero_mul]
    refine ((Prog.lexp_congr (h := fun _ => 0) ?_).trans (Prog.lexp_zero _)).symm
    rintro (e | q) hq
    · rfl
    have := mt (interp_old hv hB hp hq).1 hC
    simp only [onOk, clr, clear_append, this, false_and, if_false]

theorem clear_rounds (hk : 0 < k) (hd : MeasBad bad) (h : s.Plain) (hA : s.Times (timesOf ps)) (hB : s.Times (timesOf qs)) (hC : s.Times (timesOf (ps ++ qs))) (h0 : timesOf ps ≠ [])
    (hfresh : ∃ r ∈ timesOf ps, r ∉ s.t) :
    roundSup k s (timesOf ps) (fun s' => clr bad ps s'.t s'.x * clearSup k bad s' qs) = clearSup k bad s (ps ++ qs) := by
  have m1 : Measurable fun s' : EaSkel => clr bad ps s'.t s'.x * clearSup k bad s' qs :=
    (meas_clr hd measurable_const (by fun_prop) (by fun_prop)).mul (meas_clearSup hd measurable_id measurable_const)
  have m2 : Measurable fun s' : EaSkel => roundSup k s' (timesOf qs) fun q => clr bad (ps ++ qs) q.t q.x :=
    meas_roundSup k measurable_id measurable_const (meas_clr hd measurable_const (by fun_prop) (by fun_prop))
  have e : roundSup k s (timesOf ps) (fun s' => clr bad ps s'.t s'.x * clearSup k bad s' qs) =
      roundSup k s (timesOf ps) (fun s' => roundSup k s' (timesOf qs) fun q => clr bad (ps ++ qs) q.t q.x) := by
    unfold roundSup
    refine iSup_congr fun n => ?_
    rw [← roundProg_val, ← roundProg_val]
    refine lexp_congr_ae (reg_roundProg n k (X := Unit) measurable_const measurable_const) () (roundProg_after hk h hA h0 hfresh) m1 m2 ?_
    rintro s' ⟨hs', vals, hst⟩
    exact clr_pull hst.valid hB.1 fun p hp => (hst.refines.times _).2 (Or.inr (mem_timesOf.2 ⟨p, hp, rfl⟩))
  rw [e]
  refine roundSup_two (F := clr bad (ps ++ qs)) hk h hA hB hC (fun r => ?_) h0 hfresh (fun t n => meas_clr hd measurable_const measurable_const (measurable_ofFn n)) (meas_clr hd measurable_const (by fun_prop) (by fun_prop))
  simp only [mem_timesOf, List.mem_append]
  exact ⟨fun ⟨p, hp, e⟩ => hp.imp (fun hp => ⟨p, hp, e⟩) fun hp => ⟨p, hp, e⟩, fun h => h.elim (fun ⟨p, hp, e⟩ => ⟨p, Or.inl hp, e⟩) fun ⟨p, hp, e⟩ => ⟨p, Or.inr hp, e⟩⟩

/-! ## All batches -/

theorem row_times {T : ℝ} {rows : List (List ℝ)} (h : ∀ p ∈ rows, List.Forall₂ (fun b x => 0 ≤ x ∧ x < b) [T] p.tail) : ∀ t ∈ rowTimes rows, 0 ≤ t ∧ t < T := by
  intro t ht
  obtain ⟨row, hrow, rfl⟩ := List.mem_map.1 ht
  have h2 := h row hrow
  rcases hc : row.tail with _ | ⟨c, l⟩
  · rw [hc] at h2; cases h2
  · rw [hc] at h2
    cases h2 with
    | cons h1 h2 => simpa [rowPoint, hc] using h1

/-- Points at different times before `T`, none of which is in `L`. -/
def GoodRows (T : ℝ) (L : List ℝ) (rows : List (List ℝ)) : Prop := Apart L (rowTimes rows) ∧ ∀ t ∈ rowTimes rows, 0 ≤ t ∧ t < T

theorem batch_good {m i : ℕ} {h T : ℝ} (hh : 0 < h) (hT : 0 < T) (hi : 0 < i) (lb : ℝ) (L : List ℝ) :
    (pppBatch m h [T] lb i).lexp (offInf fun r => GoodRows T L r.2 ∧ r.2 ≠ []) = 0 := by
  refine offInf_mono (batch_apart hT m h lb i L) ?_
  rintro ⟨ub, rows⟩ ho ha
  obtain ⟨-, -, a3, -, a5⟩ := pppBatch_ok hh (by simpa using hT) hi ho
  refine ⟨⟨ha, row_times fun p hp => (a5 p hp).2.2⟩, ?_⟩
  rintro rfl
  simp at a3
  omega

theorem loop_good {m : ℕ} {h T : ℝ} (hh : 0 < h) (hT : 0 < T) {is : List ℕ} (hi : ∀ i ∈ is, 0 < i) (lb : ℝ) (L : List ℝ) :
    (pppLoop m h [T] lb is).lexp (offInf fun bs => GoodRows T L bs.flatten) = 0 :=
  offInf_mono (loop_apart hT m h is lb L) fun _ ho ha => ⟨ha, row_times fun p hp => ((pppLoop_ok hh (by simpa using hT) _ hi ho).2.2.1 p hp).2.2⟩

theorem good_times {a : ℝ} (ha : 0 < a) (hlast : s.t.getLast? = some (a * T)) {L : List ℝ} {rows : List (List ℝ)} (h : GoodRows T L rows) : s.Times (timesOf (ptsOf a rows)) := by
  refine ⟨timesOf_sorted (by rw [ptsOf_times]; exact h.1.1.map fun x y e => mul_left_cancel₀ ha.ne' e), fun r hr => ?_⟩
  obtain ⟨p, hp, rfl⟩ := mem_timesOf.1 hr
  have : p.2 ∈ (ptsOf a rows).map Prod.snd := List.mem_map_of_mem hp
  rw [ptsOf_times] at this
  obtain ⟨t, ht, e⟩ := List.mem_map.1 this
  obtain ⟨h1, h2⟩ := h.2 t ht
  rw [← e]
  exact ⟨mul_nonneg ha.le h1, a * T, List.mem_of_getLast? hlast, mul_le_mul_of_nonneg_left h2.le ha.le⟩

theorem good_append {L : List ℝ} {r1 r2 : List (List ℝ)} (h1 : GoodRows T L r1) (h2 : GoodRows T (rowTimes r1 ++ L) r2) : GoodRows T L (r1 ++ r2) := by
  have e : rowTimes (r1 ++ r2) = rowTimes r1 ++ rowTimes r2 := by simp [rowTimes]
  refine ⟨?_, fun p hp => ?_⟩
  · rw [e]
    refine ⟨List.nodup_append.2 ⟨h1.1.1, h2.1.1, fun a ha b hb' e => h2.1.2 b hb' (by simp [← e, ha])⟩, fun t ht => ?_⟩
    rcases List.mem_append.1 ht with ht | ht
    · exact h1.1.2 t ht
    · exact fun hL => h2.1.2 t ht (by simp [hL])
  · rw [e, List.mem_append] at hp
    exact hp.elim (h1.2 p) (h2.2 p)

theorem times_ne {a : ℝ} {rows : List (List ℝ)} (h0 : rows ≠ []) : timesOf (ptsOf a rows) ≠ [] := by
  intro e
  have := (List.perm_insertionSort (· ≤ ·) ((ptsOf a rows).map Prod.snd)).length_eq
  rw [show List.insertionSort (· ≤ ·) ((ptsOf a rows).map Prod.snd) = [] from e] at this
  simp [ptsOf, scaled] at this
  exact h0 (List.length_eq_zero_iff.1 this.symm)

theorem times_fresh {a : ℝ} (ha : 0 < a) {rows : List (List ℝ)} (h0 : rows ≠ []) (hr : GoodRows T (s.t.map (a⁻¹ * ·)) rows) : ∃ r ∈ timesOf (ptsOf a rows), r ∉ s.t := by
  obtain ⟨r, hr'⟩ := List.exists_mem_of_ne_nil _ (times_ne (a := a) h0)
  refine ⟨r, hr', fun hrt => ?_⟩
  have : r ∈ (ptsOf a rows).map Prod.snd := (List.perm_insertionSort (· ≤ ·) _).mem_iff.1 hr'
  rw [ptsOf_times] at this
  obtain ⟨t, ht, rfl⟩ := List.mem_map.1 this
  refine hr.1.2 t ht (List.mem_map.2 ⟨_, hrt, ?_⟩)
  field_simp

theorem ptsOf_append (a : ℝ) (r1 r2 : List (List ℝ)) : ptsOf a (r1 ++ r2) = ptsOf a r1 ++ ptsOf a r2 := by simp [ptsOf, scaled]

/-- After one batch the path is revealed at the times of the later ones; equivalently, at all times at once. -/
theorem batch_split (hk : 0 < k) (hd : MeasBad bad) {h a : ℝ} (ha : 0 < a) (hh : 0 < h) (hT : 0 < T) (hs : s.Plain) (hlast : s.t.getLast? = some (a * T)) {m : ℕ} {is : List ℕ} (hi : ∀ i ∈ is, 1 ≤ i ∧ i ≤ m)
    (ub : ℝ) {rows : List (List ℝ)} (hr : GoodRows T (s.t.map (a⁻¹ * ·)) rows) (h0 : rows ≠ []) :
    roundSup k s (timesOf (ptsOf a rows)) (fun s' => clr bad (ptsOf a rows) s'.t s'.x * (pppLoop m h [T] ub is).lexp (onOk fun bs => clearSup k bad s' (ptsOf a bs.flatten))) =
      (pppLoop m h [T] ub is).lexp (onOk fun bs => clearSup k bad s (ptsOf a rows ++ ptsOf a bs.flatten)) := by
  have hA := good_times ha hlast hr
  have hne := times_ne (a := a) h0
  have hfresh := times_fresh ha h0 hr
  have rL : Reg fun _ : Unit => pppLoop m h [T] ub is := reg_pppLoop m measurable_const measurable_const measurable_const is
  have m1 : Measurable fun q : EaSkel × List (List (List ℝ)) => clr bad (ptsOf a rows) q.1.t q.1.x * clearSup k bad q.1 (ptsOf a q.2.flatten) :=
    (meas_clr hd measurable_const (by fun_prop) (by fun_prop)).mul (meas_clearSup hd measurable_fst (by fun_prop))
  have mb : ∀ bs : List (List (List ℝ)), Measurable fun s' : EaSkel => clr bad (ptsOf a rows) s'.t s'.x * clearSup k bad s' (ptsOf a bs.flatten) := fun bs => m1.comp (f := fun s' => (s', bs)) (by fun_prop)
  have e1 : ∀ n, roundVal n k s (timesOf (ptsOf a rows)) (fun s' => clr bad (ptsOf a rows) s'.t s'.x * (pppLoop m h [T] ub is).lexp (onOk fun bs => clearSup k bad s' (ptsOf a bs.flatten))) =
      (pppLoop m h [T] ub is).lexp (onOk fun bs => roundVal n k s (timesOf (ptsOf a rows)) fun s' => clr bad (ptsOf a rows) s'.t s'.x * clearSup k bad s' (ptsOf a bs.flatten)) := by
    intro n
    simp only [← roundProg_val]
    rw [← lexp_comm (reg_roundProg n k measurable_const measurable_const) rL mass_roundProg (mass_pppLoop h [T] is hi ub) m1]
    congr 1
    congr 1
    funext s'
    unfold clr
    split_ifs
    · simp
    · simp only [zero_mul]
      refine ((Prog.lexp_congr (h := fun _ => 0) ?_).trans (Prog.lexp_zero _)).symm
      rintro (e | q) hq <;> rfl
  rw [roundSup]
  simp only [e1]
  rw [← lexp_onOk_sup rL () (fun n => meas_roundVal n k measurable_const measurable_const (m1.comp (f := fun q : List (List (List ℝ)) × EaSkel => (q.2, q.1)) (by fun_prop)))
    (fun i j hij bs => roundVal_mono hk hs hA (mb bs) hij)]
  refine lexp_congr_ae rL () (loop_good hh hT (fun i hi' => (hi i hi').1) ub (rowTimes rows ++ s.t.map (a⁻¹ * ·))) (Measurable.iSup fun n =>
    meas_roundVal n k measurable_const measurable_const (m1.comp (f := fun q : List (List (List ℝ)) × EaSkel => (q.2, q.1)) (by fun_prop)))
    (meas_clearSup hd measurable_const (by fun_prop)) fun bs hbs => ?_
  refine clear_rounds hk hd hs hA (good_times ha hlast hbs) ?_ hne hfresh
  rw [← ptsOf_append]
  exact good_times ha hlast (good_append hr hbs)

theorem isTrue_meas {σ : Type} [MeasurableSpace σ] : Measurable fun a : Bool × σ => if IsTrue (Except.ok a : Res (Bool × σ)) then (1 : ℝ≥0∞) else 0 := by
  have : (fun a : Bool × σ => if IsTrue (Except.ok a : Res (Bool × σ)) then (1 : ℝ≥0∞) else 0) = fun a => if a.1 = true then 1 else 0 := by
    funext a
    rcases a with ⟨b, s⟩
    cases b <;> simp [IsTrue]
  rw [this]
  exact Measurable.ite (measurable_fst (measurableSet_singleton true)) measurable_const measurable_const

variable {a : ℝ} {Inv : EaSkel → Prop} {step : ℕ → EaSkel → List (ℝ × ℝ) → Prog (Bool × EaSkel)}

theorem coinLoop_lim (hstep : RoundStep k bad a T Inv step) (hk : 0 < k) (hd : MeasBad bad) {h : ℝ} (ha : 0 < a) (hh : 0 < h) (hT : 0 < T) {m : ℕ} {is : List ℕ} (hi : ∀ i ∈ is, 1 ≤ i ∧ i ≤ m) :
    ∀ (s : EaSkel) (lb : ℝ), s.Plain → Inv s → s.t.getLast? = some (a * T) →
    Tendsto (fun n => (coinLoop (step n) m h T s lb is).prob IsTrue) atTop (𝓝 ((pppLoop m h [T] lb is).lexp (onOk fun bs => clearSup k bad s (ptsOf a bs.flatten)))) ∧
    ∀ n, (coinLoop (step n) m h T s lb is).prob IsTrue ≤ (pppLoop m h [T] lb is).lexp (onOk fun bs => clearSup k bad s (ptsOf a bs.flatten)) := by
  induction is with
  | nil =>
    intro s lb hs hinv hlast
    have e1 : ∀ n, (coinLoop (step n) m h T s lb []).prob IsTrue = 1 := by
      intro n
      rw [coinLoop, Prog.prob, Prog.lexp_ret, if_pos ⟨s, rfl⟩]
    have e2 : (pppLoop m h [T] lb []).lexp (onOk fun bs => clearSup k bad s (ptsOf a bs.flatten)) = 1 := by
      rw [pppLoop, Prog.lexp_ret]
      simp [onOk, clearSup, ptsOf, scaled, timesOf, roundSup, roundVal, interpolateSkel, clr, ClearOf]
    simp only [e1, e2]
    exact ⟨tendsto_const_nhds, fun _ => le_rfl⟩
  | cons i is ih =>
    intro s lb hs hinv hlast
    have hi' : ∀ i ∈ is, 1 ≤ i ∧ i ≤ m := fun j hj => hi j (by simp [hj])
    specialize ih hi'
    have rB : Reg fun _ : Unit => pppBatch m h [T] lb i := reg_pppBatch m i measurable_const measurable_const measurable_const
    have rS := hstep.reg
    have rC : ∀ n, Reg fun q : Unit × EaSkel × ℝ => coinLoop (step n) m h T q.2.1 q.2.2 is := fun n =>
      reg_coinLoop (X := Unit) (step := fun _ => step n) (rS n) m (h := fun _ => h) measurable_const measurable_const is
    have rN : ∀ n, Reg fun r : ℝ × List (List ℝ) => (step n s (byTime r.2)).bind fun q =>
        if q.1 then .ret (false, q.2) else coinLoop (step n) m h T q.2 r.1 is := fun n =>
      Reg.bind ((rS n).comp (f := fun r : ℝ × List (List ℝ) => ((), s, byTime r.2)) (by fun_prop)) (Reg.ite' (by fun_prop) (Reg.ret (by fun_prop))
        ((rC n).comp (f := fun y : (ℝ × List (List ℝ)) × Bool × EaSkel => ((), y.2.2, y.1.1)) (by fun_prop)))
    have mC : ∀ n ub, Measurable fun s' : EaSkel => (coinLoop (step n) m h T s' ub is).prob IsTrue := fun n ub =>
      ((rC n).comp (f := fun s' : EaSkel => ((), s', ub)) (by fun_prop)).meas' isTrue_meas
    have mW : ∀ ub, Measurable fun s' : EaSkel => (pppLoop m h [T] ub is).lexp (onOk fun bs => clearSup k bad s' (ptsOf a bs.flatten)) := fun ub =>
      (reg_pppLoop m (X := EaSkel) (h := fun _ => h) (bs := fun _ => [T]) (lb := fun _ => ub) measurable_const measurable_const measurable_const is).meas id
        (fun s' => onOk fun bs => clearSup k bad s' (ptsOf a bs.flatten)) measurable_id (meas_clearSup hd measurable_fst (by fun_prop)) fun e => measurable_const
    have e1 : ∀ n, (coinLoop (step n) m h T s lb (i :: is)).prob IsTrue = (pppBatch m h [T] lb i).lexp (onOk fun r =>
        ((step n s (byTime r.2)).bind fun q =>
          if q.1 then .ret (false, q.2) else coinLoop (step n) m h T q.2 r.1 is).prob IsTrue) := by
      intro n
      rw [coinLoop, Prog.prob, Prog.lexp_bind]
      congr 1
      funext r
      rcases r with e | r
      · simp [onOk, IsTrue]
      · rfl
    have e2 : (pppLoop m h [T] lb (i :: is)).lexp (onOk fun bs => clearSup k bad s (ptsOf a bs.flatten)) = (pppBatch m h [T] lb i).lexp (onOk fun r =>
        (pppLoop m h [T] r.1 is).lexp (onOk fun bs => clearSup k bad s (ptsOf a r.2 ++ ptsOf a bs.flatten))) := by
      rw [pppLoop, Prog.lexp_bind]
      congr 1
      funext r
      rcases r with e | r
      · rfl
      rw [Prog.cont_ok, Prog.lexp_bind]
      simp only [onOk]
      congr 1
      funext bs
      rcases bs with e | bs
      · rfl
      simp [onOk, ptsOf_append]
    simp only [e1, e2]
    have key : ∀ r : ℝ × List (List ℝ), (GoodRows T (s.t.map (a⁻¹ * ·)) r.2 ∧ r.2 ≠ []) →
        Tendsto (fun n => ((step n s (byTime r.2)).bind fun q =>
          if q.1 then .ret (false, q.2) else coinLoop (step n) m h T q.2 r.1 is).prob IsTrue) atTop
          (𝓝 ((pppLoop m h [T] r.1 is).lexp (onOk fun bs => clearSup k bad s (ptsOf a r.2 ++ ptsOf a bs.flatten)))) ∧
        ∀ n, ((step n s (byTime r.2)).bind fun q =>
          if q.1 then .ret (false, q.2) else coinLoop (step n) m h T q.2 r.1 is).prob IsTrue ≤
          (pppLoop m h [T] r.1 is).lexp (onOk fun bs => clearSup k bad s (ptsOf a r.2 ++ ptsOf a bs.flatten)) := by
      rintro ⟨ub, rows⟩ ⟨hr, h0⟩
      have hA := good_times ha hlast hr
      have hne : byTime rows ≠ [] := fun e => by
        have := (byTime_perm rows).length_eq
        rw [e] at this
        simp at this
        exact h0 (List.length_eq_zero_iff.1 this.symm)
      have htne := times_ne (a := a) h0
      have hfresh := times_fresh ha h0 hr
      have ev : ∀ n, ((step n s (byTime rows)).bind fun q =>
          if q.1 then .ret (false, q.2) else coinLoop (step n) m h T q.2 ub is).prob IsTrue =
          (roundProg n k s (timesOf (ptsOf a rows))).lexp (onOk fun s' => clr bad (ptsOf a rows) s'.t s'.x * (coinLoop (step n) m h T s' ub is).prob IsTrue) := by
        intro n
        have hpw : ((byTime rows).map Prod.snd).Pairwise (· < ·) := by
          have h1 := byTime_sorted rows
          have h2 : ((byTime rows).map Prod.snd).Nodup := by
            rw [((byTime_perm rows).map Prod.snd).nodup_iff, List.map_map]
            exact hr.1.1
          exact (h1.and h2).imp fun h => lt_of_le_of_ne h.1 h.2
        have hin : ∀ p ∈ byTime rows, 0 ≤ p.2 ∧ p.2 < T := fun p hp => by
          obtain ⟨row, hrow, rfl⟩ := List.mem_map.1 ((byTime_perm rows).mem_iff.1 hp)
          exact hr.2 _ (List.mem_map_of_mem (f := fun r => (rowPoint r).2) hrow)
        rw [hstep.val hs.valid hinv hpw hne hin fun s' => coinLoop (step n) m h T s' ub is, roundProg_val, byTime_scaled ha]
        have : ∀ t x, clr bad (scaled a (byTime rows)) t x = clr bad (ptsOf a rows) t x := fun t x => if_congr (clear_perm (scaled_perm a rows)) rfl rfl
        simp only [this]
      simp only [ev, ← batch_split hk hd ha hh hT hs hlast hi' ub hr h0, roundSup, ← roundProg_val]
      refine lexp_diag (p := fun n => roundProg n k s (timesOf (ptsOf a rows))) (fun n => reg_roundProg n k measurable_const measurable_const)
        (fun f hf => by simp only [roundProg_val]; exact roundVal_mono hk hs hA hf) (P := AfterRound s (timesOf (ptsOf a rows))) (fun n => roundProg_after hk hs hA htne hfresh)
        (f := fun n s' => clr bad (ptsOf a rows) s'.t s'.x * (coinLoop (step n) m h T s' ub is).prob IsTrue)
        (g := fun s' => clr bad (ptsOf a rows) s'.t s'.x * (pppLoop m h [T] ub is).lexp (onOk fun bs => clearSup k bad s' (ptsOf a bs.flatten)))
        (fun n => (meas_clr hd measurable_const (by fun_prop) (by fun_prop)).mul (mC n ub)) ((meas_clr hd measurable_const (by fun_prop) (by fun_prop)).mul (mW ub)) ?_ ?_
      · rintro n s' ⟨hp, vals, hst⟩
        exact mul_le_mul_right ((ih s' ub hp (hstep.keep hinv hst) (hst.last.trans hlast)).2 n) _
      · rintro s' ⟨hp, vals, hst⟩
        refine ENNReal.Tendsto.const_mul (ih s' ub hp (hstep.keep hinv hst) (hst.last.trans hlast)).1 (Or.inr ?_)
        unfold clr
        split_ifs <;> simp
    refine lexp_lim rB (batch_good hh hT (hi i (by simp)).1 lb (s.t.map (a⁻¹ * ·))) (fun n => (rN n).meas' isTrue_meas) ?_ (fun n r hr => (key r hr).2 n) (fun r hr => (key r hr).1)
    exact (reg_pppLoop m (X := ℝ × List (List ℝ)) (h := fun _ => h) (bs := fun _ => [T]) (lb := fun r => r.1) measurable_const measurable_const (by fun_prop) is).meas id
      (fun r => onOk fun bs => clearSup k bad s (ptsOf a r.2 ++ ptsOf a bs.flatten)) measurable_id (meas_clearSup hd measurable_const (by fun_prop)) fun e => measurable_const

theorem batchCoin_lim (hstep : RoundStep k bad a T Inv step) (hk : 0 < k) (hd : MeasBad bad) {h : ℝ} (ha : 0 < a) (hh : 0 < h) (hT : 0 < T) {size : ℤ} (hsize : 0 < size) (hs : s.Plain) (hinv : Inv s)
    (hlast : s.t.getLast? = some (a * T)) :
    Tendsto (fun n => (batchCoin (step n) h T size s).prob IsTrue) atTop
      (𝓝 ((sampleBatchPpp 1 [h, T] size).lexp (onOk fun bs => clearSup k bad s (ptsOf a bs.flatten)))) ∧
    ∀ n, (batchCoin (step n) h T size s).prob IsTrue ≤ (sampleBatchPpp 1 [h, T] size).lexp (onOk fun bs => clearSup k bad s (ptsOf a bs.flatten)) := by
  have hb : ∀ b ∈ [h, T], 0 < b := by simp [hh, hT]
  have e1 : ∀ n, (batchCoin (step n) h T size s).prob IsTrue =
      ∫⁻ m, (coinLoop (step n) m h T s 0 (batchSizes m size.toNat)).prob IsTrue ∂(NDist.poisson (1 * [h, T].prod)).law := by
    intro n
    unfold batchCoin Prog.prob
    simp only [Prog.assert, if_pos hb, if_pos hsize, Prog.ret_bind]
    rw [Prog.lexp_nat]
  have e2 : (sampleBatchPpp 1 [h, T] size).lexp (onOk fun bs => clearSup k bad s (ptsOf a bs.flatten)) =
      ∫⁻ m, (pppLoop m h [T] 0 (batchSizes m size.toNat)).lexp (onOk fun bs => clearSup k bad s (ptsOf a bs.flatten)) ∂(NDist.poisson (1 * [h, T].prod)).law := by
    unfold sampleBatchPpp
    simp only [Prog.assert, zero_lt_one, if_true, if_pos hb, if_pos hsize, Prog.ret_bind]
    rw [Prog.lexp_nat]
  have key : ∀ m, _ := fun m => coinLoop_lim hstep hk hd ha hh hT (m := m) (is := batchSizes m size.toNat) (batchSizes_le (by omega)) s 0 hs hinv hlast
  have hfin : ∀ m, (pppLoop m h [T] 0 (batchSizes m size.toNat)).lexp (onOk fun bs => clearSup k bad s (ptsOf a bs.flatten)) ≤ 1 := fun m =>
    le_of_tendsto' (key m).1 fun n => by
      refine (Prog.lexp_mono _ (h := fun _ => 1) fun r => by split_ifs <;> simp).trans ?_
      exact (Mass1.lexp_const (mass_coinLoop (hstep.mass n) _ _ _ (batchSizes_le (by omega)) _ _) 1).le
  simp only [e1, e2]
  refine ⟨?_, fun n => lintegral_mono fun m => (key m).2 n⟩
  refine tendsto_lintegral_of_dominated_convergence (fun _ => 1) (fun n => measurable_from_nat) (fun n => ae_of_all _ fun m => ((key m).2 n).trans (hfin m)) ?_ (ae_of_all _ fun m => (key m).1)
  rw [lintegral_one, mass_poisson]
  simp

/-! ## The coin ends -/

theorem roundSup_one (hk : 0 < k) (h : s.Plain) (hT : s.Times newT) : roundSup k s newT (fun _ => 1) = 1 := by
  have hm := tendsto_atTop_iSup (roundVal_mono hk h hT (G := fun _ => 1) measurable_const)
  have e : ∀ (s : EaSkel) newT n, roundVal n k s newT (fun _ => 1) = (interpolateSkel n k s newT).prob fun r => ∃ q, r = .ok q := by
    intro s newT n
    unfold roundVal Prog.prob
    congr 1
    funext r
    rcases r with e | q <;> simp [onOk]
  refine tendsto_nhds_unique hm ?_
  rcases h with h | h
  · simp only [e]
    exact C113_total hk h hT
  · obtain ⟨f, c, -, h1, h2, h3⟩ := plain_flip h hT
    simp only [h3, e]
    exact C113_total hk h1 h2

/-- The coin returned one way or the other. -/
def IsOk {α : Type} (r : Res α) : Prop := ∃ a, r = .ok a

theorem coinLoop_ok (hm : ∀ n s ps, Mass1 (step n s ps)) {m : ℕ} {h T : ℝ} {n : ℕ} : ∀ (is : List ℕ), (∀ i ∈ is, 0 < i ∧ i ≤ m) → ∀ (s : EaSkel) (lb : ℝ),
    (coinLoop (neverStep step n) m h T s lb is).prob IsTrue ≤ (coinLoop (step n) m h T s lb is).prob IsOk
  | [], _, s, lb => by
    simp only [coinLoop, Prog.prob, Prog.lexp_ret]
    rw [if_pos ⟨s, rfl⟩, if_pos ⟨_, rfl⟩]
  | i :: is, hi, s, lb => by
    have ih := coinLoop_ok hm (m := m) (h := h) (T := T) (n := n) is fun j hj => hi j (by simp [hj])
    unfold Prog.prob at ih ⊢
    rw [coinLoop, coinLoop, Prog.lexp_bind, Prog.lexp_bind]
    refine Prog.lexp_mono _ ?_
    rintro (e | r)
    · simp [IsTrue, IsOk]
    rw [Prog.cont_ok, Prog.cont_ok, neverStep, Prog.bind_assoc, Prog.lexp_bind, Prog.lexp_bind]
    refine Prog.lexp_mono _ ?_
    rintro (e | q)
    · simp [IsTrue, IsOk]
    rw [Prog.cont_ok, Prog.cont_ok, Prog.ret_bind]
    have hone : (coinLoop (neverStep step n) m h T q.2 r.1 is).lexp (fun r => if IsTrue r then 1 else 0) ≤ 1 := by
      refine (Prog.lexp_mono _ (h := fun _ => 1) fun r => by split_ifs <;> simp).trans ?_
      exact (Mass1.lexp_const (mass_coinLoop (fun s ps => (hm n s ps).bind fun _ _ => .ret _) _ _ _ (fun j hj => hi j (by simp [hj])) _ _) 1).le
    simp only [Bool.false_eq_true, if_false]
    split_ifs with h2
    · refine hone.trans ?_
      simp [IsOk]
    · exact ih _ _

theorem batchCoin_ok (hstep : RoundStep k bad a T Inv step) (hend : EndStep k a T Inv step) (hk : 0 < k) {h : ℝ} (ha : 0 < a) (hh : 0 < h) (hT : 0 < T) {size : ℤ} (hsize : 0 < size) (hs : s.Plain) (hinv : Inv s)
    (hlast : s.t.getLast? = some (a * T)) : Tendsto (fun n => (batchCoin (step n) h T size s).prob IsOk) atTop (𝓝 1) := by
  have hb : ∀ b ∈ [h, T], 0 < b := by simp [hh, hT]
  have hlow : ∀ n, (batchCoin (neverStep step n) h T size s).prob IsTrue ≤ (batchCoin (step n) h T size s).prob IsOk := by
    intro n
    unfold batchCoin Prog.prob
    simp only [Prog.assert, if_pos hb, if_pos hsize, Prog.ret_bind]
    rw [Prog.lexp_nat, Prog.lexp_nat]
    exact lintegral_mono fun m => coinLoop_ok hstep.mass _ (batchSizes_le (by omega)) s 0
  have hup : ∀ n, (batchCoin (step n) h T size s).prob IsOk ≤ 1 := by
    intro n
    refine (Prog.lexp_mono _ (h := fun _ => 1) fun r => by split_ifs <;> simp).trans ?_
    exact (Mass1.lexp_const (mass_batchCoin (hstep.mass n) _ _ _ _) 1).le
  have hlim := (batchCoin_lim (neverCoin_step hstep hend) hk measurable_const ha hh hT hsize hs hinv hlast).1
  have e : (sampleBatchPpp 1 [h, T] size).lexp (onOk fun bs => clearSup k (fun _ _ => False) s (ptsOf a bs.flatten)) = 1 := by
    unfold sampleBatchPpp
    simp only [Prog.assert, zero_lt_one, if_true, if_pos hb, if_pos hsize, Prog.ret_bind]
    rw [Prog.lexp_nat]
    have : ∀ m, (pppLoop m h [T] 0 (batchSizes m size.toNat)).lexp (onOk fun bs => clearSup k (fun _ _ => False) s (ptsOf a bs.flatten)) = 1 := by
      intro m
      have hi := batchSizes_le (n := m) (size := size.toNat) (by omega)
      have e1 := lexp_congr_ae (reg_pppLoop m (X := Unit) (h := fun _ => h) (bs := fun _ => [T]) (lb := fun _ => 0) measurable_const measurable_const measurable_const (batchSizes m size.toNat)) ()
        (loop_good hh hT (fun i hi' => (hi i hi').1) 0 (s.t.map (a⁻¹ * ·)))
        (f := fun bs => clearSup k (fun _ _ => False) s (ptsOf a bs.flatten)) (g := fun _ => 1) (meas_clearSup (bad := fun _ _ => False) (show MeasBad _ from measurable_const) measurable_const (by fun_prop)) measurable_const ?_
      · refine e1.trans (Eq.trans (Prog.lexp_congr ?_) (Mass1.lexp_const (mass_pppLoop h [T] _ hi 0) 1))
        rintro (e | bs) ho
        · exact absurd ho (pppLoop_no_error _)
        · rfl
      · intro bs h1
        rw [clearSup, ← roundSup_one hk hs (good_times ha hlast h1)]
        congr 1
        funext q
        simp [clr, ClearOf]
    simp only [this, lintegral_one, mass_poisson]
  rw [e] at hlim
  exact tendsto_of_tendsto_of_tendsto_of_le_of_le hlim tendsto_const_nhds hlow hup

end Ctb
