import Verif.Lemmas.PointFill
import Verif.Lemmas.KerFlip
import Verif.Lemmas.RawAssemble
import Verif.Spec.RawFill

set_option linter.unusedSectionVars false

/-! # The law of raw skeletons filled in at given times -/

namespace Ctb

open Classical MeasureTheory Set Filter Topology
open scoped ENNReal

variable {T a b : ℝ} {n F k j : ℕ} {vs : List ℝ}

/-! ## Bounds on a raw law -/

theorem raw_mono (hT : 0 < T) (hn : 0 < n) {G G' : EaSkel → ℝ≥0∞} (h1 : ∀ k fl s m, G (minSkel T a b k fl s m) ≤ G' (minSkel T a b k fl s m))
    (h2 : ∀ k fl s m, G (maxSkel T a b k fl s m) ≤ G' (maxSkel T a b k fl s m)) :
    (sampleRawSkel n F T a b none none).lexp (onOk G) ≤ (sampleRawSkel n F T a b none none).lexp (onOk G') := by
  rw [raw_lexp hT hn, raw_lexp hT hn]
  refine Prog.lexp_mono _ ?_
  rintro (e | l)
  · exact le_rfl
  refine Prog.lexp_mono _ ?_
  rintro (e | q)
  · exact le_rfl
  · exact mul_le_mul' le_rfl (add_le_add (h1 _ _ _ _) (h2 _ _ _ _))

/-- A function of the skeleton between two measurable ones with the same integrals. -/
theorem raw_between (hT : 0 < T) (hn : 0 < n) {G G0 G1 : EaSkel → ℝ≥0∞} (hG0 : SkelMeas T a b G0) (hG1 : SkelMeas T a b G1)
    (h0 : ∀ k fl s m, G0 (minSkel T a b k fl s m) ≤ G (minSkel T a b k fl s m) ∧ G (minSkel T a b k fl s m) ≤ G1 (minSkel T a b k fl s m))
    (h1 : ∀ k fl s m, G0 (maxSkel T a b k fl s m) ≤ G (maxSkel T a b k fl s m) ∧ G (maxSkel T a b k fl s m) ≤ G1 (maxSkel T a b k fl s m))
    {L : ℕ → ℝ≥0∞} (e0 : ∀ j, layerInt T a b j G0 = L j) (e1 : ∀ j, layerInt T a b j G1 = L j) :
    ENNReal.ofReal (normDensR T (b - a)) * (sampleRawSkel n F T a b none none).lexp (onOk G) = ∑ k ∈ Finset.range F, rawOk T a b n k * L k := by
  have r0 := raw_sum (F := F) hT hn hG0
  have r1 := raw_sum (F := F) hT hn hG1
  simp only [e0] at r0
  simp only [e1] at r1
  refine le_antisymm ?_ ?_
  · rw [← r1]
    exact mul_le_mul' le_rfl (raw_mono hT hn (fun k fl s m => (h0 k fl s m).2) fun k fl s m => (h1 k fl s m).2)
  · rw [← r0]
    exact mul_le_mul' le_rfl (raw_mono hT hn (fun k fl s m => (h0 k fl s m).1) fun k fl s m => (h1 k fl s m).1)

/-! ## Interpolation of a skeleton with one inner time -/

/-- The edge that holds in both sectors of a skeleton of layer `k + 1` without set flags. -/
noncomputable def unsetV (T a b : ℝ) (k : ℕ) : ℝ := layerHigh T a b (max k 1)

theorem unsetV_gt (hT : 0 < T) (k : ℕ) : max a b < unsetV T a b k := layerHigh_gt hT (le_max_right _ _)

theorem unset_edge (T a b : ℝ) (k : ℕ) : unsetEdge (layerHigh T a b (k + 1)) (layerHigh T a b k) (unsetFlags k) = some (unsetV T a b k) := by
  rcases k with - | k
  · simp [unsetEdge, unsetFlags, unsetV]
  · simp [unsetEdge, unsetFlags, unsetV]

noncomputable def fillRate (n : ℕ) (V T a b : ℝ) (t : List ℝ) (s m : ℝ) : ℝ≥0∞ :=
  fillOk (t.take (searchLeft t s)) (trials n (edgeRate V m s a)) * fillOk (t.drop (searchLeft t s)) (trials n (edgeRate V m (T - s) b))

theorem grid_inc {vs : List ℝ} (hp : ∀ v ∈ vs, 0 < v) : (npCumsum vs).dropLast.Pairwise (· < ·) := by
  have h := cumsumFrom_inc 0 vs hp
  rw [List.pairwise_cons] at h
  exact h.2.sublist (List.dropLast_sublist _)

theorem point_fillable {s m U H : ℝ} {fl : Option (List Bool)} (h2 : 2 ≤ vs.length) (hp : ∀ v ∈ vs, 0 < v) (hs0 : 0 < s) (hs1 : s < vs.sum)
    (hs : s ∉ (npCumsum vs).dropLast) (ha : m < a) (hb : m < b) (hU : max a b < U) (hH : m < H ∧ H < U) (hfl : ∀ hs, fl = some hs → hs.length = 2) :
    Fillable [0, s, vs.sum] [a, m, b] (npCumsum vs).dropLast m U H fl where
  sorted := by simp [hs0, hs1, hs0.trans hs1]
  len := rfl
  new := grid_inc hp
  fresh r hr := by
    obtain ⟨r0, r1⟩ := grid_mem hp r hr
    simp only [List.mem_cons, List.not_mem_nil, or_false, not_or]
    exact ⟨r0.ne', fun h => hs (h ▸ hr), r1.ne⟩
  some := by
    rw [← List.length_pos_iff, grid_length]; omega
  pos r hr := by
    simp only [List.mem_cons, List.not_mem_nil, or_false] at hr
    rcases hr with rfl | rfl | rfl <;> linarith
  lo := ⟨0, by simp, fun r hr => (grid_mem hp r hr).1⟩
  hi := ⟨vs.sum, by simp, fun r hr => (grid_mem hp r hr).2⟩
  low v hv := by
    simp only [List.mem_cons, List.not_mem_nil, or_false] at hv
    rcases hv with rfl | rfl | rfl <;> linarith
  up v hv := by
    obtain ⟨u1, u2⟩ := max_lt_iff.1 hU
    simp only [List.mem_cons, List.not_mem_nil, or_false] at hv
    rcases hv with rfl | rfl | rfl <;> linarith
  hit := hH
  flags := hfl

theorem unset_len (k : ℕ) : ∀ hs, unsetFlags k = some hs → hs.length = 2 := by
  intro hs h
  unfold unsetFlags at h
  split_ifs at h
  cases h
  rfl

theorem interp_min {k' : ℕ} (hk' : 0 < k') (h2 : 2 ≤ vs.length) (hp : ∀ v ∈ vs, 0 < v) {s m : ℝ} (hs0 : 0 < s) (hs1 : s < vs.sum) (hs : s ∉ (npCumsum vs).dropLast)
    (hm : m < layerLow vs.sum a b k) {f : List ℝ → ℝ≥0∞} (hf : MeasAll f) :
    (interpolateSkel n k' (minSkel vs.sum a b k (unsetFlags k) s m) (npCumsum vs).dropLast).lexp (onOk fun r => f r.2) =
      fillRate n (unsetV vs.sum a b k) vs.sum a b (npCumsum vs).dropLast s m *
        splitInt (stripEntr (unsetV vs.sum a b k)) (stripDens (unsetV vs.sum a b k)) m b vs a s f /
          (stripEntr (unsetV vs.sum a b k) m s a * stripEntr (unsetV vs.sum a b k) m (vs.sum - s) b) := by
  have hT := hs0.trans hs1
  obtain ⟨l1, l2⟩ := lt_min_iff.1 (hm.trans_le (layerLow_le hT k))
  have hne : vs ≠ [] := fun h => by simp [h] at h2
  have hH : m < layerHigh vs.sum a b k ∧ layerHigh vs.sum a b k < layerHigh vs.sum a b (k + 1) :=
    ⟨l1.trans_le ((le_max_left a b).trans (layerHigh_ge hT k)), layerHigh_mono hT (Nat.lt_succ_self k)⟩
  have hfill := point_fillable (fl := unsetFlags k) h2 hp hs0 hs1 hs l1 l2 (layerHigh_gt hT (by omega : 1 ≤ k + 1)) hH (unset_len k)
  obtain ⟨v1, v2⟩ := max_lt_iff.1 (unsetV_gt (a := a) (b := b) hT k)
  have hlt : (minSkel vs.sum a b k (unsetFlags k) s m).tight < (minSkel vs.sum a b k (unsetFlags k) s m).loose := min_side hT hm
  unfold interpolateSkel
  rw [if_neg hfill.some, if_pos hlt, Prog.lexp_bind]
  refine Eq.trans ?_ ((point_vals (n := n) (k := k') hfill (unset_edge vs.sum a b k) (grid_mem hp) f).trans ?_)
  · congr 1
  · refine (point_law (layerSpec_strip n (unsetV vs.sum a b k)) hk' l1 l2 ?_ ?_ hne hp hs0 hs1 hs hf).trans ?_
    · rintro U' ⟨⟩; exact v1
    · rintro U' ⟨⟩; exact v2
    · rfl

theorem unset_rev (k : ℕ) : (unsetFlags k).map List.reverse = unsetFlags k := by
  unfold unsetFlags
  split_ifs <;> rfl

theorem flip_maxSkel (k : ℕ) (s m : ℝ) : flipWith T ((a + b) / 2) (maxSkel T a b k (unsetFlags k) s m) = minSkel T a b k (unsetFlags k) s m := by
  simp only [flipWith, flipList, maxSkel, minSkel, unset_rev]
  simp only [List.reverse_cons, List.reverse_nil, List.nil_append, List.cons_append, List.map_cons, List.map_nil, EaSkel.mk.injEq, List.cons.injEq, and_true, layerHigh]
  refine ⟨⟨?_, ?_, ?_⟩, ⟨?_, ?_, ?_⟩, ?_, ?_, ?_⟩ <;> ring

theorem flip_ne {c : ℝ} {l : List ℝ} : flipList c l = [] ↔ l = [] := by simp [flipList]

theorem interp_max {k' : ℕ} (hk' : 0 < k') (h2 : 2 ≤ vs.length) (hp : ∀ v ∈ vs, 0 < v) {s m : ℝ} (hs0 : 0 < s) (hs1 : s < vs.sum) (hs : s ∉ (npCumsum vs.reverse).dropLast)
    (hm : m < layerLow vs.sum a b k) {f : List ℝ → ℝ≥0∞} (hf : MeasAll fun l => f (flipList (a + b) l)) :
    (interpolateSkel n k' (maxSkel vs.sum a b k (unsetFlags k) s m) (npCumsum vs).dropLast).lexp (onOk fun r => f r.2) =
      fillRate n (unsetV vs.sum a b k) vs.sum a b (npCumsum vs.reverse).dropLast s m *
        splitInt (stripEntr (unsetV vs.sum a b k)) (stripDens (unsetV vs.sum a b k)) m b vs.reverse a s (fun l => f (flipList (a + b) l)) /
          (stripEntr (unsetV vs.sum a b k) m s a * stripEntr (unsetV vs.sum a b k) m (vs.sum - s) b) := by
  have hT := hs0.trans hs1
  have hv : (maxSkel vs.sum a b k (unsetFlags k) s m).Valid := by
    refine ⟨?_, rfl, rfl, ?_⟩
    · simp [maxSkel, hs0, hs1, hT]
    · intro hs h
      have : (unsetFlags k).map List.reverse = some hs := h
      rw [unset_rev] at this
      exact unset_len k hs this
  have hlt : (maxSkel vs.sum a b k (unsetFlags k) s m).loose < (maxSkel vs.sum a b k (unsetFlags k) s m).tight := by
    have h1 := layerLow_lt (a := a) (b := b) hT (by omega : 1 ≤ k + 1)
    have h2 := layerHigh_ge (a := a) (b := b) hT k
    have : min a b ≤ max a b := min_le_max
    show layerLow vs.sum a b (k + 1) < a + b - m
    unfold layerHigh at h2
    linarith
  have hr := interp_min (n := n) (a := a) (b := b) (vs := vs.reverse) hk' (by simpa using h2) (fun v hv => hp v (List.mem_reverse.1 hv)) hs0 (by rwa [List.sum_reverse]) hs
    (by rwa [List.sum_reverse]) hf
  rw [List.sum_reverse] at hr
  have h0 : (npCumsum vs).dropLast ≠ [] := by
    rw [← List.length_pos_iff, grid_length]; omega
  rw [interp_flip (f := vs.sum) (x0 := a) (x1 := b) hv hlt (grid_inc hp) h0 rfl rfl rfl (fun r hr => ⟨(grid_mem hp r hr).1.le, (grid_mem hp r hr).2.le⟩), flip_maxSkel,
    show flipList vs.sum (npCumsum vs).dropLast = (npCumsum vs.reverse).dropLast from grid_reverse vs, ← hr]
  congr 3
  funext r
  congr 2
  ring_nf

/-! ## The explicit form -/

/-- Inner points for which the law of the interpolation is known. -/
def GoodPoint (T a b : ℝ) (k : ℕ) (t : List ℝ) (p : ℝ × ℝ) : Prop := p.1 ∉ t ∧ 0 < p.1 ∧ p.1 < T ∧ layerLow T a b (k + 1) < p.2 ∧ p.2 < layerLow T a b k

theorem measurable_good (T a b : ℝ) (k : ℕ) (t : List ℝ) : MeasurableSet {p | GoodPoint T a b k t p} := by
  have h1 : MeasurableSet {q : ℝ × ℝ | q.1 ∈ t} := by
    have : {q : ℝ × ℝ | q.1 ∈ t} = Prod.fst ⁻¹' {r : ℝ | r ∈ t} := rfl
    rw [this]
    exact measurable_fst (List.finite_toSet t).measurableSet
  exact h1.compl.inter ((measurableSet_lt measurable_const measurable_fst).inter ((measurableSet_lt measurable_fst measurable_const).inter
    ((measurableSet_lt measurable_const measurable_snd).inter (measurableSet_lt measurable_snd measurable_const))))

/-- Expected value of the filled in skeleton given its inner point, and `w` where it is not known. -/
noncomputable def fillVal (n : ℕ) (a b : ℝ) (k : ℕ) (vs : List ℝ) (f : List ℝ → ℝ≥0∞) (w : ℝ≥0∞) (p : ℝ × ℝ) : ℝ≥0∞ :=
  if GoodPoint vs.sum a b k (npCumsum vs).dropLast p then
    fillRate n (unsetV vs.sum a b k) vs.sum a b (npCumsum vs).dropLast p.1 p.2 *
        splitInt (stripEntr (unsetV vs.sum a b k)) (stripDens (unsetV vs.sum a b k)) p.2 b vs a p.1 f /
          (stripEntr (unsetV vs.sum a b k) p.2 p.1 a * stripEntr (unsetV vs.sum a b k) p.2 (vs.sum - p.1) b)
  else w

theorem measurable_search {t : List ℝ} (ht : t.Pairwise (· < ·)) : Measurable (searchLeft t) :=
  Monotone.measurable fun _ _ h => searchLeft_mono ht h

theorem measurable_fillRate (V : ℝ) {t : List ℝ} (ht : t.Pairwise (· < ·)) : Measurable fun p : ℝ × ℝ => fillRate n V T a b t p.1 p.2 := by
  have hs : Measurable fun p : ℝ × ℝ => searchLeft t p.1 := (measurable_search ht).comp measurable_fst
  have hm : ∀ P : ℕ → Prop, MeasurableSet {p : ℝ × ℝ | P (searchLeft t p.1)} := fun P => hs (MeasurableSet.of_discrete (s := {i | P i}))
  unfold fillRate fillOk
  refine (Measurable.ite (hm fun i => t.take i = []) measurable_const ?_).mul (Measurable.ite (hm fun i => t.drop i = []) measurable_const ?_)
  · exact (measurable_trials n).comp ((measurable_edgeRate V).comp (by fun_prop : Measurable fun p : ℝ × ℝ => (p.2, p.1, a)))
  · exact (measurable_trials n).comp ((measurable_edgeRate V).comp (by fun_prop : Measurable fun p : ℝ × ℝ => (p.2, T - p.1, b)))

theorem measurable_fillVal (hp : ∀ v ∈ vs, 0 < v) {f : List ℝ → ℝ≥0∞} (hf : MeasAll f) (w : ℝ≥0∞) : Measurable (fillVal n a b k vs f w) := by
  have h := layerKer_strip (unsetV vs.sum a b k)
  refine Measurable.ite (measurable_good _ _ _ _ _) (Measurable.div ((measurable_fillRate _ (grid_inc hp)).mul ?_) (Measurable.mul ?_ ?_)) measurable_const
  · exact splitInt_measurable h b vs (F := fun _ => f) ((hf _).comp (φ := fun _ : ℝ × ℝ => ()) measurable_const) measurable_const measurable_snd measurable_fst
  · exact h.applyE measurable_snd measurable_fst measurable_const
  · exact h.applyE measurable_snd (measurable_const.sub measurable_fst) measurable_const

/-- The same for both sides: `f true` for skeletons with a minimum and `f false` for those with a maximum. -/
noncomputable def sideVal (n : ℕ) (a b : ℝ) (k : ℕ) (vs : List ℝ) (f : Bool → List ℝ → ℝ≥0∞) (w : ℝ≥0∞) (s : EaSkel) : ℝ≥0∞ :=
  if s.hitI = unsetFlags k ∧ inLayer vs.sum a b k s then
    (if onMinSide s then fillVal n a b k vs (f true) w (s.t.getD 1 0, s.tight)
      else fillVal n a b k vs.reverse (fun l => f false (flipList (a + b) l)) w (vs.sum - s.t.getD 1 0, a + b - s.tight))
  else 0

theorem meas_sideVal (hp : ∀ v ∈ vs, 0 < v) {f : Bool → List ℝ → ℝ≥0∞} (hf : MeasAll (f true)) (hf' : MeasAll fun l => f false (flipList (a + b) l)) (w : ℝ≥0∞) :
    SkelMeas vs.sum a b (sideVal n a b k vs f w) := by
  intro u v fl
  unfold sideVal
  by_cases h : fl = unsetFlags k ∧ (u = layerHigh vs.sum a b (k + 1) ∨ u = layerLow vs.sum a b (k + 1))
  · have h' : ∀ p : ℝ × ℝ, ((⟨[0, p.1, vs.sum], [a, p.2, b], p.2, u, v, fl⟩ : EaSkel).hitI = unsetFlags k ∧
        inLayer vs.sum a b k ⟨[0, p.1, vs.sum], [a, p.2, b], p.2, u, v, fl⟩) := fun p => h
    simp only [if_pos (h' _)]
    refine Measurable.ite (measurableSet_lt measurable_snd measurable_const) ?_ ?_
    · exact (measurable_fillVal hp hf w).comp (by simp only [List.getD_cons_succ, List.getD_cons_zero]; fun_prop)
    · exact (measurable_fillVal (fun v hv => hp v (List.mem_reverse.1 hv)) hf' w).comp (by simp only [List.getD_cons_succ, List.getD_cons_zero]; fun_prop)
  · have h' : ∀ p : ℝ × ℝ, ¬ ((⟨[0, p.1, vs.sum], [a, p.2, b], p.2, u, v, fl⟩ : EaSkel).hitI = unsetFlags k ∧
        inLayer vs.sum a b k ⟨[0, p.1, vs.sum], [a, p.2, b], p.2, u, v, fl⟩) := fun p => h
    simp only [if_neg (h' _)]
    exact measurable_const

theorem layer_inj (hT : 0 < T) {i j : ℕ} : (layerHigh T a b (i + 1) = layerHigh T a b (j + 1) → i = j) ∧ (layerLow T a b (i + 1) = layerLow T a b (j + 1) → i = j) ∧
    layerHigh T a b (i + 1) ≠ layerLow T a b (j + 1) := by
  refine ⟨fun h => Nat.succ_injective ((layerHigh_mono hT).injective h), fun h => Nat.succ_injective ((layerLow_anti hT).injective h), fun h => ?_⟩
  have h1 := layerHigh_gt (a := a) (b := b) hT (by omega : 1 ≤ i + 1)
  have h2 := layerLow_lt (a := a) (b := b) hT (by omega : 1 ≤ j + 1)
  have : min a b ≤ max a b := min_le_max
  linarith

theorem layer_min (hT : 0 < T) {fl : Option (List Bool)} {s m : ℝ} : inLayer T a b k (minSkel T a b j fl s m) ↔ j = k := by
  constructor
  · rintro (h | h)
    · exact (layer_inj hT).1 h
    · exact absurd h (layer_inj hT).2.2
  · rintro rfl
    exact Or.inl rfl

theorem layer_max (hT : 0 < T) {fl : Option (List Bool)} {s m : ℝ} : inLayer T a b k (maxSkel T a b j fl s m) ↔ j = k := by
  constructor
  · rintro (h | h)
    · exact absurd h.symm (layer_inj hT).2.2
    · exact (layer_inj hT).2.1 h
  · rintro rfl
    exact Or.inr rfl

/-- Expected value given the skeleton. -/
noncomputable def skelVal (n k' : ℕ) (a b : ℝ) (k : ℕ) (vs : List ℝ) (f : Bool → List ℝ → ℝ≥0∞) (s : EaSkel) : ℝ≥0∞ :=
  if s.hitI = unsetFlags k ∧ inLayer vs.sum a b k s then
    (interpolateSkel n k' s (npCumsum vs).dropLast).lexp (onOk fun r => f (decide (onMinSide s)) r.2) else 0

theorem side_between_min {k' : ℕ} (hk' : 0 < k') (h2 : 2 ≤ vs.length) (hp : ∀ v ∈ vs, 0 < v) {f : Bool → List ℝ → ℝ≥0∞} (hf : MeasAll (f true)) {fl : Option (List Bool)} {s m : ℝ} :
    sideVal n a b k vs f 0 (minSkel vs.sum a b j fl s m) ≤ skelVal n k' a b k vs f (minSkel vs.sum a b j fl s m) ∧
      skelVal n k' a b k vs f (minSkel vs.sum a b j fl s m) ≤ sideVal n a b k vs f ∞ (minSkel vs.sum a b j fl s m) := by
  have hT : 0 < vs.sum := List.sum_pos _ hp (fun h => by simp [h] at h2)
  unfold sideVal skelVal
  by_cases h : (minSkel vs.sum a b j fl s m).hitI = unsetFlags k ∧ inLayer vs.sum a b k (minSkel vs.sum a b j fl s m)
  · rw [if_pos h, if_pos h, if_pos h]
    obtain ⟨h1, h2'⟩ := h
    rw [layer_min hT] at h2'
    subst h2'
    change fl = _ at h1
    subst h1
    by_cases ho : onMinSide (minSkel vs.sum a b j (unsetFlags j) s m)
    · rw [if_pos ho, if_pos ho, decide_eq_true ho]
      show fillVal n a b j vs (f true) 0 (s, m) ≤ _ ∧ _ ≤ fillVal n a b j vs (f true) ∞ (s, m)
      unfold fillVal
      by_cases hg : GoodPoint vs.sum a b j (npCumsum vs).dropLast (s, m)
      · rw [if_pos hg, if_pos hg, interp_min hk' h2 hp hg.2.1 hg.2.2.1 hg.1 hg.2.2.2.2 hf]
        exact ⟨le_rfl, le_rfl⟩
      · rw [if_neg hg, if_neg hg]
        exact ⟨zero_le, le_top⟩
    · rw [if_neg ho, if_neg ho]
      have hg : ¬ GoodPoint vs.reverse.sum a b j (npCumsum vs.reverse).dropLast (vs.sum - s, a + b - m) := by
        rintro ⟨-, -, -, h3, -⟩
        apply ho
        rw [List.sum_reverse] at h3
        show m < layerHigh vs.sum a b (j + 1)
        unfold layerHigh
        linarith
      show fillVal n a b j vs.reverse _ 0 (vs.sum - s, a + b - m) ≤ _ ∧ _ ≤ fillVal n a b j vs.reverse _ ∞ (vs.sum - s, a + b - m)
      unfold fillVal
      rw [if_neg hg, if_neg hg]
      exact ⟨zero_le, le_top⟩
  · rw [if_neg h, if_neg h, if_neg h]
    exact ⟨le_rfl, le_rfl⟩

theorem side_between_max {k' : ℕ} (hk' : 0 < k') (h2 : 2 ≤ vs.length) (hp : ∀ v ∈ vs, 0 < v) {f : Bool → List ℝ → ℝ≥0∞} (hf : MeasAll fun l => f false (flipList (a + b) l))
    {fl : Option (List Bool)} {s m : ℝ} :
    sideVal n a b k vs f 0 (maxSkel vs.sum a b j fl s m) ≤ skelVal n k' a b k vs f (maxSkel vs.sum a b j fl s m) ∧
      skelVal n k' a b k vs f (maxSkel vs.sum a b j fl s m) ≤ sideVal n a b k vs f ∞ (maxSkel vs.sum a b j fl s m) := by
  have hT : 0 < vs.sum := List.sum_pos _ hp (fun h => by simp [h] at h2)
  unfold sideVal skelVal
  by_cases h : (maxSkel vs.sum a b j fl s m).hitI = unsetFlags k ∧ inLayer vs.sum a b k (maxSkel vs.sum a b j fl s m)
  · rw [if_pos h, if_pos h, if_pos h]
    obtain ⟨h1, h2'⟩ := h
    rw [layer_max hT] at h2'
    subst h2'
    change fl.map List.reverse = _ at h1
    have hfl : fl = unsetFlags j := by
      rw [← unset_rev j, ← h1, Option.map_map]
      cases fl <;> simp
    subst hfl
    by_cases ho : onMinSide (maxSkel vs.sum a b j (unsetFlags j) s m)
    · rw [if_pos ho, if_pos ho]
      have hg : ¬ GoodPoint vs.sum a b j (npCumsum vs).dropLast (vs.sum - s, a + b - m) := by
        rintro ⟨-, -, -, h3, -⟩
        have : a + b - m < layerLow vs.sum a b (j + 1) := ho
        simp only at h3
        linarith
      show fillVal n a b j vs _ 0 (vs.sum - s, a + b - m) ≤ _ ∧ _ ≤ fillVal n a b j vs _ ∞ (vs.sum - s, a + b - m)
      unfold fillVal
      rw [if_neg hg, if_neg hg]
      exact ⟨zero_le, le_top⟩
    · rw [if_neg ho, if_neg ho, decide_eq_false ho]
      show fillVal n a b j vs.reverse _ 0 (vs.sum - (vs.sum - s), a + b - (a + b - m)) ≤ _ ∧ _ ≤ fillVal n a b j vs.reverse _ ∞ (vs.sum - (vs.sum - s), a + b - (a + b - m))
      rw [sub_sub_cancel, sub_sub_cancel]
      unfold fillVal
      by_cases hg : GoodPoint vs.reverse.sum a b j (npCumsum vs.reverse).dropLast (s, m)
      · rw [if_pos hg, if_pos hg]
        rw [List.sum_reverse] at hg ⊢
        rw [interp_max hk' h2 hp hg.2.1 hg.2.2.1 hg.1 hg.2.2.2.2 hf]
        exact ⟨le_rfl, le_rfl⟩
      · rw [if_neg hg, if_neg hg]
        exact ⟨zero_le, le_top⟩
  · rw [if_neg h, if_neg h, if_neg h]
    exact ⟨le_rfl, le_rfl⟩

theorem sector_cong_ae {l u : ℝ} {f g : ℝ → ℝ → ℝ≥0∞} (t : List ℝ) (h : ∀ m, l < m → m < u → ∀ s, 0 < s → s < T → s ∉ t → f s m = g s m) :
    sectorInt T l u f = sectorInt T l u g := by
  refine setLIntegral_congr_fun measurableSet_Ioo fun m hm => lintegral_congr_ae ?_
  have hnull : ∀ᵐ s ∂(volume.restrict (Ioo 0 T)), s ∉ t := by
    refine ae_restrict_of_ae ?_
    rw [ae_iff]
    simp only [not_not]
    exact (List.finite_toSet t).measure_zero _
  filter_upwards [hnull, ae_restrict_mem measurableSet_Ioo] with s hs hs2
  exact h m hm.1 hm.2 s hs2.1 hs2.2 hs

/-- Both split integrals. -/
noncomputable def bothSplit (n : ℕ) (a b : ℝ) (k : ℕ) (vs : List ℝ) (f : Bool → List ℝ → ℝ≥0∞) (s m : ℝ) : ℝ≥0∞ :=
  fillRate n (unsetV vs.sum a b k) vs.sum a b (npCumsum vs).dropLast s m *
      splitInt (stripEntr (unsetV vs.sum a b k)) (stripDens (unsetV vs.sum a b k)) m b vs a s (f true) +
    fillRate n (unsetV vs.sum a b k) vs.sum a b (npCumsum vs.reverse).dropLast s m *
      splitInt (stripEntr (unsetV vs.sum a b k)) (stripDens (unsetV vs.sum a b k)) m b vs.reverse a s fun l => f false (flipList (a + b) l)

theorem side_min (hT : 0 < vs.sum) {f : Bool → List ℝ → ℝ≥0∞} {w : ℝ≥0∞} {fl : Option (List Bool)} {s m : ℝ} (hm : m < layerLow vs.sum a b j) :
    sideVal n a b k vs f w (minSkel vs.sum a b j fl s m) = if fl = unsetFlags k ∧ j = k then fillVal n a b k vs (f true) w (s, m) else 0 := by
  unfold sideVal
  rw [if_pos (min_side hT hm)]
  exact if_congr (and_congr Iff.rfl (by rw [layer_min hT])) rfl rfl

theorem side_max (hT : 0 < vs.sum) {f : Bool → List ℝ → ℝ≥0∞} {w : ℝ≥0∞} {fl : Option (List Bool)} {s m : ℝ} (hm : m < layerLow vs.sum a b j) :
    sideVal n a b k vs f w (maxSkel vs.sum a b j fl s m) =
      if fl = unsetFlags k ∧ j = k then fillVal n a b k vs.reverse (fun l => f false (flipList (a + b) l)) w (s, m) else 0 := by
  unfold sideVal
  rw [if_neg (max_side hT hm)]
  have e : (maxSkel vs.sum a b j fl s m).hitI = unsetFlags k ↔ fl = unsetFlags k := by
    show fl.map List.reverse = _ ↔ _
    constructor
    · intro h
      rw [← unset_rev k, ← h, Option.map_map]
      cases fl <;> simp
    · rintro rfl
      exact unset_rev k
  refine if_congr (and_congr e (by rw [layer_max hT])) ?_ rfl
  show fillVal n a b k vs.reverse _ w (vs.sum - (vs.sum - s), a + b - (a + b - m)) = _
  rw [sub_sub_cancel, sub_sub_cancel]

theorem fillVal_mul {f : List ℝ → ℝ≥0∞} {w : ℝ≥0∞} {s m : ℝ} (hg : GoodPoint vs.sum a b k (npCumsum vs).dropLast (s, m)) :
    stripEntr (unsetV vs.sum a b k) m s a * stripEntr (unsetV vs.sum a b k) m (vs.sum - s) b * fillVal n a b k vs f w (s, m) =
      fillRate n (unsetV vs.sum a b k) vs.sum a b (npCumsum vs).dropLast s m * splitInt (stripEntr (unsetV vs.sum a b k)) (stripDens (unsetV vs.sum a b k)) m b vs a s f := by
  have hT := hg.2.1.trans hg.2.2.1
  obtain ⟨l1, l2⟩ := lt_min_iff.1 (hg.2.2.2.2.trans_le (layerLow_le (a := a) (b := b) hT k))
  obtain ⟨v1, v2⟩ := max_lt_iff.1 (unsetV_gt (a := a) (b := b) hT k)
  have h1 := stripEntr_pos hg.2.1 l1 v1
  have h2 := stripEntr_pos (sub_pos.2 hg.2.2.1) l2 v2
  unfold fillVal
  rw [if_pos hg, ENNReal.mul_div_cancel (mul_ne_zero h1.1 h2.1) (ENNReal.mul_ne_top h1.2 h2.2)]

theorem layer_side (hT : 0 < vs.sum) (f : Bool → List ℝ → ℝ≥0∞) (w : ℝ≥0∞) (j : ℕ) : layerInt vs.sum a b j (sideVal n a b k vs f w) =
    if j = k then sectorInt vs.sum (layerLow vs.sum a b (k + 1)) (layerLow vs.sum a b k) (fun s m => (if k = 0 then 1 else 2) * bothSplit n a b k vs f s m) else 0 := by
  have hgood : ∀ {s m}, layerLow vs.sum a b (k + 1) < m → m < layerLow vs.sum a b k → 0 < s → s < vs.sum → s ∉ (npCumsum vs).dropLast ++ (npCumsum vs.reverse).dropLast →
      GoodPoint vs.sum a b k (npCumsum vs).dropLast (s, m) ∧ GoodPoint vs.reverse.sum a b k (npCumsum vs.reverse).dropLast (s, m) := by
    intro s m h1 h2 h3 h4 h5
    rw [List.mem_append, not_or] at h5
    rw [List.sum_reverse]
    exact ⟨⟨h5.1, h3, h4, h1, h2⟩, ⟨h5.2, h3, h4, h1, h2⟩⟩
  have hmul : ∀ {s m}, layerLow vs.sum a b (k + 1) < m → m < layerLow vs.sum a b k → 0 < s → s < vs.sum → s ∉ (npCumsum vs).dropLast ++ (npCumsum vs.reverse).dropLast →
      stripEntr (unsetV vs.sum a b k) m s a * stripEntr (unsetV vs.sum a b k) m (vs.sum - s) b * (fillVal n a b k vs (f true) w (s, m) +
        fillVal n a b k vs.reverse (fun l => f false (flipList (a + b) l)) w (s, m)) = bothSplit n a b k vs f s m := by
    intro s m h1 h2 h3 h4 h5
    obtain ⟨g1, g2⟩ := hgood h1 h2 h3 h4 h5
    have e := fillVal_mul (n := n) (f := fun l => f false (flipList (a + b) l)) (w := w) g2
    rw [List.sum_reverse] at e
    rw [mul_add, fillVal_mul g1, e]
    rfl
  by_cases hj : j = k
  · subst hj
    rw [if_pos rfl]
    rcases j with - | j
    · simp only [layerInt]
      refine sector_cong_ae ((npCumsum vs).dropLast ++ (npCumsum vs.reverse).dropLast) fun m h1 h2 s h3 h4 h5 => ?_
      rw [side_min hT h2, side_max hT h2, if_pos ⟨rfl, rfl⟩, if_pos ⟨rfl, rfl⟩, if_pos trivial, one_mul]
      exact hmul h1 h2 h3 h4 h5
    · simp only [layerInt]
      refine sector_cong_ae ((npCumsum vs).dropLast ++ (npCumsum vs.reverse).dropLast) fun m h1 h2 s h3 h4 h5 => ?_
      rw [if_neg (Nat.succ_ne_zero j), ← hmul h1 h2 h3 h4 h5]
      simp only [side_min hT h2, side_max hT h2, Fintype.sum_prod_type, Fintype.sum_bool]
      simp only [unsetFlags, Nat.succ_ne_zero, if_false, Option.some.injEq, List.cons.injEq, and_true, true_and, Bool.true_eq_false, false_and, and_false, add_zero, mul_zero,
        zero_add, if_true, or_false, Bool.false_eq_true, passEntr, unsetV]
      rw [max_eq_left (by omega : 1 ≤ j + 1)]
      ring
  · rw [if_neg hj]
    have hz : ∀ fl s m, m < layerLow vs.sum a b j → sideVal n a b k vs f w (minSkel vs.sum a b j fl s m) + sideVal n a b k vs f w (maxSkel vs.sum a b j fl s m) = 0 := by
      intro fl s m hm
      rw [side_min hT hm, side_max hT hm, if_neg (fun h => hj h.2), if_neg (fun h => hj h.2), add_zero]
    have h0 : ∀ l u, sectorInt vs.sum l u (fun _ _ => 0) = 0 := by simp [sectorInt]
    rcases j with - | j
    · simp only [layerInt]
      rw [sector_cong (g := fun _ _ => 0) fun m h1 h2 s h3 h4 => by rw [hz _ _ _ h2, mul_zero]]
      exact h0 _ _
    · simp only [layerInt]
      rw [sector_cong (g := fun _ _ => 0) fun m h1 h2 s h3 h4 => by simp [hz _ _ _ h2]]
      exact h0 _ _

/-- The law for given budgets. -/
theorem rawFill_law {k' : ℕ} (hn : 0 < n) (hk' : 0 < k') (h2 : 2 ≤ vs.length) (hp : ∀ v ∈ vs, 0 < v) {f : Bool → List ℝ → ℝ≥0∞} (hf : MeasAll (f true)) (hf' : MeasAll fun l => f false (flipList (a + b) l))
    (hk : k < F) : ENNReal.ofReal (normDensR vs.sum (b - a)) * (rawFill n F k' vs.sum a b (npCumsum vs).dropLast).lexp (onOk fun r =>
        if r.1.hitI = unsetFlags k ∧ inLayer vs.sum a b k r.1 then f (decide (onMinSide r.1)) r.2 else 0) =
      rawOk vs.sum a b n k * sectorInt vs.sum (layerLow vs.sum a b (k + 1)) (layerLow vs.sum a b k) fun s m => (if k = 0 then 1 else 2) * bothSplit n a b k vs f s m := by
  have hT : 0 < vs.sum := List.sum_pos _ hp (fun h => by simp [h] at h2)
  have e : (rawFill n F k' vs.sum a b (npCumsum vs).dropLast).lexp (onOk fun r =>
        if r.1.hitI = unsetFlags k ∧ inLayer vs.sum a b k r.1 then f (decide (onMinSide r.1)) r.2 else 0) =
      (sampleRawSkel n F vs.sum a b none none).lexp (onOk (skelVal n k' a b k vs f)) := by
    unfold rawFill
    rw [Prog.lexp_bind]
    congr 1
    funext r
    rcases r with e | s
    · rfl
    rw [Prog.cont_ok, Prog.lexp_bind]
    simp only [onOk, skelVal]
    by_cases h : s.hitI = unsetFlags k ∧ inLayer vs.sum a b k s
    · rw [if_pos h]
      congr 1
      funext r
      rcases r with e | r
      · rfl
      · simp only [Prog.cont_ok, Prog.lexp_ret, onOk]
        rw [if_pos h]
    · rw [if_neg h]
      have : ∀ r : Res (EaSkel × List ℝ), Prog.cont (fun r : EaSkel × List ℝ => (.ret (s, r.2) : Prog (EaSkel × List ℝ))) (onOk fun r =>
          if r.1.hitI = unsetFlags k ∧ inLayer vs.sum a b k r.1 then f (decide (onMinSide r.1)) r.2 else 0) Prog.lexp r = 0 := by
        rintro (e | r)
        · rfl
        · simp only [Prog.cont_ok, Prog.lexp_ret, onOk]
          rw [if_neg h]
      have hz := Prog.lexp_const_mul (interpolateSkel n k' s (npCumsum vs).dropLast) (fun _ => 0) (c := 0) (by simp)
      rw [funext this]
      simpa using hz
  rw [e, raw_between hT hn (meas_sideVal (n := n) (k := k) hp hf hf' 0) (meas_sideVal hp hf hf' ∞) (fun j fl s m => side_between_min hk' h2 hp hf) (fun j fl s m => side_between_max hk' h2 hp hf')
    (layer_side hT f 0) (layer_side hT f ∞), Finset.sum_eq_single k]
  · rw [if_pos rfl]
  · intro j _ hj
    rw [if_neg hj, mul_zero]
  · intro h
    exact absurd (Finset.mem_range.2 hk) h

end Ctb
