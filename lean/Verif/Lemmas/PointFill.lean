import Verif.Lemmas.FillVals
import Verif.Lemmas.StripLaw

set_option linter.unusedSectionVars false

/-! # Filling in a skeleton with one inner time -/

namespace Ctb

open Classical MeasureTheory Set
open scoped ENNReal

variable {U : Option ℝ} {E : ℝ → ℝ → ℝ → ℝ≥0∞} {K : ℝ → ℝ → ℝ → ℝ → ℝ≥0∞} {n k : ℕ} {γ : ℝ → ℝ → ℝ → ℝ≥0∞} {Γ : ℝ → ℝ → ℝ → ℝ → ℝ≥0∞}

/-- The chance that a fill succeeds, which is one if there is nothing to fill in. -/
noncomputable def fillOk (t : List ℝ) (c : ℝ≥0∞) : ℝ≥0∞ := if t = [] then 1 else c

/-- One sector of a skeleton, which is skipped if there is nothing to fill in. -/
noncomputable def secBr (n k : ℕ) (t : List ℝ) (T a b m : ℝ) (U : Option ℝ) : Prog (List ℝ × Option (List Bool)) :=
  if t = [] then .ret ([], none) else sampleLayerbr n k t T a b m U none

theorem grid_ne {vs : List ℝ} (h : (npCumsum vs).dropLast ≠ []) : 2 ≤ vs.length := by
  rw [← List.length_pos_iff, grid_length] at h
  omega

theorem grid_nil {vs : List ℝ} (hne : vs ≠ []) (h : (npCumsum vs).dropLast = []) : ∃ v, vs = [v] := by
  have : vs.length - 1 = 0 := by rw [← grid_length, h]; rfl
  have h0 := List.length_pos_iff.2 hne
  exact List.length_eq_one_iff.1 (by omega)

theorem sec_left (h : LayerSpec U E K n γ Γ) (hk : 0 < k) {m a : ℝ} {vs : List ℝ} {F : List ℝ → ℝ≥0∞} (hm : m < a) (hU : ∀ U', U = some U' → a < U')
    (hne : vs ≠ []) (hp : ∀ v ∈ vs, 0 < v) (hF : MeasAll F) :
    E m vs.sum a * (secBr n k (npCumsum vs).dropLast vs.sum a m m U).lexp (onOk fun q => F q.1) =
      fillOk (npCumsum vs).dropLast (γ m vs.sum a) * startInt (E m) (K m) a vs.reverse fun l => F l.reverse := by
  unfold secBr fillOk
  by_cases ht : (npCumsum vs).dropLast = []
  · obtain ⟨v, rfl⟩ := grid_nil hne ht
    rw [if_pos ht, if_pos ht]
    simp [startInt, onOk]
  · rw [if_neg ht, if_neg ht, layerbr_first n k hk U (grid_ne ht) hp (by rw [min_eq_right hm.le]) (by rwa [max_eq_left hm.le])]
    exact h.left hm hU hne hp (grid_mem hp) (grid_reverse vs) hF

theorem sec_right (h : LayerSpec U E K n γ Γ) (hk : 0 < k) {m b : ℝ} {vs : List ℝ} {F : List ℝ → ℝ≥0∞} (hm : m < b) (hU : ∀ U', U = some U' → b < U')
    (hne : vs ≠ []) (hp : ∀ v ∈ vs, 0 < v) (hF : MeasAll F) :
    E m vs.sum b * (secBr n k (npCumsum vs).dropLast vs.sum m b m U).lexp (onOk fun q => F q.1) =
      fillOk (npCumsum vs).dropLast (γ m vs.sum b) * startInt (E m) (K m) b vs F := by
  unfold secBr fillOk
  by_cases ht : (npCumsum vs).dropLast = []
  · obtain ⟨v, rfl⟩ := grid_nil hne ht
    rw [if_pos ht, if_pos ht]
    simp [startInt, onOk]
  · rw [if_neg ht, if_neg ht, layerbr_first n k hk U (grid_ne ht) hp (by rw [min_eq_left hm.le]) (by rwa [max_eq_right hm.le])]
    exact h.right hm hU hne hp hF

/-- The times before `s` and after it. -/
theorem grid_take {vs : List ℝ} (hne : vs ≠ []) (hp : ∀ v ∈ vs, 0 < v) {s : ℝ} (hs : s ∉ (npCumsum vs).dropLast) :
    (npCumsum vs).dropLast.take (searchLeft (npCumsum vs).dropLast s) = (npCumsum (leftIncs s vs)).dropLast := by
  have h := grid_reverse (leftIncs s vs).reverse
  rw [List.reverse_reverse, List.sum_reverse, leftIncs_sum vs s hne, ← grid_left vs hp s hs] at h
  rw [← h, ← List.map_reverse, List.reverse_reverse, List.map_map]
  conv_lhs => rw [← List.map_id ((npCumsum vs).dropLast.take (searchLeft (npCumsum vs).dropLast s))]
  refine List.map_congr_left fun r _ => ?_
  simp

theorem filter_take {s : ℝ} : ∀ {t : List ℝ}, t.Pairwise (· < ·) → s ∉ t → (t.filter fun r => decide (r < s)) = t.take (searchLeft t s) ∧
    (t.filter fun r => decide (s < r)) = t.drop (searchLeft t s)
  | [], _, _ => by simp
  | r :: t, ht, hs => by
    rw [List.pairwise_cons] at ht
    rw [List.mem_cons, not_or] at hs
    obtain ⟨h1, h2⟩ := filter_take ht.2 hs.2
    rw [searchLeft_cons]
    by_cases h : r < s
    · rw [if_pos h, List.filter_cons_of_pos (by simpa using h), List.filter_cons_of_neg (by simpa using h.le), h1, h2]
      simp
    · have h' : s < r := lt_of_le_of_ne (not_lt.1 h) hs.1
      rw [if_neg h, List.filter_cons_of_neg (by simpa using h), List.filter_cons_of_pos (by simpa using h')]
      constructor
      · rw [List.take_zero, List.filter_eq_nil_iff]
        intro q hq
        simpa using (h'.trans (ht.1 q hq)).le
      · rw [List.drop_zero, List.filter_eq_self.2]
        intro q hq
        simpa using h'.trans (ht.1 q hq)

theorem searchLeft_three {s T r : ℝ} (h0 : 0 < r) (h1 : r < T) : searchLeft [0, s, T] r = if s < r then 2 else 1 := by
  rw [searchLeft_cons, if_pos h0, searchLeft_cons]
  split_ifs with h
  · rw [searchLeft_cons, if_neg (not_lt.2 h1.le)]
  · rfl

/-- The upper edge that holds in both sectors where no flag is set. -/
def unsetEdge (U H : ℝ) (fl : Option (List Bool)) : Option ℝ := if fl = none then some U else if fl = some [false, false] then some H else none

theorem unsetEdge_ues {U H V T : ℝ} {s : ℝ} {fl : Option (List Bool)} (h : unsetEdge U H fl = some V) :
    ueSec [0, s, T].length (some U) (some H) fl = [some V, some V] ∧ hitSec [0, s, T].length (some H) fl = [none, none] := by
  unfold unsetEdge at h
  split_ifs at h with h1 h2
  · subst h1
    cases h
    exact ⟨rfl, rfl⟩
  · subst h2
    cases h
    exact ⟨rfl, rfl⟩

theorem point_sectors {s T a b m V : ℝ} {newT : List ℝ} (hN : newT.Pairwise (· < ·)) (hin : ∀ r ∈ newT, 0 < r ∧ r < T) (hs : s ∉ newT) :
    (if 1 ∈ newT.map (searchLeft [0, s, T]) then fillSector n k [0, s, T] [a, m, b] newT m [some V, some V] [none, none] 1 else .ret ([], none)) =
        secBr n k (newT.take (searchLeft newT s)) s a m m (some V) ∧
    (if 2 ∈ newT.map (searchLeft [0, s, T]) then fillSector n k [0, s, T] [a, m, b] newT m [some V, some V] [none, none] 2 else .ret ([], none)) =
        secBr n k ((newT.drop (searchLeft newT s)).map (· - s)) (T - s) m b m (some V) := by
  obtain ⟨h1, h2⟩ := filter_take hN hs
  have e : ∀ r ∈ newT, searchLeft [0, s, T] r = if s < r then 2 else 1 := fun r hr => searchLeft_three (hin r hr).1 (hin r hr).2
  have f1 : (newT.filter fun r => decide (searchLeft [0, s, T] r = 1)) = newT.take (searchLeft newT s) := by
    rw [← h1]
    refine List.filter_congr fun r hr => ?_
    rw [e r hr, decide_eq_decide]
    have : r ≠ s := fun h => hs (h ▸ hr)
    split_ifs with h
    · simpa using h.le
    · simpa using lt_of_le_of_ne (not_lt.1 h) this
  have f2 : (newT.filter fun r => decide (searchLeft [0, s, T] r = 2)) = newT.drop (searchLeft newT s) := by
    rw [← h2]
    refine List.filter_congr fun r hr => ?_
    rw [e r hr, decide_eq_decide]
    split_ifs with h
    · simpa using h
    · simpa using h
  have g : ∀ i, i ∈ newT.map (searchLeft [0, s, T]) ↔ (newT.filter fun r => decide (searchLeft [0, s, T] r = i)) ≠ [] := by
    intro i
    rw [List.mem_map, Ne, List.filter_eq_nil_iff]
    push Not
    simp
  constructor
  · unfold secBr
    rw [← f1]
    by_cases h : (newT.filter fun r => decide (searchLeft [0, s, T] r = 1)) = []
    · rw [if_neg (by rw [g]; simpa using h), if_pos h]
    · rw [if_pos ((g 1).2 h), if_neg h]
      simp [fillSector, pyGet]
  · unfold secBr
    rw [← f2]
    by_cases h : (newT.filter fun r => decide (searchLeft [0, s, T] r = 2)) = []
    · rw [if_neg (by rw [g]; simpa using h), if_pos (by rw [h]; rfl)]
    · rw [if_pos ((g 2).2 h), if_neg (by simpa using h)]
      simp [fillSector, pyGet]

theorem point_vals {s T a b m U H V : ℝ} {fl : Option (List Bool)} {newT : List ℝ} (h : Fillable [0, s, T] [a, m, b] newT m U H fl) (hV : unsetEdge U H fl = some V)
    (hin : ∀ r ∈ newT, 0 < r ∧ r < T) (F : List ℝ → ℝ≥0∞) :
    (fillOuter n k [0, s, T] [a, m, b] newT m (some U) (some H) fl).lexp (onOk fun r => F (r.2.2.1.map fun i => r.2.1.getD i 0)) =
      (secBr n k (newT.take (searchLeft newT s)) s a m m (some V)).lexp (onOk fun q =>
        (secBr n k ((newT.drop (searchLeft newT s)).map (· - s)) (T - s) m b m (some V)).lexp (onOk fun q' => F (q.1 ++ q'.1))) := by
  obtain ⟨e1, e2⟩ := unsetEdge_ues (s := s) (T := T) hV
  have hs : s ∉ newT := fun hs => h.fresh s hs (by simp)
  obtain ⟨p1, p2⟩ := point_sectors (n := n) (k := k) (a := a) (b := b) (m := m) (V := V) h.new hin hs
  have hm : ∀ i ∈ newT.map (searchLeft [0, s, T]), i = 1 ∨ i = 2 := by
    intro i hi
    obtain ⟨r, hr, rfl⟩ := List.mem_map.1 hi
    rw [searchLeft_three (hin r hr).1 (hin r hr).2]
    split_ifs <;> simp
  have h0 : (0 : ℕ) ∉ newT.map (searchLeft [0, s, T]) := fun h => by simpa using hm 0 h
  have h3 : (3 : ℕ) ∉ newT.map (searchLeft [0, s, T]) := fun h => by simpa using hm 3 h
  rw [fillOuter_vals h, e1, e2, npUnique, mapM'_filter (fun i => i ∈ newT.map (searchLeft [0, s, T]))]
  rw [show List.range ([0, s, T].length + 1) = [0, 1, 2, 3] from rfl]
  simp only [Prog.mapM', if_neg h0, if_neg h3, p1, p2, Prog.ret_bind, Prog.bind_assoc]
  rw [Prog.lexp_bind]
  congr 1
  funext r
  rcases r with e | r
  · rfl
  rw [Prog.cont_ok, Prog.lexp_bind]
  congr 1
  funext q
  rcases q with e | q
  · rfl
  · simp [Prog.cont_ok, onOk]

/-- Filling in multiplies the densities of both sectors by the split integral. -/
theorem point_law (h : LayerSpec U E K n γ Γ) (hk : 0 < k) {m a b s : ℝ} {vs : List ℝ} {F : List ℝ → ℝ≥0∞} (ha : m < a) (hb : m < b)
    (hUa : ∀ U', U = some U' → a < U') (hUb : ∀ U', U = some U' → b < U')
    (hne : vs ≠ []) (hp : ∀ v ∈ vs, 0 < v) (hs0 : 0 < s) (hs1 : s < vs.sum) (hs : s ∉ (npCumsum vs).dropLast) (hF : MeasAll F) :
    (secBr n k ((npCumsum vs).dropLast.take (searchLeft (npCumsum vs).dropLast s)) s a m m U).lexp (onOk fun q =>
        (secBr n k (((npCumsum vs).dropLast.drop (searchLeft (npCumsum vs).dropLast s)).map (· - s)) (vs.sum - s) m b m U).lexp (onOk fun q' => F (q.1 ++ q'.1))) =
      fillOk ((npCumsum vs).dropLast.take (searchLeft (npCumsum vs).dropLast s)) (γ m s a) *
        fillOk ((npCumsum vs).dropLast.drop (searchLeft (npCumsum vs).dropLast s)) (γ m (vs.sum - s) b) * splitInt E K m b vs a s F /
          (E m s a * E m (vs.sum - s) b) := by
  have hinc := incs_pos vs hp s hs0 hs1 hs
  have hl := leftIncs_ne vs s hne
  have hr := rightIncs_ne vs s hne
  have hls := leftIncs_sum vs s hne
  have hrs := rightIncs_sum vs s hne
  have hEa := h.fin hs0 ha hUa
  have hEb := h.fin (sub_pos.2 hs1) hb hUb
  have hfo : ∀ (t : List ℝ) (f : ℝ → ℝ) c, fillOk (t.map f) c = fillOk t c := fun t f c => by simp [fillOk]
  have hright : ∀ l1 : List ℝ, (secBr n k (((npCumsum vs).dropLast.drop (searchLeft (npCumsum vs).dropLast s)).map (· - s)) (vs.sum - s) m b m U).lexp (onOk fun q' => F (l1 ++ q'.1)) =
      fillOk ((npCumsum vs).dropLast.drop (searchLeft (npCumsum vs).dropLast s)) (γ m (vs.sum - s) b) / E m (vs.sum - s) b *
        startInt (E m) (K m) b (rightIncs s vs) fun l2 => F (l1 ++ l2) := by
    intro l1
    have := sec_right h hk hb hUb hr hinc.2 (hF.append_left l1)
    rw [hrs, ← grid_right vs hp s hs, hfo] at this
    rw [ENNReal.div_eq_inv_mul, mul_assoc, ← this, ← mul_assoc, ENNReal.inv_mul_cancel hEb.1 hEb.2, one_mul]
  have hleft := sec_left h hk (F := fun l1 => startInt (E m) (K m) b (rightIncs s vs) fun l2 => F (l1 ++ l2)) ha hUa hl hinc.1 (hF.startInt h.ker m b _)
  rw [hls, ← grid_take hne hp hs] at hleft
  have hfin : ∀ (t : List ℝ) c, c ≠ ∞ → fillOk t c ≠ ∞ := fun t c hc => by
    unfold fillOk
    split_ifs
    · exact ENNReal.one_ne_top
    · exact hc
  have hc : fillOk ((npCumsum vs).dropLast.drop (searchLeft (npCumsum vs).dropLast s)) (γ m (vs.sum - s) b) / E m (vs.sum - s) b ≠ ∞ :=
    ENNReal.div_ne_top (hfin _ _ (h.chance _ _ _)) hEb.1
  simp only [hright]
  have e : ∀ r : Res (List ℝ × Option (List Bool)), onOk (fun q : List ℝ × Option (List Bool) =>
      fillOk ((npCumsum vs).dropLast.drop (searchLeft (npCumsum vs).dropLast s)) (γ m (vs.sum - s) b) / E m (vs.sum - s) b *
        startInt (E m) (K m) b (rightIncs s vs) fun l2 => F (q.1 ++ l2)) r =
      fillOk ((npCumsum vs).dropLast.drop (searchLeft (npCumsum vs).dropLast s)) (γ m (vs.sum - s) b) / E m (vs.sum - s) b *
        onOk (fun q : List ℝ × Option (List Bool) => startInt (E m) (K m) b (rightIncs s vs) fun l2 => F (q.1 ++ l2)) r := by
    rintro (e | q)
    · simp [onOk]
    · rfl
  rw [funext e, Prog.lexp_const_mul _ _ hc, splitInt_halves h.ker m b vs hne a s (hF _)]
  have hL : (secBr n k ((npCumsum vs).dropLast.take (searchLeft (npCumsum vs).dropLast s)) s a m m U).lexp
      (onOk fun q : List ℝ × Option (List Bool) => startInt (E m) (K m) b (rightIncs s vs) fun l2 => F (q.1 ++ l2)) =
      fillOk ((npCumsum vs).dropLast.take (searchLeft (npCumsum vs).dropLast s)) (γ m s a) / E m s a *
        startInt (E m) (K m) a (leftIncs s vs).reverse fun l1 => startInt (E m) (K m) b (rightIncs s vs) fun l2 => F (l1.reverse ++ l2) := by
    rw [ENNReal.div_eq_inv_mul, mul_assoc, ← hleft, ← mul_assoc, ENNReal.inv_mul_cancel hEa.1 hEa.2, one_mul]
  rw [hL, ENNReal.div_eq_inv_mul, ENNReal.div_eq_inv_mul, ENNReal.div_eq_inv_mul, ENNReal.mul_inv (Or.inl hEa.1) (Or.inl hEa.2)]
  ring

/-- Interpolation of a skeleton with a maximum is the mirror image of the interpolation of its mirror image. -/
theorem interp_flip {s : EaSkel} {newT : List ℝ} {f x0 x1 : ℝ} (hv : s.Valid) (hlt : s.loose < s.tight) (hN : newT.Pairwise (· < ·)) (h0 : newT ≠ [])
    (hf : s.t.getLast? = some f) (hx0 : s.x.head? = some x0) (hx1 : s.x.getLast? = some x1) (hin : ∀ r ∈ newT, 0 ≤ r ∧ r ≤ f) (G : EaSkel × List ℝ → ℝ≥0∞) :
    (interpolateSkel n k s newT).lexp (onOk G) = (interpolateSkel n k (flipWith f ((x0 + x1) / 2) s) (flipList f newT)).lexp
      (onOk fun r => G (flipWith f ((x0 + x1) / 2) r.1, flipList (2 * ((x0 + x1) / 2)) r.2)) := by
  obtain ⟨f', x0', x1', hf', hx0', hx1', hf0, hr, he⟩ := flipSkel_eq hv
  obtain rfl : f' = f := Option.some.inj (hf'.symm.trans hf)
  obtain rfl : x0' = x0 := Option.some.inj (hx0'.symm.trans hx0)
  obtain rfl : x1' = x1 := Option.some.inj (hx1'.symm.trans hx1)
  have hv1 := flipWith_valid hv hf' ((x0' + x1') / 2)
  have hrev : reversePath newT [] f' = .ok (flipList f' newT, []) := by
    unfold reversePath
    rw [if_neg (not_not.2 hin), if_neg (not_not.2 hf0)]
    rfl
  have hne : flipList f' newT ≠ [] := by
    rw [← List.length_pos_iff, flipList_length]
    exact List.length_pos_iff.2 h0
  have hlt' : (flipWith f' ((x0' + x1') / 2) s).tight < (flipWith f' ((x0' + x1') / 2) s).loose := by
    simp only [flipWith]
    linarith
  unfold interpolateSkel
  rw [if_neg h0, if_neg (not_lt.2 hlt.le), if_neg hne, if_pos hlt', he, hf']
  simp only [Prog.lift, Prog.ret_bind, hrev]
  rw [Prog.lexp_bind, Prog.lexp_bind]
  refine Prog.lexp_congr ?_
  rintro (e | ⟨t', x', idx, hit'⟩) hout
  · rfl
  obtain ⟨hst, hidx⟩ := step_std hv1.1 (flipList_sorted (f := f') hN) hout
  obtain ⟨f2, y0, y1, hf2, hy0, hy1, -, -, he'⟩ := flipSkel_eq hst.valid
  have ef : f2 = f' := by
    rw [hst.last, hv1.2] at hf2
    exact (Option.some.inj hf2).symm
  have e0 : y0 = 2 * ((x0' + x1') / 2) - x1' := by
    rw [hst.xfirst] at hy0
    simp only [flipWith, flipList_head, hx1, Option.map_some, Option.some.injEq] at hy0
    exact hy0.symm
  have e1 : y1 = 2 * ((x0' + x1') / 2) - x0' := by
    rw [hst.xlast] at hy1
    simp only [flipWith, flipList_last, hx0, Option.map_some, Option.some.injEq] at hy1
    exact hy1.symm
  have ec : (y0 + y1) / 2 = (x0' + x1') / 2 := by rw [e0, e1]; ring
  rw [ef, ec] at he'
  rw [Prog.cont_ok, Prog.cont_ok]
  simp only [he', Prog.ret_bind, Prog.lexp_ret, onOk]
  congr 2
  simp only [flipWith, flipList]
  simp only [List.map_reverse, List.map_map]
  congr 1
  apply List.map_congr_left
  intro i hi
  have hil : i < t'.length := by
    rw [hidx] at hi
    simpa using (List.mem_filter.1 hi).1
  have hlx : x'.length = t'.length := hst.valid.len
  simp only [Function.comp]
  rw [List.getD_eq_getElem _ _ (by simp; omega), List.getD_eq_getElem _ _ (by omega)]
  simp only [List.getElem_reverse, List.getElem_map, List.length_map]
  congr 2
  omega

end Ctb
