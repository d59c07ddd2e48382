import Verif.Lemmas.Occupation
import Verif.Lemmas.Partition
import Verif.Spec.Generator

/-! # Lemmas about the conjugate update of the jump process -/

set_option linter.unusedSectionVars false

namespace Ctb

/-- The likelihood in terms of counts and holding times, for a list of jumps. -/
theorem loglik_aux (g : Mat) (d : ℕ) (l : List (ℝ × ℕ)) : ∀ (a : ℝ) (x : ℕ), x < d → (∀ z ∈ l.map Prod.snd, z < d) →
    (x :: l.map Prod.snd).IsChain (· ≠ ·) →
    (List.zipWith (fun (xx : ℕ × ℕ) (dt : ℝ) => Real.log (g xx.1 xx.2) + dt * g xx.1 xx.1)
      ((x :: l.map Prod.snd).dropLast.zip (l.map Prod.snd)) (npDiff (a :: l.map Prod.fst))).sum =
      (∑ i ∈ Finset.range d, ∑ j ∈ Finset.range d,
        if i = j then 0 else (transCount (x :: l.map Prod.snd) i j : ℝ) * Real.log (g i j)) +
      ∑ i ∈ Finset.range d, (select (npDiff (a :: l.map Prod.fst) ++ [0])
        ((x :: l.map Prod.snd).map fun z => decide (z = i))).sum * g i i := by
  induction l with
  | nil =>
    intro a x _ _ _
    have : ∀ i, (select [(0 : ℝ)] [decide (x = i)]).sum = 0 := by
      intro i; by_cases h : x = i <;> simp [select, h]
    simp [npDiff, transCount, select, this]
  | cons p l ih =>
    obtain ⟨b, y⟩ := p
    intro a x hx hd hr
    simp only [List.map_cons, List.isChain_cons_cons] at hr
    have hy : y < d := hd y (by simp)
    have IH := ih b y hy (fun z hz => hd z (by simp only [List.map_cons]; exact List.mem_cons_of_mem _ hz)) hr.2
    have e0 : (x :: y :: l.map Prod.snd).dropLast.zip (y :: l.map Prod.snd) =
        (x, y) :: (y :: l.map Prod.snd).dropLast.zip (l.map Prod.snd) := rfl
    have e0' : npDiff (a :: b :: l.map Prod.fst) = (b - a) :: npDiff (b :: l.map Prod.fst) := rfl
    simp only [List.map_cons] at IH ⊢
    rw [e0, e0', List.zipWith_cons_cons, List.sum_cons, IH]
    have e1 : ∀ i j, (if i = j then 0 else (transCount (x :: y :: l.map Prod.snd) i j : ℝ) * Real.log (g i j)) =
        (if i = x then (if j = y then Real.log (g i j) else 0) else 0) +
        (if i = j then 0 else (transCount (y :: l.map Prod.snd) i j : ℝ) * Real.log (g i j)) := by
      intro i j
      rw [transCount_cons]
      by_cases h : i = x ∧ j = y
      · obtain ⟨rfl, rfl⟩ := h
        simp [hr.1]; ring
      · by_cases h1 : i = x
        · have h2 : j ≠ y := fun h2 => h ⟨h1, h2⟩
          simp [h1, h2, Ne.symm h2]
        · simp [h1, Ne.symm h1]
    have e2 : ∑ i ∈ Finset.range d, ∑ j ∈ Finset.range d, (if i = x then (if j = y then Real.log (g i j) else 0) else 0) =
        Real.log (g x y) := by
      rw [Finset.sum_eq_single x]
      · simp [hy]
      · intro c _ hc; simp [hc]
      · intro h; exact absurd (Finset.mem_range.2 hx) h
    have e3 : ∀ i, (select ((b - a) :: npDiff (b :: l.map Prod.fst) ++ [0])
          (decide (x = i) :: decide (y = i) :: (l.map Prod.snd).map fun z => decide (z = i))).sum * g i i =
        (if i = x then (b - a) * g i i else 0) +
        (select (npDiff (b :: l.map Prod.fst) ++ [0])
          (decide (y = i) :: (l.map Prod.snd).map fun z => decide (z = i))).sum * g i i := by
      intro i
      by_cases h : x = i
      · subst h; simp only [decide_true, List.cons_append, select, List.sum_cons, if_true]; ring
      · simp only [h, decide_false, List.cons_append, select, Ne.symm h, if_false, zero_add]
    simp only [e1, e3, Finset.sum_add_distrib]
    rw [e2, Finset.sum_ite_eq' (Finset.range d) x, if_pos (Finset.mem_range.2 hx)]
    ring

/-- The likelihood in terms of counts and holding times. -/
theorem evalLoglik_eq {sk : Skel ℝ} (hv : sk.Valid) (hr : sk.Reduced) {d : ℕ} (hd : sk.StatesLt d) (g : Mat) :
    evalLoglik sk g =
      (∑ i ∈ Finset.range d, ∑ j ∈ Finset.range d, if i = j then 0 else (transCount sk.xt i j : ℝ) * Real.log (g i j)) +
      ∑ i ∈ Finset.range d, holdTime sk i * g i i := by
  obtain ⟨x, l, hl⟩ := hv.jumps_head
  obtain ⟨ht, hx⟩ := Skel.t_eq_of_len hv.len
  unfold Skel.Reduced at hr
  unfold Skel.StatesLt at hd
  unfold evalLoglik holdTime
  rw [hx] at hr hd
  rw [ht, hx]
  rw [hl] at hr hd ⊢
  exact loglik_aux g d l 0 x (hd x (by simp))
    (fun z hz => hd z (by simp only [List.map_cons]; exact List.mem_cons_of_mem _ hz)) hr

/-- The log-prior as a sum over off-diagonal entries. -/
theorem evalLogprior_eq {d : ℕ} {g : Mat} (hoff : ∀ i < d, ∀ j < d, i ≠ j → 0 ≤ g i j)
    (hrow : ∀ i < d, ∑ j ∈ Finset.range d, g i j = 0) {alp bet : NMat} {A B : Mat}
    (hA : ∀ i < d, ∀ j < d, i ≠ j → alp i j = some (A i j)) (hB : ∀ i < d, ∀ j < d, i ≠ j → bet i j = some (B i j)) :
    evalLogprior d g alp bet = ∑ i ∈ Finset.range d, ∑ j ∈ Finset.range d,
      if i = j then 0 else (A i j - 1) * Real.log (g i j) - B i j * g i j := by
  unfold evalLogprior nansum
  apply Finset.sum_congr rfl
  intro i hi
  apply Finset.sum_congr rfl
  intro j hj
  rw [Finset.mem_range] at hi hj
  by_cases hij : i = j
  · subst hij
    have : g i i ≤ 0 := by
      have h1 := hrow i hi
      rw [← Finset.add_sum_erase _ _ (Finset.mem_range.2 hi)] at h1
      have h2 : 0 ≤ ∑ j ∈ (Finset.range d).erase i, g i j := by
        apply Finset.sum_nonneg; intro j hj
        rw [Finset.mem_erase, Finset.mem_range] at hj
        exact hoff i hi j hj.2 (Ne.symm hj.1)
      linarith
    simp [priorTerm, not_lt.2 this]
  · rw [if_neg hij]
    simp only [hA i hi j hj hij, hB i hi j hj hij]
    unfold priorTerm
    by_cases hp : 0 < g i j
    · simp [hp, nan2]
    · have : g i j = 0 := le_antisymm (not_lt.1 hp) (hoff i hi j hj hij)
      simp [this]

theorem diag_eq {d : ℕ} {g : Mat} (hrow : ∀ i < d, ∑ j ∈ Finset.range d, g i j = 0) {i : ℕ} (hi : i < d) :
    g i i = -∑ j ∈ Finset.range d, if i = j then 0 else g i j := by
  have h1 := hrow i hi
  have h2 : ∑ j ∈ Finset.range d, g i j = g i i + ∑ j ∈ Finset.range d, if i = j then 0 else g i j := by
    have : ∀ j, g i j = (if i = j then g i i else 0) + (if i = j then 0 else g i j) := by
      intro j; by_cases h : i = j
      · subst h; simp
      · simp [h]
    calc ∑ j ∈ Finset.range d, g i j
        = ∑ j ∈ Finset.range d, ((if i = j then g i i else 0) + (if i = j then 0 else g i j)) :=
          Finset.sum_congr rfl fun j _ => this j
      _ = _ := by rw [Finset.sum_add_distrib, Finset.sum_ite_eq, if_pos (Finset.mem_range.2 hi)]
  linarith

/-- Filling the diagonal with minus the NaN-sum of a matrix that is NaN exactly on the diagonal gives a generator. -/
theorem fillDiag_gen {d : ℕ} {m : NMat} {G : Mat} (hdiag : ∀ i < d, m i i = none)
    (hoff : ∀ i < d, ∀ j < d, i ≠ j → m i j = some (G i j)) :
    ∃ g : Mat, (∀ i < d, ∀ j < d, fillDiag d m i j = some (g i j)) ∧ (∀ i < d, ∀ j < d, i ≠ j → g i j = G i j) ∧
      ∀ i < d, ∑ j ∈ Finset.range d, g i j = 0 := by
  refine ⟨fun i j => if i = j then -(nansum d (m i)) else G i j, ?_, ?_, ?_⟩
  · intro i hi j hj
    unfold fillDiag
    by_cases h : i = j
    · simp [h]
    · simp [h, hoff i hi j hj h]
  · intro i _ j _ h; simp [h]
  · intro i hi
    have h1 : nansum d (m i) = ∑ j ∈ Finset.range d, if i = j then 0 else G i j := by
      unfold nansum
      apply Finset.sum_congr rfl
      intro j hj
      by_cases h : i = j
      · subst h; simp [hdiag i hi]
      · simp [h, hoff i hi j (Finset.mem_range.1 hj) h]
    have h2 : ∀ j, (if i = j then -(nansum d (m i)) else G i j) =
        (if i = j then -(nansum d (m i)) else 0) + (if i = j then 0 else G i j) := by
      intro j; by_cases h : i = j <;> simp [h]
    simp only [h2]
    rw [Finset.sum_add_distrib, ← h1, Finset.sum_ite_eq, if_pos (Finset.mem_range.2 hi)]
    ring

/-- What a single draw can return: positive for a positive shape. -/
theorem drawGamma_out {a b : ℝ} {x : ℝ} (h : (drawGamma a b).Out (.ok x)) : 0 < a → 0 < x := by
  intro ha
  unfold drawGamma at h
  split_ifs at h with h1 h2 h3
  · simp at h
  · simp at h
  · exact absurd h3 ha.ne'
  · simp only [Prog.out_real, Prog.out_ret, Except.ok.injEq] at h
    obtain ⟨y, hy, rfl⟩ := h
    exact hy

theorem drawGamma_pos {a b : ℝ} (ha : 0 < a) (hb : 0 < b) : drawGamma a b = .real (.gamma a (1 / b)) .ret := by
  unfold drawGamma
  rw [if_neg (by rintro (h | h) <;> linarith), if_neg hb.ne', if_neg ha.ne']

theorem drawGammas_out (alp bet : NMat) (L : List (ℕ × ℕ)) (g : NMat) (h : (drawGammas alp bet L).Out (.ok g)) :
    ∀ i j, ((i, j) ∈ L ∧ (∃ a, 0 < a ∧ alp i j = some a) ∧ bet i j ≠ none → ∃ x, 0 < x ∧ g i j = some x) ∧
      (alp i j = none → g i j = none) := by
  induction L generalizing g with
  | nil =>
    simp only [drawGammas, Prog.out_ret, Except.ok.injEq] at h
    subst h; intro i j; simp
  | cons p L ih =>
    obtain ⟨a, b⟩ := p
    unfold drawGammas at h
    split at h
    · rename_i u v hu hv
      simp only [Prog.out_bind_ok, Prog.out_ret, Except.ok.injEq] at h
      obtain ⟨x, hx, g', hg', rfl⟩ := h
      intro i j
      have := ih g' hg' i j
      by_cases e : i = a ∧ j = b
      · obtain ⟨rfl, rfl⟩ := e
        simp only [and_self, if_true]
        refine ⟨fun hm => ⟨x, ?_, rfl⟩, fun hn => by rw [hu] at hn; simp at hn⟩
        obtain ⟨w, hw, he⟩ := hm.2.1
        rw [hu] at he
        cases he
        exact drawGamma_out hx hw
      · simp only [e, if_false]
        refine ⟨fun hm => this.1 ⟨?_, hm.2⟩, this.2⟩
        rcases List.mem_cons.1 hm.1 with h | h
        · cases h; exact absurd ⟨rfl, rfl⟩ e
        · exact h
    · rename_i hno
      intro i j
      have := ih g h i j
      refine ⟨fun hm => this.1 ⟨?_, hm.2⟩, this.2⟩
      rcases List.mem_cons.1 hm.1 with h | h
      · cases h
        obtain ⟨u, -, hu⟩ := hm.2.1
        obtain ⟨v, hv⟩ := Option.ne_none_iff_exists'.1 hm.2.2
        exact absurd hv (hno u v hu)
      · exact h

theorem nanMean_some {α : Type} (l : List α) (f : α → Option ℝ) (F : α → ℝ) (h : ∀ a ∈ l, f a = some (F a)) :
    nanMean (l.map f) = some ((l.map F).sum / l.length) := by
  unfold nanMean
  have : (l.map f).foldr (nan2 (· + ·)) (some 0) = some ((l.map F).sum) := by
    induction l with
    | nil => rfl
    | cons a l ih =>
      simp only [List.map_cons, List.foldr_cons, List.sum_cons]
      rw [ih (fun b hb => h b (List.mem_cons_of_mem _ hb)), h a (by simp)]
      rfl
  rw [this]; simp

/-- Objective as a sum over off-diagonal entries. -/
theorem emObjective_eq {d : ℕ} {yy : List (Skel ℝ)} (hne : yy ≠ []) (hy : ∀ y ∈ yy, y.Valid ∧ y.Reduced ∧ y.StatesLt d)
    {alp bet : NMat} {A B : Mat} (hh : Hyper d alp bet A B) {g : Mat} (hoff : ∀ i < d, ∀ j < d, i ≠ j → 0 ≤ g i j)
    (hrow : ∀ i < d, ∑ j ∈ Finset.range d, g i j = 0) :
    emObjective d yy alp bet g = ∑ i ∈ Finset.range d, ∑ j ∈ Finset.range d, if i = j then 0 else
      ((yy.map fun y => (transCount y.xt i j : ℝ) + A i j - 1).sum / yy.length) * Real.log (g i j) -
      ((yy.map fun y => holdTime y i + B i j).sum / yy.length) * g i j := by
  have hn : (yy.length : ℝ) ≠ 0 := by
    simpa using hne
  unfold emObjective
  rw [evalLogprior_eq hoff hrow hh.offA hh.offB]
  have hll : ∀ y ∈ yy, evalLoglik y g = ∑ i ∈ Finset.range d, ∑ j ∈ Finset.range d,
      if i = j then 0 else (transCount y.xt i j : ℝ) * Real.log (g i j) - holdTime y i * g i j := by
    intro y hyy
    obtain ⟨h1, h2, h3⟩ := hy y hyy
    rw [evalLoglik_eq h1 h2 h3, ← Finset.sum_add_distrib]
    apply Finset.sum_congr rfl
    intro i hi
    rw [diag_eq hrow (Finset.mem_range.1 hi), mul_neg, Finset.mul_sum, ← Finset.sum_neg_distrib, ← Finset.sum_add_distrib]
    apply Finset.sum_congr rfl
    intro j _
    by_cases h : i = j <;> simp [h]; ring
  have hsum : ∀ l : List (Skel ℝ), (∀ y ∈ l, y ∈ yy) → (l.map fun y => evalLoglik y g).sum =
      ∑ i ∈ Finset.range d, ∑ j ∈ Finset.range d, if i = j then 0 else
        (l.map fun y => (transCount y.xt i j : ℝ)).sum * Real.log (g i j) - (l.map fun y => holdTime y i).sum * g i j := by
    intro l
    induction l with
    | nil => intro _; simp
    | cons y l ih =>
      intro h
      rw [List.map_cons, List.sum_cons, ih (fun z hz => h z (List.mem_cons_of_mem _ hz)), hll y (h y (by simp)),
        ← Finset.sum_add_distrib]
      apply Finset.sum_congr rfl
      intro i _
      rw [← Finset.sum_add_distrib]
      apply Finset.sum_congr rfl
      intro j _
      by_cases h : i = j
      · simp [h]
      · simp only [h, if_false, List.map_cons, List.sum_cons]; ring
  rw [hsum yy (fun _ h => h), Finset.sum_div, ← Finset.sum_add_distrib]
  apply Finset.sum_congr rfl
  intro i _
  rw [Finset.sum_div, ← Finset.sum_add_distrib]
  apply Finset.sum_congr rfl
  intro j _
  by_cases h : i = j
  · simp [h]
  · simp only [h, if_false]
    have e1 : (yy.map fun y => (transCount y.xt i j : ℝ) + A i j - 1).sum =
        (yy.map fun y => (transCount y.xt i j : ℝ)).sum + yy.length * (A i j - 1) := by
      clear hn hne hy hll hsum
      induction yy with
      | nil => simp
      | cons y l ih => simp only [List.map_cons, List.sum_cons, ih, List.length_cons]; push_cast; ring
    have e2 : (yy.map fun y => holdTime y i + B i j).sum = (yy.map fun y => holdTime y i).sum + yy.length * B i j := by
      clear hn hne hy hll hsum e1
      induction yy with
      | nil => simp
      | cons y l ih => simp only [List.map_cons, List.sum_cons, ih, List.length_cons]; push_cast; ring
    rw [e1, e2]
    field_simp
    ring

theorem xlog_max {P Q g : ℝ} (hP : 0 ≤ P) (hQ : 0 < Q) (hg : 0 < g) :
    P * Real.log g - Q * g ≤ P * Real.log (P / Q) - Q * (P / Q) := by
  rcases hP.eq_or_lt with h | h
  · subst h; simp; positivity
  · have h1 : Real.log (g * Q / P) ≤ g * Q / P - 1 := Real.log_le_sub_one_of_pos (by positivity)
    have h2 : Real.log (g * Q / P) = Real.log g - Real.log (P / Q) := by
      rw [← Real.log_div hg.ne' (by positivity)]; congr 1; field_simp
    rw [h2] at h1
    have h3 := mul_le_mul_of_nonneg_left h1 hP
    have h4 : P * (g * Q / P - 1) = Q * g - P := by field_simp
    have h5 : Q * (P / Q) = P := by field_simp
    rw [h4] at h3; rw [h5]; linarith

end Ctb
