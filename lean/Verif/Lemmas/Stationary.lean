import Verif.Lemmas.Mutate

/-! # Lemmas about `get_stat` and the error branches of the path samplers -/

set_option linter.unusedSectionVars false

namespace Ctb

variable {d : ℕ}

/-- A left null vector of a strictly positive generator with a positive entry is positive everywhere. -/
theorem null_pos {G : Matrix (Fin d) (Fin d) ℝ} (hoff : ∀ i j, i ≠ j → 0 < G i j) (hrow : ∀ i, ∑ j, G i j = 0)
    {v : Fin d → ℝ} (hv : ∀ j, ∑ i, v i * G i j = 0) (hp : ∃ i, 0 < v i) : ∀ i, 0 < v i := by
  classical
  by_contra hcon
  push Not at hcon
  obtain ⟨b, hb⟩ := hcon
  obtain ⟨a, ha⟩ := hp
  set P := Finset.univ.filter fun i => 0 < v i with hP
  have haP : a ∈ P := by simp [hP, ha]
  have hbP : b ∉ P := by simp [hP, hb]
  have h0 : ∑ i, v i * ∑ j ∈ P, G i j = 0 := by
    have : ∑ j ∈ P, ∑ i, v i * G i j = 0 := Finset.sum_eq_zero fun j _ => hv j
    rw [Finset.sum_comm] at this
    simpa [Finset.mul_sum] using this
  have hneg : ∀ i, v i * ∑ j ∈ P, G i j ≤ 0 := by
    intro i
    by_cases hi : i ∈ P
    · have hvi : 0 < v i := by simpa [hP] using hi
      have h1 := hrow i
      rw [← Finset.sum_add_sum_compl P] at h1
      have h2 : 0 ≤ ∑ j ∈ Pᶜ, G i j := Finset.sum_nonneg fun j hj =>
        (hoff i j (by rintro rfl; exact (Finset.mem_compl.1 hj) hi)).le
      exact mul_nonpos_of_nonneg_of_nonpos hvi.le (by linarith)
    · have hvi : v i ≤ 0 := by simpa [hP] using hi
      exact mul_nonpos_of_nonpos_of_nonneg hvi (Finset.sum_nonneg fun j hj =>
        (hoff i j (by rintro rfl; exact hi hj)).le)
  have hlt : v a * ∑ j ∈ P, G a j < 0 := by
    have h1 := hrow a
    rw [← Finset.sum_add_sum_compl P] at h1
    have h2 : 0 < ∑ j ∈ Pᶜ, G a j := Finset.sum_pos
      (fun j hj => hoff a j (by rintro rfl; exact (Finset.mem_compl.1 hj) haP)) ⟨b, Finset.mem_compl.2 hbP⟩
    exact mul_neg_of_pos_of_neg ha (by linarith)
  have : ∑ i, v i * ∑ j ∈ P, G i j < 0 := by
    calc ∑ i, v i * ∑ j ∈ P, G i j < ∑ _i : Fin d, (0 : ℝ) :=
          Finset.sum_lt_sum (fun i _ => hneg i) ⟨a, Finset.mem_univ a, hlt⟩
      _ = 0 := by simp
  linarith

/-- The matrix of the linear system. -/
noncomputable def statMat (G : Matrix (Fin d) (Fin d) ℝ) : Matrix (Fin d) (Fin d) ℝ :=
  G.transpose - Matrix.of fun _ _ => (1 : ℝ)

theorem statMat_mulVec (G : Matrix (Fin d) (Fin d) ℝ) (v : Fin d → ℝ) (j : Fin d) :
    (statMat G).mulVec v j = ∑ i, v i * G i j - ∑ i, v i := by
  simp only [statMat, Matrix.mulVec, dotProduct, Matrix.sub_apply, Matrix.transpose_apply, Matrix.of_apply,
    ← Finset.sum_sub_distrib]
  exact Finset.sum_congr rfl fun i _ => by ring

theorem statMat_const [NeZero d] {G : Matrix (Fin d) (Fin d) ℝ} (hrow : ∀ i, ∑ j, G i j = 0) {v : Fin d → ℝ} {c : ℝ}
    (h : (statMat G).mulVec v = fun _ => -c) : ∑ i, v i = c ∧ ∀ j, ∑ i, v i * G i j = 0 := by
  have hj : ∀ j, ∑ i, v i * G i j - ∑ i, v i = -c := fun j => by rw [← statMat_mulVec, h]
  have hs : ∑ j, ∑ i, v i * G i j = 0 := by
    rw [Finset.sum_comm]
    simp [← Finset.mul_sum, hrow]
  have h1 : ∑ j : Fin d, (∑ i, v i * G i j - ∑ i, v i) = ∑ _j : Fin d, -c := Finset.sum_congr rfl fun j _ => hj j
  rw [Finset.sum_sub_distrib, hs] at h1
  simp only [Finset.sum_const, Finset.card_univ, Fintype.card_fin, nsmul_eq_mul, zero_sub] at h1
  have hd : (d : ℝ) ≠ 0 := by exact_mod_cast NeZero.ne d
  have h2 : ∑ i, v i = c := by
    have : (d : ℝ) * ∑ i, v i = d * c := by linarith
    exact mul_left_cancel₀ hd this
  refine ⟨h2, fun j => ?_⟩
  have := hj j; linarith

theorem statMat_det [NeZero d] {G : Matrix (Fin d) (Fin d) ℝ} (hoff : ∀ i j, i ≠ j → 0 < G i j)
    (hrow : ∀ i, ∑ j, G i j = 0) : (statMat G).det ≠ 0 := by
  intro hdet
  obtain ⟨v, hv, hz⟩ := Matrix.exists_mulVec_eq_zero_iff.2 hdet
  obtain ⟨hs, hn⟩ := statMat_const hrow (c := 0) (v := v) (by rw [hz]; ext; simp)
  have hpos : ¬ ∃ i, 0 < v i := by
    intro h
    have := null_pos hoff hrow hn h
    have : 0 < ∑ i, v i := Finset.sum_pos (fun i _ => this i) Finset.univ_nonempty
    linarith
  have hneg : ¬ ∃ i, 0 < -v i := by
    intro h
    have := null_pos hoff hrow (v := fun i => -v i) (by intro j; simp [hn j]) h
    have : 0 < ∑ i, -v i := Finset.sum_pos (fun i _ => this i) Finset.univ_nonempty
    simp at this; linarith
  apply hv
  ext i
  push Not at hpos hneg
  have h1 := hpos i
  have h2 := hneg i
  simp; linarith

theorem getStat_ok [NeZero d] {g : Mat} {p : Fin d → ℝ} (h : getStat d g = .ok p) :
    (statMat (toM d g)).mulVec p = fun _ => -1 := by
  unfold getStat at h
  simp only at h
  split at h
  · rename_i hd
    rw [Except.ok.injEq] at h
    rw [← h, Matrix.mulVec_mulVec]
    unfold statMat
    rw [Matrix.mul_nonsing_inv _ (by rw [isUnit_iff_ne_zero]; exact hd), Matrix.one_mulVec]
  · simp at h

theorem IsGenerator.stat [NeZero d] {g : Mat} (hg : IsGenerator d g) : ∃ p, getStat d g = .ok p ∧ (∀ i, 0 < p i) ∧
    ∑ i, p i = 1 ∧ (∀ j : Fin d, ∑ i : Fin d, p i * g i j = 0) ∧
    ∀ q : Fin d → ℝ, ∑ i, q i = 1 → (∀ j : Fin d, ∑ i : Fin d, q i * g i j = 0) → q = p := by
  have hoff : ∀ i j : Fin d, i ≠ j → 0 < toM d g i j := fun i j hij => hg.off i i.2 j j.2 fun e => hij (Fin.ext e)
  have hdet := statMat_det hoff hg.toQ.row
  obtain ⟨p, hp⟩ : ∃ p, getStat d g = .ok p := by
    unfold statMat at hdet
    unfold getStat; simp only; rw [if_pos hdet]; exact ⟨_, rfl⟩
  have hs := getStat_ok hp
  obtain ⟨h1, h2⟩ := statMat_const hg.toQ.row hs
  have hex : ∃ i, 0 < p i := by
    by_contra h
    push Not at h
    have : ∑ i, p i ≤ 0 := Finset.sum_nonpos fun i _ => h i
    linarith
  refine ⟨p, hp, null_pos hoff hg.toQ.row h2 hex, h1, h2, ?_⟩
  intro q hq1 hq2
  have hq : (statMat (toM d g)).mulVec q = fun _ => -1 := by
    ext j
    rw [statMat_mulVec, hq1]
    have := hq2 j
    simp only [toM]; rw [this]; norm_num
  exact Matrix.mulVec_injective_of_isUnit ((Matrix.isUnit_iff_isUnit_det _).2 (isUnit_iff_ne_zero.2 hdet))
    (hq.trans hs.symm)

/-! ## errors -/

theorem replicate_draw_no_error {n : ℕ} {D : RDist} {e : PyErr} : ¬ (Prog.replicate n (.draw D)).Out (.error e) := by
  induction n with
  | zero => simp [Prog.replicate]
  | succ n ih =>
    intro h
    rw [Prog.replicate, Prog.out_bind_error] at h
    rcases h with h | ⟨a, -, h⟩
    · simp at h
    · rw [Prog.out_bind_error] at h
      rcases h with h | ⟨l, -, h⟩
      · exact ih h
      · simp at h

theorem forwards_error {fuel : ℕ} {g : Mat} {fin : ℝ} (hd : 2 ≤ d) (hg : ∀ i < d, ∀ j < d, i ≠ j → 0 ≤ g i j) {x : ℕ}
    (hx : x < d) {e : PyErr} (h : (sampleForwards fuel d g fin (some x)).Out (.error e)) : e = .fuel := by
  unfold sampleForwards at h
  simp only [Prog.ret_bind] at h
  rw [Prog.out_bind_error] at h
  rcases h with h | ⟨l, -, h⟩
  · exact forwardsLoop_error hd hg _ _ _ _ hx h
  · simp at h

theorem forwards_none_error [NeZero d] {fuel : ℕ} {g : Mat} {fin : ℝ} (hd : 2 ≤ d) (hg : IsGenerator d g) {e : PyErr}
    (h : (sampleForwards fuel d g fin none).Out (.error e)) : e = .fuel := by
  obtain ⟨p, hp, hpos, hsum, -⟩ := hg.stat
  unfold sampleForwards at h
  simp only [hp, Prog.lift, Prog.ret_bind] at h
  rw [Prog.out_bind_error] at h
  rcases h with h | ⟨x, hx, h⟩
  · rw [Prog.out_bind_error] at h
    rcases h with h | ⟨y, -, h⟩
    · exact absurd ⟨fun j => (hpos j).le, hsum⟩ (pyChoice_error h).2
    · simp at h
  · rw [Prog.out_bind_ok] at hx
    obtain ⟨y, -, hy⟩ := hx
    simp only [Prog.out_ret, Except.ok.injEq] at hy
    subst hy
    exact forwards_error hd (fun i hi j hj hij => (hg.off i hi j hj hij).le) y.2 (fuel := fuel) (fin := fin) (by
      unfold sampleForwards; simpa only [Prog.ret_bind] using h)

theorem bridge_error [NeZero d] {fuel : ℕ} {G : Matrix (Fin d) (Fin d) ℝ} (hQ : IsQMatrix G) {fin : ℝ} (hf : 0 ≤ fin)
    {i f : Fin d} {e : PyErr} (h : (sampleBridge fuel G fin i f).Out (.error e)) : e = .fuel := by
  unfold sampleBridge at h
  rw [Prog.out_real] at h
  obtain ⟨U, -, h⟩ := h
  exact bridgeFrom_error hQ hf h

theorem backwards_error [NeZero d] {fuel : ℕ} {G : Matrix (Fin d) (Fin d) ℝ} (hQ : IsQMatrix G) {fin : ℝ} (hf : 0 ≤ fin)
    {f : Fin d} {e : PyErr} (h : (sampleBackwards fuel G fin f).Out (.error e)) : e = .fuel := by
  unfold sampleBackwards at h
  rw [Prog.out_bind_error] at h
  rcases h with h | ⟨i, -, h⟩
  · refine absurd ⟨fun j => ?_, ?_⟩ (pyChoice_error h).2
    · exact div_nonneg (hQ.getTrans_nonneg hf _ _) (Finset.sum_nonneg fun k _ => hQ.getTrans_nonneg hf _ _)
    · have : 0 < ∑ k, getTrans fin G k f := lt_of_lt_of_le (hQ.getTrans_self_pos hf f)
        (Finset.single_le_sum (f := fun k => getTrans fin G k f) (fun k _ => hQ.getTrans_nonneg hf _ _) (Finset.mem_univ f))
      rw [← Finset.sum_div, div_self this.ne']
  · exact bridge_error hQ hf h

theorem firstState_no_error {p : Skel ℝ} (hne : p.xt ≠ []) (hs : p.StatesLt d) {e : PyErr} :
    ¬ (firstState d p).Out (.error e) := by
  unfold firstState asState
  cases hx : p.xt with
  | nil => exact absurd hx hne
  | cons y l => simp [hs y (by simp [hx])]

theorem lastState_no_error {p : Skel ℝ} (hne : p.xt ≠ []) (hs : p.StatesLt d) {e : PyErr} :
    ¬ (lastState d p).Out (.error e) := by
  unfold lastState asState
  have : p.xt.getLast? = some (p.xt.getLast hne) := List.getLast?_eq_some_getLast hne
  rw [this]
  simp [hs _ (List.getLast_mem hne)]

theorem mutate_error [NeZero d] {fuel : ℕ} {g : Mat} (hd : 2 ≤ d) (hg : IsGenerator d g) {ps : List (Skel ℝ)} (hne : ps ≠ [])
    (hp : ∀ p ∈ ps, 0 ≤ p.fin ∧ p.xt ≠ [] ∧ p.StatesLt d) {e : PyErr}
    (h : (mutatePartition fuel d g ps).Out (.error e)) : e = .fuel := by
  unfold mutatePartition at h
  split at h
  · exact absurd rfl hne
  · rename_i p
    rw [Prog.out_bind_error] at h
    rcases h with h | ⟨q, -, h⟩
    · exact forwards_none_error hd hg h
    · simp at h
  · rename_i p p' rest
    dsimp only at h
    have hl : (p' :: rest).getLast (by simp) ∈ p :: p' :: rest := List.mem_cons_of_mem _ (List.getLast_mem _)
    rw [Prog.out_bind_error] at h
    rcases h with h | ⟨x, -, h⟩
    · exact absurd h (lastState_no_error (hp p (by simp)).2.1 (hp p (by simp)).2.2)
    rw [Prog.out_bind_error] at h
    rcases h with h | ⟨i, -, h⟩
    · exact backwards_error hg.toQ (hp p (by simp)).1 h
    rw [Prog.out_bind_error] at h
    rcases h with h | ⟨y, -, h⟩
    · exact absurd h (firstState_no_error (hp _ hl).2.1 (hp _ hl).2.2)
    rw [Prog.out_bind_error] at h
    rcases h with h | ⟨f, -, h⟩
    · exact forwards_error hd (fun i hi j hj hij => (hg.off i hi j hj hij).le) y.2 h
    rw [Prog.out_bind_error] at h
    rcases h with h | ⟨m, -, h⟩
    · obtain ⟨q, hq, h⟩ := mapM'_error h
      have hq' := hp q (List.mem_cons_of_mem _ (List.mem_of_mem_dropLast hq))
      rw [Prog.out_bind_error] at h
      rcases h with h | ⟨a, -, h⟩
      · exact absurd h (firstState_no_error hq'.2.1 hq'.2.2)
      rw [Prog.out_bind_error] at h
      rcases h with h | ⟨b, -, h⟩
      · exact absurd h (lastState_no_error hq'.2.1 hq'.2.2)
      exact bridge_error hg.toQ hq'.1 h
    · simp at h

end Ctb
