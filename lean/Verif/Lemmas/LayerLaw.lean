import Verif.Lemmas.GridSplit
import Verif.Lemmas.LayerPaths
import Verif.Props.LayerMin

/-! # The law of a bridge inside a layer -/

set_option linter.unusedSectionVars false

namespace Ctb

open MeasureTheory Set
open scoped ENNReal

/-- `F` is measurable on lists of every length. -/
def MeasAll (F : List ℝ → ℝ≥0∞) : Prop := ∀ n, MeasL n fun _ : Unit => F

theorem MeasAll.append_left {F : List ℝ → ℝ≥0∞} (h : MeasAll F) (l : List ℝ) : MeasAll fun l2 => F (l ++ l2) := by
  induction l generalizing F with
  | nil => exact h
  | cons a l ih =>
    have : MeasAll fun l2 => F (a :: l2) := fun n => (MeasL.cons (h (n + 1))).comp (φ := fun _ : Unit => ((), a)) measurable_const
    exact ih this

theorem MeasAll.append {F : List ℝ → ℝ≥0∞} (h : MeasAll F) (n k : ℕ) :
    MeasL k fun (p : Unit × (Fin n → ℝ)) (l : List ℝ) => F (List.ofFn p.2 ++ l) := (h (n + k)).append

theorem MeasAll.rev {F : List ℝ → ℝ≥0∞} (h : MeasAll F) : MeasAll fun l => F l.reverse := fun n => (h n).reverse

theorem MeasAll.startInt {F : List ℝ → ℝ≥0∞} (hF : MeasAll F) {E : ℝ → ℝ → ℝ → ℝ≥0∞} {K : ℝ → ℝ → ℝ → ℝ → ℝ≥0∞} (h : LayerKer E K) (m x : ℝ) (ws : List ℝ) :
    MeasAll fun l1 => startInt (E m) (K m) x ws fun l2 => F (l1 ++ l2) := fun n =>
  startInt_measurable_end ws (X := Unit × (Fin n → ℝ)) (e := fun _ => E m) (k := fun _ => K m) (x1 := fun _ => x)
          (fun v => h.applyE measurable_const measurable_const measurable_snd) (h.measK.comp measurable_const) (hF.append n _) measurable_const

/-- What is used of the samplers of an edge and of the minimum: `E`, `K` are the densities of entering and of moving, `γ`, `Γ` the chances of success. -/
structure LayerSpec (U : Option ℝ) (E : ℝ → ℝ → ℝ → ℝ≥0∞) (K : ℝ → ℝ → ℝ → ℝ → ℝ≥0∞) (n : ℕ) (γ : ℝ → ℝ → ℝ → ℝ≥0∞)
    (Γ : ℝ → ℝ → ℝ → ℝ → ℝ≥0∞) : Prop where
  ker : LayerKer E K
  measγ : Measurable fun p : ℝ × ℝ × ℝ => γ p.1 p.2.1 p.2.2
  chance : ∀ m T x, γ m T x ≠ ∞
  fin : ∀ {m T x}, 0 < T → m < x → (∀ U', U = some U' → x < U') → E m T x ≠ 0 ∧ E m T x ≠ ∞
  edge : ∀ {m x vs F}, m < x → (∀ U', U = some U' → x < U') → vs ≠ [] → (∀ v ∈ vs, 0 < v) → MeasAll F →
    E m vs.sum x * (proposeEdge n (npCumsum vs).dropLast vs.sum (x - m) (U.map (· - m)) none).lexp (onOk fun q => F (q.1.map (· + m))) =
      γ m vs.sum x * startInt (E m) (K m) x vs F
  min : ∀ {m T a b} {F : ℝ × ℝ → ℝ≥0∞}, 0 < T → m < Min.min a b → (∀ U', U = some U' → max a b < U') → Measurable F →
    K m T a b * (sampleLayerMin n T a b U (some m) none).lexp (onOk F) =
      Γ m T a b * ∫⁻ m' in Ioo m (Min.min a b), ∫⁻ s in Ioo 0 T, 2 * (E m' s a * E m' (T - s) b) * F (s, m')

theorem grid_mem {vs : List ℝ} (hp : ∀ v ∈ vs, 0 < v) : ∀ r ∈ (npCumsum vs).dropLast, 0 < r ∧ r < vs.sum := fun r hr => by
  simpa using cumsumFrom_dropLast_mem 0 vs hp r hr

section
variable {U : Option ℝ} {E : ℝ → ℝ → ℝ → ℝ≥0∞} {K : ℝ → ℝ → ℝ → ℝ → ℝ≥0∞} {n : ℕ} {γ : ℝ → ℝ → ℝ → ℝ≥0∞} {Γ : ℝ → ℝ → ℝ → ℝ → ℝ≥0∞}

/-- The half that leads down to the minimum. -/
theorem LayerSpec.left (h : LayerSpec U E K n γ Γ) {rec : LayerProp} {m a : ℝ} {t vs : List ℝ} {F : List ℝ → ℝ≥0∞} (hm : m < a) (hU : ∀ U', U = some U' → a < U')
    (hne : vs ≠ []) (hp : ∀ v ∈ vs, 0 < v) (ht : ∀ r ∈ t, 0 < r ∧ r < vs.sum) (htr : t.reverse.map (vs.sum - ·) = (npCumsum vs.reverse).dropLast) (hF : MeasAll F) :
    E m vs.sum a * (layerStep n U none rec t vs.sum a m m).lexp (onOk fun q => F q.1) =
      γ m vs.sum a * startInt (E m) (K m) a vs.reverse fun l => F l.reverse := by
  have hp' : ∀ v ∈ vs.reverse, 0 < v := fun v hv => hp v (List.mem_reverse.1 hv)
  have := h.edge (m := m) (x := a) (vs := vs.reverse) (F := fun l => F l.reverse) hm hU (by simpa using hne) hp' hF.rev
  rw [List.sum_reverse] at this
  rw [← this, layerStep, Prog.assert, if_pos ht, Prog.ret_bind, Prog.assert, if_pos (by rw [min_eq_right hm.le]), Prog.ret_bind,
    Prog.assert, if_pos (by rwa [max_eq_left hm.le]), Prog.ret_bind, if_neg (by simp), if_pos (Or.inr rfl), if_pos rfl, Prog.lexp_bind, htr]
  congr 2
  funext r
  rcases r with e | q
  · rfl
  · simp [Prog.cont_ok, onOk]

/-- The half that leads up from the minimum. -/
theorem LayerSpec.right (h : LayerSpec U E K n γ Γ) {rec : LayerProp} {m b : ℝ} {vs : List ℝ} {F : List ℝ → ℝ≥0∞} (hm : m < b) (hU : ∀ U', U = some U' → b < U')
    (hne : vs ≠ []) (hp : ∀ v ∈ vs, 0 < v) (hF : MeasAll F) :
    E m vs.sum b * (layerStep n U none rec (npCumsum vs).dropLast vs.sum m b m).lexp (onOk fun q => F q.1) =
      γ m vs.sum b * startInt (E m) (K m) b vs F := by
  rw [← h.edge hm hU hne hp hF, layerStep, Prog.assert, if_pos (grid_mem hp), Prog.ret_bind, Prog.assert, if_pos (by rw [min_eq_left hm.le]), Prog.ret_bind,
    Prog.assert, if_pos (by rwa [max_eq_right hm.le]), Prog.ret_bind, if_neg (by simp), if_pos (Or.inl rfl), if_neg hm.ne, Prog.lexp_bind]
  congr 2

theorem sorted_take {s : ℝ} : ∀ {t : List ℝ}, ∀ r ∈ t.take (searchLeft t s), r < s
  | [], r, hr => by simp at hr
  | a :: t, r, hr => by
    rw [searchLeft_cons] at hr
    by_cases h : a < s
    · rw [if_pos h, List.take_succ_cons, List.mem_cons] at hr
      rcases hr with rfl | hr
      · exact h
      · exact sorted_take r hr
    · rw [if_neg h] at hr
      simp at hr

theorem layer_law (h : LayerSpec U E K n γ Γ) {m a b : ℝ} {vs : List ℝ} {F : List ℝ → ℝ≥0∞} (hm : m < Min.min a b) (hU : ∀ U', U = some U' → max a b < U')
    (hne : vs ≠ []) (hp : ∀ v ∈ vs, 0 < v) (hF : MeasAll F) :
    K m vs.sum a b * (proposeLayer n U none (npCumsum vs).dropLast vs.sum a b m).lexp (onOk fun q => F q.1) =
      Γ m vs.sum a b * ∫⁻ m' in Ioo m (Min.min a b), ∫⁻ s in Ioo 0 vs.sum, γ m' s a * γ m' (vs.sum - s) b * (2 * splitInt E K m' b vs a s F) := by
  classical
  set t := (npCumsum vs).dropLast with ht
  set T := vs.sum with hT
  have hT0 : 0 < T := List.sum_pos _ hp hne
  have hUa : ∀ U', U = some U' → a < U' := fun U' h' => (le_max_left a b).trans_lt (hU U' h')
  have hUb : ∀ U', U = some U' → b < U' := fun U' h' => (le_max_right a b).trans_lt (hU U' h')
  set H : ℝ × ℝ → ℝ≥0∞ := fun q => if (q.1 ∉ t ∧ 0 < q.1 ∧ q.1 < T ∧ q.2 < Min.min a b) then
      γ q.2 q.1 a * γ q.2 (T - q.1) b * splitInt E K q.2 b vs a q.1 F / (E q.2 q.1 a * E q.2 (T - q.1) b) else 0 with hH
  have hHm : Measurable H := by
    refine Measurable.ite ?_ ?_ measurable_const
    · have h1 : MeasurableSet {q : ℝ × ℝ | q.1 ∈ t} := by
        have : {q : ℝ × ℝ | q.1 ∈ t} = Prod.fst ⁻¹' {r : ℝ | r ∈ t} := rfl
        rw [this]
        exact measurable_fst (List.finite_toSet t).measurableSet
      exact h1.compl.inter ((measurableSet_lt measurable_const measurable_fst).inter ((measurableSet_lt measurable_fst measurable_const).inter
        (measurableSet_lt measurable_snd measurable_const)))
    · refine Measurable.div (Measurable.mul (Measurable.mul ?_ ?_) ?_) (Measurable.mul ?_ ?_)
      · exact h.measγ.comp (f := fun q : ℝ × ℝ => (q.2, q.1, a)) (by fun_prop)
      · exact h.measγ.comp (f := fun q : ℝ × ℝ => (q.2, T - q.1, b)) (by fun_prop)
      · exact splitInt_measurable h.ker b vs (F := fun _ => F) ((hF _).comp (φ := fun _ : ℝ × ℝ => ()) measurable_const) measurable_const measurable_snd measurable_fst
      · exact h.ker.applyE measurable_snd measurable_fst measurable_const
      · exact h.ker.applyE measurable_snd (measurable_const.sub measurable_fst) measurable_const
  have hlex : (proposeLayer n U none t T a b m).lexp (onOk fun q => F q.1) = (sampleLayerMin n T a b U (some m) none).lexp (onOk H) := by
    have hma : m < a := hm.trans_le (min_le_left _ _)
    have hmb : m < b := hm.trans_le (min_le_right _ _)
    rw [proposeLayer, layerStep, Prog.assert, if_pos (grid_mem hp), Prog.ret_bind, Prog.assert, if_pos hm.le, Prog.ret_bind, Prog.assert, if_pos hU, Prog.ret_bind,
      if_neg (by simp), if_neg (by simp [hma.ne, hmb.ne]), Prog.lexp_bind]
    refine Prog.lexp_congr ?_
    rintro (e | ⟨s, m'⟩) hout
    · rfl
    obtain ⟨h0, h1, ha, hb, -⟩ := C40_layer_partial hout
    simp only [Prog.cont_ok, onOk, Prog.lexp_bind]
    by_cases hs : s ∈ t
    · rw [hH]
      simp only
      rw [if_neg (by simp [hs])]
      have hbad : ∀ rec : LayerProp, (layerStep n U none rec ((t.drop (searchLeft t s)).map (· - s)) (T - s) m' b m') = .err .assertion := by
        intro rec
        have : (0 : ℝ) ∈ (t.drop (searchLeft t s)).map (· - s) := by
          refine List.mem_map.2 ⟨s, ?_, sub_self s⟩
          have h2 : s ∈ t.take (searchLeft t s) ++ t.drop (searchLeft t s) := by rwa [List.take_append_drop]
          rcases List.mem_append.1 h2 with h2 | h2
          · exact absurd (sorted_take s h2) (lt_irrefl _)
          · exact h2
        rw [layerStep, Prog.assert, if_neg (fun h' => lt_irrefl _ (h' 0 this).1)]
        rfl
      rw [hbad]
      have : ∀ r : Res (List ℝ × List Bool), Prog.cont (fun r0 : List ℝ × List Bool => (Prog.err .assertion : Prog (List ℝ × List Bool)).bind fun r1 => Prog.ret (r0.1 ++ r1.1, ([] : List Bool))) (onOk fun q => F q.1) Prog.lexp r = 0 := by
        rintro (e | q) <;> rfl
      rw [show (Prog.cont (fun r0 : List ℝ × List Bool => (Prog.err .assertion : Prog (List ℝ × List Bool)).bind fun r1 => Prog.ret (r0.1 ++ r1.1, ([] : List Bool))) (onOk fun q => F q.1) Prog.lexp) = fun _ => 0 from funext this, Prog.lexp_zero]
    · rw [hH]
      simp only
      rw [if_pos ⟨hs, h0, h1, lt_min ha hb⟩]
      have hinc := incs_pos vs hp s h0 h1 hs
      have hl := leftIncs_ne vs s hne
      have hr := rightIncs_ne vs s hne
      have hls := leftIncs_sum vs s hne
      have hrs := rightIncs_sum vs s hne
      have hEa := h.fin h0 ha hUa
      have hEb := h.fin (sub_pos.2 h1) hb hUb
      set rec : LayerProp := fun _ _ _ _ _ => .err .fuel
      have hright : ∀ l1 : List ℝ, (layerStep n U none rec ((t.drop (searchLeft t s)).map (· - s)) (T - s) m' b m').lexp (onOk fun q => F (l1 ++ q.1)) =
          γ m' (T - s) b / E m' (T - s) b * startInt (E m') (K m') b (rightIncs s vs) fun l2 => F (l1 ++ l2) := by
        intro l1
        have := h.right (rec := rec) hb hUb hr hinc.2 (hF.append_left l1)
        rw [hrs, ← grid_right vs hp s hs] at this
        rw [ENNReal.div_eq_inv_mul, mul_assoc, ← this, ← mul_assoc, ENNReal.inv_mul_cancel hEb.1 hEb.2, one_mul]
      have hleft := h.left (rec := rec) (t := t.take (searchLeft t s)) (vs := leftIncs s vs)
        (F := fun l1 => startInt (E m') (K m') b (rightIncs s vs) fun l2 => F (l1 ++ l2)) ha hUa hl hinc.1
        (fun r hr' => ⟨(grid_mem hp r (List.mem_of_mem_take hr')).1, by rw [hls]; exact sorted_take r hr'⟩) (by rw [hls]; exact grid_left vs hp s hs)
        (hF.startInt h.ker m' b _)
      rw [hls] at hleft
      have hstep : (layerStep n U none rec (t.take (searchLeft t s)) s a m' m').lexp
          (Prog.cont (fun r0 : List ℝ × List Bool => (layerStep n U none rec ((t.drop (searchLeft t s)).map (· - s)) (T - s) m' b m').bind fun r1 => Prog.ret (r0.1 ++ r1.1, ([] : List Bool))) (onOk fun q => F q.1) Prog.lexp) =
          (layerStep n U none rec (t.take (searchLeft t s)) s a m' m').lexp
            (fun r => (γ m' (T - s) b / E m' (T - s) b) * (onOk (fun q : List ℝ × List Bool => startInt (E m') (K m') b (rightIncs s vs) fun l2 => F (q.1 ++ l2))) r) := by
        congr 1
        funext r
        rcases r with e | r0
        · simp [Prog.cont, onOk]
        · simp only [Prog.cont_ok, Prog.lexp_bind, onOk]
          rw [← hright r0.1]
          congr 1
      have hc : γ m' (T - s) b / E m' (T - s) b ≠ ∞ := ENNReal.div_ne_top (h.chance _ _ _) hEb.1
      refine hstep.trans ?_
      rw [Prog.lexp_const_mul _ _ hc, splitInt_halves h.ker m' b vs hne a s (hF _)]
      have hL : (layerStep n U none rec (t.take (searchLeft t s)) s a m' m').lexp
          (onOk fun q : List ℝ × List Bool => startInt (E m') (K m') b (rightIncs s vs) fun l2 => F (q.1 ++ l2)) =
          γ m' s a / E m' s a * startInt (E m') (K m') a (leftIncs s vs).reverse fun l1 => startInt (E m') (K m') b (rightIncs s vs) fun l2 => F (l1.reverse ++ l2) := by
        rw [ENNReal.div_eq_inv_mul, mul_assoc, ← hleft, ← mul_assoc, ENNReal.inv_mul_cancel hEa.1 hEa.2, one_mul]
      rw [hL, ENNReal.div_eq_inv_mul, ENNReal.div_eq_inv_mul, ENNReal.div_eq_inv_mul, ENNReal.mul_inv (Or.inl hEa.1) (Or.inl hEa.2)]
      ring
  rw [hlex, h.min hT0 hm hU hHm]
  congr 1
  refine setLIntegral_congr_fun measurableSet_Ioo fun m' hm' => ?_
  have hnull : ∀ᵐ s ∂(volume.restrict (Ioo 0 T)), s ∉ t := by
    refine ae_restrict_of_ae ?_
    rw [ae_iff]
    simp only [not_not]
    exact (List.finite_toSet t).measure_zero _
  have hin : ∀ᵐ s ∂(volume.restrict (Ioo 0 T)), s ∈ Ioo 0 T := ae_restrict_mem measurableSet_Ioo
  refine lintegral_congr_ae ?_
  filter_upwards [hnull, hin] with s hs hs2
  have ha := hm'.2.trans_le (min_le_left a b)
  have hb := hm'.2.trans_le (min_le_right a b)
  have hEa := h.fin hs2.1 ha hUa
  have hEb := h.fin (sub_pos.2 hs2.2) hb hUb
  rw [hH]
  simp only
  rw [if_pos ⟨hs, hs2.1, hs2.2, hm'.2⟩, mul_assoc 2, ENNReal.mul_div_cancel (mul_ne_zero hEa.1 hEb.1) (ENNReal.mul_ne_top hEa.2 hEb.2)]
  ring

end

end Ctb
