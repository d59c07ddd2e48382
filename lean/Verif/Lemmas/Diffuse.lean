import Verif.Basic.Law
import Verif.Basic.Generic
import Verif.Lemmas.Propose

/-!
# Generic draws have probability one

A program is *diffuse* when none of its real draws has an atom.  What holds for every generic run of a diffuse program holds with
probability one.
-/

set_option linter.unusedSectionVars false

namespace Ctb

open Classical MeasureTheory ProbabilityTheory
open scoped ENNReal

namespace Prog

variable {α β : Type}

/-- No reachable real draw has an atom. -/
def Diffuse : Prog α → Prop
  | ret _ => True
  | err _ => True
  | real d k => (∀ x, d.law {x} = 0) ∧ ∀ x ∈ d.support, (k x).Diffuse
  | nat d k => ∀ n ∈ d.support, (k n).Diffuse

theorem Diffuse.bind {p : Prog α} {f : α → Prog β} (hp : p.Diffuse) (hf : ∀ a, p.Out (.ok a) → (f a).Diffuse) : (p.bind f).Diffuse := by
  induction p with
  | ret a => exact hf a rfl
  | err e => trivial
  | real d k ih => exact ⟨hp.1, fun x hx => ih x (hp.2 x hx) fun a ha => hf a ⟨x, hx, ha⟩⟩
  | nat d k ih => exact fun x hx => ih x (hp x hx) fun a ha => hf a ⟨x, hx, ha⟩

theorem Diffuse.lift {r : Res α} : (Prog.lift r).Diffuse := by
  cases r <;> trivial

theorem Diffuse.replicate {p : Prog α} (hp : p.Diffuse) (n : ℕ) : (Prog.replicate n p).Diffuse := by
  induction n with
  | zero => trivial
  | succ n ih => exact hp.bind fun _ _ => ih.bind fun _ _ => trivial

theorem Diffuse.mapM' {f : α → Prog β} {l : List α} (hf : ∀ a ∈ l, (f a).Diffuse) : (Prog.mapM' f l).Diffuse := by
  induction l with
  | nil => trivial
  | cons a l ih => exact (hf a (by simp)).bind fun _ _ => (ih fun b hb => hf b (by simp [hb])).bind fun _ _ => trivial

/-- Expectations only depend on the generic runs. -/
theorem lexp_congr_gen {p : Prog α} (hp : p.Diffuse) {h : List ℝ} {g g' : Res α → ℝ≥0∞} (hg : ∀ r h', p.Gen h r h' → g r = g' r) :
    p.lexp g = p.lexp g' := by
  induction p generalizing h with
  | ret a => exact hg _ h ⟨rfl, rfl⟩
  | err e => exact hg _ h ⟨rfl, rfl⟩
  | real d k ih =>
    rw [lexp_real, lexp_real]
    refine lintegral_congr_ae ?_
    have h1 : ∀ᵐ x ∂d.law, x ∈ d.support := by
      rw [ae_iff]; exact RDist.law_support d
    have h2 : ∀ᵐ x ∂d.law, x ∉ h := by
      rw [ae_iff]
      simp only [not_not]
      have : {x : ℝ | x ∈ h} = ⋃ y ∈ h.toFinset, {y} := by ext x; simp
      rw [this]
      exact (measure_biUnion_null_iff h.toFinset.countable_toSet).2 fun y _ => hp.1 y
    filter_upwards [h1, h2] with x hx hxh
    exact ih x (hp.2 x hx) (h := x :: h) fun r h' hr => hg r h' ⟨x, hx, hxh, hr⟩
  | nat d k ih =>
    rw [lexp_nat, lexp_nat]
    refine lintegral_congr_ae ?_
    have h1 : ∀ᵐ x ∂d.law, x ∈ d.support := by
      rw [ae_iff]; exact NDist.law_support d
    filter_upwards [h1] with x hx
    exact ih x (hp x hx) fun r h' hr => hg r h' ⟨x, hx, hr⟩

/-- What no generic run does has probability zero. -/
theorem prob_zero_gen {p : Prog α} (hp : p.Diffuse) (h : List ℝ) {P : Res α → Prop} (hP : ∀ r h', p.Gen h r h' → ¬ P r) : p.prob P = 0 := by
  unfold prob
  rw [lexp_congr_gen hp (g' := fun _ => 0) fun r h' hr => if_neg (hP r h' hr)]
  exact lexp_zero p

end Prog

theorem uniform_null {lo hi : ℝ} (h : lo ≠ hi) (x : ℝ) : (RDist.uniform lo hi).law {x} = 0 := by
  rw [RDist.law, Measure.map_apply (by fun_prop) (measurableSet_singleton x)]
  have : (fun u : ℝ => lo + (hi - lo) * u) ⁻¹' {x} ⊆ {(x - lo) / (hi - lo)} := by
    intro u hu
    have hu' : lo + (hi - lo) * u = x := hu
    have : hi - lo ≠ 0 := sub_ne_zero.2 h.symm
    rw [Set.mem_singleton_iff, eq_div_iff this]
    linarith
  exact measure_mono_null this (by simp)

theorem exponential_null (s x : ℝ) : (RDist.exponential s).law {x} = 0 := by
  rw [RDist.law, expMeasure, gammaMeasure]
  exact withDensity_absolutelyContinuous _ _ (by simp)

theorem diffuse_uniform {lo hi : ℝ} (h : lo ≠ hi) : (Prog.draw (.uniform lo hi)).Diffuse := ⟨uniform_null h, fun _ _ => trivial⟩

theorem diffuse_pyChoice {d : ℕ} (q : Fin d → ℝ) : (pyChoice q).Diffuse := by
  unfold pyChoice
  split_ifs
  · intro n _
    dsimp only
    split_ifs <;> trivial
  · trivial

theorem diffuse_asState (d x : ℕ) : (asState d x).Diffuse := by unfold asState; split_ifs <;> trivial

theorem diffuse_firstState (d : ℕ) (sk : Skel ℝ) : (firstState d sk).Diffuse := by
  unfold firstState; split; exacts [diffuse_asState _ _, trivial]

theorem diffuse_lastState (d : ℕ) (sk : Skel ℝ) : (lastState d sk).Diffuse := by
  unfold lastState; split; exacts [diffuse_asState _ _, trivial]

theorem diffuse_forwardsLoop (d : ℕ) (g : Mat) (fin : ℝ) (n : ℕ) : ∀ t x, (forwardsLoop d g fin n t x).Diffuse := by
  induction n with
  | zero => intro t x; trivial
  | succ n ih =>
    intro t x
    unfold forwardsLoop
    split_ifs
    · refine Prog.Diffuse.bind (Prog.Diffuse.mapM' fun r _ => ?_) fun hold _ => Prog.Diffuse.bind .lift fun mv _ => ?_
      · unfold drawHold
        split_ifs
        · exact ⟨exponential_null _, fun _ _ => trivial⟩
        · trivial
        · trivial
      · split
        · trivial
        · exact (ih _ _).bind fun _ _ => trivial
    · trivial
    · trivial

theorem diffuse_sampleForwards (fuel d : ℕ) (g : Mat) (fin : ℝ) (init : Option ℕ) : (sampleForwards fuel d g fin init).Diffuse := by
  unfold sampleForwards
  refine Prog.Diffuse.bind ?_ fun x _ => (diffuse_forwardsLoop _ _ _ _ _ _).bind fun _ _ => trivial
  split
  · trivial
  · exact Prog.Diffuse.lift.bind fun _ _ => (diffuse_pyChoice _).bind fun _ _ => trivial

theorem diffuse_bridgeSteps {d : ℕ} (P : Matrix (Fin d) (Fin d) ℝ) (f : Fin d) (m : ℕ) : ∀ x, (bridgeSteps P f m x).Diffuse := by
  induction m with
  | zero => intro x; trivial
  | succ m ih => intro x; exact (diffuse_pyChoice _).bind fun y _ => (ih y).bind fun _ _ => trivial

variable {d : ℕ} [NeZero d]

theorem diffuse_sampleBridge {fuel : ℕ} {G : Matrix (Fin d) (Fin d) ℝ} {fin : ℝ} (hf : 0 < fin) (i f : Fin d) : (sampleBridge fuel G fin i f).Diffuse := by
  refine ⟨uniform_null (by norm_num), fun U _ => ?_⟩
  unfold bridgeFrom
  refine Prog.Diffuse.lift.bind fun n _ => ?_
  split_ifs
  · trivial
  · exact (diffuse_bridgeSteps _ _ _ _).bind fun _ _ => ((diffuse_uniform hf.ne).replicate n).bind fun _ _ => trivial

theorem diffuse_sampleBackwards {fuel : ℕ} {G : Matrix (Fin d) (Fin d) ℝ} {fin : ℝ} (hf : 0 < fin) (f : Fin d) : (sampleBackwards fuel G fin f).Diffuse :=
  (diffuse_pyChoice _).bind fun _ _ => diffuse_sampleBridge hf _ _

theorem diffuse_mutatePartition {fuel : ℕ} {g : Mat} {ps : List (Skel ℝ)} (hpos : ∀ p ∈ ps, 0 < p.fin) : (mutatePartition fuel d g ps).Diffuse := by
  unfold mutatePartition
  split
  · trivial
  · exact (diffuse_sampleForwards _ _ _ _ _).bind fun _ _ => trivial
  · rename_i p p' rest
    refine (diffuse_lastState _ _).bind fun _ _ => (diffuse_sampleBackwards (hpos _ (by simp)) _).bind fun _ _ => (diffuse_firstState _ _).bind fun _ _ =>
      (diffuse_sampleForwards _ _ _ _ _).bind fun _ _ => (Prog.Diffuse.mapM' fun sk hsk => ?_).bind fun _ _ => trivial
    exact (diffuse_firstState _ _).bind fun _ _ => (diffuse_lastState _ _).bind fun _ _ =>
      diffuse_sampleBridge (hpos _ (List.mem_cons_of_mem _ (List.mem_of_mem_dropLast hsk))) _ _

theorem diffuse_condTimes (p : ℝ) (t : List ℝ) : (condTimes p t).Diffuse := by
  unfold condTimes
  split_ifs
  · trivial
  · exact ((diffuse_uniform (by norm_num)).replicate _).bind fun _ _ => trivial

theorem pieces_pos {st : Skel ℝ} (hv : st.Valid) {tc : List ℝ} (hsl : tc.Pairwise (· < ·)) (hin : ∀ a ∈ tc, 0 < a ∧ a < st.fin) :
    ∀ p ∈ partitionSkeleton st tc, 0 < p.fin := by
  set L : List ℝ := 0 :: (tc ++ [st.fin]) with hL
  have hLs : L.Pairwise (· < ·) := by
    rw [hL, List.pairwise_cons, List.pairwise_append]
    refine ⟨?_, hsl, by simp, ?_⟩
    · intro a ha
      simp only [List.mem_append, List.mem_singleton] at ha
      rcases ha with ha | rfl
      · exact (hin a ha).1
      · exact hv.fin_pos
    · intro a ha b hb
      simp only [List.mem_singleton] at hb; subst hb; exact (hin a ha).2
  have hps : partitionSkeleton st tc = piecesOf st L := partitionSkeleton_eq st tc
  rw [hps]
  intro p hp
  obtain ⟨k, hk⟩ := List.mem_iff_getElem?.1 hp
  have hkl : k + 1 < L.length := by
    have := (List.getElem?_eq_some_iff.1 hk).1
    rw [piecesOf_length] at this
    omega
  rw [piecesOf_get st L k hkl] at hk
  cases hk
  have := (List.pairwise_iff_getElem.1 hLs) k (k + 1) (by omega) hkl (by omega)
  change 0 < L[k + 1] - L[k]
  linarith

theorem diffuse_mjpPropose {fuel : ℕ} {ls : ℝ} {g : Mat} {st : Skel ℝ} (hv : st.Valid)
    {t : List ℝ} (hs : t.Pairwise (· < ·)) (ht : ∀ a ∈ t, 0 ≤ a ∧ a ≤ st.fin) : (mjpPropose fuel d ls st g t).Diffuse := by
  unfold mjpPropose
  refine (diffuse_condTimes _ _).bind fun tc htc => ?_
  obtain ⟨-, hsub⟩ := condTimes_out htc
  have hint := interior_strict hs ht
  have hsl : tc.Pairwise (· < ·) := by
    refine List.Pairwise.sublist hsub (hs.sublist ?_)
    exact (List.dropLast_sublist _).trans (List.tail_sublist _)
  refine (diffuse_mutatePartition (pieces_pos hv hsl fun a ha => hint a (hsub.subset ha))).bind fun _ _ => Prog.Diffuse.lift.bind fun _ _ => trivial

end Ctb
