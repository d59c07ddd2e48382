import Verif.Lemmas.RoundLim
import Verif.Lemmas.RegLaw
import Verif.Lemmas.MassOne
import Verif.Spec.RetroCoin

set_option linter.unusedSectionVars false

/-! # Rounds on skeletons with a minimum or a maximum -/

namespace Ctb

open Classical MeasureTheory ProbabilityTheory Set Filter Topology
open scoped ENNReal

variable {s : EaSkel} {A B C newT : List ℝ} {n k : ℕ} {x0 T : ℝ}

theorem EaSkel.Plain.valid (h : s.Plain) : s.Valid := by
  rcases h with h | h
  · exact h.valid
  · exact ⟨h.valid.sorted, h.valid.start, by simpa [EaSkel.neg] using h.valid.len, h.valid.flags⟩

theorem flip_plain (h : s.Free) {f c : ℝ} (hf : s.t.getLast? = some f) : (flipWith f c s).Plain := by
  have e : (flipWith f c s).neg = flipWith f (-c) s.neg := by
    simp only [EaSkel.neg, flipWith, flipList, List.map_map, List.map_reverse]
    congr 1
    · congr 1
      refine List.map_congr_left fun a _ => ?_
      simp only [Function.comp_apply]
      ring
    · ring
    · ring
    · ring
  refine Or.inr ?_
  rw [e]
  refine free_flip ?_ hf
  have : s.neg.neg = s := by simp [EaSkel.neg, Function.comp_def]
  rwa [this]

theorem meas_flipWith (f c : ℝ) : Measurable fun s : EaSkel => flipWith f c s := by
  unfold flipWith flipList
  have h1 : Measurable fun s : EaSkel => s.t.reverse.map (f - ·) := Measurable.listMap (by fun_prop) (by fun_prop)
  have h2 : Measurable fun s : EaSkel => s.x.reverse.map (2 * c - ·) := Measurable.listMap (by fun_prop) (by fun_prop)
  fun_prop

theorem plain_flip (h : s.neg.Free) (hA : s.Times A) : ∃ f c, s.t.getLast? = some f ∧ (flipWith f c s).Free ∧ (flipWith f c s).Times (flipList f A) ∧
    ∀ n k (G : EaSkel → ℝ≥0∞), roundVal n k s A G = roundVal n k (flipWith f c s) (flipList f A) fun q => G (flipWith f c q) := by
  have hv : s.Valid := EaSkel.Plain.valid (Or.inr h)
  obtain ⟨f, x0, x1, hf, hx0, hx1, -, -, -⟩ := flipSkel_eq hv
  have hlt : s.loose < s.tight := by
    have := h.hit
    simp only [EaSkel.neg] at this
    linarith [this.1, this.2]
  obtain ⟨iA, tA⟩ := times_flip hv hf ((x0 + x1) / 2) hA
  exact ⟨f, (x0 + x1) / 2, hf, free_flip h hf, tA, fun n k G => interp_flip_all hv hlt hA.1 hf hx0 hx1 iA G⟩

theorem roundVal_mono (hk : 0 < k) (h : s.Plain) (hT : s.Times newT) {G : EaSkel → ℝ≥0∞} (hG : Measurable G) : Monotone fun n => roundVal n k s newT G := by
  rcases h with h | h
  · exact roundVal_mono_free hk h hT hG
  · obtain ⟨f, c, -, h1, h2, h3⟩ := plain_flip h hT
    simp only [h3]
    exact roundVal_mono_free hk h1 h2 (hG.comp (meas_flipWith f c))

theorem roundVal_plain (hk : 0 < k) (h : s.Plain) (hA : s.Times A) (hflag : s.hitI = none ∨ A = [] ∨ ∃ r ∈ A, r ∉ s.t) :
    roundVal n k s A (fun s' => if s'.Plain then 0 else ∞) = 0 := by
  rcases h with h | h
  · refine le_antisymm (le_trans ?_ (roundVal_free (n := n) hk h hA hflag).le) zero_le
    refine Prog.lexp_mono _ ?_
    rintro (e | r)
    · exact le_rfl
    simp only [onOk]
    by_cases h1 : r.1.Free
    · rw [if_pos (show r.1.Plain from Or.inl h1), if_pos h1]
    · rw [if_neg h1]
      exact le_top
  · have hv : s.Valid := EaSkel.Plain.valid (Or.inr h)
    obtain ⟨f, c, hf, h1, h2, h3⟩ := plain_flip h hA
    have hvf := flipWith_valid hv hf c
    have hfl : (flipWith f c s).hitI = none ∨ flipList f A = [] ∨ ∃ r ∈ flipList f A, r ∉ (flipWith f c s).t := by
      rcases hflag with h1 | h1 | ⟨r, hr, hrt⟩
      · exact Or.inl (by simp [flipWith, h1])
      · exact Or.inr (Or.inl (by simp [flipList, h1]))
      · exact Or.inr (Or.inr ⟨f - r, by simpa [mem_flipList] using hr, by simpa [flipWith, mem_flipList] using hrt⟩)
    rw [h3]
    refine le_antisymm (le_trans ?_ (roundVal_free (n := n) hk h1 h2 hfl).le) zero_le
    unfold roundVal
    have e : (interpolateSkel n k (flipWith f c s) (flipList f A)).lexp (onOk fun r => if r.1.Free then 0 else ∞) =
        (interpolateSkel n k (flipWith f c s) (flipList f A)).lexp (onOk fun r => max (if (flipWith f c r.1).Plain then 0 else ∞) (if r.1.Free then 0 else ∞)) := by
      refine Prog.lexp_congr ?_
      rintro (e | q) hq
      · rfl
      simp only [onOk]
      rw [max_eq_right]
      by_cases h4 : q.1.Free
      · have hl : q.1.t.getLast? = some f := by
          by_cases h0 : flipList f A = []
          · rw [h0] at hq
            simp only [interpolateSkel, if_true, Prog.out_ret, Except.ok.injEq] at hq
            rw [hq]
            exact hvf.2
          · rw [(interpolateSkel_out hvf.1 h2.1 h0 hq).last, hvf.2]
        rw [if_pos h4, if_pos (flip_plain h4 hl)]
      · rw [if_neg h4]
        exact le_top
    rw [e]
    refine Prog.lexp_mono _ ?_
    rintro (e | q)
    · exact le_rfl
    · exact le_max_left _ _

/-- The skeleton after a round. -/
noncomputable def roundProg (n k : ℕ) (s : EaSkel) (newT : List ℝ) : Prog EaSkel := (interpolateSkel n k s newT).bind fun r => .ret r.1

theorem roundProg_val (G : EaSkel → ℝ≥0∞) : (roundProg n k s newT).lexp (onOk G) = roundVal n k s newT G := by
  rw [roundProg, Prog.lexp_bind, roundVal]
  congr 1

theorem reg_roundProg {X : Type} [MeasurableSpace X] (n k : ℕ) {s : X → EaSkel} {newT : X → List ℝ} (hs : Measurable s) (hn : Measurable newT) :
    Reg fun y => roundProg n k (s y) (newT y) := Reg.bind (reg_interpolateSkel n k hs hn) (Reg.ret (by fun_prop))

theorem mass_roundProg : Mass1 (roundProg n k s newT) := Mass1.bind (mass_interpolateSkel ..) fun _ _ => .ret _

theorem meas_roundVal {X : Type} [MeasurableSpace X] (n k : ℕ) {s : X → EaSkel} {newT : X → List ℝ} (hs : Measurable s) (hn : Measurable newT) {G : X → EaSkel → ℝ≥0∞}
    (hG : Measurable fun p : X × EaSkel => G p.1 p.2) : Measurable fun y => roundVal n k (s y) (newT y) (G y) := by
  simp only [← roundProg_val]
  exact (reg_roundProg n k hs hn).meas id (fun y => onOk (G y)) measurable_id hG fun e => measurable_const

/-- What is known for certain or almost surely about the skeleton after a round. -/
def AfterRound (s : EaSkel) (A : List ℝ) (s' : EaSkel) : Prop := s'.Plain ∧ ∃ vals, SkelStep s A s' vals

theorem roundProg_after (hk : 0 < k) (h : s.Plain) (hA : s.Times A) (h0 : A ≠ []) (hflag : ∃ r ∈ A, r ∉ s.t) : (roundProg n k s A).lexp (offInf (AfterRound s A)) = 0 := by
  have h1 : (roundProg n k s A).lexp (offInf EaSkel.Plain) = 0 := by
    rw [offInf, roundProg_val]
    exact roundVal_plain hk h hA (Or.inr (Or.inr hflag))
  refine offInf_mono h1 fun s' hs' hP => ⟨hP, ?_⟩
  rw [roundProg, Prog.out_bind_ok] at hs'
  obtain ⟨q, hq, he⟩ := hs'
  rw [Prog.out_ret] at he
  cases he
  exact ⟨q.2, interpolateSkel_out h.valid hA.1 h0 hq⟩

theorem okEmb {α : Type} [MeasurableSpace α] : MeasurableEmbedding (Except.ok : α → Res α) where
  injective a b h := by simpa using h
  measurable := Measurable.resOk measurable_id
  measurableSet_image' S hS := by
    show MeasurableSet ((Except.ok : α → Res α) ⁻¹' (Except.ok '' S))
    have : (Except.ok : α → Res α) ⁻¹' (Except.ok '' S) = S := by ext a; simp
    rwa [this]

/-- The law of the result of a program, failures left out. -/
theorem okLaw {α : Type} [MeasurableSpace α] {p : Prog α} (hp : Reg fun _ : Unit => p) (mp : Mass1 p) : ∃ μ : Measure α, IsFiniteMeasure μ ∧ ∀ G : α → ℝ≥0∞, Measurable G → p.lexp (onOk G) = ∫⁻ a, G a ∂μ := by
  have hk : IsMarkovKernel hp.kernel := hp.markov fun _ => mp
  refine ⟨(hp.kernel ()).comap Except.ok, ⟨?_⟩, fun G hG => ?_⟩
  · rw [okEmb.comap_apply]
    exact measure_lt_top _ _
  · rw [hp.lexp_eq () (measurable_onOk hG), ← hp.kernel_apply]
    have h1 : ∫⁻ r, onOk G r ∂hp.kernel () = ∫⁻ r in range (Except.ok : α → Res α), onOk G r ∂hp.kernel () := by
      rw [← lintegral_indicator okEmb.measurableSet_range]
      refine lintegral_congr fun r => ?_
      rcases r with e | a
      · simp [onOk]
      · simp
    rw [h1, ← okEmb.map_comap, okEmb.lintegral_map]
    rfl

/-- Expectations over two programs can be exchanged. -/
theorem lexp_comm {α β : Type} [MeasurableSpace α] [MeasurableSpace β] {p : Prog α} {q : Prog β} (hp : Reg fun _ : Unit => p) (hq : Reg fun _ : Unit => q) (mp : Mass1 p) (mq : Mass1 q)
    {F : α → β → ℝ≥0∞} (hF : Measurable fun r : α × β => F r.1 r.2) :
    p.lexp (onOk fun a => q.lexp (onOk fun b => F a b)) = q.lexp (onOk fun b => p.lexp (onOk fun a => F a b)) := by
  obtain ⟨μ, hμ, h1⟩ := okLaw hp mp
  obtain ⟨ν, hν, h2⟩ := okLaw hq mq
  have e1 : ∀ a, q.lexp (onOk fun b => F a b) = ∫⁻ b, F a b ∂ν := fun a => h2 _ (hF.comp (f := fun b => (a, b)) (by fun_prop))
  have e2 : ∀ b, p.lexp (onOk fun a => F a b) = ∫⁻ a, F a b ∂μ := fun b => h1 _ (hF.comp (f := fun a => (a, b)) (by fun_prop))
  simp only [e1, e2]
  rw [h1 _ hF.lintegral_prod_right', h2 _ hF.lintegral_prod_left', lintegral_lintegral_swap hF.aemeasurable]

end Ctb
