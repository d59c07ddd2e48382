import Verif.Lemmas.RegOps
import Verif.Lemmas.HiddenImportance

/-!
# Averages over the seeds of an augmentation depend measurably on the anchors
-/

set_option linter.unusedSectionVars false

namespace Ctb

open MeasureTheory Set
open scoped ENNReal

variable {X Y α β : Type} [MeasurableSpace X] [MeasurableSpace Y] [MeasurableSpace α] [MeasurableSpace β]

/-- Normalisation of a segment, switching/static.py:42-43. -/
noncomputable def segOp (vol : ℕ → ℝ) (q : ℝ × ℕ × ℝ × ℝ) : NormOp := ⟨q.1, √q.1 * vol q.2.1, q.2.2.1, q.2.2.2⟩

theorem meas_segOp (vol : ℕ → ℝ) : Measurable (segOp vol) := by
  have h : Measurable fun q : ℝ × ℕ × ℝ × ℝ => vol q.2.1 := Measurable.discrete (f := fun q : ℝ × ℕ × ℝ × ℝ => q.2.1) (by fun_prop) vol
  unfold segOp
  fun_prop

@[fun_prop] theorem Measurable.segments {t : X → List ℝ} {y : X → List ℕ} {v : X → List ℝ} (ht : Measurable t) (hy : Measurable y) (hv : Measurable v) :
    Measurable fun x => Ctb.segments (t x) (y x) (v x) := by
  unfold Ctb.segments
  fun_prop

theorem Measurable.resMap [Inhabited α] {r : X → Res α} (hr : Measurable r) {f : X → α → β} (hf : Measurable fun p : X × α => f p.1 p.2) :
    Measurable fun x => (r x).bind fun a => .ok (f x a) :=
  Measurable.resBind hr (Measurable.resOk hf)

theorem mapM_listOk (f : α → Res β) (l : List α) : l.mapM f = listOk (l.map f) := by
  induction l with
  | nil => rfl
  | cons a l ih => rw [List.mapM_cons, ih]; rfl

/-- `mapM` in the error monad. -/
theorem Measurable.resMapM [Inhabited α] [Inhabited β] {f : X → α → Res β} (hf : Measurable fun p : X × α => f p.1 p.2) {l : X → List α} (hl : Measurable l) :
    Measurable fun x => (l x).mapM (f x) := by
  simp only [mapM_listOk]
  exact Measurable.listOk (Measurable.listMap hl hf)

theorem integrateDiscBound_one (ebd : ℝ → ℝ → Res DiscBounds) (op : NormOp) (z : EaSkel) : integrateDiscBound ebd op z =
    (ebd (min (min z.tight z.loose * op.scale + op.x1) (min z.tight z.loose * op.scale + op.x0))
      (max (max z.tight z.loose * op.scale + op.x1) (max z.tight z.loose * op.scale + op.x0))).bind fun b => .ok (stLbDisc [0, op.finT] [b.2.1]) := by
  unfold integrateDiscBound
  rw [boundDiscPath_one]
  cases ebd (min (min z.tight z.loose * op.scale + op.x1) (min z.tight z.loose * op.scale + op.x0))
      (max (max z.tight z.loose * op.scale + op.x1) (max z.tight z.loose * op.scale + op.x0)) <;> rfl

theorem meas_integrateDiscBound {ebd : X → ℝ → ℝ → Res DiscBounds} (he : Measurable fun q : X × ℝ × ℝ => ebd q.1 q.2.1 q.2.2) {op : X → NormOp} (ho : Measurable op)
    {z : X → EaSkel} (hz : Measurable z) : Measurable fun x => integrateDiscBound (ebd x) (op x) (z x) := by
  simp only [integrateDiscBound_one]
  exact Measurable.resMap (meas_opBounds he ho hz) (meas_stLb (by fun_prop) (by fun_prop))

section
variable {ebd : ℕ → ℝ → ℝ → Res DiscBounds} {G : List EaSkel → Anchorage ℝ ℝ → ℝ≥0∞} {τ : List ℝ} {η : List ℕ}

/-- Measurability of a value of seeds and anchors at given times and regimes. -/
def MeasAnch (τ : List ℝ) (η : List ℕ) (G : List EaSkel → Anchorage ℝ ℝ → ℝ≥0∞) : Prop :=
  Measurable fun q : List EaSkel × List ℝ => G q.1 ⟨τ, η, q.2⟩

theorem meas_seedVal {rawSeed : ℝ → ℕ → ℝ → ℝ → Prog EaSkel} (hs : Reg fun q : ℝ × ℕ × ℝ × ℝ => rawSeed q.1 q.2.1 q.2.2.1 q.2.2.2) (hG : MeasAnch τ η G) :
    Measurable fun xs => seedVal rawSeed G τ η xs := by
  have h : Reg fun xs : List ℝ => Prog.mapM' (fun q : ℝ × ℕ × ℝ × ℝ => rawSeed q.1 q.2.1 q.2.2.1 q.2.2.2) (segments τ η xs) :=
    Reg.mapM' (f := fun (_ : List ℝ) (q : ℝ × ℕ × ℝ × ℝ) => rawSeed q.1 q.2.1 q.2.2.1 q.2.2.2) (hs.comp measurable_snd) (by fun_prop)
  exact h.meas id (fun xs => onOk fun z => G z ⟨τ, η, xs⟩) measurable_id (hG.comp measurable_swap) fun _ => measurable_const

theorem meas_regimeBound (he : ∀ y, Measurable fun q : ℝ × ℝ => ebd y q.1 q.2) :
    Measurable fun q : EaSkel × ℕ × NormOp => integrateDiscBound (ebd q.2.1) q.2.2 q.1 := by
  have h1 : ∀ y, Measurable fun q : EaSkel × ℕ × NormOp => integrateDiscBound (ebd y) q.2.2 q.1 := fun y =>
    meas_integrateDiscBound (X := EaSkel × ℕ × NormOp) (ebd := fun _ => ebd y) ((he y).comp measurable_snd) (by fun_prop) (by fun_prop)
  exact Measurable.natCases (f := fun (q : EaSkel × ℕ × NormOp) y => integrateDiscBound (ebd y) q.2.2 q.1) (c := fun q => q.2.1) (by fun_prop) h1

theorem meas_segOps (vol : ℕ → ℝ) : Measurable fun q : List EaSkel × List ℝ => q.1.zip (η.zip ((segments τ η q.2).map (segOp vol))) := by
  have : Measurable fun q : List EaSkel × List ℝ => (segments τ η q.2).map (segOp vol) :=
    Measurable.listMap (f := fun _ s => segOp vol s) (by fun_prop) ((meas_segOp vol).comp measurable_snd)
  fun_prop

theorem meas_boundVal (vol : ℕ → ℝ) (he : ∀ y, Measurable fun q : ℝ × ℝ => ebd y q.1 q.2) (hG : MeasAnch τ η G) :
    MeasAnch τ η (boundVal ebd (fun h => (segments h.t h.yt h.vt).map (segOp vol)) G) := by
  have h3 : Measurable fun q : List EaSkel × List ℝ =>
      ((q.1.zip (η.zip ((segments τ η q.2).map (segOp vol)))).mapM fun s : EaSkel × ℕ × NormOp => integrateDiscBound (ebd s.2.1) s.2.2 s.1 : Res (List ℝ)) :=
    Measurable.resMapM (f := fun (_ : List EaSkel × List ℝ) (s : EaSkel × ℕ × NormOp) => integrateDiscBound (ebd s.2.1) s.2.2 s.1) ((meas_regimeBound he).comp measurable_snd) (meas_segOps vol)
  have h4 : Measurable fun p : (List EaSkel × List ℝ) × List ℝ => G p.1.1 ⟨τ, η, p.1.2⟩ := hG.comp measurable_fst
  have h5 : Measurable fun p : (List EaSkel × List ℝ) × List ℝ => ENNReal.ofReal (Real.exp p.2.sum) * G p.1.1 ⟨τ, η, p.1.2⟩ := Measurable.mul (by fun_prop) h4
  exact Measurable.resCases h3 (f := fun q r => onOk (fun st : List ℝ => ENNReal.ofReal (Real.exp st.sum) * G q.1 ⟨τ, η, q.2⟩) r) (fun _ => measurable_const) h5

theorem measN_of_meas {F : List ℝ → ℝ≥0∞} (hF : Measurable F) (n : ℕ) (x0 : ℝ) : MeasN n fun (_ : Unit) l => F (x0 :: l) := by
  unfold MeasN
  have : Measurable fun p : Unit × (Fin n → ℝ) => List.ofFn p.2 := (measurable_ofFn n).comp measurable_snd
  exact hF.comp (by fun_prop)

end

end Ctb
