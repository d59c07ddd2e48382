import Verif.Lemmas.RegJump
import Verif.Lemmas.RegSde
import Verif.Lemmas.MassOne
import Mathlib.MeasureTheory.Constructions.BorelSpace.Real

/-!
# The adaptive rejection sampler has a measurable law
-/

set_option linter.unusedSectionVars false

namespace Ctb

open MeasureTheory Set Classical

variable {X Y α β γ : Type} [MeasurableSpace X] [MeasurableSpace Y] [MeasurableSpace α] [MeasurableSpace β] [MeasurableSpace γ]

noncomputable instance : Inhabited EReal := ⟨0⟩

/-! ## Extended reals -/

@[fun_prop] theorem Measurable.ltEReal {f g : X → EReal} (hf : Measurable f) (hg : Measurable g) : Measurable fun x => f x < g x :=
  measurableSet_setOfPred.1 (measurableSet_lt hf hg)

@[fun_prop] theorem Measurable.eqEReal {f g : X → EReal} (hf : Measurable f) (hg : Measurable g) : Measurable fun x => f x = g x :=
  measurableSet_setOfPred.1 (measurableSet_eq_fun hf hg)

@[fun_prop] theorem Measurable.coeEReal {f : X → ℝ} (hf : Measurable f) : Measurable fun x => ((f x : ℝ) : EReal) := measurable_coe_real_ereal.comp hf

@[fun_prop] theorem Measurable.toRealE {f : X → EReal} (hf : Measurable f) : Measurable fun x => (f x).toReal := measurable_ereal_toReal.comp hf

theorem meas_searchE {l : X → List EReal} {v : X → EReal} (hl : Measurable l) (hv : Measurable v) {dec : ∀ a b : EReal, Decidable (a < b)} :
    Measurable fun x => @Ctb.searchLeft EReal _ dec (l x) (v x) := by
  unfold Ctb.searchLeft
  exact Measurable.length (Measurable.takeWhile (P := fun x a => @Decidable.decide (a < v x) (dec _ _)) hl (Measurable.decide (by fun_prop)))

/-! ## Lists -/

theorem Measurable.filterMap [Inhabited α] [Inhabited β] {l : X → List α} {f : X → α → Option β} (hl : Measurable l) (hf : Measurable fun p : X × α => f p.1 p.2) :
    Measurable fun x => (l x).filterMap (f x) := by
  have hf' : Measurable fun p : X × α × List α × List β => f p.1 p.2.1 := hf.comp (by fun_prop : Measurable fun p : X × α × List α × List β => (p.1, p.2.1))
  refine Measurable.listRec hl (f := fun x l => l.filterMap (f x)) (g := fun p => if f p.1 p.2.1 = none then p.2.2.2 else (f p.1 p.2.1).getD default :: p.2.2.2) (h := fun p => p.1)
    ?_ (by fun_prop) measurable_const (fun x a l => ?_)
  · exact Measurable.ite' (Measurable.isNone hf') (by fun_prop) (by fun_prop)
  · rw [List.filterMap_cons]
    rcases f x a with _ | b <;> simp

theorem meas_foldlMax {l : X → List ℝ} {a : X → ℝ} (hl : Measurable l) (ha : Measurable a) : Measurable fun x => (l x).foldl max (a x) := by
  have : Measurable fun p : ℝ × List ℝ => p.2.foldl max p.1 :=
    measurable_listRec (f := fun (a : ℝ) l => l.foldl max a) (h := fun p => max p.1 p.2.1) (g := fun p => p.2.2.2) (by fun_prop) (by fun_prop)
      measurable_id (fun _ _ _ => rfl)
  exact this.comp (ha.prodMk hl)

theorem meas_listOk [Inhabited α] {l : X → List (Res α)} (hl : Measurable l) : Measurable fun x => listOk (l x) := by
  have : Inhabited (Res α) := ⟨.ok default⟩
  refine Measurable.listRec hl (f := fun _ l => listOk l) (g := fun p => p.2.1.bind fun a => p.2.2.2.bind fun as => .ok (a :: as)) (h := fun p => p.1) ?_ (by fun_prop)
    measurable_const (fun _ _ _ => rfl)
  refine Measurable.resBind (by fun_prop) (Measurable.resBind (by fun_prop) (Measurable.resOk (by fun_prop)))

theorem meas_insertIdx [Inhabited α] {l : X → List α} {i : X → ℕ} {v : X → α} (hl : Measurable l) (hi : Measurable i) (hv : Measurable v) :
    Measurable fun x => (l x).insertIdx (i x) (v x) := by
  refine Measurable.natCases (f := fun x i => (l x).insertIdx i (v x)) hi fun n => ?_
  have h : Measurable fun p : α × List α => p.2.insertIdx n p.1 := by
    clear hl hi hv
    induction n with
    | zero => simp only [List.insertIdx_zero]; fun_prop
    | succ n ih =>
      refine Measurable.listCases (X := α × List α) (l := fun p => p.2) measurable_snd (f := fun p l => l.insertIdx (n + 1) p.1) ?_ ?_
      · simp only [List.insertIdx_succ_nil]; exact measurable_const
      · simp only [List.insertIdx_succ_cons]
        exact Measurable.cons (by fun_prop) (ih.comp (by fun_prop : Measurable fun p : (α × List α) × α × List α => (p.1.1, p.2.2)))
  exact h.comp (hv.prodMk hl)

/-! ## The envelope -/

variable {x fx dfx : X → List ℝ} {y : X → List EReal} {v z : X → ℝ}

theorem meas_genUpper (hx : Measurable x) (hf : Measurable fx) (hd : Measurable dfx) : Measurable fun q => genUpper (x q) (fx q) (dfx q) := by
  unfold genUpper
  have hden : Measurable fun q => List.zipWith (· - ·) (dfx q).dropLast (dfx q).tail := Measurable.zipWith' (f := fun _ => (· - ·)) (by fun_prop) (by fun_prop) (by fun_prop)
  have h1 : Measurable fun q => List.zipWith (· * ·) (x q) (dfx q) := Measurable.zipWith' (f := fun _ => (· * ·)) hx hd (by fun_prop)
  have h2 : Measurable fun q => List.zipWith (· - ·) (fx q) (List.zipWith (· * ·) (x q) (dfx q)) := Measurable.zipWith' (f := fun _ => (· - ·)) hf h1 (by fun_prop)
  exact Measurable.ite' (Measurable.memReal hden measurable_const) measurable_const
    (Measurable.resOk (Measurable.zipWith' (f := fun _ => (· / ·)) (Measurable.npDiff h2) hden (by fun_prop)))

theorem meas_hullBreaks (lb ub : EReal) (hx : Measurable x) (hf : Measurable fx) (hd : Measurable dfx) : Measurable fun q => hullBreaks lb ub (x q) (fx q) (dfx q) := by
  unfold hullBreaks
  refine Measurable.resBind (meas_genUpper hx hf hd) (Measurable.resOk ?_)
  have : Measurable fun p : X × List ℝ => p.2.map Real.toEReal := Measurable.listMap (f := fun _ => Real.toEReal) measurable_snd (by fun_prop)
  fun_prop

theorem evalUpper_eq (x fx dfx : List ℝ) (y : List EReal) (v : ℝ) : evalUpper x fx dfx y v =
    (optRes .index (pyGet fx ((searchLeft y (v : EReal) : ℤ) - 1))).bind fun f => (optRes .index (pyGet x ((searchLeft y (v : EReal) : ℤ) - 1))).bind fun a =>
    (optRes .index (pyGet dfx ((searchLeft y (v : EReal) : ℤ) - 1))).bind fun d => .ok (f + (v - a) * d) := by
  unfold evalUpper
  dsimp only
  rcases pyGet fx _ with _ | f <;> rcases pyGet x _ with _ | a <;> rcases pyGet dfx _ with _ | d <;> rfl

theorem meas_evalUpper (hx : Measurable x) (hf : Measurable fx) (hd : Measurable dfx) (hy : Measurable y) (hv : Measurable v) :
    Measurable fun q => evalUpper (x q) (fx q) (dfx q) (y q) (v q) := by
  simp only [evalUpper_eq]
  have hi : Measurable fun q => (searchLeft (y q) (v q : EReal) : ℤ) - 1 := Measurable.discrete (meas_searchE hy (Measurable.coeEReal hv)) fun n : ℕ => (n : ℤ) - 1
  refine Measurable.resBind (by fun_prop) (Measurable.resBind (Measurable.optRes (Measurable.pyGet (by fun_prop) (hi.comp measurable_fst)) _) (Measurable.resBind
    (Measurable.optRes (Measurable.pyGet (by fun_prop) (hi.comp (by fun_prop : Measurable fun q : (X × ℝ) × ℝ => q.1.1))) _) (Measurable.resOk (by fun_prop))))

theorem evalLower_eq (x fx : List ℝ) (v : ℝ) : evalLower x fx v =
    if (searchLeft x v : ℤ) - 1 = -1 ∨ (searchLeft x v : ℤ) - 1 = (x.length : ℤ) - 1 then .ok none else
    (optRes .index (pyGet x ((searchLeft x v : ℤ) - 1))).bind fun a => (optRes .index (pyGet x ((searchLeft x v : ℤ) - 1 + 1))).bind fun b =>
    (optRes .index (pyGet fx ((searchLeft x v : ℤ) - 1))).bind fun fa => (optRes .index (pyGet fx ((searchLeft x v : ℤ) - 1 + 1))).bind fun fb =>
    .ok (some (((b - v) * fa + (v - a) * fb) / (b - a))) := by
  unfold evalLower
  dsimp only
  refine if_congr Iff.rfl rfl ?_
  rcases pyGet x _ with _ | a <;> rcases pyGet x _ with _ | b <;> rcases pyGet fx _ with _ | c <;> rcases pyGet fx _ with _ | d <;> rfl

theorem meas_evalLower (hx : Measurable x) (hf : Measurable fx) (hv : Measurable v) : Measurable fun q => evalLower (x q) (fx q) (v q) := by
  simp only [evalLower_eq]
  have hs : Measurable fun q => searchLeft (x q) (v q) := by fun_prop
  have hi : Measurable fun q => (searchLeft (x q) (v q) : ℤ) - 1 := Measurable.discrete hs fun n : ℕ => (n : ℤ) - 1
  have hi' : Measurable fun q => (searchLeft (x q) (v q) : ℤ) - 1 + 1 := Measurable.discrete hs fun n : ℕ => (n : ℤ) - 1 + 1
  refine Measurable.ite' ?_ measurable_const ?_
  · exact Measurable.discrete (hs.prodMk (Measurable.length hx)) fun n : ℕ × ℕ => (n.1 : ℤ) - 1 = -1 ∨ (n.1 : ℤ) - 1 = (n.2 : ℤ) - 1
  · refine Measurable.resBind (by fun_prop) (Measurable.resBind (Measurable.optRes (Measurable.pyGet (by fun_prop) (hi'.comp measurable_fst)) _) (Measurable.resBind
      (Measurable.optRes (Measurable.pyGet (by fun_prop) (hi.comp (by fun_prop : Measurable fun q : (X × ℝ) × ℝ => q.1.1))) _) (Measurable.resBind
      (Measurable.optRes (Measurable.pyGet (by fun_prop) (hi'.comp (by fun_prop : Measurable fun q : ((X × ℝ) × ℝ) × ℝ => q.1.1.1))) _) (Measurable.resOk (by fun_prop)))))

theorem meas_envVol {off a fa d : X → ℝ} {y : X → EReal} (ho : Measurable off) (ha : Measurable a) (hf : Measurable fa) (hd : Measurable d) (hy : Measurable y) :
    Measurable fun q => envVol (off q) (a q) (fa q) (d q) (y q) := by
  unfold envVol
  refine Measurable.ite' (by fun_prop) measurable_const (Measurable.ite' (by fun_prop) (Measurable.ite' (by fun_prop) measurable_const measurable_const)
    (Measurable.ite' (by fun_prop) (Measurable.ite' (by fun_prop) measurable_const measurable_const) (Measurable.resOk ?_)))
  fun_prop

theorem meas_envOffset {h : X → List (ℝ × ℝ × ℝ)} (hh : Measurable h) (hy : Measurable y) : Measurable fun q => envOffset (h q) (y q) := by
  unfold envOffset
  have hl : Measurable fun q => ((h q).zip (y q).tail).filterMap fun q : (ℝ × ℝ × ℝ) × EReal => if q.2 = ⊤ then none else some (q.1.2.2 * (q.2.toReal - q.1.1) + q.1.2.1) := by
    refine Measurable.filterMap (f := fun _ (q : (ℝ × ℝ × ℝ) × EReal) => if q.2 = ⊤ then none else some (q.1.2.2 * (q.2.toReal - q.1.1) + q.1.2.1)) (by fun_prop) ?_
    exact Measurable.ite' (by fun_prop) measurable_const (by fun_prop)
  refine Measurable.listCases hl (f := fun _ l => (match l with
    | [] => .error .nan
    | a :: l => .ok (l.foldl max a) : Res ℝ)) measurable_const ?_
  exact Measurable.resOk (meas_foldlMax (by fun_prop) (by fun_prop))

theorem meas_hullRows (hx : Measurable x) (hf : Measurable fx) (hd : Measurable dfx) : Measurable fun q => hullRows (x q) (fx q) (dfx q) := by
  unfold hullRows; fun_prop

/-- The last lines of `sample_envelope`. -/
noncomputable def envPick (x fx dfx lo cdf : List ℝ) (off z norm : ℝ) : Res ℝ :=
  if norm = 0 then .error .nan else
    (optRes .index (pyGet x ((searchLeft (cdf.map (· / norm)) z : ℤ) - 1))).bind fun a => (optRes .index (pyGet fx ((searchLeft (cdf.map (· / norm)) z : ℤ) - 1))).bind fun fa =>
    (optRes .index (pyGet dfx ((searchLeft (cdf.map (· / norm)) z : ℤ) - 1))).bind fun d => (optRes .index (pyGet cdf ((searchLeft (cdf.map (· / norm)) z : ℤ) - 1))).bind fun c =>
    (optRes .index (pyGet lo ((searchLeft (cdf.map (· / norm)) z : ℤ) - 1))).bind fun v =>
    if (norm * z - c + v) * d ≤ 0 then .error .nan else .ok (a + (Real.log ((norm * z - c + v) * d) - fa + off) / d)

theorem sampleEnvelope_eq (x fx dfx : List ℝ) (y : List EReal) (z : ℝ) : sampleEnvelope x fx dfx y z =
    (envOffset (hullRows x fx dfx) y).bind fun off =>
    (listOk (((hullRows x fx dfx).zip y.tail).map fun q => envVol off q.1.1 q.1.2.1 q.1.2.2 q.2)).bind fun hi =>
    (listOk (((hullRows x fx dfx).zip y.dropLast).map fun q => envVol off q.1.1 q.1.2.1 q.1.2.2 q.2)).bind fun lo =>
    (optRes .index (0 :: npCumsum (List.zipWith (· - ·) hi lo)).getLast?).bind fun norm =>
    envPick x fx dfx lo (0 :: npCumsum (List.zipWith (· - ·) hi lo)) off z norm := by
  unfold sampleEnvelope
  show (envOffset (hullRows x fx dfx) y).bind _ = _
  congr 1; funext off
  show (listOk _).bind _ = _
  congr 1; funext hi
  show (listOk _).bind _ = _
  congr 1; funext lo
  dsimp only [npCumsum]
  rcases (0 :: cumsumFrom 0 (List.zipWith (· - ·) hi lo)).getLast? with _ | norm
  · rfl
  · show _ = envPick _ _ _ _ _ _ _ _
    unfold envPick
    dsimp only
    refine if_congr Iff.rfl rfl ?_
    rcases pyGet x _ with _ | a <;> rcases pyGet fx _ with _ | b <;> rcases pyGet dfx _ with _ | c <;> rcases pyGet (0 :: _) _ with _ | d <;> rcases pyGet lo _ with _ | e <;> rfl

theorem meas_envPick {lo cdf : X → List ℝ} {off norm : X → ℝ} (hx : Measurable x) (hf : Measurable fx) (hd : Measurable dfx) (hl : Measurable lo) (hc : Measurable cdf)
    (ho : Measurable off) (hz : Measurable z) (hn : Measurable norm) : Measurable fun q => envPick (x q) (fx q) (dfx q) (lo q) (cdf q) (off q) (z q) (norm q) := by
  unfold envPick
  have hm : Measurable fun q => (cdf q).map (· / norm q) := Measurable.listMap (f := fun q => (· / norm q)) hc (by fun_prop)
  have hs : Measurable fun q => searchLeft ((cdf q).map (· / norm q)) (z q) := by fun_prop
  have hi : Measurable fun q => (searchLeft ((cdf q).map (· / norm q)) (z q) : ℤ) - 1 := Measurable.discrete hs fun n : ℕ => (n : ℤ) - 1
  refine Measurable.ite' (by fun_prop) measurable_const (Measurable.resBind (by fun_prop) (Measurable.resBind (Measurable.optRes (Measurable.pyGet (by fun_prop) (hi.comp measurable_fst)) _) (Measurable.resBind
      (Measurable.optRes (Measurable.pyGet (by fun_prop) (hi.comp (by fun_prop : Measurable fun q : (X × ℝ) × ℝ => q.1.1))) _) (Measurable.resBind
      (Measurable.optRes (Measurable.pyGet (by fun_prop) (hi.comp (by fun_prop : Measurable fun q : ((X × ℝ) × ℝ) × ℝ => q.1.1.1))) _) (Measurable.resBind
      (Measurable.optRes (Measurable.pyGet (by fun_prop) (hi.comp (by fun_prop : Measurable fun q : (((X × ℝ) × ℝ) × ℝ) × ℝ => q.1.1.1.1))) _)
      (Measurable.ite' (by fun_prop) measurable_const (Measurable.resOk (by fun_prop))))))))

theorem meas_vols {y : X → List EReal} {off : X → ℝ} (ho : Measurable off) {h : X → List (ℝ × ℝ × ℝ)} (hh : Measurable h) (hy : Measurable y) :
    Measurable fun q => listOk (((h q).zip (y q)).map fun r => envVol (off q) r.1.1 r.1.2.1 r.1.2.2 r.2) := by
  have : Inhabited (Res ℝ) := ⟨.ok 0⟩
  exact meas_listOk (Measurable.listMap (f := fun q (r : (ℝ × ℝ × ℝ) × EReal) => envVol (off q) r.1.1 r.1.2.1 r.1.2.2 r.2) (by fun_prop)
    (meas_envVol (by fun_prop) (by fun_prop) (by fun_prop) (by fun_prop) (by fun_prop)))

theorem meas_sampleEnvelope (hx : Measurable x) (hf : Measurable fx) (hd : Measurable dfx) (hy : Measurable y) (hz : Measurable z) :
    Measurable fun q => sampleEnvelope (x q) (fx q) (dfx q) (y q) (z q) := by
  simp only [sampleEnvelope_eq]
  have hr := meas_hullRows hx hf hd
  refine Measurable.resBind (meas_envOffset hr hy) (Measurable.resBind (meas_vols measurable_snd (hr.comp measurable_fst) (by fun_prop)) (Measurable.resBind
    (meas_vols (X := (X × ℝ) × List ℝ) (off := fun q => q.1.2) (by fun_prop) (hr.comp (by fun_prop : Measurable fun q : (X × ℝ) × List ℝ => q.1.1)) (by fun_prop)) ?_))
  have hc : Measurable fun q : ((X × ℝ) × List ℝ) × List ℝ => List.zipWith (· - ·) q.1.2 q.2 := Measurable.zipWith' (f := fun _ => (· - ·)) (by fun_prop) (by fun_prop) (by fun_prop)
  have hc' : Measurable fun q : ((X × ℝ) × List ℝ) × List ℝ => 0 :: npCumsum (List.zipWith (· - ·) q.1.2 q.2) := by fun_prop
  refine Measurable.resBind (by fun_prop) (meas_envPick (by fun_prop) (by fun_prop) (by fun_prop) (by fun_prop) (hc'.comp measurable_fst) (by fun_prop) (by fun_prop) (by fun_prop))

/-! ## The hull -/

def Hull.tup (H : Hull) : List ℝ × List ℝ × List ℝ := (H.x, H.fx, H.dfx)

instance : MeasurableSpace Hull := MeasurableSpace.comap Hull.tup inferInstance
instance : Inhabited Hull := ⟨⟨[], [], []⟩⟩

theorem measurable_hullTup : Measurable Hull.tup := comap_measurable _

variable {H : X → Hull}

@[fun_prop] theorem Measurable.hullX (h : Measurable H) : Measurable fun q => (H q).x := (measurable_hullTup.comp h).fst
@[fun_prop] theorem Measurable.hullF (h : Measurable H) : Measurable fun q => (H q).fx := (measurable_hullTup.comp h).snd.fst
@[fun_prop] theorem Measurable.hullD (h : Measurable H) : Measurable fun q => (H q).dfx := (measurable_hullTup.comp h).snd.snd

@[fun_prop] theorem Measurable.hullMk (hx : Measurable x) (hf : Measurable fx) (hd : Measurable dfx) : Measurable fun q => (⟨x q, fx q, dfx q⟩ : Hull) := by
  refine measurable_comap_iff.2 ?_
  show Measurable fun q => (x q, fx q, dfx q)
  fun_prop

variable {f df : X → ℝ → ℝ}

theorem meas_hullInit (hf : Measurable fun q : X × ℝ => f q.1 q.2) (hd : Measurable fun q : X × ℝ => df q.1 q.2) {init : X → List ℝ} (hi : Measurable init) :
    Measurable fun q => Hull.init (f q) (df q) (init q) := by
  unfold Hull.init
  have hs : Measurable fun q => npSort (init q) := meas_npSort hi
  exact Measurable.hullMk hs (Measurable.listMap hs hf) (Measurable.listMap hs hd)

theorem meas_hullInsert {fv dv : X → ℝ} (hH : Measurable H) (hv : Measurable v) (hf : Measurable fv) (hd : Measurable dv) : Measurable fun q => (H q).insert (v q) (fv q) (dv q) := by
  unfold Hull.insert
  have hs : Measurable fun q => searchLeft (H q).x (v q) := by fun_prop
  exact Measurable.hullMk (meas_insertIdx (by fun_prop) hs hv) (meas_insertIdx (by fun_prop) hs hf) (meas_insertIdx (by fun_prop) hs hd)

theorem meas_arsDecide (hf : Measurable fun q : X × ℝ => f q.1 q.2) (hd : Measurable fun q : X × ℝ => df q.1 q.2) (maxPts : ℕ) (hH : Measurable H) (hv : Measurable v)
    {lo : X → Option ℝ} (hl : Measurable lo) {up u : X → ℝ} (hu : Measurable up) (hw : Measurable u) :
    Measurable fun q => arsDecide (f q) (df q) maxPts (H q) (v q) (lo q) (up q) (u q) := by
  unfold arsDecide
  have hfv : Measurable fun q => f q (v q) := hf.comp (measurable_id.prodMk hv)
  have hdv : Measurable fun q => df q (v q) := hd.comp (measurable_id.prodMk hv)
  refine Measurable.ite' (Measurable.optionEx hl (P := fun q l => npLogLt (u q) (l - up q)) (by fun_prop)) (by fun_prop) (Measurable.ite' (by fun_prop) (by fun_prop)
    (Measurable.ite' (Measurable.discrete (Measurable.length (Measurable.hullX hH)) (· < maxPts)) ?_ (by fun_prop)))
  exact measurable_const.prodMk (meas_hullInsert hH hv hfv hdv)

theorem reg_arsStep (hf : Measurable fun q : X × ℝ => f q.1 q.2) (hd : Measurable fun q : X × ℝ => df q.1 q.2) (lb ub : EReal) (maxPts : ℕ) (hH : Measurable H) :
    Reg fun q => arsStep (f q) (df q) lb ub maxPts (H q) := by
  unfold arsStep
  refine Reg.bind (Reg.lift (meas_hullBreaks lb ub (by fun_prop) (by fun_prop) (by fun_prop))) (Reg.real (DMeas.const _) (Reg.bind (Reg.lift (meas_sampleEnvelope (by fun_prop) (by fun_prop)
    (by fun_prop) (by fun_prop) (by fun_prop))) (Reg.bind (Reg.lift (meas_evalLower (by fun_prop) (by fun_prop) (by fun_prop))) (Reg.bind (Reg.lift (meas_evalUpper (by fun_prop) (by fun_prop)
    (by fun_prop) (by fun_prop) (by fun_prop))) (Reg.real (DMeas.const _) ?_)))))
  have h := meas_arsDecide (X := (((((X × List EReal) × ℝ) × ℝ) × Option ℝ) × ℝ) × ℝ) (f := fun q => f q.1.1.1.1.1.1) (df := fun q => df q.1.1.1.1.1.1) (H := fun q => H q.1.1.1.1.1.1)
    (v := fun q => q.1.1.1.2) (lo := fun q => q.1.1.2) (up := fun q => q.1.2) (u := fun q => q.2)
    (hf.comp (by fun_prop : Measurable fun q : ((((((X × List EReal) × ℝ) × ℝ) × Option ℝ) × ℝ) × ℝ) × ℝ => (q.1.1.1.1.1.1.1, q.2)))
    (hd.comp (by fun_prop : Measurable fun q : ((((((X × List EReal) × ℝ) × ℝ) × Option ℝ) × ℝ) × ℝ) × ℝ => (q.1.1.1.1.1.1.1, q.2))) maxPts
    (by fun_prop) (by fun_prop) (by fun_prop) (by fun_prop) (by fun_prop)
  exact Reg.ret ((by fun_prop : Measurable fun q : (((((X × List EReal) × ℝ) × ℝ) × Option ℝ) × ℝ) × ℝ => q.1.1.1.2).prodMk (h.fst.prodMk h.snd))

theorem reg_arsLoop (hf : Measurable fun q : X × ℝ => f q.1 q.2) (hd : Measurable fun q : X × ℝ => df q.1 q.2) (lb ub : EReal) (maxPts : ℕ) :
    ∀ fuel n, Reg fun q : X × Hull => arsLoop (f q.1) (df q.1) lb ub maxPts fuel n q.2
  | 0, 0 => by simp only [arsLoop]; exact Reg.ret (by fun_prop)
  | _ + 1, 0 => by simp only [arsLoop]; exact Reg.ret (by fun_prop)
  | 0, n + 1 => by simp only [arsLoop]; exact Reg.err _
  | fuel + 1, n + 1 => by
    simp only [arsLoop]
    refine Reg.bind (reg_arsStep (X := X × Hull) (f := fun q => f q.1) (df := fun q => df q.1) (hf.comp (by fun_prop : Measurable fun q : (X × Hull) × ℝ => (q.1.1, q.2)))
      (hd.comp (by fun_prop : Measurable fun q : (X × Hull) × ℝ => (q.1.1, q.2))) lb ub maxPts measurable_snd) ?_
    refine Reg.ite' (by fun_prop) (Reg.bind ?_ (Reg.ret (by fun_prop))) ?_
    · exact (reg_arsLoop hf hd lb ub maxPts fuel n).comp (f := fun q : (X × Hull) × ℝ × Bool × Hull => (q.1.1, q.2.2.2)) (by fun_prop)
    · exact (reg_arsLoop hf hd lb ub maxPts fuel (n + 1)).comp (f := fun q : (X × Hull) × ℝ × Bool × Hull => (q.1.1, q.2.2.2)) (by fun_prop)

theorem reg_arsSample (hf : Measurable fun q : X × ℝ => f q.1 q.2) (hd : Measurable fun q : X × ℝ => df q.1 q.2) (lb ub : EReal) {init : X → List ℝ} (hi : Measurable init)
    (maxPts fuel n : ℕ) : Reg fun q => arsSample (f q) (df q) lb ub (init q) maxPts fuel n :=
  (reg_arsLoop hf hd lb ub maxPts fuel n).comp (f := fun q => (q, Hull.init (f q) (df q) (init q))) (measurable_id.prodMk (meas_hullInit hf hd hi))

theorem reg_arsNext (hf : Measurable fun q : X × ℝ => f q.1 q.2) (hd : Measurable fun q : X × ℝ => df q.1 q.2) (lb ub : EReal) (fuel : ℕ) :
    Reg fun q : X × Hull => arsNext (f q.1) (df q.1) lb ub fuel q.2 := by
  unfold arsNext
  refine Reg.bind (reg_arsLoop hf hd lb ub 100 fuel 1) ?_
  refine Reg.listCases (X := (X × Hull) × List ℝ × Hull) (l := fun q => q.2.1) (by fun_prop) (p := fun q l => match l with
    | [x] => .ret (x, q.2.2)
    | _ => .err .fuel) (Reg.err _) ?_
  have h : Reg fun q : ((X × Hull) × List ℝ × Hull) × ℝ × List ℝ => (match q.2.2 with
    | [] => .ret (q.2.1, q.1.2.2)
    | _ :: _ => .err .fuel : Prog (ℝ × Hull)) :=
    Reg.listCases (X := ((X × Hull) × List ℝ × Hull) × ℝ × List ℝ) (l := fun q => q.2.2) (by fun_prop) (p := fun q l => match l with
      | [] => .ret (q.2.1, q.1.2.2)
      | _ :: _ => .err .fuel) (Reg.ret (f := fun q : ((X × Hull) × List ℝ × Hull) × ℝ × List ℝ => (q.2.1, q.1.2.2)) (by fun_prop)) (Reg.err _)
  refine cast ?_ h
  congr 1
  funext q
  rcases q.2.2 with _ | ⟨b, l⟩ <;> rfl

/-! ## Diffusions with a free end -/

/-- What the sampler of end points needs of a model. -/
structure MeasDrift {p : ℕ} (M : ItoFns p) : Prop where
  drift : Measurable fun q : (Fin p → ℝ) × ℝ => M.drift q.1 q.2
  sxDrift : Measurable fun q : (Fin p → ℝ) × ℝ => M.sxDrift q.1 q.2

theorem meas_convF {p : ℕ} {M : ItoFns p} (hM : MeasDrift M) {thi : X → Fin p → ℝ} {T x0 x : X → ℝ} (ht : Measurable thi) (hT : Measurable T) (h0 : Measurable x0) (hx : Measurable x) :
    Measurable fun q => convF M (thi q) (T q) (x0 q) (x q) := by
  unfold convF
  have := hM.sxDrift.comp (ht.prodMk hx)
  fun_prop

theorem meas_convDf {p : ℕ} {M : ItoFns p} (hM : MeasDrift M) {thi : X → Fin p → ℝ} {T x0 x : X → ℝ} (ht : Measurable thi) (hT : Measurable T) (h0 : Measurable x0) (hx : Measurable x) :
    Measurable fun q => convDf M (thi q) (T q) (x0 q) (x q) := by
  unfold convDf
  have := hM.drift.comp (ht.prodMk hx)
  fun_prop

theorem meas_convInit (lb ub : EReal) {mode : X → ℝ} (hm : Measurable mode) : Measurable fun q => convInit lb ub (mode q) := by
  have h1 : Measurable fun q => (brace lb ub (mode q)).1 := by unfold brace; dsimp only; split_ifs <;> fun_prop
  have h2 : Measurable fun q => (brace lb ub (mode q)).2 := by unfold brace; dsimp only; split_ifs <;> fun_prop
  unfold convInit
  fun_prop

theorem reg_sampleConvEndpt {p : ℕ} {M : ItoFns p} (hM : MeasDrift M) (lb ub : EReal) {thi : X → Fin p → ℝ} {T x0 mode : X → ℝ} (ht : Measurable thi) (hT : Measurable T) (h0 : Measurable x0)
    (hm : Measurable mode) (fuel n : ℕ) : Reg fun q => sampleConvEndpt M lb ub (thi q) (T q) (x0 q) (mode q) fuel n :=
  reg_arsSample (f := fun q => convF M (thi q) (T q) (x0 q)) (df := fun q => convDf M (thi q) (T q) (x0 q))
    (meas_convF hM (ht.comp measurable_fst) (hT.comp measurable_fst) (h0.comp measurable_fst) measurable_snd)
    (meas_convDf hM (ht.comp measurable_fst) (hT.comp measurable_fst) (h0.comp measurable_fst) measurable_snd) lb ub (meas_convInit lb ub hm) 100 fuel n

theorem reg_sampleSdeFree {p : ℕ} {M : ItoFns p} {ebd : (Fin p → ℝ) → ℝ → ℝ → Res DiscBounds} (hM : MeasModel M ebd) (hD : MeasDrift M) (lb ub : EReal) (B : SdeBudget) {mode : X → ℝ}
    {thi : X → Fin p → ℝ} {t : X → List ℝ} {T : X → ℝ} (hmo : Measurable mode) (hth : Measurable thi) (ht : Measurable t) {v0 : X → ℝ} (hT : Measurable T) (h0 : Measurable v0) (m : ℕ) :
    Reg fun x => sampleSde M ebd lb ub B (mode x) (thi x) (t x) (T x) (v0 x) none m := by
  have r0 : Measurable fun x => M.reduce (thi x) (v0 x) := hM.reduce.comp (hth.prodMk h0)
  have hf : Measurable fun q : X × ℝ => convF M (thi q.1) (T q.1) (M.reduce (thi q.1) (v0 q.1)) q.2 :=
    meas_convF hD (hth.comp measurable_fst) (hT.comp measurable_fst) (r0.comp measurable_fst) measurable_snd
  have hd : Measurable fun q : X × ℝ => convDf M (thi q.1) (T q.1) (M.reduce (thi q.1) (v0 q.1)) q.2 :=
    meas_convDf hD (hth.comp measurable_fst) (hT.comp measurable_fst) (r0.comp measurable_fst) measurable_snd
  simp only [sampleSde, sdeStream]
  refine (reg_skelStream (X := X) (next := fun x => arsNext (convF M (thi x) (T x) (M.reduce (thi x) (v0 x))) (convDf M (thi x) (T x) (M.reduce (thi x) (v0 x))) lb ub B.ars)
    (raw := fun x x1 => sampleRawSkel B.n B.F (T x) (M.reduce (thi x) (v0 x)) x1 (optBound lb) (optBound ub))
    (flip := fun x => flipSkelCoin B.n B.k (M.disc (thi x)) (ebd (thi x)) 2) (post := fun x => sdeValues M B (thi x) (t x)) ?_ ?_ ?_ ?_ B.props m).comp
    (f := fun x => (x, Hull.init (convF M (thi x) (T x) (M.reduce (thi x) (v0 x))) (convDf M (thi x) (T x) (M.reduce (thi x) (v0 x))) (convInit lb ub (mode x))))
    (measurable_id.prodMk (meas_hullInit hf hd (meas_convInit lb ub hmo)))
  · exact reg_arsNext (f := fun x => convF M (thi x) (T x) (M.reduce (thi x) (v0 x))) (df := fun x => convDf M (thi x) (T x) (M.reduce (thi x) (v0 x))) hf hd lb ub B.ars
  · exact reg_sampleRawSkel _ _ (by fun_prop) (r0.comp measurable_fst) (by fun_prop) (by fun_prop) (by fun_prop)
  · refine reg_flipSkelCoin (X := X × EaSkel) _ _ (disc := fun q => M.disc (thi q.1)) (ebd := fun q => ebd (thi q.1)) ?_ ?_ _ (by fun_prop)
    · exact hM.disc.comp (by fun_prop : Measurable fun q : (X × EaSkel) × ℝ => (thi q.1.1, q.2))
    · exact hM.bounds.comp (by fun_prop : Measurable fun q : (X × EaSkel) × ℝ × ℝ => (thi q.1.1, q.2))
  · exact reg_sdeValues (X := X × EaSkel) (thi := fun q => thi q.1) hM B (by fun_prop) (by fun_prop) (by fun_prop)

theorem measDrift_ou : MeasDrift itoOu := ⟨by simp only [itoOu]; fun_prop, by simp only [itoOu]; fun_prop⟩

theorem measDrift_cir : MeasDrift itoCir := ⟨by simp only [itoCir]; fun_prop, by simp only [itoCir]; fun_prop⟩

/-! ## Mass one -/

theorem mass_arsStep (f df : ℝ → ℝ) (lb ub : EReal) (maxPts : ℕ) (H : Hull) : Mass1 (arsStep f df lb ub maxPts H) :=
  Mass1.lift.bind fun _ _ => .real _ _ (mass_uniform 0 1) fun _ _ => Mass1.lift.bind fun _ _ => Mass1.lift.bind fun _ _ => Mass1.lift.bind fun _ _ =>
    .real _ _ (mass_uniform 0 1) fun _ _ => .ret _

theorem mass_arsLoop (f df : ℝ → ℝ) (lb ub : EReal) (maxPts : ℕ) : ∀ fuel n H, Mass1 (arsLoop f df lb ub maxPts fuel n H)
  | 0, 0, _ => by simp only [arsLoop]; exact .ret _
  | _ + 1, 0, _ => by simp only [arsLoop]; exact .ret _
  | 0, n + 1, _ => by simp only [arsLoop]; exact .err _
  | fuel + 1, n + 1, H => by
    simp only [arsLoop]
    exact (mass_arsStep ..).bind fun _ _ => Mass1.ite (fun _ => (mass_arsLoop f df lb ub maxPts fuel n _).bind fun _ _ => .ret _) fun _ => mass_arsLoop f df lb ub maxPts fuel (n + 1) _

theorem mass_arsNext (f df : ℝ → ℝ) (lb ub : EReal) (fuel : ℕ) (H : Hull) : Mass1 (arsNext f df lb ub fuel H) := by
  refine (mass_arsLoop ..).bind fun r _ => ?_
  rcases r.1 with _ | ⟨a, _ | ⟨b, l⟩⟩
  · exact .err _
  · exact .ret _
  · exact .err _

theorem mass_sampleSdeFree {p : ℕ} (M : ItoFns p) (ebd : (Fin p → ℝ) → ℝ → ℝ → Res DiscBounds) (lb ub : EReal) (B : SdeBudget) (mode : ℝ) (thi : Fin p → ℝ) (t : List ℝ)
    (T v0 : ℝ) (m : ℕ) : Mass1 (sampleSde M ebd lb ub B mode thi t T v0 none m) :=
  mass_skelStream (fun _ => mass_arsNext ..) (fun _ => mass_rawSkel ..) (fun _ => mass_flipSkelCoin ..) (fun _ => (mass_interpolateSkel ..).bind fun _ _ => .ret _) ..

end Ctb
