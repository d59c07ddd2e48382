import Verif.Spec.Value
import Verif.Lemmas.PathDensity
import Verif.Lemmas.SwitchAug
import Verif.Lemmas.HiddenWeight

/-!
# Law of the augmentation of a regime path
-/

set_option linter.unusedSectionVars false

namespace Ctb

open MeasureTheory
open scoped ENNReal

theorem Prog.bind_ret_self {α : Type} (p : Prog α) : (p.bind fun a => .ret a) = p := by
  induction p with
  | ret a => rfl
  | err e => rfl
  | real d k ih => rw [Prog.real_bind]; congr 1; ext x; rw [ih]
  | nat d k ih => rw [Prog.nat_bind]; congr 1; ext x; rw [ih]

/-! ## one piece -/

/-- Increment variances of the segments of a piece. -/
noncomputable def pvars (vol : ℕ → ℝ) (p : Skel ℝ) : List ℝ := List.zipWith (fun d y => d * vol y ^ 2) (npDiff (p.t ++ [p.fin])) p.xt

theorem pvars_length (vol : ℕ → ℝ) {p : Skel ℝ} (hp : p.Valid) : (pvars vol p).length = p.t.length := by
  simp [pvars, npDiff_len, hp.len]

theorem pvars_pos {vol : ℕ → ℝ} (hvol : ∀ y, vol y ≠ 0) {p : Skel ℝ} (hp : p.Valid) : ∀ v ∈ pvars vol p, 0 < v := by
  have hinc : (p.t ++ [p.fin]).Pairwise (· < ·) := by
    rw [List.pairwise_append]
    exact ⟨hp.inc, by simp, fun a ha b hb => by simp at hb; rw [hb]; exact hp.lt a ha⟩
  intro a ha
  rw [pvars, ← List.map_uncurry_zip_eq_zipWith] at ha
  obtain ⟨q, hq, rfl⟩ := List.mem_map.1 ha
  have := npDiff_pos hinc q.1 (List.of_mem_zip (a := q.1) (b := q.2) hq).1
  exact mul_pos this (by have := hvol q.2; positivity)

theorem pvars_ne {vol : ℕ → ℝ} {p : Skel ℝ} (hp : p.Valid) : pvars vol p ≠ [] := by
  intro h
  have := pvars_length vol hp
  rw [h] at this
  have hh := hp.head
  cases ht : p.t with
  | nil => rw [ht] at hh; simp at hh
  | cons a l => rw [ht] at this; simp at this

/-- The bridge through the anchors of one piece: its law times the density of the whole increment is the density of the path. -/
theorem sampleAnchors_lexp {vol : ℕ → ℝ} (hvol : ∀ y, vol y ≠ 0) {p : Skel ℝ} (hp : p.Valid) (x0 x1 : ℝ) (F : List ℝ → ℝ≥0∞)
    (hF : MeasN (p.t.length - 1) fun (_ : Unit) l => F (x0 :: l)) :
    normDens (pvars vol p).sum (x1 - x0) * (sampleAnchors vol p x0 x1).lexp (onOk F) = pathInt x1 (pvars vol p) x0 fun l => F (x0 :: l) := by
  have hlen := pvars_length vol hp
  have hpos := pvars_pos hvol hp
  have hne := pvars_ne (vol := vol) hp
  have hF' : MeasN ((pvars vol p).length - 1) fun (_ : Unit) l => F (x0 :: l) := by rw [hlen]; exact hF
  rw [pathInt_eq x1 _ hne hpos x0 _ hF']
  congr 1
  unfold sampleAnchors
  split_ifs with h1
  · rw [Prog.lexp_ret, onOk]
    obtain ⟨v, hv⟩ : ∃ v, pvars vol p = [v] := List.length_eq_one_iff.1 (by rw [hlen, h1])
    rw [hv, condInt]
  · have h2 : 2 ≤ (pvars vol p).length := by
      have : (pvars vol p).length ≠ 0 := by simpa using hne
      omega
    have hlast : (npCumsum (pvars vol p)).getLast? = some (pvars vol p).sum := by
      rw [npCumsum, cumsumFrom_getLast _ _ hne, zero_add]
    change (match (npCumsum (pvars vol p)).getLast? with
      | none => Prog.err .index
      | some sl => (sampleBrownbr (npCumsum (pvars vol p)).dropLast sl x0 x1).bind fun xt => .ret (x0 :: xt)).lexp (onOk F) = _
    rw [hlast]
    simp only
    rw [sampleBrownbr_eq x0 x1 h2 hpos, Prog.bind_assoc, Prog.lexp_bind]
    refine brList_exp x1 _ hne hpos x0 _ hF' _ fun zs => ?_
    rw [Prog.cont_ok, Prog.ret_bind, Prog.lexp_ret]
    rfl

/-! ## integrals over anchors -/

theorem MeasN.const_cons {n : ℕ} {X : Type} [MeasurableSpace X] {F : X → List ℝ → ℝ≥0∞} (h : MeasN (n + 1) F) (w : ℝ) :
    MeasN n fun (p : X) l => F p (w :: l) :=
  h.cons.comp (φ := fun p : X => (p, w)) (measurable_id.prodMk measurable_const)

theorem MeasN.append {a b : ℕ} {X : Type} [MeasurableSpace X] {F : X → List ℝ → ℝ≥0∞} (h : MeasN (a + b) F) :
    MeasN b fun (p : X × (Fin a → ℝ)) m => F p.1 (List.ofFn p.2 ++ m) := by
  unfold MeasN at *
  have : (fun q : (X × (Fin a → ℝ)) × (Fin b → ℝ) => F q.1.1 (List.ofFn q.1.2 ++ List.ofFn q.2)) =
      (fun p : X × (Fin (a + b) → ℝ) => F p.1 (List.ofFn p.2)) ∘ fun q : (X × (Fin a → ℝ)) × (Fin b → ℝ) => (q.1.1, Fin.append q.1.2 q.2) := by
    ext q
    simp [List.ofFn_fin_append]
  rw [this]
  refine h.comp ((measurable_fst.comp measurable_fst).prodMk ?_)
  rw [measurable_pi_iff]
  intro i
  refine Fin.addCases (fun j => ?_) (fun j => ?_) i
  · simp only [Fin.append_left]
    exact (measurable_pi_apply j).comp (measurable_snd.comp measurable_fst)
  · simp only [Fin.append_right]
    exact (measurable_pi_apply j).comp measurable_snd

theorem anchInt_measurable : ∀ (l : List (ℝ × Option ℝ)) {X : Type} [MeasurableSpace X] {F : X → List ℝ → ℝ≥0∞} {x : X → ℝ},
    MeasN l.length F → Measurable x → Measurable fun p => anchInt l (x p) (F p)
  | [], _, _, F, x, hF, _ => by simpa [anchInt] using MeasN.zero_apply hF
  | (v, some w) :: l, X, _, F, x, hF, hx => by
    have ih := anchInt_measurable l (X := X) (F := fun p m => F p (w :: m)) (x := fun _ => w) (MeasN.const_cons hF w) measurable_const
    simp only [anchInt]
    exact ((normDens_measurable v).comp (measurable_const.sub hx)).mul ih
  | (v, none) :: l, X, _, F, x, hF, hx => by
    have ih := anchInt_measurable l (X := X × ℝ) (F := fun p m => F p.1 (p.2 :: m)) (x := Prod.snd) (MeasN.cons hF) measurable_snd
    have hm : Measurable fun p : X × ℝ => normDens v (p.2 - x p.1) * anchInt l p.2 fun m => F p.1 (p.2 :: m) :=
      ((normDens_measurable v).comp (measurable_snd.sub (hx.comp measurable_fst))).mul ih
    exact hm.lintegral_prod_right'

/-- The segments up to the next observation. -/
def segCons (w : ℝ) : List ℝ → List (ℝ × Option ℝ)
  | [] => []
  | [v] => [(v, some w)]
  | v :: v' :: vs => (v, none) :: segCons w (v' :: vs)

theorem segCons_length (w : ℝ) : ∀ vs : List ℝ, (segCons w vs).length = vs.length
  | [] => rfl
  | [_] => rfl
  | _ :: v' :: vs => by simp [segCons, segCons_length w (v' :: vs)]

theorem anchInt_path (w : ℝ) (rest : List (ℝ × Option ℝ)) : ∀ (vs : List ℝ), vs ≠ [] → ∀ (x : ℝ) (F : List ℝ → ℝ≥0∞),
    anchInt (segCons w vs ++ rest) x F = pathInt w vs x fun l => anchInt rest w fun m => F (l ++ w :: m)
  | [], h, _, _ => absurd rfl h
  | [v], _, x, F => by simp [segCons, anchInt, pathInt]
  | v :: v' :: vs, _, x, F => by
    simp only [segCons, List.cons_append, anchInt, pathInt]
    refine lintegral_congr fun y => ?_
    rw [anchInt_path w rest (v' :: vs) (by simp) y]

theorem pathInt_const_mul (w : ℝ) {c : ℝ≥0∞} (hc : c ≠ ∞) : ∀ (vs : List ℝ) (x : ℝ) (F : List ℝ → ℝ≥0∞),
    pathInt w vs x (fun l => c * F l) = c * pathInt w vs x F
  | [], _, _ => by simp [pathInt]
  | [v], x, F => by simp only [pathInt]; rw [← mul_assoc, ← mul_assoc, mul_comm c]
  | v :: v' :: vs, x, F => by
    simp only [pathInt]
    rw [← lintegral_const_mul' _ _ hc]
    refine lintegral_congr fun y => ?_
    rw [pathInt_const_mul w hc (v' :: vs) y, ← mul_assoc, ← mul_assoc, mul_comm c]

theorem pathInt_congr (w : ℝ) : ∀ (vs : List ℝ) (x : ℝ) {F G : List ℝ → ℝ≥0∞}, (∀ l, l.length = vs.length - 1 → F l = G l) →
    pathInt w vs x F = pathInt w vs x G
  | [], _, _, _, _ => rfl
  | [v], x, F, G, h => by simp only [pathInt]; rw [h [] rfl]
  | v :: v' :: vs, x, F, G, h => by
    simp only [pathInt]
    refine lintegral_congr fun y => ?_
    rw [pathInt_congr w (v' :: vs) y fun l hl => h (y :: l) (by simp at hl; simp [hl])]

theorem normDens_ne_top (v x : ℝ) : normDens v x ≠ ∞ := ENNReal.ofReal_ne_top

theorem normDensR_pos {v : ℝ} (hv : 0 < v) (x : ℝ) : 0 < normDensR v x := by
  unfold normDensR; positivity

theorem normDens_ne_zero {v : ℝ} (hv : 0 < v) (x : ℝ) : normDens v x ≠ 0 := by
  rw [normDens, Ne, ENNReal.ofReal_eq_zero, not_le]; exact normDensR_pos hv x

/-! ## all pieces -/

/-- All segments of a chain of pieces with observed right ends `ws`. -/
noncomputable def chainSegs (vol : ℕ → ℝ) : List (Skel ℝ) → List ℝ → List (ℝ × Option ℝ)
  | p :: ps, w :: ws => segCons w (pvars vol p) ++ chainSegs vol ps ws
  | _, _ => []

/-- Product of the densities of the observed increments. -/
noncomputable def chainDens (vol : ℕ → ℝ) : List (Skel ℝ) → ℝ → List ℝ → ℝ≥0∞
  | p :: ps, x, w :: ws => normDens (pvars vol p).sum (w - x) * chainDens vol ps w ws
  | _, _, _ => 1

theorem chainDens_ne {vol : ℕ → ℝ} (hvol : ∀ y, vol y ≠ 0) : ∀ (ps : List (Skel ℝ)) (x : ℝ) (ws : List ℝ), (∀ p ∈ ps, p.Valid) →
    chainDens vol ps x ws ≠ 0 ∧ chainDens vol ps x ws ≠ ∞
  | [], _, _, _ => by simp [chainDens]
  | _ :: _, _, [], _ => by simp [chainDens]
  | p :: ps, x, w :: ws, h => by
    have ih := chainDens_ne hvol ps w ws fun q hq => h q (List.mem_cons_of_mem _ hq)
    have hp := h p List.mem_cons_self
    have hs : 0 < (pvars vol p).sum := List.sum_pos _ (pvars_pos hvol hp) (pvars_ne hp)
    exact ⟨mul_ne_zero (normDens_ne_zero hs _) ih.1, ENNReal.mul_ne_top (normDens_ne_top _ _) ih.2⟩

theorem chain_lexp {vol : ℕ → ℝ} (hvol : ∀ y, vol y ≠ 0) {f : Skel ℝ × ℝ × ℝ → Prog (List ℝ)} (hf : ∀ q, f q = sampleAnchors vol q.1 q.2.1 q.2.2) :
    ∀ (ps : List (Skel ℝ)) (ws : List ℝ), ps.length = ws.length → (∀ p ∈ ps, p.Valid) → ∀ (x : ℝ) (F : List ℝ → ℝ≥0∞),
    MeasN (chainSegs vol ps ws).length (fun (_ : Unit) l => F (x :: l)) →
    chainDens vol ps x ws * (Prog.mapM' f (ps.zip ((x :: ws).zip ws))).lexp (onOk fun xs => F (xs.flatten ++ [(x :: ws).getLast (by simp)])) =
      anchInt (chainSegs vol ps ws) x fun l => F (x :: l)
  | [], [], _, _, x, F, _ => by
    simp [chainDens, chainSegs, anchInt, Prog.mapM', onOk]
  | p :: ps, w :: ws, hl, hv, x, F, hF => by
    have hp := hv p List.mem_cons_self
    have hv' : ∀ q ∈ ps, q.Valid := fun q hq => hv q (List.mem_cons_of_mem _ hq)
    have hl' : ps.length = ws.length := by simpa using hl
    have hD := chainDens_ne hvol ps w ws hv'
    set D := chainDens vol ps w ws with hDdef
    set n := (chainSegs vol ps ws).length with hn
    have hplen := pvars_length vol hp
    have hp0 : p.t.length ≠ 0 := by rw [← hplen]; simpa using pvars_ne (vol := vol) hp
    have hlen : (chainSegs vol (p :: ps) (w :: ws)).length = (p.t.length - 1) + (n + 1) := by
      rw [chainSegs, List.length_append, segCons_length, hplen, ← hn]; omega
    rw [hlen] at hF
    -- value of the tail
    set T : List ℝ → ℝ≥0∞ := fun a => (Prog.mapM' f (ps.zip ((w :: ws).zip ws))).lexp
      (onOk fun xs => F (a ++ (xs.flatten ++ [(w :: ws).getLast (by simp)]))) with hT
    have happ := MeasN.append hF
    have hTval : ∀ l : List ℝ, l.length = p.t.length - 1 → D * T (x :: l) = anchInt (chainSegs vol ps ws) w fun m => F (x :: (l ++ w :: m)) := by
      intro l hll
      refine chain_lexp hvol hf ps ws hl' hv' w (fun m => F (x :: (l ++ m))) ?_
      have hl0 : List.ofFn (fun i : Fin (p.t.length - 1) => l[i.1]'(by omega)) = l := by
        apply List.ext_getElem
        · simp [hll]
        · intro k h1 h2; simp
      have hm : MeasN n fun (_ : Unit) m => F (x :: (List.ofFn (fun i : Fin (p.t.length - 1) => l[i.1]'(by omega)) ++ w :: m)) :=
        (happ.comp (φ := fun _ : Unit => ((), fun i : Fin (p.t.length - 1) => l[i.1]'(by omega))) measurable_const).const_cons w
      rw [hl0] at hm
      exact hm
    have hTm : MeasN (p.t.length - 1) fun (_ : Unit) l => T (x :: l) := by
      have hm : Measurable fun q : Unit × (Fin (p.t.length - 1) → ℝ) => D⁻¹ * anchInt (chainSegs vol ps ws) w fun m => F (x :: (List.ofFn q.2 ++ w :: m)) := by
        refine Measurable.const_mul ?_ _
        exact anchInt_measurable (chainSegs vol ps ws) (X := Unit × (Fin (p.t.length - 1) → ℝ)) (F := fun q m => F (x :: (List.ofFn q.2 ++ w :: m)))
          (x := fun _ => w) (happ.const_cons w) measurable_const
      unfold MeasN
      convert hm using 2 with q
      rw [← hTval _ (by simp), ← mul_assoc, ENNReal.inv_mul_cancel hD.1 hD.2, one_mul]
    have hmap : Prog.mapM' f ((p, x, w) :: ps.zip ((w :: ws).zip ws)) =
        (f (p, x, w)).bind fun a => (Prog.mapM' f (ps.zip ((w :: ws).zip ws))).bind fun as => Prog.ret (a :: as) := rfl
    have hlex : (Prog.mapM' f ((p :: ps).zip ((x :: w :: ws).zip (w :: ws)))).lexp (onOk fun xs => F (xs.flatten ++ [(x :: w :: ws).getLast (by simp)])) =
        (sampleAnchors vol p x w).lexp (onOk T) := by
      rw [List.zip_cons_cons, List.zip_cons_cons, hmap, hf, Prog.lexp_bind]
      congr 1
      ext r
      rcases r with e | a
      · rfl
      · rw [Prog.cont_ok, Prog.lexp_bind]
        show _ = T a
        rw [hT]
        congr 1
        ext r
        rcases r with e | xs
        · rfl
        · rw [Prog.cont_ok, Prog.lexp_ret]
          simp [onOk]
    rw [hlex, chainDens, ← hDdef, mul_comm (normDens _ _) D, mul_assoc, sampleAnchors_lexp hvol hp x w T hTm, ← pathInt_const_mul w hD.2, chainSegs,
      anchInt_path w _ _ (pvars_ne hp)]
    refine pathInt_congr w _ _ fun l hll => ?_
    rw [hTval l (by rw [hll, hplen])]
  | [], _ :: _, h, _, _, _, _ => by simp at h
  | _ :: _, [], h, _, _, _, _ => by simp at h

/-! ## the anchors -/

theorem sampleAnchors_exists {vol : ℕ → ℝ} (hvol : ∀ y, vol y ≠ 0) {p : Skel ℝ} (hp : p.Valid) (x0 x1 : ℝ) :
    ∃ l, (sampleAnchors vol p x0 x1).Out (.ok l) := by
  have hlen := pvars_length vol hp
  have hpos := pvars_pos hvol hp
  have hne := pvars_ne (vol := vol) hp
  unfold sampleAnchors
  split_ifs with h1
  · exact ⟨_, rfl⟩
  · have h2 : 2 ≤ (pvars vol p).length := by
      have : (pvars vol p).length ≠ 0 := by simpa using hne
      omega
    have hlast : (npCumsum (pvars vol p)).getLast? = some (pvars vol p).sum := by
      rw [npCumsum, cumsumFrom_getLast _ _ hne, zero_add]
    change ∃ l, (match (npCumsum (pvars vol p)).getLast? with
      | none => Prog.err .index
      | some sl => (sampleBrownbr (npCumsum (pvars vol p)).dropLast sl x0 x1).bind fun xt => .ret (x0 :: xt)).Out (.ok l)
    rw [hlast]
    simp only
    rw [sampleBrownbr_eq x0 x1 h2 hpos]
    refine ⟨x0 :: brList x1 (pvars vol p) x0 (List.replicate ((pvars vol p).length - 1) 0), ?_⟩
    rw [Prog.out_bind_ok]
    refine ⟨_, Prog.out_bind_ok.2 ⟨List.replicate ((pvars vol p).length - 1) 0, ?_, rfl⟩, rfl⟩
    rw [Prog.out_replicate_ok]
    refine ⟨by simp, fun a _ => ⟨a, ?_, rfl⟩⟩
    simp [RDist.support]

/-- Times of the anchors. -/
noncomputable def anchTimes (y : Skel ℝ) (t : List ℝ) : List ℝ := (catJ 0 (piecesOf y t)).map Prod.fst ++ [y.fin]

/-- Regimes of the anchors. -/
noncomputable def anchRegimes (y : Skel ℝ) (t : List ℝ) : List ℕ := (catJ 0 (piecesOf y t)).map Prod.snd ++ y.xt.getLast?.toList

theorem obsGrid_cons {t vt : List ℝ} {f : ℝ} (hg : ObsGrid t vt f) : ∃ x0 ws, vt = x0 :: ws := by
  have h1 := hg.len; have h2 := hg.two
  cases vt with
  | nil => simp at h1; rw [h1] at h2; simp at h2
  | cons v0 vs => exact ⟨v0, vs, rfl⟩

theorem obsGrid_pieces {y : Skel ℝ} (hv : y.Valid) {t vt : List ℝ} (hg : ObsGrid t vt y.fin) :
    partitionSkeleton y (pySlice t 1 (-1)) = piecesOf y t ∧ (∀ p ∈ piecesOf y t, p.Valid) ∧ (t.zip (piecesOf y t)).isEmpty = false := by
  have hext := hg.eq_ext
  have hinc := hg.inc
  refine ⟨?_, ?_, ?_⟩
  · rw [partitionSkeleton_eq, pySlice_interior, ← hext]
  · rw [hext] at hinc ⊢
    exact piecesOf_valid hv _ 0 le_rfl hinc
  · rw [hext]
    cases h : t.tail.dropLast ++ [y.fin] with
    | nil => simp at h
    | cons b L' => rfl

theorem out_mapM'_exists {α β : Type} {f : α → Prog β} : ∀ {l : List α}, (∀ a ∈ l, ∃ b, (f a).Out (.ok b)) → ∃ bs, (Prog.mapM' f l).Out (.ok bs)
  | [], _ => ⟨[], rfl⟩
  | a :: l, h => by
    obtain ⟨b, hb⟩ := h a List.mem_cons_self
    obtain ⟨bs, hbs⟩ := out_mapM'_exists (l := l) fun a' ha => h a' (List.mem_cons_of_mem _ ha)
    refine ⟨b :: bs, ?_⟩
    rw [Prog.out_mapM'_ok] at hbs ⊢
    exact List.Forall₂.cons hb hbs

theorem anch_facts {y : Skel ℝ} (hv : y.Valid) (hr : y.Reduced) {t vt : List ℝ} (hg : ObsGrid t vt y.fin) :
    ∃ (z : List Unit) (h : Anchorage ℝ ℝ), Augments y t vt z h ∧ h.t = anchTimes y t ∧ h.yt = anchRegimes y t := by
  obtain ⟨h1, h2, h3⟩ := obsGrid_pieces hv hg
  obtain ⟨x0, ws, hvt⟩ := obsGrid_cons hg
  obtain ⟨vl, hvl⟩ : ∃ vl, vt.getLast? = some vl := ⟨_, List.getLast?_eq_some_getLast (by rw [hvt]; simp)⟩
  obtain ⟨yl, hyl⟩ : ∃ yl, y.xt.getLast? = some yl := by
    refine ⟨_, List.getLast?_eq_some_getLast ?_⟩
    intro h0; have := hv.len; have h2 := hv.head; rw [h0] at this; simp at this; simp [this] at h2
  have hone : ∀ y : ℕ, (fun _ => (1 : ℝ)) y ≠ 0 := fun _ => one_ne_zero
  have hex : ∃ r, (sampleAug (fun _ => 1) id id (fun _ _ _ _ => Prog.ret ()) y t vt).Out (.ok r) := by
    unfold sampleAug
    simp only [h1, hvl, h3, hg.last, hyl]
    obtain ⟨xs, hxs⟩ := out_mapM'_exists (f := fun q : Skel ℝ × ℝ × ℝ => (sampleAnchors (fun _ => 1) q.1 q.2.1 q.2.2).bind fun l => Prog.ret (l.map id))
      (l := (piecesOf y t).zip ((vt.map id).zip (vt.map id).tail)) fun q hq => by
        obtain ⟨l, hl⟩ := sampleAnchors_exists hone (h2 q.1 (List.of_mem_zip (a := q.1) (b := q.2) hq).1) q.2.1 q.2.2
        exact ⟨_, Prog.out_bind_ok.2 ⟨l, hl, rfl⟩⟩
    obtain ⟨z, hz⟩ := out_mapM'_exists (f := fun _ : ℝ × ℕ × ℝ × ℝ => Prog.ret ()) (l := segments
      (((t.zip (piecesOf y t)).map fun q => q.2.t.map (q.1 + ·)).flatten ++ [y.fin]) (((piecesOf y t).map Skel.xt).flatten ++ [yl])
      (((xs.flatten ++ [vl]).map id).map id)) fun q _ => ⟨(), rfl⟩
    exact ⟨_, Prog.out_bind_ok.2 ⟨xs, hxs, Prog.out_bind_ok.2 ⟨z, hz, rfl⟩⟩⟩
  obtain ⟨r, hr'⟩ := hex
  rcases aug_out' hone hv hr hg (fun _ _ => ⟨rfl, rfl⟩) hr' with ⟨z, h, _, h5, h6, h7⟩ | ⟨e, _, _, _, _, he, -⟩
  · exact ⟨z, h, h5, h6, h7⟩
  · cases he

/-! ## the whole augmentation -/

section
variable {ζ : Type}

/-- Expected value over the seeds. -/
noncomputable def seedVal (rawSeed : ℝ → ℕ → ℝ → ℝ → Prog ζ) (G : List ζ → Anchorage ℝ ℝ → ℝ≥0∞) (τ : List ℝ) (η : List ℕ) (xs : List ℝ) : ℝ≥0∞ :=
  (Prog.mapM' (fun q => rawSeed q.1 q.2.1 q.2.2.1 q.2.2.2) (segments τ η xs)).lexp (onOk fun z => G z ⟨τ, η, xs⟩)

theorem aug_lexp {vol : ℕ → ℝ} (hvol : ∀ y, vol y ≠ 0) {rawSeed : ℝ → ℕ → ℝ → ℝ → Prog ζ} {y : Skel ℝ} (hv : y.Valid)
    {t : List ℝ} {x0 : ℝ} {ws : List ℝ} (hg : ObsGrid t (x0 :: ws) y.fin) (G : List ζ → Anchorage ℝ ℝ → ℝ≥0∞)
    (hG : MeasN (chainSegs vol (piecesOf y t) ws).length fun (_ : Unit) l => seedVal rawSeed G (anchTimes y t) (anchRegimes y t) (x0 :: l)) :
    chainDens vol (piecesOf y t) x0 ws * (sampleAug vol id id rawSeed y t (x0 :: ws)).lexp (onOk fun r => G r.1 r.2) =
      anchInt (chainSegs vol (piecesOf y t) ws) x0 fun l => seedVal rawSeed G (anchTimes y t) (anchRegimes y t) (x0 :: l) := by
  obtain ⟨h1, h2, h3⟩ := obsGrid_pieces hv hg
  obtain ⟨yl, hyl⟩ : ∃ yl, y.xt.getLast? = some yl := by
    refine ⟨_, List.getLast?_eq_some_getLast ?_⟩
    intro h0; have := hv.len; have h2 := hv.head; rw [h0] at this; simp at this; simp [this] at h2
  have hvl : (x0 :: ws).getLast? = some ((x0 :: ws).getLast (by simp)) := List.getLast?_eq_some_getLast _
  have hext := hg.eq_ext
  have htt := aug_times hv (t.tail.dropLast ++ [y.fin]) 0 le_rfl (by rw [← hext]; exact hg.inc)
  rw [← hext] at htt
  have hlen : (piecesOf y t).length = ws.length := by
    have := hg.len
    rw [piecesOf_length]; simp at this; omega
  rw [← chain_lexp hvol (f := fun q => (sampleAnchors vol q.1 q.2.1 q.2.2).bind fun l => Prog.ret (l.map id)) (fun q => by simp only [List.map_id]; exact Prog.bind_ret_self _) (piecesOf y t) ws hlen h2 x0
    (fun l => seedVal rawSeed G (anchTimes y t) (anchRegimes y t) l) hG]
  congr 1
  unfold sampleAug
  simp only [h1, hvl, h3, hg.last, hyl, htt.1, htt.2]
  rw [Prog.lexp_bind]
  simp only [List.map_id, List.tail_cons]
  congr 1
  ext r
  rcases r with e | xs
  · rfl
  · rw [Prog.cont_ok]
    simp only [Bool.false_eq_true, if_false]
    rw [Prog.lexp_bind]
    simp only [onOk, seedVal, anchTimes, anchRegimes, hyl, Option.toList]
    congr 1

end

/-! ## the segments and the densities in terms of the path -/

theorem segSpec_piece {vol : ℕ → ℝ} {obs : List (ℝ × ℝ)} {a b w : ℝ} (hb : obs.lookup b = some w) {z : ℕ} {N : List (ℝ × ℕ)} :
    ∀ (J : List (ℝ × ℕ)), J ≠ [] → (∀ p ∈ J.tail, obs.lookup (a + p.1) = none) →
    segSpec vol obs (shift a J ++ (b, z) :: N) =
      segCons w (List.zipWith (fun d y => d * vol y ^ 2) (npDiff (J.map Prod.fst ++ [b - a])) (J.map Prod.snd)) ++ segSpec vol obs ((b, z) :: N)
  | [], h, _ => absurd rfl h
  | [(s, y)], _, _ => by
    simp only [shift, List.map_cons, List.map_nil, List.cons_append, List.nil_append, segSpec, npDiff, List.zipWith_cons_cons, List.zipWith_nil_left, segCons, hb]
    congr 2; ring
  | (s, y) :: (s', y') :: J, _, h => by
    have ih := segSpec_piece (vol := vol) hb (z := z) (N := N) ((s', y') :: J) (by simp) fun p hp => h p (by
      simp only [List.tail_cons] at hp ⊢; exact List.mem_cons_of_mem _ hp)
    have h0 := h (s', y') (by simp)
    simp only [shift, List.map_cons, List.cons_append, segSpec, npDiff, List.zipWith_cons_cons] at ih ⊢
    simp only at h0
    rw [ih, h0]
    cases J with
    | nil => simp only [List.map_nil, List.nil_append, npDiff, List.zipWith_cons_cons, List.zipWith_nil_left, segCons, List.cons_append]; congr 2; ring
    | cons q J => simp only [List.map_cons, List.cons_append, npDiff, List.zipWith_cons_cons, segCons]; congr 2; ring

theorem catJ_head {y : Skel ℝ} (hv : y.Valid) {L : List ℝ} {b : ℝ} (hb : 0 ≤ b) (hi : (b :: L).Pairwise (· < ·)) (q : ℕ) :
    ∃ z N, catJ b (piecesOf y (b :: L)) ++ [((b :: L).getLast (by simp), q)] = (b, z) :: N := by
  cases L with
  | nil => exact ⟨q, [], by simp [piecesOf, catJ]⟩
  | cons c L =>
    have hv' := pieceOf_valid hv hb ((List.pairwise_cons.1 hi).1 c (by simp))
    obtain ⟨x, l, hx⟩ := hv'.jumps_head
    exact ⟨x, _, by simp only [piecesOf, catJ, hx, shift, List.map_cons, add_zero]; rfl⟩

theorem chainSegs_eq {vol : ℕ → ℝ} {y : Skel ℝ} (hv : y.Valid) (obs : List (ℝ × ℝ)) (q : ℕ) : ∀ (L : List ℝ) (ws : List ℝ) (a : ℝ), 0 ≤ a →
    (a :: L).Pairwise (· < ·) → L.length = ws.length → (∀ p ∈ L.zip ws, obs.lookup p.1 = some p.2) → (∀ s, a < s → s ∉ L → obs.lookup s = none) →
    chainSegs vol (piecesOf y (a :: L)) ws = segSpec vol obs (catJ a (piecesOf y (a :: L)) ++ [((a :: L).getLast (by simp), q)])
  | [], [], a, _, _, _, _, _ => by simp [piecesOf, chainSegs, catJ, segSpec]
  | b :: L, w :: ws, a, ha, hi, hl, h1, h2 => by
    rw [List.pairwise_cons] at hi
    have hab := hi.1 b (by simp)
    have hp := pieceOf_valid hv ha hab
    have ht := Skel.t_eq_of_len hp.len
    have ih := chainSegs_eq (vol := vol) hv obs q L ws b (by linarith) hi.2 (by simpa using hl) (fun p hp => h1 p (by simp [List.zip_cons_cons, hp]))
      (fun s hs hsL => h2 s (hab.trans hs) (by simp only [List.mem_cons, not_or]; exact ⟨hs.ne', hsL⟩))
    obtain ⟨z, N, hN⟩ := catJ_head hv (L := L) (b := b) (by linarith) hi.2 q
    have hbw : obs.lookup b = some w := h1 (b, w) (by simp)
    obtain ⟨x, l, hx⟩ := hp.jumps_head
    have hnone : ∀ p ∈ (pieceOf y a b).jumps.tail, obs.lookup (a + p.1) = none := by
      intro p hpm
      rw [hx, List.tail_cons] at hpm
      have hj := hp.jumps_inc
      rw [hx, List.pairwise_cons] at hj
      have h0 : 0 < p.1 := hj.1 p hpm
      have hlt : p.1 < (pieceOf y a b).fin := hp.lt p.1 (by
        rw [ht.1, hx]; exact List.mem_map_of_mem (List.mem_cons_of_mem _ hpm))
      rw [pieceOf_fin] at hlt
      refine h2 _ (by linarith) ?_
      intro hm
      rcases List.mem_cons.1 hm with hm | hm
      · linarith
      · have := (List.pairwise_cons.1 hi.2).1 _ hm
        linarith
    have hpc : piecesOf y (a :: b :: L) = pieceOf y a b :: piecesOf y (b :: L) := rfl
    have hlast : (a :: b :: L).getLast (by simp) = (b :: L).getLast (by simp) := List.getLast_cons _
    rw [hpc, chainSegs, catJ, pieceOf_fin, show a + (b - a) = b by ring, hlast, ih, List.append_assoc, hN,
      segSpec_piece hbw _ (by rw [hx]; simp) hnone, ← ht.1, ← ht.2, ← pieceOf_fin y a b]
    rfl
  | [], _ :: _, _, _, _, h, _, _ => by simp at h
  | _ :: _, [], _, _, _, h, _, _ => by simp at h

theorem lookup_zip {t vt : List ℝ} (hi : t.Pairwise (· < ·)) : ∀ p ∈ t.zip vt, (t.zip vt).lookup p.1 = some p.2 := by
  induction t generalizing vt with
  | nil => simp
  | cons a t ih =>
    cases vt with
    | nil => simp
    | cons v vt =>
      rw [List.pairwise_cons] at hi
      intro p hp
      rw [List.zip_cons_cons] at hp ⊢
      rcases List.mem_cons.1 hp with rfl | hp
      · simp [List.lookup]
      · have := hi.1 p.1 (List.of_mem_zip (a := p.1) (b := p.2) hp).1
        rw [List.lookup_cons, beq_eq_false_iff_ne.2 this.ne']
        exact ih hi.2 p hp

theorem lookup_zip_none {t vt : List ℝ} {s : ℝ} (h : s ∉ t) : (t.zip vt).lookup s = none := by
  rw [List.lookup_eq_none_iff]
  intro p hp
  have := (List.of_mem_zip (a := p.1) (b := p.2) hp).1
  simp only [bne_iff_ne, ne_eq, beq_eq_false_iff_ne]
  rintro rfl
  exact h this

/-! ## densities -/

theorem quadVar_skel (vol : ℕ → ℝ) {p : Skel ℝ} (hp : p.Valid) : quadVar vol p.stateAt 0 p.fin = (pvars vol p).sum := by
  obtain ⟨x, l, hx⟩ := hp.jumps_head
  have ht := Skel.t_eq_of_len hp.len
  have hinc : (p.jumps ++ [(p.fin, 0)]).Pairwise (fun a b : ℝ × ℕ => a.1 < b.1) := by
    rw [List.pairwise_append]
    refine ⟨hp.jumps_inc, by simp, fun a ha b hb => ?_⟩
    simp at hb; rw [hb]
    exact hp.lt a.1 (by rw [ht.1]; exact List.mem_map_of_mem ha)
  have hst := stepFn_stAt vol (F := fun o => o.elim 0 fun y => vol y ^ 2) (fun y => rfl) (p.jumps ++ [(p.fin, 0)]) [] (by simpa using hinc)
  rw [List.nil_append] at hst
  have hc : p.jumps ++ [(p.fin, 0)] = (0, x) :: (l ++ [(p.fin, 0)]) := by rw [hx]; rfl
  have hmain := cumVar_eq vol (fun s => (stAt (p.jumps ++ [(p.fin, 0)]) s).elim 0 fun y => vol y ^ 2) (l ++ [(p.fin, 0)]) 0 0 x IntervalIntegrable.refl
    (by rw [← hc]; exact hinc) (by rw [← hc]; exact hst)
  have e1 : ((0, x) :: (l ++ [(p.fin, 0)])).map Prod.fst = p.t ++ [p.fin] := by rw [← hc, ht.1]; simp
  have e2 : (((0, x) :: (l ++ [(p.fin, 0)])).map Prod.snd).dropLast.map vol = p.xt.map vol := by rw [← hc, ht.2]; simp
  have hz : List.zipWith (fun d v => d * v ^ 2) (npDiff (p.t ++ [p.fin])) (p.xt.map vol) = pvars vol p := by
    rw [pvars, List.zipWith_map_right]
  rw [intervalIntegral.integral_same, e1, e2, hz] at hmain
  have hl := congrArg List.getLast? hmain.1
  rw [cumsumFrom_getLast 0 _ (pvars_ne hp)] at hl
  simp only [List.map_append, List.map_cons, List.map_nil, List.getLast?_concat, Option.some.injEq, zero_add] at hl
  rw [hl, quadVar]
  refine intervalIntegral.integral_congr_ae ?_
  have hfin : 0 < p.fin := by
    have := hp.lt 0 (by rw [ht.1, hx]; simp); exact this
  have : ∀ᵐ s ∂(volume : Measure ℝ), s ≠ p.fin := by simp [ae_iff]
  filter_upwards [this] with s hs hm
  rw [Set.uIoc_of_le hfin.le] at hm
  have hlt : s < p.fin := lt_of_le_of_ne hm.2 hs
  have : stAt (p.jumps ++ [(p.fin, 0)]) s = stAt p.jumps s := by
    rw [stAt_append, (stAt_eq_none_iff _ _).2 (by simpa using hlt)]; rfl
  rw [this]; rfl

theorem quadVar_piece (vol : ℕ → ℝ) {y : Skel ℝ} (hv : y.Valid) {a b : ℝ} (ha : 0 ≤ a) (hab : a < b) :
    (pvars vol (pieceOf y a b)).sum = quadVar vol y.stateAt a b := by
  rw [← quadVar_skel vol (pieceOf_valid hv ha hab), pieceOf_fin, quadVar, quadVar]
  have := intervalIntegral.integral_comp_add_left (a := 0) (b := b - a) (fun s => (y.stateAt s).elim 0 fun y => vol y ^ 2) a
  rw [add_zero, show a + (b - a) = b by ring] at this
  rw [← this]
  refine intervalIntegral.integral_congr_ae ?_
  have hne : ∀ᵐ s ∂(volume : Measure ℝ), s ≠ b - a := by simp [ae_iff]
  filter_upwards [hne] with s hs hm
  rw [Set.uIoc_of_le (by linarith)] at hm
  rw [pieceOf_stateAt hv ha hab.le hm.1.le (by have := lt_of_le_of_ne hm.2 hs; linarith)]

/-- The observed increments' densities and the log-likelihood. -/
theorem chainDens_eq {vol : ℕ → ℝ} (hvol : ∀ y, vol y ≠ 0) {dvRed : ℝ → ℝ} {y : Skel ℝ} (hv : y.Valid) : ∀ (L ws : List ℝ) (a x : ℝ), 0 ≤ a →
    (a :: L).Pairwise (· < ·) → L.length = ws.length → (∀ w ∈ ws, dvRed w ≠ 0) →
    ENNReal.ofReal (Real.exp (obsLogLik id dvRed vol y.stateAt ((a :: L).zip (x :: ws)))) =
      (ws.map fun w => ENNReal.ofReal |dvRed w|).prod * chainDens vol (piecesOf y (a :: L)) x ws
  | [], [], _, _, _, _, _, _ => by simp [obsLogLik, chainDens, piecesOf]
  | b :: L, w :: ws, a, x, ha, hi, hl, hd => by
    rw [List.pairwise_cons] at hi
    have hab := hi.1 b (by simp)
    have ih := chainDens_eq hvol (dvRed := dvRed) hv L ws b w (by linarith) hi.2 (by simpa using hl) fun u hu => hd u (List.mem_cons_of_mem _ hu)
    have hp := pieceOf_valid hv ha hab
    have hpos : 0 < (pvars vol (pieceOf y a b)).sum := List.sum_pos _ (pvars_pos hvol hp) (pvars_ne hp)
    have hpc : piecesOf y (a :: b :: L) = pieceOf y a b :: piecesOf y (b :: L) := rfl
    have hdw := hd w List.mem_cons_self
    rw [hpc, chainDens, List.zip_cons_cons, List.zip_cons_cons, obsLogLik, ← quadVar_piece vol hv ha hab, ← List.zip_cons_cons, Real.exp_add, Real.exp_add,
      ENNReal.ofReal_mul (by positivity), ENNReal.ofReal_mul (by positivity), ih, Real.exp_log (abs_pos.2 hdw), Real.exp_log (normDensR_pos hpos _),
      List.map_cons, List.prod_cons]
    simp only [normDens, id]
    ring
  | [], _ :: _, _, _, _, _, h, _ => by simp at h
  | _ :: _, [], _, _, _, _, h, _ => by simp at h

end Ctb
