import Verif.Lemmas.CoinSure
import Verif.Props.ItoHidden
import Verif.Props.Ars

/-!
# C54, C55, C70, C97 and C98 with probability one

The theorems of `Props/Coin.lean`, `Props/Ars.lean`, `Props/SampleSde.lean` and `Props/ItoHidden.lean` exclude runs in which two draws coincide or
a uniform draw is zero.  Here only the times of the points of one batch and the draws of the adaptive rejection sampler matter.
-/

set_option linter.unusedSectionVars false

namespace Ctb

open Classical MeasureTheory ProbabilityTheory
open scoped ENNReal

variable {ζ : Type} {n k : ℕ} {op : NormOp}

/-! ## C54 -/

/-- What the coin of a seed promises: it also keeps what the seed knows. -/
theorem seedCoin_sure {disc : ℝ → ℝ} {ebd : ℝ → ℝ → Res DiscBounds} (size : ℤ) {z : EaSkel} (hv : z.Valid) (hT : 0 < op.finT) :
    (flipPoissonCoin n k disc ebd op size z).SureOk fun q => (q.2.2.Valid ∧ ∀ p ∈ z.t.zip z.x, p ∈ q.2.2.t.zip q.2.2.x) ∧
      ∃ l u, boundDiscPath ebd op z (.pieces 1) = .ok ([0, op.finT], [l], [u]) ∧ q.2.1 = -(op.finT * l) ∧
      (u = ⊤ → q.1 = false ∧ q.2.2 = z) ∧
      ∀ u' : ℝ, u = u' → ∃ (bs : List (List (List ℝ))) (j : ℕ), (sampleBatchPpp 1 [u' - l, op.finT] size).Out (.ok bs) ∧ j ≤ bs.length ∧
        (q.1 = true → j = bs.length) ∧ (∀ row ∈ (bs.take j).flatten, Knows op q.2.2 (pointOf row)) ∧
        (q.1 = true ↔ ∀ row ∈ (bs.take j).flatten, ¬ Under disc op l q.2.2 (pointOf row)) := by
  unfold flipPoissonCoin seedCoin
  cases hb : boundDiscPath ebd op z (.pieces 1) with
  | error e => exact .err _
  | ok b =>
    obtain ⟨t, le, ue⟩ := b
    obtain ⟨rfl, l, u, rfl, rfl⟩ := bound_one hT hb
    have hst : stLbDisc [0, op.finT] [l] = -(op.finT * l) := by simp [stLbDisc, npDiff]
    cases u with
    | top =>
      have hm : maxGap [l] [⊤] = .ok ⊤ := rfl
      simp only [Prog.lift, Prog.ret_bind, hm, hst]
      exact .ret ⟨⟨hv, fun _ h => h⟩, l, ⊤, rfl, rfl, fun _ => ⟨rfl, rfl⟩, fun u' hu' => by simp at hu'⟩
    | coe u =>
      have hm : maxGap [l] [(u : WithTop ℝ)] = .ok ((u - l : ℝ) : WithTop ℝ) := rfl
      simp only [Prog.lift, Prog.ret_bind, hm, hst]
      have hf : (op.denorm 1 none).1 = op.finT := by simp [NormOp.denorm]
      rw [hf]
      refine Prog.SureOk.bind (batchCoin_sure ..) ?_
      rintro ⟨v1, z1⟩ ⟨bs, j, q1, q2, q3, q4⟩
      obtain ⟨c4, c5, c6, c7⟩ := searched_known (disc := disc) (l := l) (R := BatchStep _ _) (fun _ _ _ _ hv h => poisson_step hT hv h) hv q4
      refine .ret ⟨⟨c4, c5⟩, l, u, rfl, rfl, fun hu => by simp at hu, ?_⟩
      intro u' hu'
      have : u = u' := by simpa using hu'
      subst this
      exact ⟨bs, j, q1, q2, q3, c6, c7⟩

/-- C54 for seeds: almost surely the coin is true exactly if none of the points examined lies under the graph of the discriminant along the path of the seed that is
returned; a true coin has examined all points of a run of the Poisson sampler, a false one those of the first batches. -/
theorem C54_almost_surely {disc : ℝ → ℝ} {ebd : ℝ → ℝ → Res DiscBounds} {size : ℤ} {z : EaSkel} (hv : z.Valid) (hT : 0 < op.finT) :
    (flipPoissonCoin n k disc ebd op size z).ASure fun r => ∀ v lb z', r = .ok (v, lb, z') →
      ∃ l u, boundDiscPath ebd op z (.pieces 1) = .ok ([0, op.finT], [l], [u]) ∧ lb = -(op.finT * l) ∧ (u = ⊤ → v = false ∧ z' = z) ∧
      ∀ u' : ℝ, u = u' → ∃ (bs : List (List (List ℝ))) (j : ℕ), (sampleBatchPpp 1 [u' - l, op.finT] size).Out (.ok bs) ∧ j ≤ bs.length ∧
        (v = true → j = bs.length) ∧ (∀ row ∈ (bs.take j).flatten, Knows op z' (pointOf row)) ∧
        (v = true ↔ ∀ row ∈ (bs.take j).flatten, ¬ Under disc op l z' (pointOf row)) :=
  Prog.ASure.mono (seedCoin_sure size hv hT) fun _ h _ _ _ hr => (h _ hr).2

theorem skelCoin_sure {disc : ℝ → ℝ} {ebd : ℝ → ℝ → Res DiscBounds} (size : ℤ) {z : EaSkel} (hv : z.Valid) :
    (flipSkelCoin n k disc ebd size z).SureOk fun q => (q.2.Valid ∧ ∀ p ∈ z.t.zip z.x, p ∈ q.2.t.zip q.2.x) ∧
      ∃ (c l u T : ℝ), ebd (min z.loose z.tight) (max z.loose z.tight) = .ok (some c, l, (u : WithTop ℝ)) ∧ z.t.getLast? = some T ∧
      ∃ (bs : List (List (List ℝ))) (j : ℕ), (sampleBatchPpp 1 [u - c, T] size).Out (.ok bs) ∧ j ≤ bs.length ∧
        (q.1 = true → j = bs.length) ∧ (∀ row ∈ (bs.take j).flatten, ∃ w, ((pointOf row).2, w) ∈ q.2.t.zip q.2.x) ∧
        (q.1 = true ↔ ∀ row ∈ (bs.take j).flatten, ¬ ∃ w, ((pointOf row).2, w) ∈ q.2.t.zip q.2.x ∧ (pointOf row).1 < disc w - c) := by
  unfold flipSkelCoin
  refine Prog.SureOk.bind Prog.SureOk.out ?_
  rintro ⟨c, l, u⟩ hb
  rw [Prog.out_lift] at hb
  split
  · exact .err _
  · rename_i T hT
    unfold skelCoin
    dsimp only
    split
    · rename_i c u
      refine (batchCoin_sure ..).mono ?_
      rintro ⟨v, z'⟩ ⟨bs, j, q1, q2, q3, q4⟩
      obtain ⟨c4, c5, c6, c7⟩ := searched_known (disc := disc) (l := _) (key := id) (val := fun _ w => w) (R := BatchStep _ _) (fun _ _ _ _ hv h => skel_step hv h) hv q4
      exact ⟨⟨c4, c5⟩, c, l, u, T, hb.symm, hT, bs, j, q1, q2, q3, c6, c7⟩
    · exact .err _
    · split_ifs <;> exact .err _

/-- C54 for skeletons. -/
theorem C54_skeleton_almost_surely {disc : ℝ → ℝ} {ebd : ℝ → ℝ → Res DiscBounds} {size : ℤ} {z : EaSkel} (hv : z.Valid) :
    (flipSkelCoin n k disc ebd size z).ASure fun r => ∀ v z', r = .ok (v, z') →
      ∃ (c l u T : ℝ), ebd (min z.loose z.tight) (max z.loose z.tight) = .ok (some c, l, (u : WithTop ℝ)) ∧ z.t.getLast? = some T ∧
      ∃ (bs : List (List (List ℝ))) (j : ℕ), (sampleBatchPpp 1 [u - c, T] size).Out (.ok bs) ∧ j ≤ bs.length ∧
        (v = true → j = bs.length) ∧ (∀ row ∈ (bs.take j).flatten, ∃ w, ((pointOf row).2, w) ∈ z'.t.zip z'.x) ∧
        (v = true ↔ ∀ row ∈ (bs.take j).flatten, ¬ ∃ w, ((pointOf row).2, w) ∈ z'.t.zip z'.x ∧ (pointOf row).1 < disc w - c) :=
  Prog.ASure.mono (skelCoin_sure size hv) fun _ h _ _ hr => (h _ hr).2

example : exZ.Valid ∧ (0 : ℝ) < (⟨1, 1, 0, 0⟩ : NormOp).finT := ⟨exZ_valid, one_pos⟩

/-! ## C55 -/

/-- If the intensity dominates the difference of the discriminants on the seed, the coin has the same law with and without the internal assertion: it fails with
probability zero. -/
theorem C55_law {op0 op1 : NormOp} {disc0 disc1 : ℝ → ℝ} {intensity : ℝ} {upside : Bool} {size : ℤ} {z : EaSkel} (hv : z.Valid)
    (hw : z.Within) (hTT : op1.finT = op0.finT)
    (hbound : 0 < op0.finT → ∀ s, 0 ≤ s → s ≤ 1 → ∀ w ∈ Set.uIcc z.loose z.tight,
      |disc1 (pathVal op1 (s * op0.finT) w) - disc0 (pathVal op0 (s * op0.finT) w)| ≤ intensity)
    (g : Res (Bool × EaSkel) → ℝ≥0∞) :
    (flipDualCoin true n k intensity op0 op1 disc0 disc1 upside size z).lexp g = (flipDualCoin false n k intensity op0 op1 disc0 disc1 upside size z).lexp g := by
  unfold flipDualCoin
  have hf : (op0.denorm 1 none).1 = op0.finT := by simp [NormOp.denorm]
  rw [hf]
  refine batchCoin_law_congr (I := fun s => s.Valid ∧ s.Within ∧ s.tight = z.tight ∧ s.loose = z.loose) ?_ ⟨hv, hw, rfl, rfl⟩ g
  rintro hT s ps ⟨i1, i2, i3, i4⟩ hN hps
  have hT1 : 0 < op1.finT := by rw [hTT]; exact hT
  have key : ∀ {q0 q1 : EaSkel × List ℝ}, (interpolateSeed n k op0 s (ps.map Prod.snd)).Out (.ok q0) →
      (interpolateSeed n k op1 q0.1 (ps.map Prod.snd)).Out (.ok q1) →
      (q1.1.Valid ∧ q1.1.Within ∧ q1.1.tight = z.tight ∧ q1.1.loose = z.loose) ∧ q0.2.length = q1.2.length ∧
        ¬ ∃ g ∈ List.zipWith (fun x0 x1 => dualGap upside (disc0 x0) (disc1 x1)) q0.2 q1.2, intensity < g := by
    rintro ⟨s1, xs0⟩ ⟨s2, xs1⟩ h0 h1
    obtain ⟨a1, a2, a3, a4, a5, a6⟩ := interpolateSeed_out hT i1 hN h0
    obtain ⟨b1, b2, b3, b4, b5, b6⟩ := interpolateSeed_out hT1 a1 hN h1
    have l0 := a6.length_eq
    have l1 := b6.length_eq
    refine ⟨⟨b1, b4 (a4 i2), by simp [b2, a2, i3], by simp [b3, a3, i4]⟩, by simp [← l0, ← l1], ?_⟩
    rintro ⟨g, hg, hlt⟩
    obtain ⟨i, hi, rfl⟩ := List.mem_iff_getElem.1 hg
    simp only [List.length_zipWith] at hi
    rw [List.getElem_zipWith] at hlt
    have hi' : i < (ps.map Prod.snd).length := by omega
    obtain ⟨w0, hw0, e0⟩ := (List.forall₂_iff_get.1 a6).2 i hi' (by omega)
    obtain ⟨w1, hw1, e1⟩ := (List.forall₂_iff_get.1 b6).2 i hi' (by omega)
    simp only [List.get_eq_getElem] at hw0 e0 hw1 e1
    rw [hTT] at hw1
    rw [zip_unique b1.sorted hw1 (b5 _ hw0)] at e1
    rw [e0, e1] at hlt
    have hp := hps _ (List.getElem_mem (by simpa using hi') : ps[i]'(by simpa using hi') ∈ ps)
    have hτ : (ps.map Prod.snd)[i] = (ps[i]'(by simpa using hi')).2 := by simp
    have hb := hbound hT ((ps.map Prod.snd)[i] / op0.finT) (by rw [hτ]; exact div_nonneg hp.1 hT.le)
      (by rw [hτ, div_le_one hT]; exact hp.2.le) w0 (by
        have := within_uIcc (a4 i2) hw0
        rw [a3, a2, i3, i4] at this
        exact this)
    rw [div_mul_cancel₀ _ hT.ne'] at hb
    exact absurd hlt (not_lt.2 (dualGap_le hb))
  unfold dualStep
  constructor
  · intro g
    rw [Prog.lexp_bind, Prog.lexp_bind]
    refine Prog.lexp_congr fun r h0 => ?_
    rcases r with e | q0
    · rfl
    simp only [Prog.cont_ok]
    rw [Prog.lexp_bind, Prog.lexp_bind]
    refine Prog.lexp_congr fun r h1 => ?_
    rcases r with e | q1
    · rfl
    simp only [Prog.cont_ok]
    obtain ⟨-, hl, hg⟩ := key h0 h1
    rw [if_neg (not_not.2 hl), if_neg (not_not.2 hl), if_pos trivial, if_neg (by simp), Prog.assert, if_pos hg]
  · intro v s' h
    rw [Prog.out_bind_ok] at h
    obtain ⟨q0, h0, h⟩ := h
    rw [Prog.out_bind_ok] at h
    obtain ⟨q1, h1, h⟩ := h
    obtain ⟨hI, hl, hg⟩ := key h0 h1
    rw [if_neg (not_not.2 hl)] at h
    dsimp only at h
    rw [if_neg (by simp), Prog.ret_bind, Prog.out_ret] at h
    simp only [Except.ok.injEq, Prod.mk.injEq] at h
    rw [h.2]
    exact hI

/-- `ito/models/ou.py` -/
theorem C55_ito_law {nil prime : Fin 2 → ℝ} (hn : ∀ i, 0 < nil i) (hp : ∀ i, 0 < prime i) {T v0 v1 : ℝ} {upside : Bool} {size : ℤ} {z : EaSkel}
    (hv : z.Valid) (hw : z.Within) (g : Res (Bool × EaSkel) → ℝ≥0∞) :
    (itoFlipParam true n k itoOu itoOuGrad nil prime T v0 v1 upside size z).lexp g =
      (itoFlipParam false n k itoOu itoOuGrad nil prime T v0 v1 upside size z).lexp g := by
  have e : ∀ thi, itoNormops itoOu thi [0, T] [v0, v1] = [⟨T - 0, Real.sqrt (T - 0), v0 / thi 1, v1 / thi 1⟩] := by
    intro thi; simp [itoNormops, npDiff, itoOu]
  unfold itoFlipParam
  rw [e nil, e prime]
  dsimp only
  refine C55_law hv hw ?_ ?_ g
  · rfl
  intro hT s h0 h1 w hw
  have hT' : 0 ≤ T := by simpa using hT.le
  refine C55_ito_bound hn hp hT' h0 h1 hw (e nil) (e prime) ?_ ?_
  · refine denorm_pathVal ?_ hT s w
    rfl
  · refine denorm_pathVal ?_ hT s w
    rfl

/-- `switching/models/ou.py` -/
theorem C55_ou_law {nil prime : Thi 2} {y : ℕ} (hn : ∀ i, 0 < nil y i) (hp : ∀ i, 0 < prime y i) {T v0 v1 : ℝ} {upside : Bool} {size : ℤ}
    {z : EaSkel} (hv : z.Valid) (hw : z.Within) (g : Res (Bool × EaSkel) → ℝ≥0∞) :
    (swFlipParam true n k swOu swOuGrad nil prime T y v0 v1 upside size z).lexp g =
      (swFlipParam false n k swOu swOuGrad nil prime T y v0 v1 upside size z).lexp g := by
  have e : ∀ thi : Thi 2, swNormops swOu thi [0, T] [y, y] [v0, v1] = [⟨T - 0, Real.sqrt (T - 0) * swOu.vol thi y, v0, v1⟩] := by
    intro thi; simp [swNormops, npDiff, swOu]
  unfold swFlipParam
  rw [e nil, e prime]
  dsimp only
  refine C55_law hv hw ?_ ?_ g
  · rfl
  intro hT s h0 h1 w hw
  have hT' : 0 ≤ T := by simpa using hT.le
  refine C55_ou_bound hn hp hT' h0 h1 hw (e nil) (e prime) ?_ ?_
  · refine denorm_pathVal ?_ hT s w
    rfl
  · refine denorm_pathVal ?_ hT s w
    rfl

/-- `switching/models/ou2.py` -/
theorem C55_ou2_law {nil prime : Thi 2} {y : ℕ} (hn : ∀ i, 0 < nil y i) (hp : ∀ i, 0 < prime y i) {T v0 v1 : ℝ} {upside : Bool} {size : ℤ}
    {z : EaSkel} (hv : z.Valid) (hw : z.Within) (g : Res (Bool × EaSkel) → ℝ≥0∞) :
    (swFlipParam true n k swOu2 swOu2Grad nil prime T y v0 v1 upside size z).lexp g =
      (swFlipParam false n k swOu2 swOu2Grad nil prime T y v0 v1 upside size z).lexp g := by
  have e : ∀ thi : Thi 2, swNormops swOu2 thi [0, T] [y, y] [v0, v1] = [⟨T - 0, Real.sqrt (T - 0) * swOu2.vol thi y, v0, v1⟩] := by
    intro thi; simp [swNormops, npDiff, swOu2]
  unfold swFlipParam
  rw [e nil, e prime]
  dsimp only
  refine C55_law hv hw ?_ ?_ g
  · rfl
  intro hT s h0 h1 w hw
  have hT' : 0 ≤ T := by simpa using hT.le
  refine C55_ou2_bound hn hp hT' h0 h1 hw (e nil) (e prime) ?_ ?_
  · refine denorm_pathVal ?_ hT s w
    rfl
  · refine denorm_pathVal ?_ hT s w
    rfl

/-- `switching/models/ou3.py` -/
theorem C55_ou3_law {nil prime : Thi 2} {y : ℕ} (hn : ∀ i, 0 < nil y i) (hp : ∀ i, 0 < prime y i) {T v0 v1 : ℝ} {upside : Bool} {size : ℤ}
    {z : EaSkel} (hv : z.Valid) (hw : z.Within) (g : Res (Bool × EaSkel) → ℝ≥0∞) :
    (swFlipParam true n k swOu3 swOu3Grad nil prime T y v0 v1 upside size z).lexp g =
      (swFlipParam false n k swOu3 swOu3Grad nil prime T y v0 v1 upside size z).lexp g := by
  have e : ∀ thi : Thi 2, swNormops swOu3 thi [0, T] [y, y] [v0, v1] = [⟨T - 0, Real.sqrt (T - 0) * swOu3.vol thi y, v0, v1⟩] := by
    intro thi; simp [swNormops, npDiff, swOu3]
  unfold swFlipParam
  rw [e nil, e prime]
  dsimp only
  refine C55_law hv hw ?_ ?_ g
  · rfl
  intro hT s h0 h1 w hw
  have hT' : 0 ≤ T := by simpa using hT.le
  refine C55_ou3_bound hn hp hT' h0 h1 hw (e nil) (e prime) ?_ ?_
  · refine denorm_pathVal ?_ hT s w
    rfl
  · refine denorm_pathVal ?_ hT s w
    rfl

example (g : Res (Bool × EaSkel) → ℝ≥0∞) : (itoFlipParam true 9 9 itoOu itoOuGrad ![1, 1] ![2, 1 / 2] 3 (-1) 1 true 5 exSkel).lexp g =
    (itoFlipParam false 9 9 itoOu itoOuGrad ![1, 1] ![2, 1 / 2] 3 (-1) 1 true 5 exSkel).lexp g :=
  C55_ito_law (by intro i; fin_cases i <;> norm_num) (by intro i; fin_cases i <;> norm_num) exSkel_valid exSkel_within g

/-! ## C70 -/

theorem diffuse_arsStep {f df : ℝ → ℝ} {lb ub : EReal} (maxPts : ℕ) (H : Hull) : (arsStep f df lb ub maxPts H).Diffuse :=
  Prog.Diffuse.bind Prog.Diffuse.lift fun _ _ => ⟨uniform_null zero_ne_one, fun _ _ => Prog.Diffuse.bind Prog.Diffuse.lift fun _ _ =>
    Prog.Diffuse.bind Prog.Diffuse.lift fun _ _ => Prog.Diffuse.bind Prog.Diffuse.lift fun _ _ => ⟨uniform_null zero_ne_one, fun _ _ => trivial⟩⟩

theorem diffuse_arsLoop {f df : ℝ → ℝ} {lb ub : EReal} (maxPts : ℕ) : ∀ (fuel n : ℕ) (H : Hull), (arsLoop f df lb ub maxPts fuel n H).Diffuse
  | 0, 0, _ => trivial
  | _ + 1, 0, _ => trivial
  | 0, _ + 1, _ => trivial
  | fuel + 1, n + 1, H => by
    unfold arsLoop
    refine Prog.Diffuse.bind (diffuse_arsStep maxPts H) fun r _ => ?_
    split_ifs
    · exact Prog.Diffuse.bind (diffuse_arsLoop maxPts fuel n _) fun _ _ => trivial
    · exact diffuse_arsLoop maxPts fuel (n + 1) _

/-- C70: almost surely, all values yielded lie in the support and the points of the hull stay strictly increasing. -/
theorem C70_almost_surely {f df : ℝ → ℝ} {lb ub : EReal} {H : Hull} (maxPts fuel m : ℕ) (hf : ConcaveDiff f df (supp lb ub)) (hH : H.Ok f df (supp lb ub)) :
    (arsLoop f df lb ub maxPts fuel m H).ASure fun r => ∀ l H', r = .ok (l, H') → (∀ t ∈ l, t ∈ supp lb ub) ∧ H'.Ok f df (supp lb ub) :=
  Prog.ASure.of_gen (diffuse_arsLoop maxPts fuel m H) (h := [0]) (by rintro r h' hr l H' rfl; exact C70_strict hf hH (by simp) hr)

example : ConcaveDiff (fun t : ℝ => -t ^ 2 / 2) (fun t => -t) (supp ⊥ ⊤) ∧ gaussHull.Ok (fun t : ℝ => -t ^ 2 / 2) (fun t => -t) (supp ⊥ ⊤) := ⟨gauss_line.concave, gaussHull_good.ok⟩

/-! ## C97 -/

section

variable {σ β : Type} {next : σ → Prog (ℝ × σ)} {raw : ℝ → Prog EaSkel} {flip : EaSkel → Prog (Bool × EaSkel)}

theorem try_sure {R Q : EaSkel → Prop} (hR : ∀ s e sk, (next s).Out (.ok e) → (raw e.1).Out (.ok sk) → R sk) (hQ : ∀ sk, R sk → (flip sk).SureOk fun q => Q q.2) :
    ∀ (k : ℕ) (s : σ), (skelTry next raw flip k s).SureOk fun q => Q q.1
  | 0, _ => .err _
  | k + 1, s => by
    simp only [skelTry, skelRound]
    refine Prog.SureOk.bind Prog.SureOk.out fun e he => Prog.SureOk.bind (Prog.SureOk.bind Prog.SureOk.out fun sk hsk => hQ sk (hR s e sk he hsk)) ?_
    rintro ⟨b, sk'⟩ hq
    cases b with
    | true => exact .ret hq
    | false => exact try_sure hR hQ k _

theorem stream_sure {post : EaSkel → Prog β} {P : β → Prop} {Q : EaSkel → Prop} {maxProps : ℕ} (hT : ∀ s, (skelTry next raw flip maxProps s).SureOk fun q => Q q.1)
    (hP : ∀ sk b, Q sk → (post sk).Out (.ok b) → P b) : ∀ (m : ℕ) (s : σ), (skelStream next raw flip post maxProps m s).SureOk fun l => l.length = m ∧ ∀ b ∈ l, P b
  | 0, _ => .ret (by simp)
  | m + 1, s => by
    simp only [skelStream]
    refine Prog.SureOk.bind (hT s) fun r hr => Prog.SureOk.bind Prog.SureOk.out fun b hb => Prog.SureOk.bind (stream_sure hT hP m r.2) ?_
    rintro l ⟨h1, h2⟩
    refine .ret ⟨by simp [h1], fun c hc => ?_⟩
    rcases List.mem_cons.1 hc with rfl | hc
    · exact hP _ _ hr hb
    · exact h2 c hc

theorem stream_paths_sure {p : ℕ} {M : ItoFns p} {B : SdeBudget} {thi : Fin p → ℝ} {t : List ℝ} (ht : t.Pairwise (· < ·)) {finT x0 : ℝ}
    {x1 : Option ℝ} (hx1 : ∀ x ∈ x1, ∀ s e, (next s).Out (.ok e) → e.1 = x)
    (hraw : ∀ x sk, (raw x).Out (.ok sk) → sk.Valid ∧ (0, x0) ∈ sk.t.zip sk.x ∧ (finT, x) ∈ sk.t.zip sk.x)
    (hflip : ∀ sk, sk.Valid → (flip sk).SureOk fun q => q.2.Valid ∧ ∀ p ∈ sk.t.zip sk.x, p ∈ q.2.t.zip q.2.x) (maxProps m : ℕ) (s : σ) :
    (skelStream next raw flip (sdeValues M B thi t) maxProps m s).SureOk fun l =>
      l.length = m ∧ ∀ vs ∈ l, SdePathOk t finT (M.dereduce thi x0) (x1.map (M.dereduce thi)) vs := by
  refine stream_sure (Q := fun sk => sk.Valid ∧ (0, x0) ∈ sk.t.zip sk.x ∧ ∀ x ∈ x1, (finT, x) ∈ sk.t.zip sk.x) ?_ ?_ m s
  · refine fun s => try_sure (Q := fun sk => sk.Valid ∧ (0, x0) ∈ sk.t.zip sk.x ∧ ∀ x ∈ x1, (finT, x) ∈ sk.t.zip sk.x) (R := fun sk => sk.Valid ∧ (0, x0) ∈ sk.t.zip sk.x ∧ ∀ x ∈ x1, (finT, x) ∈ sk.t.zip sk.x) ?_ ?_ maxProps s
    · intro s e sk g1 g2
      obtain ⟨w1, w2, w3⟩ := hraw _ _ g2
      exact ⟨w1, w2, fun x hx => by rw [← hx1 x hx _ _ g1]; exact w3⟩
    · rintro sk ⟨w1, w2, w3⟩
      refine (hflip sk w1).mono ?_
      rintro q ⟨k1, k2⟩
      exact ⟨k1, k2 _ w2, fun x hx => k2 _ (w3 x hx)⟩
  · rintro sk vs ⟨q1, q2, q3⟩ hp
    simp only [sdeValues, Prog.out_bind_ok, Prog.out_ret, Except.ok.injEq] at hp
    obtain ⟨⟨s', vals⟩, hi, rfl⟩ := hp
    obtain ⟨hr, hv', -⟩ := C45_refines q1 ht hi
    have hl := hr.new.length_eq
    refine ⟨by simp [hl], ?_, ?_⟩
    · intro i hi h0
      have := hr.new.get (i := i) hi (by omega)
      rw [List.get_eq_getElem, List.get_eq_getElem, h0] at this
      rw [List.getElem?_map, List.getElem?_eq_getElem (by simp only; omega), Option.map_some, value_unique hv' this (hr.old _ q2)]
    · intro v hv i hi h0
      obtain ⟨x, hx, rfl⟩ : ∃ x ∈ x1, M.dereduce thi x = v := by simpa using hv
      have := hr.new.get (i := i) hi (by omega)
      rw [List.get_eq_getElem, List.get_eq_getElem, h0] at this
      rw [List.getElem?_map, List.getElem?_eq_getElem (by simp only; omega), Option.map_some, value_unique hv' this (hr.old _ (q3 x hx))]

end

/-- C97: almost surely, every path that is simulated has one value per requested time, starts in `init_v` and ends in `fin_v` if one is given. -/
theorem C97_almost_surely {p : ℕ} {M : ItoFns p} {ebd : (Fin p → ℝ) → ℝ → ℝ → Res DiscBounds} {lb ub : EReal} {B : SdeBudget} {mode : ℝ} {thi : Fin p → ℝ}
    {t : List ℝ} (ht : t.Pairwise (· < ·)) {finT v0 : ℝ} {v1 : Option ℝ} (h0 : M.dereduce thi (M.reduce thi v0) = v0)
    (h1 : ∀ v ∈ v1, M.dereduce thi (M.reduce thi v) = v) {m : ℕ} :
    (sampleSde M ebd lb ub B mode thi t finT v0 v1 m).ASure fun r => ∀ l, r = .ok l → l.length = m ∧ ∀ vs ∈ l, SdePathOk t finT v0 v1 vs := by
  cases v1 with
  | none =>
    have := fun s => stream_paths_sure (M := M) (B := B) (thi := thi) (next := arsNext (convF M thi finT (M.reduce thi v0)) (convDf M thi finT (M.reduce thi v0)) lb ub B.ars) (x1 := none) ht (by simp) (raw_ends (n := B.n) (F := B.F) (T := finT) (x0 := M.reduce thi v0) (lb := optBound lb) (ub := optBound ub))
      (fun sk hsk => (skelCoin_sure (n := B.n) (k := B.k) (disc := M.disc thi) (ebd := ebd thi) 2 hsk).mono fun _ h => h.1) B.props m s
    rw [h0] at this
    exact this _
  | some v1 =>
    have := fun s => stream_paths_sure (M := M) (B := B) (thi := thi) (next := repeatNext (M.reduce thi v1)) (x1 := some (M.reduce thi v1)) ht (by
      intro x hx s e he
      simp only [Option.mem_some_iff] at hx
      simp only [repeatNext, Prog.out_ret, Except.ok.injEq] at he
      rw [he, hx]) (raw_ends (n := B.n) (F := B.F) (T := finT) (x0 := M.reduce thi v0) (lb := optBound lb) (ub := optBound ub))
      (fun sk hsk => (skelCoin_sure (n := B.n) (k := B.k) (disc := M.disc thi) (ebd := ebd thi) 2 hsk).mono fun _ h => h.1) B.props m s
    rw [h0, Option.map_some, h1 v1 rfl] at this
    exact this _

example {thi : Fin 2 → ℝ} (h1 : thi 1 ≠ 0) (v : ℝ) : itoOu.dereduce thi (itoOu.reduce thi v) = v := (C61_ito_ou h1 0 v).2.1.2

/-! ## C98 -/

theorem search_sure {c : Coin ζ ζ} {IP IN : Set ζ} (hP : ∀ z ∈ IP, (c z).SureOk fun r => r.2.2 ∈ IP) (hN : ∀ z ∈ IN, (c z).SureOk fun r => r.2.2 ∈ IN)
    (hr : ∀ z r, (c z).Out (.ok r) → r.2.1 = r.2.2) {v1 prk : ℝ} {zN : ζ} (hz : zN ∈ IN) : ∀ (n : ℕ) {s : ζ × ζ}, s.1 ∈ IP ∧ s.2 ∈ IN →
    (twocoinLoop v1 (fun s => (c s.1).bind fun r => .ret (r.1, r.2.1, (r.2.2, s.2)))
      (fun s => (c s.2).bind fun r => .ret (r.1, r.2.1, (s.1, r.2.2))) prk zN n s).SureOk fun v => v.1.2.2 ∈ IP ∨ v.1.2.2 ∈ IN
  | 0, s, hs => .err _
  | n + 1, s, hs => by
    have key : ∀ (b : Bool) (r : Bool × ζ × (ζ × ζ)), (r.2.2.1 ∈ IP ∧ r.2.2.2 ∈ IN) → (r.2.1 ∈ IP ∨ r.2.1 ∈ IN) →
        (if r.1 then Prog.ret ((b, false, r.2.1), r.2.2) else Prog.real (.uniform 0 1) fun u' =>
          if u' < prk then .ret ((false, true, zN), r.2.2) else twocoinLoop v1 (fun s => (c s.1).bind fun r => .ret (r.1, r.2.1, (r.2.2, s.2)))
      (fun s => (c s.2).bind fun r => .ret (r.1, r.2.1, (s.1, r.2.2))) prk zN n r.2.2).SureOk fun v => v.1.2.2 ∈ IP ∨ v.1.2.2 ∈ IN := by
      intro b r h1 h2
      split_ifs with hb
      · exact .ret h2
      · refine Filter.Eventually.of_forall fun u' => ?_
        beta_reduce
        by_cases hu : u' < prk
        · rw [if_pos hu]
          exact Prog.SureOk.ret (Or.inr hz)
        · rw [if_neg hu]
          exact search_sure hP hN hr hz n h1
    refine Filter.Eventually.of_forall fun u => ?_
    dsimp only
    split_ifs
    · refine Prog.SureOk.bind (P := fun r => (r.2.2.1 ∈ IP ∧ r.2.2.2 ∈ IN) ∧ (r.2.1 ∈ IP ∨ r.2.1 ∈ IN)) ?_ fun r h => key true r h.1 h.2
      refine Prog.SureOk.bind ((hP _ hs.1).and Prog.SureOk.out) fun q hq => .ret ⟨⟨hq.1, hs.2⟩, .inl ?_⟩
      rw [hr _ _ hq.2]; exact hq.1
    · refine Prog.SureOk.bind (P := fun r => (r.2.2.1 ∈ IP ∧ r.2.2.2 ∈ IN) ∧ (r.2.1 ∈ IP ∨ r.2.1 ∈ IN)) ?_ fun r h => key false r h.1 h.2
      refine Prog.SureOk.bind ((hN _ hs.2).and Prog.SureOk.out) fun q hq => .ret ⟨⟨hs.1, hq.1⟩, .inr ?_⟩
      rw [hr _ _ hq.2]; exact hq.1

theorem bridges_sure {p : ℕ} {M : ItoFns p} {ebd : (Fin p → ℝ) → ℝ → ℝ → Res DiscBounds} {thi : Fin p → ℝ} {size : ℤ}
    {C : McmcControls} {t vt : List ℝ} (ht : t.Pairwise (· < ·)) {aug : Prog (List EaSkel)} {Q : NormOp → EaSkel → Prop} (hQ : ∀ op z, Q op z → z.Valid)
    (ha : ∀ l, aug.Out (.ok l) → List.Forall₂ Q (itoNormops M thi t vt) l) {zN : List EaSkel} (hz : ∀ z ∈ zN, z.Valid)
    (hl : zN.length = (itoNormops M thi t vt).length) :
    (updateSde C (itoSdeOps n k M ebd thi size) aug t vt zN).SureOk fun z =>
      z.length = zN.length ∧ ∀ (i : ℕ) op z0 z1, (itoNormops M thi t vt)[i]? = some op → zN[i]? = some z0 → z[i]? = some z1 →
        z1.Valid ∧ (SeedRefines z0 z1 ∨ ∃ zp, Q op zp ∧ SeedRefines zp z1) := by
  unfold updateSde
  refine Prog.SureOk.bind Prog.SureOk.out fun zP hP => ?_
  have hP' := ha _ hP
  have hlP := hP'.length_eq
  have hF := Prog.SureOk.mapM' (f := fun q : ℕ × EaSkel × EaSkel => updateSdeBridge C (itoSdeOps n k M ebd thi size) t vt q.1 q.2.1 q.2.2)
    (l := (List.range zN.length).zip (zN.zip zP)) (R := fun q z1 => z1.Valid ∧ (SeedRefines q.2.1 z1 ∨ SeedRefines q.2.2 z1)) ?_
  · refine hF.mono fun z hF => ?_
    refine ⟨by rw [← hF.length_eq]; simp [← hlP, hl], ?_⟩
    intro i op z0 z1 e1 e2 e3
    obtain ⟨i1, rfl⟩ := List.getElem?_eq_some_iff.1 e1
    obtain ⟨i2, rfl⟩ := List.getElem?_eq_some_iff.1 e2
    obtain ⟨i3, rfl⟩ := List.getElem?_eq_some_iff.1 e3
    have i4 : i < zP.length := hlP ▸ i1
    have hraw := List.forall₂_iff_get.1 hP' |>.2 i i1 i4
    have hb := List.forall₂_iff_get.1 hF |>.2 i (by simp [i2, i4]) i3
    simp only [List.get_eq_getElem, List.getElem_zip, List.getElem_range] at hraw hb
    exact ⟨hb.1, hb.2.imp id fun h => ⟨_, hraw, h⟩⟩
  · rintro ⟨i, zn, zp⟩ hq
    obtain ⟨j, hj, he⟩ := List.mem_iff_getElem.1 hq
    simp only [List.getElem_zip, List.getElem_range, Prod.mk.injEq] at he
    obtain ⟨rfl, rfl, rfl⟩ := he
    simp only [List.length_zip, List.length_range] at hj
    have i1 : j < (itoNormops M thi t vt).length := by omega
    have i4 : j < zP.length := by omega
    have i2 : j < zN.length := by omega
    have hraw := List.forall₂_iff_get.1 hP' |>.2 j i1 i4
    simp only [List.get_eq_getElem] at hraw
    have e1 : (itoNormops M thi t vt)[j]? = some (itoNormops M thi t vt)[j] := List.getElem?_eq_getElem i1
    obtain ⟨m, hm, ho⟩ := C98_submodel e1
    have hpos := normop_pos ht e1
    set op := (itoNormops M thi t vt)[j] with hop
    have hvN : (zN[j]).Valid := hz _ (List.getElem_mem _)
    have hvP : (zP[j]).Valid := hQ _ _ hraw
    dsimp only
    rw [bridge_eq (O := itoSdeOps n k M ebd thi size) hm ho]
    refine Prog.SureOk.bind Prog.SureOk.out fun wN _ => Prog.SureOk.bind Prog.SureOk.out fun wP _ => ?_
    have keeps : ∀ y z, z ∈ {z : EaSkel | z.Valid ∧ SeedRefines y z} → (bridgeCoin (itoSdeOps n k M ebd thi size) op z).SureOk fun r =>
        r.2.2 ∈ {z : EaSkel | z.Valid ∧ SeedRefines y z} := by
      rintro y z ⟨h1, h2⟩
      unfold bridgeCoin
      refine Prog.SureOk.bind (seedCoin_sure size h1 hpos) fun q hq => .ret ?_
      exact ⟨hq.1.1, fun p hp => hq.1.2 p (h2 p hp)⟩
    refine Prog.SureOk.bind (search_sure (IP := {z | z.Valid ∧ SeedRefines zP[j] z}) (IN := {z | z.Valid ∧ SeedRefines zN[j] z}) (fun z hz => keeps _ z hz)
      (fun z hz => keeps _ z hz) (fun z r => bridgeCoin_ret) ⟨hvN, fun _ h => h⟩ _ ⟨⟨hvP, fun _ h => h⟩, ⟨hvN, fun _ h => h⟩⟩) fun v hv => .ret ?_
    rcases hv with h | h
    · exact ⟨h.1, .inr h.2⟩
    · exact ⟨h.1, .inl h.2⟩

/-- C98: almost surely `update_sde` returns as many seeds as there were, each valid and knowing all that the current seed of its bridge or the proposal for its bridge
knows. -/
theorem C98_almost_surely {p : ℕ} {M : ItoFns p} {ebd : (Fin p → ℝ) → ℝ → ℝ → Res DiscBounds} {thi : Fin p → ℝ} {size : ℤ} {n' F : ℕ} {lb ub : Option ℝ}
    {C : McmcControls} {t vt : List ℝ} (ht : t.Pairwise (· < ·)) {zN : List EaSkel} (hz : ∀ z ∈ zN, z.Valid) (hl : zN.length = (itoNormops M thi t vt).length) :
    (updateSde C (itoSdeOps n k M ebd thi size) (itoSampleAug n' F M lb ub thi t vt) t vt zN).ASure fun r => ∀ z, r = .ok z →
      z.length = zN.length ∧ ∀ (i : ℕ) op z0 z1, (itoNormops M thi t vt)[i]? = some op → zN[i]? = some z0 → z[i]? = some z1 →
        z1.Valid ∧ (SeedRefines z0 z1 ∨ ∃ zp, (sampleRawSeed n' F op lb ub).Out (.ok zp) ∧ SeedRefines zp z1) :=
  bridges_sure (Q := fun op z => (sampleRawSeed n' F op lb ub).Out (.ok z)) ht (fun _ _ h => (C49_wellformed h).1) (fun _ h => Prog.out_mapM'_ok.1 h) hz hl

/-- One bridge of the Ornstein-Uhlenbeck model and its seed. -/
example : ([0, 1] : List ℝ).Pairwise (· < ·) ∧ (∀ z ∈ [exZ], z.Valid) ∧ [exZ].length = (itoNormops itoOu ![1, 1] [0, 1] [0, 0]).length :=
  ⟨by simp, by simp [exZ_valid], by simp [itoNormops, npDiff]⟩

end Ctb
