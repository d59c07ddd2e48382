import Verif.Lemmas.CoinProd
import Verif.Props.SwitchParams

/-! # C67: the coin of a section is the product of the coins of its segments -/

set_option linter.unusedSectionVars false

namespace Ctb

open scoped ENNReal

variable {ζ : Type}

/-- The segments of an anchorage as the updates see them. -/
abbrev Seg := ℝ × ℕ × ℝ × ℝ

/-- `flip_hidden_coins` is a coin: it shows heads with the product over the segments of their coins' probabilities, never raises on a seed list matching
the segments, and returns such a list again.  This discharges the coin hypotheses of `C67_hidden_accept_prob` and `C67_switching_hidden`. -/
theorem C67_hidden_coins {O : HiddenOps ζ} {h : Anchorage ℝ ℝ} (hne : segments h.t h.yt (h.vt.map O.red) ≠ []) {J : Seg → Set ζ} {p : Seg → ℝ≥0∞}
    (hp : ∀ q ∈ segments h.t h.yt (h.vt.map O.red), p q ≤ 1)
    (hc : ∀ q ∈ segments h.t h.yt (h.vt.map O.red), IsCoin (J q) (fun z => (O.flip q z).bind fun r => Prog.ret (r.1, r.2, r.2)) (p q)) :
    IsCoin {z : List ζ | List.Forall₂ (fun x q => x ∈ J q) z (segments h.t h.yt (h.vt.map O.red))}
      (fun z => (flipHiddenCoins O z h).bind fun r => Prog.ret (r.1, r.2, r.2)) ((segments h.t h.yt (h.vt.map O.red)).map p).prod := by
  generalize hS : segments h.t h.yt (h.vt.map O.red) = S at *
  intro z hz
  have hl : (z.zip S).map Prod.snd = S := List.map_snd_zip (by rw [hz.length_eq])
  have hmem : ∀ q ∈ z.zip S, q.1 ∈ J q.2 ∧ q.2 ∈ S := fun q hq =>
    ⟨List.forall₂_zip hz hq, by rw [← hl]; exact List.mem_map_of_mem hq⟩
  have hnil : (z.zip S).isEmpty = false := by
    rw [← Bool.not_eq_true, List.isEmpty_iff]
    intro h0; rw [h0] at hl; exact hne hl.symm
  have hform : flipHiddenCoins O z h = (Prog.mapM' (fun q => O.flip q.2 q.1) (z.zip S)).bind fun r => .ret (r.all Prod.fst, r.map Prod.snd) := by
    simp only [flipHiddenCoins, hS, hnil, Bool.false_eq_true, if_false]
  have hpr : (z.zip S).map (fun q => p q.2) = S.map p := by rw [← hl, List.map_map, hl]; rfl
  refine ⟨fun a b e => ?_, fun r hr => ?_⟩
  · have hm := mapCoins_lexp (f := fun q : ζ × Seg => O.flip q.2 q.1) (p := fun q => p q.2) (z.zip S) (fun q hq => hp _ (hmem q hq).2)
      (fun q hq a b e => by rw [← segCoin_lexp]; exact (hc _ (hmem q hq).2 _ (hmem q hq).1).1 a b e) a b e
    rw [hpr] at hm
    beta_reduce
    rw [← hm, hform, segCoin_lexp, Prog.lexp_bind]
    congr 1; ext r
    rcases r with e' | r
    · rfl
    · simp only [Prog.cont_ok, Prog.lexp_ret, Except.map, flipsVal]
      cases r.all Prod.fst <;> simp [coinVal]
  · beta_reduce at hr
    rw [hform, Prog.out_bind_ok] at hr
    obtain ⟨v, hv, hr⟩ := hr
    rw [Prog.out_bind_ok] at hv
    obtain ⟨w, hw, hv⟩ := hv
    simp only [Prog.out_ret, Except.ok.injEq] at hv hr
    subst hv; subst hr
    rw [Prog.out_mapM'_ok] at hw
    have hw' : List.Forall₂ (fun (a : ζ × Seg) (b : Bool × ζ) => b.2 ∈ J a.2) (z.zip S) w := by
      rw [List.forall₂_iff_zip] at hw ⊢
      refine ⟨hw.1, fun {a b} hab => ?_⟩
      exact (hc _ (hmem a (List.of_mem_zip hab).1).2 _ (hmem a (List.of_mem_zip hab).1).1).2 _ (segCoin_out (hw.2 hab))
    have := (List.forall₂_map_left_iff (R := fun q (b : Bool × ζ) => b.2 ∈ J q) (f := Prod.snd)).2 hw'
    rw [hl] at this
    exact List.forall₂_map_left_iff.2 this.flip

/-- `flip_param_coins` is a coin: only the segments in the regime being updated contribute. -/
theorem C67_param_coins {n : ℕ} {O : ParamOps n ζ} {nil prime : Thi n} {h : Anchorage ℝ ℝ} {state : ℕ} {up : Bool} {S : List Seg}
    (hS : (npDiff h.t).zip (h.yt.zip (h.vt.zip h.vt.tail)) = S) (hne : S ≠ []) {J : Seg → Set ζ} {p : Seg → ℝ≥0∞}
    (hp : ∀ q ∈ S, q.2.1 = state → p q ≤ 1)
    (hc : ∀ q ∈ S, q.2.1 = state → IsCoin (J q) (fun z => (O.flip nil prime q z up).bind fun r => Prog.ret (r.1, r.2, r.2)) (p q)) :
    IsCoin {z : List ζ | List.Forall₂ (fun q x => q.2.1 = state → x ∈ J q) S z}
      (fun z => (flipParamCoins O nil prime h state z up).bind fun r => Prog.ret (r.1, r.2, r.2))
      ((S.filter fun q => q.2.1 = state).map p).prod := by
  intro z hz
  have hl : (S.zip z).map Prod.fst = S := List.map_fst_zip (by rw [hz.length_eq])
  have hmem : ∀ q ∈ S.zip z, (q.1.2.1 = state → q.2 ∈ J q.1) ∧ q.1 ∈ S := fun q hq =>
    ⟨List.forall₂_zip hz hq, by rw [← hl]; exact List.mem_map_of_mem hq⟩
  have hnil : (S.zip z).isEmpty = false := by
    rw [← Bool.not_eq_true, List.isEmpty_iff]
    intro h0; rw [h0] at hl; exact hne hl.symm
  have hform : flipParamCoins O nil prime h state z up =
      (Prog.mapM' (fun q => if q.1.2.1 = state then O.flip nil prime q.1 q.2 up else .ret (true, q.2)) (S.zip z)).bind fun r =>
        .ret (r.all Prod.fst, r.map Prod.snd) := by
    simp only [flipParamCoins, hS, hnil, Bool.false_eq_true, if_false]
  have hpr : (S.zip z).map (fun q => if q.1.2.1 = state then p q.1 else 1) = S.map fun q => if q.2.1 = state then p q else 1 := by
    conv_rhs => rw [← hl, List.map_map]
    rfl
  have hfil : ∀ S : List Seg, (S.map fun q => if q.2.1 = state then p q else 1).prod = ((S.filter fun q => q.2.1 = state).map p).prod := by
    intro S
    induction S with
    | nil => rfl
    | cons q S ih =>
      rw [List.map_cons, List.prod_cons, ih, List.filter_cons]
      by_cases hq : q.2.1 = state <;> simp [hq]
  refine ⟨fun a b e => ?_, fun r hr => ?_⟩
  · have hm := mapCoins_lexp (f := fun q : Seg × ζ => if q.1.2.1 = state then O.flip nil prime q.1 q.2 up else .ret (true, q.2))
      (p := fun q => if q.1.2.1 = state then p q.1 else 1) (S.zip z)
      (fun q hq => by
        split_ifs with h1
        · exact hp _ (hmem q hq).2 h1
        · exact le_rfl)
      (fun q hq a b e => by
        by_cases h1 : q.1.2.1 = state
        · simp only [h1, if_true]
          rw [← segCoin_lexp]; exact (hc _ (hmem q hq).2 h1 _ ((hmem q hq).1 h1)).1 a b e
        · simp [h1, Prog.lexp_ret, Except.map, coinVal]) a b e
    rw [hpr, hfil] at hm
    beta_reduce
    rw [← hm, hform, segCoin_lexp, Prog.lexp_bind]
    congr 1; ext r
    rcases r with e' | r
    · rfl
    · simp only [Prog.cont_ok, Prog.lexp_ret, Except.map, flipsVal]
      cases r.all Prod.fst <;> simp [coinVal]
  · beta_reduce at hr
    rw [hform, Prog.out_bind_ok] at hr
    obtain ⟨v, hv, hr⟩ := hr
    rw [Prog.out_bind_ok] at hv
    obtain ⟨w, hw, hv⟩ := hv
    simp only [Prog.out_ret, Except.ok.injEq] at hv hr
    subst hv; subst hr
    rw [Prog.out_mapM'_ok] at hw
    have hw' : List.Forall₂ (fun (a : Seg × ζ) (b : Bool × ζ) => a.1.2.1 = state → b.2 ∈ J a.1) (S.zip z) w := by
      rw [List.forall₂_iff_zip] at hw ⊢
      refine ⟨hw.1, fun {a b} hab h1 => ?_⟩
      have hb := hw.2 hab
      rw [if_pos h1] at hb
      exact (hc _ (hmem a (List.of_mem_zip hab).1).2 h1 _ ((hmem a (List.of_mem_zip hab).1).1 h1)).2 _ (segCoin_out hb)
    have := (List.forall₂_map_left_iff (R := fun q (b : Bool × ζ) => q.2.1 = state → b.2 ∈ J q) (f := Prod.fst)).2 hw'
    rw [hl] at this
    exact List.forall₂_map_right_iff.2 this

/-- Two segments, each with a coin of its own. -/
example : IsCoin {z : List Unit | List.Forall₂ (fun _ (_ : Seg) => True) z [(1, 0, 0, 0), (1, 1, 0, 0)]}
    (fun z => (flipHiddenCoins (⟨fun _ => .err .value, fun _ _ => 0, id, fun q _ =>
      (uniformCoin (if q.2.1 = 0 then 1 / 3 else 1 / 2) ()).bind fun r => .ret (r.1, ())⟩ : HiddenOps Unit) z
      ⟨[0, 1, 2], [0, 1, 1], [0, 0, 0]⟩).bind fun r => .ret (r.1, r.2, r.2)) (ENNReal.ofReal (1 / 3) * ENNReal.ofReal (1 / 2)) := by
  have hS : segments [0, 1, 2] [0, 1, 1] (([0, 0, 0] : List ℝ).map id) = [(1, 0, 0, 0), (1, 1, 0, 0)] := by
    norm_num [segments, npDiff]
  have h := C67_hidden_coins (O := (⟨fun _ => .err .value, fun _ _ => 0, id, fun q _ =>
      (uniformCoin (if q.2.1 = 0 then 1 / 3 else 1 / 2) ()).bind fun r => .ret (r.1, ())⟩ : HiddenOps Unit))
    (h := ⟨[0, 1, 2], [0, 1, 1], [0, 0, 0]⟩) (by rw [hS]; simp) (J := fun _ => Set.univ)
    (p := fun q => ENNReal.ofReal (if q.2.1 = 0 then 1 / 3 else 1 / 2)) ?_ ?_
  · dsimp only at h
    rw [hS] at h
    simpa using h
  · intro q _
    split_ifs <;> simp
  · intro q _ s _
    refine ⟨fun a b e => ?_, fun _ _ => trivial⟩
    dsimp only
    rw [← (uniformCoin_isCoin (p := if q.2.1 = 0 then 1 / 3 else 1 / 2) (by split_ifs <;> norm_num) (by split_ifs <;> norm_num) () trivial).1 a b e,
      Prog.bind_assoc, Prog.lexp_bind]
    congr 1; ext r
    rcases r with e' | ⟨b', x⟩
    · rfl
    · cases b' <;> simp [coinVal]

end Ctb
