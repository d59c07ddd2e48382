import Verif.Spec.Bfactories
import Mathlib.Algebra.BigOperators.Intervals
import Mathlib.Tactic.Linarith

/-! # Lemmas about two-coin searches -/

namespace Ctb

open MeasureTheory
open scoped ENNReal

variable {σ τ : Type}

theorem npLogLt_iff {u v : ℝ} (hu : 0 ≤ u) : npLogLt u v ↔ u < Real.exp v := by
  unfold npLogLt
  rcases hu.eq_or_lt with rfl | h
  · simp [Real.exp_pos]
  · rw [Real.log_lt_iff_lt_exp h]
    constructor
    · rintro (rfl | h')
      · exact absurd h (lt_irrefl _)
      · exact h'
    · exact .inr

theorem exp_v1 (w1 w2 : ℝ) : Real.exp (w1 - logaddexp w1 w2) = sideProb w1 w2 := by
  have : 0 < Real.exp w1 + Real.exp w2 := by positivity
  rw [logaddexp, Real.exp_sub, Real.exp_log this, sideProb]

theorem sideProb_pos (w1 w2 : ℝ) : 0 < sideProb w1 w2 := by unfold sideProb; positivity

theorem sideProb_lt_one (w1 w2 : ℝ) : sideProb w1 w2 < 1 := by
  unfold sideProb
  rw [div_lt_one (by positivity)]
  linarith [Real.exp_pos w2]

theorem sideProb_swap (w1 w2 : ℝ) : sideProb w2 w1 = 1 - sideProb w1 w2 := by
  unfold sideProb
  have : 0 < Real.exp w1 + Real.exp w2 := by positivity
  rw [add_comm (Real.exp w2)]
  field_simp
  ring

theorem mem_uniform01 {u : ℝ} : u ∈ (RDist.uniform 0 1).support ↔ 0 ≤ u ∧ u < 1 := by
  constructor
  · rintro ⟨v, h0, h1, rfl⟩; constructor <;> linarith
  · rintro ⟨h0, h1⟩; exact ⟨u, h0, h1, by ring⟩

open scoped Classical in
/-- Common form of the two loops. -/
noncomputable def genLoop (v1 : ℝ) (c : Bool → Coin σ τ) (prPortkey : ℝ) (esc : τ → τ) : ℕ → σ → Prog (Verdict σ τ)
  | 0, _ => .err .budget
  | n + 1, s => .real (.uniform 0 1) fun u => (c (decide (npLogLt u v1)) s).bind fun r =>
      if r.1 then .ret ((decide (npLogLt u v1), false, r.2.1), r.2.2)
      else .real (.uniform 0 1) fun u' =>
        if u' < prPortkey then .ret ((false, true, esc r.2.1), r.2.2) else genLoop v1 c prPortkey esc n r.2.2

theorem twocoinLoop_eq (v1 : ℝ) (c1 c2 : Coin σ τ) (prk : ℝ) (prop0 : τ) (n : ℕ) (s : σ) :
    twocoinLoop v1 c1 c2 prk prop0 n s = genLoop v1 (fun b => if b then c1 else c2) prk (fun _ => prop0) n s := by
  induction n generalizing s with
  | zero => rfl
  | succ n ih =>
    unfold twocoinLoop genLoop
    congr 1; ext u
    by_cases h : npLogLt u v1 <;> simp [h, ih]

theorem twocoinJointLoop_eq (v1 : ℝ) (c : SideCoin σ τ) (prk : ℝ) (n : ℕ) (s : σ) :
    twocoinJointLoop v1 c prk n s = genLoop v1 (fun b s => c s b) prk id n s := by
  induction n generalizing s with
  | zero => rfl
  | succ n ih =>
    unfold twocoinJointLoop genLoop
    congr 1; ext u
    by_cases h : npLogLt u v1 <;> simp [h, ih]

theorem genLoop_out {v1 : ℝ} {c : Bool → Coin σ τ} {prk : ℝ} {esc : τ → τ} {n : ℕ} {s : σ} {r : Res (Verdict σ τ)} :
    (genLoop v1 c prk esc n s).Out r ↔ TwocoinResult (Real.exp v1) c prk esc n s r := by
  classical
  induction n generalizing s with
  | zero =>
    unfold TwocoinResult
    simp only [genLoop, Prog.out_err, Nat.not_lt_zero, false_and, exists_false, false_or]
    constructor
    · rintro rfl; exact ⟨s, .nil s, rfl⟩
    · rintro ⟨s1, -, h⟩; exact h
  | succ n ih =>
    simp only [genLoop, Prog.out_real, Prog.out_bind, mem_uniform01]
    constructor
    · rintro ⟨u, hu, ⟨⟨b, x, s2⟩, h1, h2⟩ | ⟨e, h1, h2⟩⟩
      · have hside : decide (npLogLt u v1) = true ↔ u < Real.exp v1 := by rw [decide_eq_true_iff, npLogLt_iff hu.1]
        cases b with
        | true =>
          simp only [if_true, Prog.out_ret] at h2
          exact .inl ⟨0, Nat.succ_pos _, s, .nil s, u, _, x, s2, hu, hside, h1, h2⟩
        | false =>
          simp only [Bool.false_eq_true, if_false, Prog.out_real, mem_uniform01] at h2
          obtain ⟨u', hu', h2⟩ := h2
          by_cases hesc : u' < prk
          · rw [if_pos hesc] at h2
            exact .inr (.inl ⟨0, Nat.succ_pos _, s, .nil s, u, u', _, x, s2, hu, hside, h1, hu', hesc, h2⟩)
          · rw [if_neg hesc, ih] at h2
            rcases h2 with ⟨k, hk, s1, hf, h3⟩ | ⟨k, hk, s1, hf, h3⟩ | ⟨k, hk, s1, hf, h3⟩ | ⟨s1, hf, h3⟩
            · exact .inl ⟨k + 1, Nat.succ_lt_succ hk, s1, .cons hu hside h1 hu' (not_lt.1 hesc) hf, h3⟩
            · exact .inr (.inl ⟨k + 1, Nat.succ_lt_succ hk, s1, .cons hu hside h1 hu' (not_lt.1 hesc) hf, h3⟩)
            · exact .inr (.inr (.inl ⟨k + 1, Nat.succ_lt_succ hk, s1, .cons hu hside h1 hu' (not_lt.1 hesc) hf, h3⟩))
            · exact .inr (.inr (.inr ⟨s1, .cons hu hside h1 hu' (not_lt.1 hesc) hf, h3⟩))
      · have hside : decide (npLogLt u v1) = true ↔ u < Real.exp v1 := by rw [decide_eq_true_iff, npLogLt_iff hu.1]
        exact .inr (.inr (.inl ⟨0, Nat.succ_pos _, s, .nil s, u, _, e, hu, hside, h1, h2⟩))
    · have hsd : ∀ {u : ℝ} {side : Bool}, (0 ≤ u ∧ u < 1) → (side = true ↔ u < Real.exp v1) → decide (npLogLt u v1) = side := by
        intro u side hu hs
        rw [← npLogLt_iff hu.1] at hs
        by_cases h : npLogLt u v1 <;> cases side <;> simp_all
      have key : ∀ {k s1 P}, (∀ s', FailRun (Real.exp v1) c prk k s' s1 → TwocoinResult (Real.exp v1) c prk esc n s' r) →
          FailRun (Real.exp v1) c prk (k + 1) s s1 → (P → False) ∨ True →
          ∃ x, (0 ≤ x ∧ x < 1) ∧ ((∃ a, (c (decide (npLogLt x v1)) s).Out (.ok a) ∧
            (if a.1 = true then Prog.ret ((decide (npLogLt x v1), false, a.2.1), a.2.2) else Prog.real (RDist.uniform 0 1) fun u' =>
              if u' < prk then Prog.ret ((false, true, esc a.2.1), a.2.2) else genLoop v1 c prk esc n a.2.2).Out r) ∨
            ∃ e, (c (decide (npLogLt x v1)) s).Out (.error e) ∧ r = .error e) := by
        intro k s1 P hP hf _
        cases hf with
        | @cons _ _ s' _ u u' x side hu hside hc hu' hesc hf =>
          refine ⟨u, hu, .inl ⟨(false, x, s'), by rw [hsd hu hside]; exact hc, ?_⟩⟩
          simp only [Bool.false_eq_true, if_false, Prog.out_real, mem_uniform01]
          exact ⟨u', hu', by rw [if_neg (not_lt.2 hesc), ih]; exact hP s' hf⟩
      rintro (⟨k, hk, s1, hf, h3⟩ | ⟨k, hk, s1, hf, h3⟩ | ⟨k, hk, s1, hf, h3⟩ | ⟨s1, hf, h3⟩)
      · cases k with
        | zero =>
          cases hf
          obtain ⟨u, side, x, s2, hu, hside, hc, rfl⟩ := h3
          exact ⟨u, hu, .inl ⟨(true, x, s2), by rw [hsd hu hside]; exact hc, by simp [hsd hu hside]⟩⟩
        | succ k => exact key (P := False) (fun s' hs' => .inl ⟨k, by omega, s1, hs', h3⟩) hf (.inr trivial)
      · cases k with
        | zero =>
          cases hf
          obtain ⟨u, u', side, x, s2, hu, hside, hc, hu', hesc, rfl⟩ := h3
          refine ⟨u, hu, .inl ⟨(false, x, s2), by rw [hsd hu hside]; exact hc, ?_⟩⟩
          simp only [Bool.false_eq_true, if_false, Prog.out_real, mem_uniform01]
          exact ⟨u', hu', by simp [hesc]⟩
        | succ k => exact key (P := False) (fun s' hs' => .inr (.inl ⟨k, by omega, s1, hs', h3⟩)) hf (.inr trivial)
      · cases k with
        | zero =>
          cases hf
          obtain ⟨u, side, e, hu, hside, hc, rfl⟩ := h3
          exact ⟨u, hu, .inr ⟨e, by rw [hsd hu hside]; exact hc, rfl⟩⟩
        | succ k => exact key (P := False) (fun s' hs' => .inr (.inr (.inl ⟨k, by omega, s1, hs', h3⟩))) hf (.inr trivial)
      · exact key (P := False) (fun s' hs' => .inr (.inr (.inr ⟨s1, hs', h3⟩))) hf (.inr trivial)

/-! ## exact probabilities -/

/-- Value by verdict class: accepted, refused by coin 2, escaped, exception. -/
def verdictVal (A B C D : ℝ≥0∞) : Res (Verdict σ τ) → ℝ≥0∞
  | .ok ((true, _, _), _) => A
  | .ok ((false, false, _), _) => B
  | .ok ((false, true, _), _) => C
  | .error _ => D

/-- Probability that a round fails and does not escape. -/
noncomputable def failProb (q : ℝ) (p1 p2 : ℝ≥0∞) (prk : ℝ) : ℝ≥0∞ :=
  (ENNReal.ofReal q * (1 - p1) + ENNReal.ofReal (1 - q) * (1 - p2)) * ENNReal.ofReal (1 - prk)

theorem genLoop_lexp {v1 : ℝ} (hv : Real.exp v1 ≤ 1) {c : Bool → Coin σ τ} {p1 p2 : ℝ≥0∞} {I : Set σ} (h1 : IsCoin I (c true) p1)
    (h2 : IsCoin I (c false) p2) {prk : ℝ} (hk : 0 ≤ prk ∧ prk ≤ 1) (esc : τ → τ) (A B C D : ℝ≥0∞) (n : ℕ) {s : σ} (hs : s ∈ I) :
    (genLoop v1 c prk esc n s).lexp (verdictVal A B C D) =
      (ENNReal.ofReal (Real.exp v1) * p1 * A + ENNReal.ofReal (1 - Real.exp v1) * p2 * B +
        (ENNReal.ofReal (Real.exp v1) * (1 - p1) + ENNReal.ofReal (1 - Real.exp v1) * (1 - p2)) * ENNReal.ofReal prk * C) *
        (∑ k ∈ Finset.range n, failProb (Real.exp v1) p1 p2 prk ^ k) + failProb (Real.exp v1) p1 p2 prk ^ n * D := by
  classical
  set q := Real.exp v1 with hq
  induction n generalizing s with
  | zero => simp [genLoop, verdictVal]
  | succ n ih =>
    set R := (genLoop v1 c prk esc n s).lexp (verdictVal A B C D) with hR
    have hRs : ∀ s' ∈ I, (genLoop v1 c prk esc n s').lexp (verdictVal A B C D) = R := fun s' hs' => by rw [hR, ih hs', ih hs]
    have hT : ∀ u, (((c (decide (npLogLt u v1)) s).bind fun r =>
      if r.1 then Prog.ret ((decide (npLogLt u v1), false, r.2.1), r.2.2)
      else Prog.real (.uniform 0 1) fun u' =>
        if u' < prk then .ret ((false, true, esc r.2.1), r.2.2) else genLoop v1 c prk esc n r.2.2).lexp (verdictVal A B C D)) =
        if npLogLt u v1 then p1 * A + (1 - p1) * (ENNReal.ofReal prk * C + ENNReal.ofReal (1 - prk) * R)
        else p2 * B + (1 - p2) * (ENNReal.ofReal prk * C + ENNReal.ofReal (1 - prk) * R) := by
      intro u
      have inner : ∀ (r : Bool × τ × σ) (b : Bool), r.2.2 ∈ I → (if r.1 then Prog.ret ((b, false, r.2.1), r.2.2)
          else Prog.real (.uniform 0 1) fun u' =>
          if u' < prk then .ret ((false, true, esc r.2.1), r.2.2) else genLoop v1 c prk esc n r.2.2).lexp (verdictVal A B C D) =
          if r.1 then (if b then A else B) else ENNReal.ofReal prk * C + ENNReal.ofReal (1 - prk) * R := by
        rintro ⟨a, x, s'⟩ b hI
        cases a with
        | true => cases b <;> simp [verdictVal]
        | false =>
          simp only [Bool.false_eq_true, if_false, Prog.lexp_real]
          rw [← lintegral_uniform_lt hk.1 hk.2]
          congr 1; ext u'
          by_cases h : u' < prk
          · simp [h, verdictVal]
          · simp [h, hRs _ hI]
      rw [Prog.lexp_bind]
      have hstay : ∀ (b : Bool) r, (c b s).Out (.ok r) → r.2.2 ∈ I := fun b r hr => by
        cases b
        · exact (h2 s hs).2 r hr
        · exact (h1 s hs).2 r hr
      have e : ∀ r, (c (decide (npLogLt u v1)) s).Out r → Prog.cont (fun r : Bool × τ × σ =>
          if r.1 then Prog.ret ((decide (npLogLt u v1), false, r.2.1), r.2.2)
          else Prog.real (.uniform 0 1) fun u' =>
            if u' < prk then .ret ((false, true, esc r.2.1), r.2.2) else genLoop v1 c prk esc n r.2.2) (verdictVal A B C D) Prog.lexp r =
          coinVal (if npLogLt u v1 then A else B) (ENNReal.ofReal prk * C + ENNReal.ofReal (1 - prk) * R) D r := by
        intro r hr
        rcases r with e | ⟨a, x, s'⟩
        · rfl
        · rw [Prog.cont_ok, inner _ _ (hstay _ _ hr)]
          cases a <;> simp [coinVal]
      rw [Prog.lexp_congr e]
      by_cases h : npLogLt u v1
      · simp only [h, decide_true, if_true]; exact (h1 s hs).1 _ _ _
      · simp only [h, decide_false, if_false]; exact (h2 s hs).1 _ _ _
    have hmain : (genLoop v1 c prk esc (n + 1) s).lexp (verdictVal A B C D) =
        ENNReal.ofReal q * (p1 * A + (1 - p1) * (ENNReal.ofReal prk * C + ENNReal.ofReal (1 - prk) * R)) +
        ENNReal.ofReal (1 - q) * (p2 * B + (1 - p2) * (ENNReal.ofReal prk * C + ENNReal.ofReal (1 - prk) * R)) := by
      rw [← lintegral_uniform_lt (Real.exp_pos v1).le hv]
      simp only [genLoop, Prog.lexp_real, hT]
      refine lintegral_congr_ae ?_
      have : ∀ᵐ x ∂(RDist.uniform 0 1).law, x ∈ (RDist.uniform 0 1).support := RDist.law_support _
      filter_upwards [this] with u hu
      rw [mem_uniform01] at hu
      simp only [npLogLt_iff hu.1]
    rw [hmain, hR, ih hs, Finset.sum_range_succ', pow_succ]
    set F := failProb q p1 p2 prk with hF
    have hsum : ∑ k ∈ Finset.range n, F ^ (k + 1) = F * ∑ k ∈ Finset.range n, F ^ k := by
      rw [Finset.mul_sum]; exact Finset.sum_congr rfl fun k _ => by rw [pow_succ']
    rw [hsum, pow_zero]
    simp only [hF, failProb]
    ring

end Ctb
