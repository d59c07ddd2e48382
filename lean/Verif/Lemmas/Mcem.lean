import Verif.Model.Mcem
import Mathlib.Analysis.MeanInequalitiesPow
import Mathlib.Algebra.Order.Floor.Ring
import Mathlib.Order.Filter.AtTopBot.Monoid
import Mathlib.Order.Filter.AtTopBot.Basic

set_option linter.unusedSectionVars false

/-! # Lemmas on the Monte Carlo EM drivers -/

namespace Ctb

variable {θ π Λ ς : Type}

theorem emParticlesLoop_chain (upd : π → Prog π) (thin : ℕ) (m i : ℕ) (z : π) {zz : List π} {zf : π}
    (h : (emParticlesLoop upd thin m i z).Out (.ok (zz, zf))) :
    ∃ chain : ℕ → π, chain 0 = z ∧ (∀ k < m, (upd (chain k)).Out (.ok (chain (k + 1)))) ∧ zf = chain m ∧
      zz = ((List.range m).filter fun k => (i + k) % thin = 0).map fun k => chain (k + 1) := by
  induction m generalizing i z zz zf with
  | zero =>
    simp only [emParticlesLoop, Prog.out_ret, Except.ok.injEq, Prod.mk.injEq] at h
    exact ⟨fun _ => z, rfl, by simp, h.2, by simp [h.1]⟩
  | succ m ih =>
    simp only [emParticlesLoop, Prog.out_bind_ok, Prog.out_ret, Except.ok.injEq] at h
    obtain ⟨z', h1, ⟨r, rf⟩, h2, h3⟩ := h
    obtain ⟨c, c0, c1, c2, c3⟩ := ih _ _ h2
    refine ⟨fun k => if k = 0 then z else c (k - 1), by simp, ?_, ?_, ?_⟩
    · intro k hk
      rcases k with _ | k
      · simp only [if_true, Nat.add_one_ne_zero, if_false, Nat.add_sub_cancel, c0]
        exact h1
      · simpa using c1 k (by omega)
    · have : zf = rf := by split_ifs at h3 <;> simp_all
      simp [this, c2]
    · have e : ((List.range m).filter fun k => (i + 1 + k) % thin = 0).map (fun k => c (k + 1)) = r := c3.symm
      rw [List.range_succ_eq_map, List.filter_cons]
      have e2 : (List.filter (fun k => decide ((i + k) % thin = 0)) (List.map Nat.succ (List.range m))).map
          (fun k => if k + 1 = 0 then z else c (k + 1 - 1)) = r := by
        rw [List.filter_map, List.map_map, ← e]
        simp only [Function.comp_def, Nat.succ_eq_add_one, Nat.add_one_ne_zero, if_false, Nat.add_sub_cancel]
        have : (fun x => decide ((i + (x + 1)) % thin = 0)) = fun x => decide ((i + 1 + x) % thin = 0) := by
          funext x; rw [Nat.add_assoc i 1 x, Nat.add_comm 1 x]
        rw [this]
      by_cases hi : i % thin = 0
      · simp only [Nat.add_zero, hi, decide_true, if_true, List.map_cons, Nat.zero_add, Nat.one_ne_zero, if_false, Nat.sub_self, c0, e2]
        simp only [hi, if_true, Prod.mk.injEq] at h3
        exact h3.1
      · simp only [Nat.add_zero, hi, decide_false, Bool.false_eq_true, if_false, e2]
        simp only [hi, if_false, Prod.mk.injEq] at h3
        exact h3.1

theorem filter_thin {thin : ℕ} (ht : 0 < thin) (n : ℕ) :
    ((List.range (n * thin)).filter fun k => (0 + k) % thin = 0) = (List.range n).map (· * thin) := by
  induction n with
  | zero => simp
  | succ n ih =>
    rw [Nat.succ_mul, List.range_add, List.filter_append, ih, List.range_succ, List.map_append]
    congr 1
    rw [List.filter_map]
    have : (List.range thin).filter ((fun k => decide ((0 + k) % thin = 0)) ∘ fun x => n * thin + x) = [0] := by
      obtain ⟨t, rfl⟩ : ∃ t, thin = t + 1 := ⟨thin - 1, by omega⟩
      rw [List.range_succ_eq_map, List.filter_cons]
      simp only [Function.comp_def, Nat.zero_add, Nat.add_zero, Nat.mul_mod_left, decide_true, if_true]
      congr 1
      rw [List.filter_eq_nil_iff]
      intro x hx
      simp only [List.mem_map, List.mem_range] at hx
      obtain ⟨y, hy, rfl⟩ := hx
      simp only [decide_eq_true_eq]
      rw [Nat.mul_add_mod_self_right, Nat.mod_eq_of_lt (by omega)]
      omega
    rw [this]
    simp

theorem nextParticles_lt {lr : ℝ} (h : 1 ≤ lr) (n : ℕ) : n < nextParticles lr n := by
  unfold nextParticles
  rw [← Nat.add_one_le_iff, Nat.le_floor_iff (by positivity)]
  have key := NNReal.add_rpow_le_rpow_add ((n : NNReal) ^ (1 / lr)) 1 h
  have h0 : lr ≠ 0 := by linarith
  rw [← NNReal.rpow_mul, one_div_mul_cancel h0, NNReal.rpow_one, NNReal.one_rpow] at key
  have := NNReal.coe_le_coe.2 key
  push_cast at this ⊢
  exact this

end Ctb
