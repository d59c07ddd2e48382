import Verif.Basic.Law
import Verif.Spec.Gauss
import Verif.Model.Moments
import Mathlib.Probability.Distributions.Gaussian.Real

set_option linter.unusedSectionVars false

/-! # Affine images of independent standard normal draws -/

namespace Ctb

open MeasureTheory ProbabilityTheory
open scoped ENNReal

/-! ## list algebra -/

@[simp] theorem dot_nil_left (v : List ℝ) : dot [] v = 0 := by simp [dot]

@[simp] theorem dot_nil_right (v : List ℝ) : dot v [] = 0 := by simp [dot]

@[simp] theorem dot_cons (a b : ℝ) (u v : List ℝ) : dot (a :: u) (b :: v) = a * b + dot u v := by simp [dot]

theorem dot_comm (u v : List ℝ) : dot u v = dot v u := by
  induction u generalizing v with
  | nil => simp
  | cons a u ih => cases v with
    | nil => simp
    | cons b v => simp [ih v, mul_comm]

theorem dot_zero_left (n : ℕ) (v : List ℝ) : dot (List.replicate n 0) v = 0 := by
  induction n generalizing v with
  | zero => simp
  | succ n ih => cases v with
    | nil => simp
    | cons b v => simp [List.replicate_succ, ih]

theorem dot_vadd {n : ℕ} (c u v : List ℝ) (hu : u.length = n) (hv : v.length = n) : dot c (vadd u v) = dot c u + dot c v := by
  induction c generalizing u v n with
  | nil => simp
  | cons a c ih =>
    cases u with
    | nil => cases v with
      | nil => simp [vadd]
      | cons b v => simp at hu hv; omega
    | cons b u => cases v with
      | nil => simp at hu hv; omega
      | cons d v =>
        simp only [vadd, List.zipWith_cons_cons, dot_cons]
        have := ih (n := n - 1) u v (by simp at hu; omega) (by simp at hv; omega)
        simp only [vadd] at this
        rw [this]
        ring

theorem dot_smul (a : ℝ) (u v : List ℝ) : dot (u.map (a * ·)) v = a * dot u v := by
  induction u generalizing v with
  | nil => simp
  | cons b u ih => cases v with
    | nil => simp
    | cons d v => simp [ih v]; ring

/-- `cᵀ L` -/
noncomputable def comb (n : ℕ) : List ℝ → List (List ℝ) → List ℝ
  | c :: cs, r :: L => vadd (r.map (c * ·)) (comb n cs L)
  | _, _ => List.replicate n 0

theorem comb_length {n : ℕ} (c : List ℝ) (L : List (List ℝ)) (hL : ∀ r ∈ L, r.length = n) : (comb n c L).length = n := by
  induction c generalizing L with
  | nil => simp [comb]
  | cons a c ih => cases L with
    | nil => simp [comb]
    | cons r L =>
      simp only [comb, vadd, List.length_zipWith, List.length_map, hL r List.mem_cons_self,
        ih L (fun q hq => hL q (List.mem_cons_of_mem _ hq)), min_self]

theorem dot_comb {n : ℕ} (c : List ℝ) (L : List (List ℝ)) (z : List ℝ) (hL : ∀ r ∈ L, r.length = n) :
    dot c (matVec L z) = dot (comb n c L) z := by
  induction c generalizing L with
  | nil => simp [comb, dot_zero_left]
  | cons a c ih => cases L with
    | nil => simp [comb, matVec, dot_zero_left]
    | cons r L =>
      have h := ih L (fun q hq => hL q (List.mem_cons_of_mem _ hq))
      simp only [matVec] at h
      simp only [matVec, List.map_cons, dot_cons, comb, h]
      rw [dot_comm (vadd _ _), dot_vadd (n := n) _ _ _ (by simp [hL r List.mem_cons_self])
        (comb_length _ _ (fun q hq => hL q (List.mem_cons_of_mem _ hq))), dot_comm z, dot_comm z, dot_smul]

theorem quad_gram {n : ℕ} (c : List ℝ) (L : List (List ℝ)) (hL : ∀ r ∈ L, r.length = n) :
    quad (gram L) c = dot (comb n c L) (comb n c L) := by
  rw [← dot_comb c L _ hL, quad]
  congr 1
  simp only [matVec, gram, List.map_map]
  refine List.map_congr_left fun r hr => ?_
  simp only [Function.comp]
  rw [dot_comm, dot_comm r, ← dot_comb c L _ hL]
  simp only [matVec]
  congr 1
  exact List.map_congr_left fun q _ => dot_comm _ _

/-! ## the law -/

theorem lintegral_exp_normal (k v : ℝ) :
    ∫⁻ z, ENNReal.ofReal (Real.exp (k + v * z)) ∂(RDist.normal 0 1).law = ENNReal.ofReal (Real.exp (k + v ^ 2 / 2)) := by
  have e : (RDist.normal 0 1).law = gaussianReal 0 1 := by simp [RDist.law]
  rw [e]
  have hm := mgf_gaussianReal (p := gaussianReal 0 1) (X := id) (μ := 0) (v := 1) (by simp) v
  have hi : Integrable (fun z : ℝ => Real.exp (v * z)) (gaussianReal 0 1) := by
    by_contra h
    have : mgf id (gaussianReal 0 1) v = 0 := by
      simp only [mgf, id]
      exact integral_undef h
    rw [this] at hm
    exact (Real.exp_pos _).ne hm
  simp only [mgf, id] at hm
  simp_rw [Real.exp_add]
  rw [← ofReal_integral_eq_lintegral_ofReal (hi.const_mul _) (Filter.Eventually.of_forall fun z => by positivity), integral_const_mul, hm]
  congr 3
  simp

theorem replicate_normal_exp (n : ℕ) (k : ℝ) (v : List ℝ) (hv : v.length = n) (g : Res (List ℝ) → ℝ≥0∞)
    (hg : ∀ zs, g (.ok zs) = ENNReal.ofReal (Real.exp (k + dot v zs))) :
    (Prog.replicate n (Prog.draw (.normal 0 1))).lexp g = ENNReal.ofReal (Real.exp (k + dot v v / 2)) := by
  induction n generalizing k v g with
  | zero =>
    cases v with
    | nil => simp [Prog.replicate, Prog.lexp_ret, hg]
    | cons a v => simp at hv
  | succ n ih =>
    cases v with
    | nil => simp at hv
    | cons a v =>
      simp only [Prog.replicate, Prog.draw, Prog.real_bind, Prog.ret_bind, Prog.lexp_real]
      have : ∀ z : ℝ, ((Prog.replicate n (Prog.draw (.normal 0 1))).bind fun l => Prog.ret (z :: l)).lexp g =
          ENNReal.ofReal (Real.exp ((k + dot v v / 2) + a * z)) := by
        intro z
        rw [Prog.lexp_bind, ih (k + a * z) v (by simpa using hv)]
        · congr 2; ring
        · intro zs
          rw [Prog.cont_ok, Prog.lexp_ret, hg, dot_cons]
          congr 2; ring
      simp only [Prog.draw] at this
      simp only [this]
      rw [lintegral_exp_normal, dot_cons]
      congr 2
      ring

theorem replicate_bind_congr {β : Type} (n : ℕ) (d : RDist) (f g : List ℝ → Prog β) (h : ∀ zs, zs.length = n → f zs = g zs) :
    (Prog.replicate n (Prog.draw d)).bind f = (Prog.replicate n (Prog.draw d)).bind g := by
  induction n generalizing f g with
  | zero => simp only [Prog.replicate, Prog.ret_bind]; exact h [] rfl
  | succ n ih =>
    simp only [Prog.replicate, Prog.bind_assoc, Prog.ret_bind]
    congr 1
    funext z
    exact ih _ _ fun zs hz => h _ (by simp [hz])

theorem affine_law (n : ℕ) (m : List ℝ) (L : List (List ℝ)) (c : List ℝ) (hm : m.length = L.length) (hL : ∀ r ∈ L, r.length = n)
    (g : Res (List ℝ) → ℝ≥0∞) (hg : ∀ xs, g (.ok xs) = ENNReal.ofReal (Real.exp (dot c xs))) :
    ((Prog.replicate n (Prog.draw (.normal 0 1))).bind fun zs => Prog.ret (vadd m (matVec L zs))).lexp g =
      ENNReal.ofReal (Real.exp (dot c m + quad (gram L) c / 2)) := by
  rw [Prog.lexp_bind, replicate_normal_exp n (dot c m) (comb n c L) (comb_length _ _ hL), quad_gram c L hL]
  intro zs
  rw [Prog.cont_ok, Prog.lexp_ret, hg, dot_vadd (n := L.length) _ _ _ hm (by simp [matVec]), dot_comb c L zs hL]

end Ctb
