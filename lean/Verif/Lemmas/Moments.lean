import Verif.Lemmas.Gauss

set_option linter.unusedSectionVars false

/-! # Wiener process and bridge as affine maps of the draws -/

namespace Ctb

variable {s x mu acc T x0 x1 : ℝ} {t zs : List ℝ}

/-- Steps from `s`. -/
def diffFrom (s : ℝ) : List ℝ → List ℝ
  | [] => []
  | a :: t => (a - s) :: npDiff (a :: t)

theorem diffFrom_cons (s a : ℝ) (t : List ℝ) : diffFrom s (a :: t) = (a - s) :: diffFrom a t := by
  cases t <;> rfl

theorem ediffBegin_eq (t : List ℝ) : ediffBegin t = diffFrom 0 t := by
  cases t <;> simp [ediffBegin, diffFrom]

theorem diffFrom_nonneg (h : t.Pairwise (· ≤ ·)) (hs : ∀ a ∈ t, s ≤ a) : ∀ d ∈ diffFrom s t, 0 ≤ d := by
  induction t generalizing s with
  | nil => simp [diffFrom]
  | cons a t ih =>
    rw [List.pairwise_cons] at h
    rw [diffFrom_cons]
    intro d hd
    rcases List.mem_cons.1 hd with rfl | hd
    · linarith [hs a List.mem_cons_self]
    · exact ih h.2 (fun b hb => h.1 b hb) d hd

/-- Coefficients of the draws. -/
noncomputable def wRows (s : ℝ) : List ℝ → List (List ℝ)
  | [] => []
  | a :: t => (√(a - s) :: List.replicate t.length 0) :: (wRows a t).map (√(a - s) :: ·)

theorem wRows_length (s : ℝ) (t : List ℝ) : (wRows s t).length = t.length := by
  induction t generalizing s with
  | nil => rfl
  | cons a t ih => simp [wRows, ih]

theorem wRows_row (s : ℝ) (t : List ℝ) : ∀ r ∈ wRows s t, r.length = t.length := by
  induction t generalizing s with
  | nil => simp [wRows]
  | cons a t ih =>
    intro r hr
    rcases List.mem_cons.1 hr with rfl | hr
    · simp
    · obtain ⟨q, hq, rfl⟩ := List.mem_map.1 hr
      simp [ih a q hq]

theorem wRows_gram (h : t.Pairwise (· ≤ ·)) (hs : ∀ a ∈ t, s ≤ a) : gram (wRows s t) = t.map fun a => t.map fun b => min a b - s := by
  induction t generalizing s with
  | nil => rfl
  | cons a t ih =>
    rw [List.pairwise_cons] at h
    have hk : √(a - s) * √(a - s) = a - s := Real.mul_self_sqrt (by linarith [hs a List.mem_cons_self])
    have ih' := ih (s := a) h.2 h.1
    have hr := wRows_length a t
    simp only [gram, wRows, List.map_cons, List.map_map, dot_cons, dot_zero_left, hk, add_zero, min_self]
    congr 1
    · congr 1
      have : (List.map ((fun q => dot (√(a - s) :: List.replicate t.length 0) q) ∘ fun x => √(a - s) :: x) (wRows a t)) =
          List.replicate t.length (a - s) := by
        rw [List.eq_replicate_iff]
        refine ⟨by simp [hr], fun y hy => ?_⟩
        obtain ⟨q, -, rfl⟩ := List.mem_map.1 hy
        simp [dot_zero_left, hk]
      rw [this, ← List.map_const']
      refine List.map_congr_left fun b hb => ?_
      rw [min_eq_left (h.1 b hb)]
    · have e1 : t.map (fun c => (min c a - s) :: t.map fun b => min c b - s) =
          (t.map fun c => t.map fun b => min c b - a).map fun row => (a - s) :: row.map ((a - s) + ·) := by
        rw [List.map_map]
        refine List.map_congr_left fun c hc => ?_
        simp only [Function.comp, List.map_map]
        rw [min_eq_right (h.1 c hc)]
        congr 1
        refine List.map_congr_left fun b _ => ?_
        simp only [Function.comp]
        ring
      rw [e1, ← ih']
      simp only [gram, List.map_map]
      refine List.map_congr_left fun r _ => ?_
      simp only [Function.comp, dot_cons, hk, List.map_map]
      rw [dot_comm r, dot_zero_left, add_zero]
      congr 1
      refine List.map_congr_left fun q _ => ?_
      simp only [Function.comp, dot_cons, hk]

theorem wiener_values (hz : zs.length = t.length) :
    (cumsumFrom acc (List.zipWith (fun dt z => √dt * z + dt * mu) (diffFrom s t) zs)).map (· + x) =
      vadd (t.map fun a => x + acc + mu * (a - s)) (matVec (wRows s t) zs) := by
  induction t generalizing s acc zs with
  | nil => simp [diffFrom, cumsumFrom, vadd]
  | cons a t ih => cases zs with
    | nil => simp at hz
    | cons z zs =>
      have := ih (s := a) (acc := acc + (√(a - s) * z + (a - s) * mu)) (zs := zs) (by simpa using hz)
      rw [diffFrom_cons]
      simp only [List.zipWith_cons_cons, cumsumFrom, List.map_cons, this, matVec, wRows, vadd, dot_cons, dot_zero_left, List.map_map]
      congr 1
      · ring
      · rw [List.zipWith_map_left, List.zipWith_map_left, List.zipWith_map_right, List.zipWith_map_right]
        congr 1
        funext b r
        simp only [Function.comp, dot_cons]
        ring

theorem sampleWiener_affine (hne : t ≠ []) (hpos : ∀ a ∈ t, 0 < a) (h : t.Pairwise (· ≤ ·)) :
    sampleWiener t x mu = (Prog.replicate t.length (Prog.draw (.normal 0 1))).bind fun zs =>
      Prog.ret (vadd (t.map fun a => x + mu * a) (matVec (wRows 0 t) zs)) := by
  rw [sampleWiener, if_neg hne, Prog.assert, if_pos hpos, Prog.ret_bind, if_neg]
  · refine replicate_bind_congr _ _ _ _ fun zs hz => ?_
    have := wiener_values (s := 0) (acc := 0) (x := x) (mu := mu) hz
    rw [wienerIncs, npCumsum, ediffBegin_eq, this]
    simp
  · rw [not_not, ediffBegin_eq]
    exact diffFrom_nonneg h fun a ha => (hpos a ha).le

/-- Rows scaled by weights. -/
noncomputable def scaleRows (ws : List ℝ) (L : List (List ℝ)) : List (List ℝ) := List.zipWith (fun w r => r.map (w * ·)) ws L

theorem scale_gram {ws : List ℝ} {L : List (List ℝ)} (h : ws.length = L.length) {φ ω : ℝ → ℝ} {f : ℝ → ℝ → ℝ}
    (hw : ws = t.map ω) (hL : gram L = t.map fun a => t.map fun b => f (φ a) (φ b)) :
    gram (scaleRows ws L) = t.map fun a => t.map fun b => ω a * ω b * f (φ a) (φ b) := by
  have hlen : L.length = t.length := by rw [← h, hw, List.length_map]
  have key : ∀ i (hi : i < t.length) j (hj : j < t.length), dot (L[i]'(hlen ▸ hi)) (L[j]'(hlen ▸ hj)) = f (φ t[i]) (φ t[j]) := by
    intro i hi j hj
    have := congrArg (fun M : List (List ℝ) => (M[i]?).bind fun r => r[j]?) hL
    simpa [gram, hlen, hi, hj] using this
  subst hw
  refine List.ext_getElem (by simp [gram, scaleRows, hlen]) fun i h1 h2 => ?_
  simp only [List.length_map] at h2
  refine List.ext_getElem (by simp [gram, scaleRows, hlen]) fun j h3 h4 => ?_
  simp only [List.getElem_map, List.length_map] at h4
  simp only [gram, scaleRows, List.getElem_map, List.getElem_zipWith, dot_smul]
  rw [dot_comm, dot_smul, dot_comm, key i h2 j h4]
  ring

theorem scale_matVec (ws : List ℝ) (L : List (List ℝ)) (z : List ℝ) :
    matVec (scaleRows ws L) z = List.zipWith (fun w y => w * y) ws (matVec L z) := by
  rw [matVec, scaleRows, List.map_zipWith, matVec, List.zipWith_map_right]
  congr 1
  funext w r
  exact dot_smul _ _ _

/-- Coefficients of the draws for the bridge. -/
noncomputable def bRows (T : ℝ) (t : List ℝ) : List (List ℝ) :=
  scaleRows (t.map fun a => √T * (1 - a / T)) (wRows 0 (t.map fun a => a / T / (1 - a / T)))

theorem sampleBrownbr_affine (hne : t ≠ []) (hp : ∀ a ∈ t, 0 < a ∧ a < T) (h : t.Pairwise (· ≤ ·)) :
    (bRows T t).length = t.length ∧ (∀ r ∈ bRows T t, r.length = t.length) ∧
      gram (bRows T t) = (t.map fun a => t.map fun b => (T - max a b) * min a b / T) ∧
      sampleBrownbr t T x0 x1 = (Prog.replicate t.length (Prog.draw (.normal 0 1))).bind fun zs =>
        Prog.ret (vadd (t.map fun a => x0 + (x1 - x0) * a / T) (matVec (bRows T t) zs)) := by
  obtain ⟨t0, ht0⟩ := List.exists_mem_of_ne_nil t hne
  have hT : 0 < T := (hp t0 ht0).1.trans (hp t0 ht0).2
  have hsq : √T * √T = T := Real.mul_self_sqrt hT.le
  have hs0 : √T ≠ 0 := (Real.sqrt_pos.2 hT).ne'
  set φ : ℝ → ℝ := fun a => a / T / (1 - a / T) with hφ
  have hφ' : ∀ a ∈ t, φ a = a / (T - a) := by
    intro a ha
    have := sub_pos.2 (hp a ha).2
    rw [hφ]
    field_simp
  have hmono : ∀ a ∈ t, ∀ b ∈ t, a ≤ b → φ a ≤ φ b := by
    intro a ha b hb hab
    rw [hφ' a ha, hφ' b hb, div_le_div_iff₀ (sub_pos.2 (hp a ha).2) (sub_pos.2 (hp b hb).2)]
    nlinarith
  have hpos : ∀ a ∈ t.map φ, 0 < a := by
    intro a ha
    obtain ⟨b, hb, rfl⟩ := List.mem_map.1 ha
    rw [hφ' b hb]
    exact div_pos (hp b hb).1 (sub_pos.2 (hp b hb).2)
  have hsort : (t.map φ).Pairwise (· ≤ ·) := by
    rw [List.pairwise_map]
    exact h.imp_of_mem fun ha hb hab => hmono _ ha _ hb hab
  set ω : ℝ → ℝ := fun a => √T * (1 - a / T) with hω
  have hbr : bRows T t = scaleRows (t.map ω) (wRows 0 (t.map φ)) := rfl
  rw [hbr]
  refine ⟨by simp [scaleRows, wRows_length], ?_, ?_, ?_⟩
  · intro r hr
    rw [scaleRows, List.mem_iff_getElem] at hr
    obtain ⟨i, hi, rfl⟩ := hr
    rw [List.getElem_zipWith, List.length_map, wRows_row _ _ _ (List.getElem_mem _), List.length_map]
  · have hg := wRows_gram (s := 0) hsort fun a ha => (hpos a ha).le
    rw [List.map_map] at hg
    have hg' : gram (wRows 0 (t.map φ)) = t.map fun a => t.map fun b => min (φ a) (φ b) := by
      rw [hg]
      refine List.map_congr_left fun a _ => ?_
      simp only [Function.comp, List.map_map]
      refine List.map_congr_left fun b _ => ?_
      simp
    rw [scale_gram (φ := φ) (f := min) (by simp [wRows_length]) rfl hg']
    refine List.map_congr_left fun a ha => List.map_congr_left fun b hb => ?_
    have key : ∀ a ∈ t, ∀ b ∈ t, a ≤ b → ω a * ω b * min (φ a) (φ b) = (T - max a b) * min a b / T := by
      intro a ha b hb hab
      rw [min_eq_left (hmono a ha b hb hab), max_eq_right hab, min_eq_left hab, hφ' a ha]
      have := sub_pos.2 (hp a ha).2
      have e : ω a * ω b = T * (1 - a / T) * (1 - b / T) := by
        simp only [hω]
        linear_combination (1 - a / T) * (1 - b / T) * hsq
      rw [e]
      field_simp
    rcases le_total a b with hab | hab
    · exact key a ha b hb hab
    · rw [mul_comm (ω a), min_comm (φ a), key b hb a ha hab, max_comm, min_comm]
  · have hst : t.map (· / T) |>.map (fun s => s / (1 - s)) |> (· = t.map φ) := by
      rw [List.map_map]; rfl
    rw [sampleBrownbr, if_neg hne, Prog.assert, if_pos hp, Prog.ret_bind]
    simp only [hst]
    rw [sampleWiener_affine (by simpa using hne) hpos hsort, Prog.bind_assoc, List.length_map]
    congr 1
    funext zs
    rw [Prog.ret_bind, scale_matVec]
    congr 1
    refine List.ext_getElem (by simp [vadd, matVec, wRows_length]) fun i h1 h2 => ?_
    have hi : i < t.length := by
      simp [vadd, matVec, wRows_length] at h1
      exact h1
    have h' := sub_pos.2 (hp t[i] (List.getElem_mem hi)).2
    simp only [vadd, List.getElem_map, List.getElem_zipWith, hω]
    rw [hφ' _ (List.getElem_mem hi)]
    generalize (matVec (wRows 0 (List.map φ t)) zs)[i]'_ = w
    generalize t[i] = a at h' ⊢
    have e : x0 / √T * √T = x0 := div_mul_cancel₀ _ hs0
    have e' : x1 / √T * √T = x1 := div_mul_cancel₀ _ hs0
    have e2 : (1 - a / T) * (a / (T - a)) = a / T := by field_simp
    have e3 : (x1 - x0) * a / T = (x1 - x0) * (a / T) := mul_div_assoc _ _ _
    rw [e3]
    linear_combination (1 - a / T) * e + x1 * e2 + (1 - a / T) * (a / (T - a)) * e'

end Ctb
