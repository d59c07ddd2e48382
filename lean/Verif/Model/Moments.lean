import Verif.Model.SdePaths
import Verif.Model.Hitting

/-!
# Model of `ctbayes/sdelib/moments.py` and of the seeded constructions of `ctbayes/sdelib/transforms.py`

Vectors are lists, matrices lists of rows.
-/

namespace Ctb

/-- `moments_wiener`, sdelib/moments.py:4-25.  `np.min` of an empty array raises ValueError. -/
noncomputable def momentsWiener (t : List ℝ) (initX mu : ℝ) : Res (List ℝ × List (List ℝ)) :=
  if t = [] then .error .value else
  if ¬ ∀ a ∈ t, 0 < a then .error .assertion else
  .ok (t.map fun a => initX + mu * a, t.map fun a => t.map fun b => min a b)

/-- `moments_brownbr`, sdelib/moments.py:28-48. -/
noncomputable def momentsBrownbr (t : List ℝ) (finT initX finX : ℝ) : Res (List ℝ × List (List ℝ)) :=
  if t = [] then .error .value else
  if ¬ ∀ a ∈ t, 0 < a ∧ a < finT then .error .assertion else
  .ok (t.map fun a => initX + (finX - initX) * a / finT, t.map fun a => t.map fun b => (finT - max a b) * min a b / finT)

/-- `moments_gaussian_bridge`, sdelib/moments.py:51-62: `ucov[-1]` of an empty array raises IndexError, a zero variance gives NaN. -/
noncomputable def momentsGaussianBridge (finX : ℝ) (umean : List ℝ) (ucov : List (List ℝ)) : Res (List ℝ × List (List ℝ)) :=
  match ucov.getLast?, umean.getLast? with
  | some row, some m =>
    match row.getLast? with
    | some v =>
      if v = 0 then .error .nan else
      let r := row.dropLast
      .ok (List.zipWith (fun u c => u + c * (finX - m) / v) umean.dropLast r,
        List.zipWith (fun us ci => List.zipWith (fun u cj => u - ci * cj / v) us r) (ucov.dropLast.map List.dropLast) r)
    | none => .error .index
  | _, _ => .error .index

/-- `pivot_brownbr`, sdelib/transforms.py:52-77, with the default time maps (`norm_time = denorm_time = lambda x: x`).  The two arrays
are broadcast; here they have the same length. -/
noncomputable def pivotBrownbr (s z : List ℝ) (finT initX finX : ℝ) : Res (List ℝ × List ℝ) :=
  if s = [] then .error .value else
  if ¬ ∀ a ∈ s, 0 ≤ a ∧ a ≤ 1 then .error .assertion else
  if ¬ 0 < finT then .error .assertion else
  .ok (s.map (· * finT), List.zipWith (fun s z => z * Real.sqrt finT + initX + s * (finX - initX)) s z)

/-- `cand` of `gen_seeded_wald`, sdelib/transforms.py:157. -/
noncomputable def waldCand (r2 mu lam : ℝ) : ℝ :=
  mu + (mu ^ 2 * r2 - mu * Real.sqrt (4 * mu * lam * r2 + mu ^ 2 * r2 ^ 2)) / (2 * lam)

/-- `gen_seeded_wald`, sdelib/transforms.py:156-160. -/
noncomputable def seededWald (u1 r2 mu lam : ℝ) : ℝ :=
  if u1 < mu / (mu + waldCand r2 mu lam) then waldCand r2 mu lam else mu ^ 2 / waldCand r2 mu lam

/-- `gen_seeded_brownbr_min`, sdelib/transforms.py:122-176.  A minimum of `-inf` does not occur for `0 < u[0]`; the division
`par1 / par2` by zero would give NaN. -/
noncomputable def seededBridgeMin (u0 u1 u2 r2 finT initX finX : ℝ) : Res (ℝ × ℝ) :=
  if ¬ (∀ u ∈ [u0, u1, u2], 0 < u ∧ u < 1) then .error .assertion else
  if ¬ 0 < r2 then .error .assertion else
  if ¬ 0 < finT then .error .assertion else
  match ppfBridgeMin u0 finT initX finX none none with
  | .error e => .error e
  | .ok none => .error .nan
  | .ok (some m) =>
    let par1 := (finX - m) ^ 2 / (2 * finT)
    let par2 := (m - initX) ^ 2 / (2 * finT)
    if par2 = 0 then .error .nan else
    let par3 := Real.sqrt (par1 / par2)
    if u2 < 1 / (1 + par3) then .ok (finT / (1 + seededWald u1 r2 par3 (2 * par1)), m)
    else .ok (finT / (1 + 1 / seededWald u1 r2 (1 / par3) (2 * par2)), m)

end Ctb
