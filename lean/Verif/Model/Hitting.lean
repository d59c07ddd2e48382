import Verif.Basic.Prog
import Mathlib.Analysis.SpecialFunctions.Log.Basic
import Mathlib.Analysis.SpecialFunctions.Sqrt

/-!
# Model of the hitting-time samplers

File: sdelib/hitting.py.  `T` is `fin_t`, `a` is `init_x`, `b` is `fin_x`, `K` is `ue_x`.  A lower bound of the minimum is an `Option ℝ`,
`none` for `None` and for `-inf` (the code treats them alike); other bounds are `none` for `None`.  A level of the minimum is an `Option ℝ`
too, `none` for `-inf`.
-/

namespace Ctb

open Classical

/-! ## Distribution of the minimum of a Brownian bridge -/

/-- `cdf_brownbr_min(m, fin_t, init_x, fin_x)` without bounds, sdelib/hitting.py:45-47 (`exp(-inf) = 0`). -/
noncomputable def cdfMinBase (T a b : ℝ) : Option ℝ → ℝ
  | none => 0
  | some m => if m < min a b then Real.exp (-2 * (a - m) * (b - m) / T) else 1

/-- The check `lb_min_x < ub_min_x <= min(init_x, fin_x)`. -/
def MinBoundsOk (a b : ℝ) (lb : Option ℝ) (ub : ℝ) : Prop := (∀ l, lb = some l → l < ub) ∧ ub ≤ min a b

/-- `cdf_brownbr_min`, sdelib/hitting.py:9-51.  The value is not clipped outside the bounds. -/
noncomputable def cdfBridgeMin (m : Option ℝ) (T a b : ℝ) (lb ub : Option ℝ) : Res ℝ :=
  if ¬ 0 < T then .error .assertion
  else if ¬ MinBoundsOk a b lb (ub.getD (min a b)) then .error .assertion
  else if lb = none ∧ ub.getD (min a b) = min a b then .ok (cdfMinBase T a b m)
  else .ok ((cdfMinBase T a b m - cdfMinBase T a b lb) /
    (cdfMinBase T a b (some (ub.getD (min a b))) - cdfMinBase T a b lb))

/-- Last line of `ppf_brownbr_min`, sdelib/hitting.py:97: `none` is `-inf`, the value at probability 0. -/
noncomputable def ppfMinBase (T a b p : ℝ) : Option ℝ :=
  if p = 0 then none else some ((b + a - √((b - a) ^ 2 - 2 * T * Real.log p)) / 2)

/-- `ppf_brownbr_min`, sdelib/hitting.py:54-98. -/
noncomputable def ppfBridgeMin (p : ℝ) (T a b : ℝ) (lb ub : Option ℝ) : Res (Option ℝ) :=
  if ¬ (0 ≤ p ∧ p ≤ 1) then .error .assertion
  else if ¬ 0 < T then .error .assertion
  else if ¬ MinBoundsOk a b lb (ub.getD (min a b)) then .error .assertion
  else if lb = none ∧ ub.getD (min a b) = min a b then .ok (ppfMinBase T a b p)
  else .ok (ppfMinBase T a b (p * (cdfMinBase T a b (some (ub.getD (min a b))) - cdfMinBase T a b lb) + cdfMinBase T a b lb))

/-- The draw of the time of the minimum, sdelib/hitting.py:144-151.  `par1`, `par2` vanish only when the minimum equals an end point. -/
noncomputable def sampleMinTime (T a b m : ℝ) : Prog ℝ :=
  let par1 := (b - m) ^ 2 / (2 * T)
  let par2 := (m - a) ^ 2 / (2 * T)
  let par3 := √(par1 / par2)
  (Prog.draw (.uniform 0 1)).bind fun v =>
  if v < 1 / (1 + par3) then (Prog.draw (.wald par3 (2 * par1))).bind fun w => .ret (T / (1 + w))
  else (Prog.draw (.wald (1 / par3) (2 * par2))).bind fun w => .ret (T / (1 + 1 / w))

/-- `sample_brownbr_min`, sdelib/hitting.py:101-153: `(min_t, min_x)`.  A minimum of `-inf` (which needs the draw 0) makes the time NaN. -/
noncomputable def sampleBridgeMin (T a b : ℝ) (lb ub : Option ℝ) : Prog (ℝ × ℝ) :=
  (Prog.assert (0 < T)).bind fun _ =>
  (Prog.assert (MinBoundsOk a b lb (ub.getD (min a b)))).bind fun _ =>
  (Prog.draw (.uniform 0 1)).bind fun u =>
  (Prog.lift (ppfBridgeMin u T a b lb ub)).bind fun
    | none => .err .nan
    | some m => (sampleMinTime T a b m).bind fun t => .ret (t, m)

/-! ## Escape series -/

/-- Partial sums of a series of terms numbered from 1 (the generators `series_*` yield `partialSum f 1`, `partialSum f 2`, ...). -/
def partialSum (f : ℕ → ℝ) : ℕ → ℝ
  | 0 => 0
  | n + 1 => partialSum f n + f (n + 1)

/-- `up`, sdelib/hitting.py:368-369. -/
noncomputable def escUp (T K : ℝ) (j : ℕ) (a b : ℝ) : ℝ := Real.exp (-2 * (K * (2 * j - 1) - a) * (K * (2 * j - 1) - b) / T)

/-- `down`, sdelib/hitting.py:371-372. -/
noncomputable def escDown (T K : ℝ) (j : ℕ) (a b : ℝ) : ℝ := Real.exp (-2 * j * (4 * K ^ 2 * j + 2 * K * (a - b)) / T)

/-- Term `i` of the loop of `series_brownbr_esc`, sdelib/hitting.py:387-394. -/
noncomputable def brownTerm (T a b K : ℝ) (i : ℕ) : ℝ :=
  if i % 2 = 1 then escUp T K ((i + 1) / 2) a b + escUp T K ((i + 1) / 2) (-a) (-b)
  else -(escDown T K (i / 2) a b + escDown T K (i / 2) (-a) (-b))

/-- Value of index `i` (from 1) of `series_brownbr_esc(fin_t, init_x, fin_x, ue_x)`. -/
noncomputable def brownSeries (T a b K : ℝ) : ℕ → ℝ := partialSum (brownTerm T a b K)

/-- The bounded case, sdelib/hitting.py:380-385 and 425-430: `num_seq` zipped with `den_seq` shifted by one.  numpy divides by zero without an
exception; the theorems exclude a zero denominator. -/
noncomputable def boundedSeries (r s : ℕ → ℝ) (i : ℕ) : ℝ := 1 - (1 - r i) / (1 - s (i + 1))

/-- `series_brownbr_esc`, sdelib/hitting.py:354-394. -/
noncomputable def brownEscSeries (T a b K : ℝ) : Option ℝ → ℕ → ℝ
  | none => brownSeries T a b K
  | some B => boundedSeries (brownSeries T a b K) (brownSeries T a b B)

/-- Whether the search stops at value `i`, sdelib/hitting.py:264 and 350. -/
def EscStops (s : ℕ → ℝ) (u : ℝ) (i : ℕ) : Prop := (i % 2 = 0 ∧ u < s i) ∨ (i % 2 = 1 ∧ s i < u)

/-- The search loop, sdelib/hitting.py:263-265 and 349-351, from index `i0` on; `none`: it runs forever. -/
noncomputable def escSearch (s : ℕ → ℝ) (u : ℝ) (i0 : ℕ) : Option Bool :=
  if h : ∃ i, i0 ≤ i ∧ EscStops s u i then some (decide (Nat.find h % 2 = 0)) else none

/-- What a search without end does to a program: model artefact `fuel`. -/
def searchResult : Option Bool → Prog Bool
  | some b => .ret b
  | none => .err .fuel

/-- `sample_brownbr_esc` with a seed, sdelib/hitting.py:252-265. -/
noncomputable def brownEscSeeded (T a b K : ℝ) (B : Option ℝ) (u : ℝ) : Prog Bool :=
  (Prog.assert (0 < T)).bind fun _ =>
  (Prog.assert (0 ≤ u ∧ u ≤ 1)).bind fun _ =>
  if K ≤ max |a| |b| then .ret true
  else if ∃ B', B = some B' ∧ B' < K then .ret false
  else searchResult (escSearch (brownEscSeries T a b K B) u 1)

/-- `sample_brownbr_esc`, sdelib/hitting.py:213-265. -/
noncomputable def brownEsc (T a b K : ℝ) (B : Option ℝ) (seed : Option ℝ) : Prog Bool :=
  match seed with
  | some u => brownEscSeeded T a b K B u
  | none => (Prog.draw (.uniform 0 1)).bind fun u => brownEscSeeded T a b K B u

/-- `inc`, sdelib/hitting.py:411-412. -/
noncomputable def besInc (T K : ℝ) (i : ℕ) (b : ℝ) : ℝ := (2 * K * i + b) * Real.exp (-2 * K * i * (K * i + b) / T)

/-- Term `j` of the loop from 0 of `series_bessel3br_esc`, sdelib/hitting.py:437-444. -/
noncomputable def besTerm (T b K : ℝ) (j : ℕ) : ℝ :=
  if j % 2 = 1 then besInc T K ((j + 1) / 2) (-b) / b else -(besInc T K (j / 2) b / b)

/-- `series_bessel3br_esc` without upper bound, sdelib/hitting.py:432-444. -/
noncomputable def besSeries (T a b K : ℝ) (i : ℕ) : ℝ :=
  if a ≠ 0 then 1 - (1 - brownSeries T (a - K / 2) (b - K / 2) (K / 2) i) / (1 - Real.exp (-2 * a * b / T))
  else partialSum (besTerm T b K) i

/-- `series_bessel3br_esc`, sdelib/hitting.py:397-444 (the trivial case of l.421-423 does not occur in a call from
`sample_bessel3br_esc`). -/
noncomputable def besEscSeries (T a b K : ℝ) : Option ℝ → ℕ → ℝ
  | none => besSeries T a b K
  | some B => boundedSeries (besSeries T a b K) (besSeries T a b B)

/-- Condition ending the fast-forward at value `i`, sdelib/hitting.py:345 (`seq[0] = 0`). -/
def FastStops (s : ℕ → ℝ) (i : ℕ) : Prop :=
  (2 < i ∧ i % 2 = 1 ∧ s i < 1 ∧ s i < s (i - 2) ∧ s (i - 1) < s i) ∨ s i = (if i = 1 then 0 else s (i - 1))

/-- The fast-forward, sdelib/hitting.py:339-347: the index at which the search starts; `none`: it runs forever. -/
noncomputable def fastForward (s : ℕ → ℝ) : Option ℕ :=
  if h : ∃ i, 1 ≤ i ∧ FastStops s i then some (Nat.find h + 1) else none

/-- `sample_bessel3br_esc` with a seed, sdelib/hitting.py:324-351. -/
noncomputable def besEscSeeded (T a b K : ℝ) (B : Option ℝ) (u : ℝ) : Prog Bool :=
  (Prog.assert (0 < T)).bind fun _ =>
  (Prog.assert (0 ≤ a)).bind fun _ =>
  (Prog.assert (0 < b)).bind fun _ =>
  (Prog.assert (0 ≤ u ∧ u ≤ 1)).bind fun _ =>
  if K ≤ max a b then .ret true
  else if ∃ B', B = some B' ∧ B' < K then .ret false
  else if T < 3 * K ^ 2 then searchResult (escSearch (besEscSeries T a b K B) u 1)
  else match fastForward (besEscSeries T a b K B) with
    | some i0 => searchResult (escSearch (besEscSeries T a b K B) u i0)
    | none => .err .fuel

/-- `sample_bessel3br_esc`, sdelib/hitting.py:268-351. -/
noncomputable def besEsc (T a b K : ℝ) (B : Option ℝ) (seed : Option ℝ) : Prog Bool :=
  match seed with
  | some u => besEscSeeded T a b K B u
  | none => (Prog.draw (.uniform 0 1)).bind fun u => besEscSeeded T a b K B u

/-! ## Minimum of a layered bridge -/

/-- The loop of `sample_layerbr_min` with an upper bound, sdelib/hitting.py:201-210; `n` proposals are left. -/
noncomputable def layerMinLoop (T a b : ℝ) (U : ℝ) (lb ub : Option ℝ) : ℕ → Prog (ℝ × ℝ)
  | 0 => .err .budget
  | n + 1 =>
    (sampleBridgeMin T a b lb ub).bind fun q =>
    (besEsc q.1 0 (a - q.2) (U - q.2) none none).bind fun esc1 =>
    (besEsc (T - q.1) 0 (b - q.2) (U - q.2) none none).bind fun esc2 =>
    if ¬ esc1 ∧ ¬ esc2 then .ret q else layerMinLoop T a b U lb ub n

/-- `sample_layerbr_min`, sdelib/hitting.py:156-210, `n` is `max_props`. -/
noncomputable def sampleLayerMin (n : ℕ) (T a b : ℝ) (U : Option ℝ) (lb ub : Option ℝ) : Prog (ℝ × ℝ) :=
  (Prog.assert (0 < T)).bind fun _ =>
  (Prog.assert (∀ U', U = some U' → max a b ≤ U')).bind fun _ =>
  match U with
  | none => if n = 0 then .err .budget else sampleBridgeMin T a b lb ub
  | some U' => layerMinLoop T a b U' lb ub n

end Ctb
