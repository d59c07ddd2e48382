import Verif.Model.RawSkel
import Verif.Model.MjpSampling
import Verif.Model.SdeModels
import Verif.Model.Ars

/-!
# Model of `ctbayes/ea3lib/seed.py` and of the coins in `ctbayes/ea3lib/skeleton.py`, and of `flip_param_coin`

A `SeedSkeleton` has the fields of a `Skeleton` (`EaSkel`), with times in `[0, 1]` and values of the normalised bridge.  The pair
`(norm_rsde, denorm_rsde)` is a `NormOp`.  `n`, `k` are the proposal budgets of the samplers called by the interpolation.

Simplification: arrays of different lengths that numpy would try to broadcast raise ValueError here; lengths differ only if two new times
coincide.
-/

namespace Ctb

open Classical

/-- `interpolate_seed`, ea3lib/seed.py:209-227. -/
noncomputable def interpolateSeed (n k : ℕ) (op : NormOp) (s : EaSkel) (newT : List ℝ) : Prog (EaSkel × List ℝ) :=
  let newS := newT.map fun t => (op.norm t none).1
  (interpolateSkel n k s newS).bind fun r =>
  if r.2.length = newS.length then .ret (r.1, List.zipWith (fun s z => (op.denorm s (some z)).2.getD 0) newS r.2) else .err .value

/-! ## Bounds of the discriminant along the path -/

/-- Second argument of `bound_disc_path`: an integer or an array of times. -/
inductive Grid where
  | pieces (m : ℕ)
  | times (t : List ℝ)

/-- `s`, ea3lib/seed.py:249-252; `np.linspace(0, 1, m + 1)`. -/
noncomputable def Grid.normed (op : NormOp) : Grid → List ℝ
  | .pieces m => (List.range (m + 1)).map fun i : ℕ => (i : ℝ) / m
  | .times t => t.map fun t => (op.norm t none).1

/-- `bound_disc_path`, ea3lib/seed.py:230-261.  Unpacking an empty `zip` raises ValueError. -/
noncomputable def boundDiscPath (ebd : ℝ → ℝ → Res DiscBounds) (op : NormOp) (z : EaSkel) (g : Grid) :
    Res (List ℝ × List ℝ × List (WithTop ℝ)) :=
  let e := if z.tight < z.loose then (z.tight, z.loose) else (z.loose, z.tight)
  let s := g.normed op
  let t := s.map fun s => (op.denorm s (some e.1)).1
  let lx := s.map fun s => (op.denorm s (some e.1)).2.getD 0
  let ux := s.map fun s => (op.denorm s (some e.2)).2.getD 0
  let lx := List.zipWith min lx.tail lx.dropLast
  let ux := List.zipWith max ux.tail ux.dropLast
  match listOk (List.zipWith ebd lx ux) with
  | .error e => .error e
  | .ok [] => .error .value
  | .ok bs => .ok (t, bs.map fun b => b.2.1, bs.map fun b => b.2.2)

/-- `-np.diff(t) @ le_phi`, ea3lib/seed.py:102, 179, 206. -/
noncomputable def stLbDisc (t le : List ℝ) : ℝ := (List.zipWith (fun d l => -d * l) (npDiff t) le).sum

/-- `integrate_disc_bound`, ea3lib/seed.py:193-206. -/
noncomputable def integrateDiscBound (ebd : ℝ → ℝ → Res DiscBounds) (op : NormOp) (z : EaSkel) : Res ℝ :=
  match boundDiscPath ebd op z (.pieces 1) with
  | .error e => .error e
  | .ok b => .ok (stLbDisc b.1 b.2.1)

/-- `np.max(ue_phi - le_phi)`, ea3lib/seed.py:103, 180. -/
noncomputable def maxGap (le : List ℝ) (ue : List (WithTop ℝ)) : Res (WithTop ℝ) :=
  match List.zipWith (fun (l : ℝ) (u : WithTop ℝ) => u.map fun u => u - l) le ue with
  | [] => .error .value
  | d :: ds => .ok (ds.foldl max d)

/-! ## Coins -/

/-- A point `(mark, time)` of the Poisson process from a row. -/
def rowPoint (row : List ℝ) : ℝ × ℝ := (row.headD 0, row.tail.headD 0)

/-- `ppp.T[:, np.argsort(ppp.T[1])]`: the points of a batch ordered by time. -/
noncomputable def byTime (rows : List (List ℝ)) : List (ℝ × ℝ) := (rows.map rowPoint).insertionSort fun a b => a.2 ≤ b.2

/-- The loop `for ppp in sample_batch_ppp(1, (height, fin_t), batch_size)` common to the coins: `step` interpolates at the points of the
batch and tells whether the coin fails there. -/
noncomputable def coinLoop {σ : Type} (step : σ → List (ℝ × ℝ) → Prog (Bool × σ)) (m : ℕ) (h T : ℝ) : σ → ℝ → List ℕ → Prog (Bool × σ)
  | s, _, [] => .ret (true, s)
  | s, lb, i :: is =>
    (pppBatch m h [T] lb i).bind fun r =>
    (step s (byTime r.2)).bind fun q =>
    if q.1 then .ret (false, q.2) else coinLoop step m h T q.2 r.1 is

/-- The loop with the preamble of `sample_batch_ppp(1, (height, fin_t), batch_size)`, mjplib/skeleton.py:48-55. -/
noncomputable def batchCoin {σ : Type} (step : σ → List (ℝ × ℝ) → Prog (Bool × σ)) (h T : ℝ) (size : ℤ) (s : σ) : Prog (Bool × σ) :=
  (Prog.assert (∀ b ∈ [h, T], 0 < b)).bind fun _ =>
  (Prog.assert (0 < size)).bind fun _ =>
  .nat (.poisson (1 * [h, T].prod)) fun m => coinLoop step m h T s 0 (batchSizes m size.toNat)

/-- `le_phi[np.searchsorted(t, new_t, 'right') - 1]`, ea3lib/seed.py:113. -/
noncomputable def lowerAt (t le : List ℝ) (r : ℝ) : Option ℝ := pyGet le ((searchRight t r : ℤ) - 1)

/-- `new_phi - le_phi[...] > crit_phi` for one point, ea3lib/seed.py:113; an index out of range raises IndexError. -/
noncomputable def isBelow (disc : ℝ → ℝ) (t le : List ℝ) (p : ℝ × ℝ) (x : ℝ) : Res Bool :=
  match lowerAt t le p.2 with
  | some l => .ok (decide (p.1 < disc x - l))
  | none => .error .index

/-- `np.any(new_phi - le_phi[...] > crit_phi)`, ea3lib/seed.py:113. -/
noncomputable def anyBelow (disc : ℝ → ℝ) (t le : List ℝ) (ps : List (ℝ × ℝ)) (xs : List ℝ) : Res Bool :=
  match listOk (List.zipWith (isBelow disc t le) ps xs) with
  | .error e => .error e
  | .ok bs => .ok (bs.any id)

/-- Body of the loop in `flip_poisson_coin`, ea3lib/seed.py:109-114, for an interpolation `interp`. -/
noncomputable def poissonStep {σ : Type} (interp : σ → List ℝ → Prog (σ × List ℝ)) (disc : ℝ → ℝ) (t le : List ℝ) (s : σ)
    (ps : List (ℝ × ℝ)) : Prog (Bool × σ) :=
  (interp s (ps.map Prod.snd)).bind fun q =>
  (Prog.lift (anyBelow disc t le ps q.2)).bind fun b => .ret (b, q.1)

/-- `flip_poisson_coin`, ea3lib/seed.py:83-115. -/
noncomputable def seedCoin {σ : Type} (interp : σ → List ℝ → Prog (σ × List ℝ)) (disc : ℝ → ℝ) (op : NormOp)
    (bound : Res (List ℝ × List ℝ × List (WithTop ℝ))) (size : ℤ) (s : σ) : Prog (Bool × ℝ × σ) :=
  (Prog.lift bound).bind fun b =>
  (Prog.lift (maxGap b.2.1 b.2.2)).bind fun d =>
  match d with
  | ⊤ => .ret (false, stLbDisc b.1 b.2.1, s)
  | (h : ℝ) => (batchCoin (poissonStep interp disc b.1 b.2.1) h (op.denorm 1 none).1 size s).bind fun r => .ret (r.1, stLbDisc b.1 b.2.1, r.2)

/-- `flip_poisson_coin` with the interpolation of the source. -/
noncomputable def flipPoissonCoin (n k : ℕ) (disc : ℝ → ℝ) (ebd : ℝ → ℝ → Res DiscBounds) (op : NormOp) (size : ℤ) (z : EaSkel) :
    Prog (Bool × ℝ × EaSkel) :=
  seedCoin (interpolateSeed n k op) disc op (boundDiscPath ebd op z (.pieces 1)) size z

/-- `gap`, ea3lib/seed.py:152-155. -/
noncomputable def dualGap (upside : Bool) (p0 p1 : ℝ) : ℝ :=
  if upside then (if p0 < p1 then p1 - p0 else 0) else if p1 < p0 then p0 - p1 else 0

/-- Body of the loop in `flip_dual_coin`, ea3lib/seed.py:146-158.  `guard` says whether the assertion of line 156 is executed; it is in the
source. -/
noncomputable def dualStep {σ : Type} (guard : Bool) (interp0 interp1 : σ → List ℝ → Prog (σ × List ℝ)) (disc0 disc1 : ℝ → ℝ)
    (intensity : ℝ) (upside : Bool) (s : σ) (ps : List (ℝ × ℝ)) : Prog (Bool × σ) :=
  (interp0 s (ps.map Prod.snd)).bind fun q0 =>
  (interp1 q0.1 (ps.map Prod.snd)).bind fun q1 =>
  if ¬ q0.2.length = q1.2.length then .err .value else
  let gap := List.zipWith (fun x0 x1 => dualGap upside (disc0 x0) (disc1 x1)) q0.2 q1.2
  (if guard then Prog.assert (¬ ∃ g ∈ gap, intensity < g) else .ret ()).bind fun _ =>
  .ret ((List.zipWith (fun (p : ℝ × ℝ) g => decide (p.1 < g)) ps gap).any id, q1.1)

/-- `flip_dual_coin`, ea3lib/seed.py:118-159. -/
noncomputable def flipDualCoin (guard : Bool) (n k : ℕ) (intensity : ℝ) (op0 op1 : NormOp) (disc0 disc1 : ℝ → ℝ) (upside : Bool) (size : ℤ)
    (z : EaSkel) : Prog (Bool × EaSkel) :=
  batchCoin (dualStep guard (interpolateSeed n k op0) (interpolateSeed n k op1) disc0 disc1 intensity upside) intensity
    (op0.denorm 1 none).1 size z

/-- Logarithm of a product of non-negative numbers; `none` is `-inf`, a negative number gives NaN. -/
noncomputable def sumLog (l : List ℝ) : Res (Option ℝ) :=
  if ∃ a ∈ l, a < 0 then .error .nan else if (0 : ℝ) ∈ l then .ok none else .ok (some (l.map Real.log).sum)

/-- `est_poisson_coin`, ea3lib/seed.py:162-190, for an interpolation `interp`; the estimate `none` is `-inf`.  With the grid of one piece
used here `ue_phi` has one entry `u`. -/
noncomputable def seedEst {σ : Type} (interp : σ → List ℝ → Prog (σ × List ℝ)) (disc : ℝ → ℝ) (op : NormOp)
    (bound : Res (List ℝ × List ℝ × List (WithTop ℝ))) (s : σ) : Prog (Option ℝ × ℝ × σ) :=
  (Prog.lift bound).bind fun b =>
  (Prog.lift (maxGap b.2.1 b.2.2)).bind fun d =>
  match d, b.2.2 with
  | ⊤, _ => .ret (none, stLbDisc b.1 b.2.1, s)
  | (h : ℝ), [((u : ℝ) : WithTop ℝ)] =>
    (samplePpp h [(op.denorm 1 none).1]).bind fun rows =>
    if rows = [] then .ret (some 0, stLbDisc b.1 b.2.1, s) else
    (interp s (rows.map firstCoord)).bind fun q =>
    (Prog.lift (sumLog (q.2.map fun x => u - disc x))).bind fun v =>
    .ret (v.map fun v => v - q.2.length * Real.log h, stLbDisc b.1 b.2.1, q.1)
  | _, _ => .err .value

/-- `est_poisson_coin` with the interpolation of the source. -/
noncomputable def estPoissonCoin (n k : ℕ) (disc : ℝ → ℝ) (ebd : ℝ → ℝ → Res DiscBounds) (op : NormOp) (z : EaSkel) :
    Prog (Option ℝ × ℝ × EaSkel) :=
  seedEst (interpolateSeed n k op) disc op (boundDiscPath ebd op z (.pieces 1)) z

/-- `sample_raw_seed`, ea3lib/seed.py:65-80. -/
noncomputable def sampleRawSeed (n F : ℕ) (op : NormOp) (lb ub : Option ℝ) : Prog EaSkel :=
  sampleRawSkel n F 1 0 0 (seedLb op lb) (seedUb op ub)

/-! ## Coins for skeletons, ea3lib/skeleton.py -/

/-- Body of the loop in `flip_poisson_coin`, ea3lib/skeleton.py:93-96. -/
noncomputable def skelStep {σ : Type} (interp : σ → List ℝ → Prog (σ × List ℝ)) (disc : ℝ → ℝ) (cent : ℝ) (s : σ)
    (ps : List (ℝ × ℝ)) : Prog (Bool × σ) :=
  (interp s (ps.map Prod.snd)).bind fun q =>
  if ¬ q.2.length = ps.length then .err .value else
  .ret ((List.zipWith (fun (p : ℝ × ℝ) x => decide (p.1 < disc x - cent)) ps q.2).any id, q.1)

/-- `flip_poisson_coin`, ea3lib/skeleton.py:76-97; `T = skel.t[-1]`.  A NaN or infinite height raises AssertionError and ValueError
(from `poisson(inf)`). -/
noncomputable def skelCoin {σ : Type} (interp : σ → List ℝ → Prog (σ × List ℝ)) (disc : ℝ → ℝ) (b : DiscBounds) (T : ℝ) (size : ℤ) (s : σ) :
    Prog (Bool × σ) :=
  match b.1, b.2.2 with
  | some c, ((u : ℝ) : WithTop ℝ) => batchCoin (skelStep interp disc c) (u - c) T size s
  | none, _ => .err .assertion
  | some _, ⊤ => if 0 < T ∧ 0 < size then .err .value else .err .assertion

/-- `flip_poisson_coin` with the interpolation of the source. -/
noncomputable def flipSkelCoin (n k : ℕ) (disc : ℝ → ℝ) (ebd : ℝ → ℝ → Res DiscBounds) (size : ℤ) (s : EaSkel) : Prog (Bool × EaSkel) :=
  (Prog.lift (ebd (min s.loose s.tight) (max s.loose s.tight))).bind fun b =>
  match s.t.getLast? with
  | none => .err .index
  | some T => skelCoin (interpolateSkel n k) disc b T size s

/-- `est_poisson_coin`, ea3lib/skeleton.py:100-121, for an interpolation `interp`; the estimate `none` is `-inf`.  An infinite upper
bound makes `poisson(inf)` raise ValueError. -/
noncomputable def skelEst {σ : Type} (interp : σ → List ℝ → Prog (σ × List ℝ)) (disc : ℝ → ℝ) (b : DiscBounds) (T : ℝ) (s : σ) :
    Prog (Option ℝ × σ) :=
  match b.2.2, b.1 with
  | ⊤, _ => if 0 < T then .err .value else .err .assertion
  | ((u : ℝ) : WithTop ℝ), none => (samplePpp (u - b.2.1) [T]).bind fun _ => .err .nan
  | ((u : ℝ) : WithTop ℝ), some c =>
    let h := u - b.2.1
    (samplePpp h [T]).bind fun rows =>
    if rows = [] then .ret (some ((h - u + c) * T), s) else
    (interp s (rows.map firstCoord)).bind fun q =>
    (Prog.lift (sumLog (q.2.map fun x => u - disc x))).bind fun v =>
    .ret (v.map fun v => v - rows.length * Real.log h + (h - u + c) * T, q.1)

/-! ## `flip_param_coin` -/

/-- `flip_param_coin`, ito/mcmc.py:106-116; `T`, `v0`, `v1` are `mod.t[-1]`, `mod.vt[0]`, `mod.vt[-1]`. -/
noncomputable def itoFlipParam {p : ℕ} (guard : Bool) (n k : ℕ) (M : ItoFns p) (grad : (Fin p → ℝ) → (Fin p → ℝ) → ℝ → ℝ → ℝ → ℝ → ℝ → Fin p → ℝ)
    (nil prime : Fin p → ℝ) (T v0 v1 : ℝ) (upside : Bool) (size : ℤ) (z : EaSkel) : Prog (Bool × EaSkel) :=
  match itoNormops M nil [0, T] [v0, v1], itoNormops M prime [0, T] [v0, v1] with
  | op0 :: _, op1 :: _ => flipDualCoin guard n k (itoIntensity nil prime (grad nil prime T v0 v1 z.loose z.tight)) op0 op1 (M.disc nil)
      (M.disc prime) upside size z
  | _, _ => .err .index

/-- `flip_param_coin`, switching/mcmc.py:139-150. -/
noncomputable def swFlipParam {p : ℕ} (guard : Bool) (n k : ℕ) (M : RegimeFns p) (grad : (Fin p → ℝ) → (Fin p → ℝ) → ℝ → ℝ → ℝ → ℝ → ℝ → Fin p → ℝ)
    (nil prime : Thi p) (T : ℝ) (y : ℕ) (v0 v1 : ℝ) (upside : Bool) (size : ℤ) (z : EaSkel) : Prog (Bool × EaSkel) :=
  match swNormops M nil [0, T] [y, y] [v0, v1], swNormops M prime [0, T] [y, y] [v0, v1] with
  | op0 :: _, op1 :: _ => flipDualCoin guard n k (swIntensity (nil y) (prime y) (grad (nil y) (prime y) T v0 v1 z.loose z.tight)) op0 op1
      (M.disc nil y) (M.disc prime y) upside size z
  | _, _ => .err .index

end Ctb
