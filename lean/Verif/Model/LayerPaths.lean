import Verif.Model.Hitting
import Verif.Model.SdePaths

/-!
# Model of the samplers of a bridge inside a layer

File: sdelib/paths.py.  `T` is `fin_t`, `U` is `ub_sup_x`, `L` is `lb_sup_x`.
-/

namespace Ctb

open Classical

/-- Entry `j` of `np.linalg.norm(ws, axis=0)`. -/
noncomputable def colNorm (ws : List (List ℝ)) (j : ℕ) : ℝ := √((ws.map fun w => (w.getD j 0) ^ 2).sum)

/-- `sample_besselbr`, sdelib/paths.py:129-165, started at 0. -/
noncomputable def sampleBesselbr (t : List ℝ) (T x : ℝ) (dim : ℕ) : Prog (List ℝ) :=
  if t = [] then .err .value else
  (Prog.assert (∀ a ∈ t, 0 < a ∧ a < T)).bind fun _ =>
  (Prog.assert (0 < dim)).bind fun _ =>
  (Prog.mapM' (fun w => sampleBrownbr t T 0 w) (List.replicate (dim - 1) 0 ++ [x])).bind fun ws =>
  .ret ((List.range t.length).map fun j : ℕ => colNorm ws j)

/-- `zip(np.diff(t_), xt_[:-1], xt_[1:])`, sdelib/paths.py:276 and 281. -/
def gapsOf (t x : List ℝ) : List (ℝ × ℝ × ℝ) := (npDiff t).zip (x.dropLast.zip x.tail)

/-- `[sample_bessel3br_esc(dt, x0, x1, K, B) for dt, x0, x1 in ...]`, sdelib/paths.py:275-276 and 280-281. -/
noncomputable def escGaps (t x : List ℝ) (K : ℝ) (B : Option ℝ) : Prog (List Bool) :=
  Prog.mapM' (fun g => besEsc g.1 g.2.1 g.2.2 K B none) (gapsOf t x)

/-- `None` or an escape from `U`, sdelib/paths.py:275-276. -/
noncomputable def escAny (t x : List ℝ) (U : Option ℝ) : Prog Bool :=
  match U with
  | none => .ret false
  | some U' => (escGaps t x U' none).bind fun es => .ret (es.any id)

/-- The hit flags, sdelib/paths.py:277-281. -/
noncomputable def hitFlags (t x : List ℝ) (U L : Option ℝ) : Prog (List Bool) :=
  match L with
  | none => .ret []
  | some L' => escGaps t x L' U

/-- The loop of `propose_layerbr_edge`, sdelib/paths.py:270-284. -/
noncomputable def edgeLoop (t : List ℝ) (T x : ℝ) (U L : Option ℝ) : ℕ → Prog (List ℝ × List Bool)
  | 0 => .err .budget
  | n + 1 =>
    (if t = [] then Prog.ret [] else sampleBesselbr t T x 3).bind fun xt =>
    let t' := 0 :: t ++ [T]
    let x' := 0 :: xt ++ [x]
    (escAny t' x' U).bind fun esc =>
    if esc then edgeLoop t T x U L n
    else (hitFlags t' x' U L).bind fun hit => .ret (xt, hit)

/-- `propose_layerbr_edge`, sdelib/paths.py:228-284, `n` is `max_props`. -/
noncomputable def proposeEdge (n : ℕ) (t : List ℝ) (T x : ℝ) (U L : Option ℝ) : Prog (List ℝ × List Bool) :=
  (Prog.assert (∀ a ∈ t, 0 < a ∧ a < T)).bind fun _ =>
  (Prog.assert (∀ U', U = some U' → x < U')).bind fun _ =>
  edgeLoop t T x U L n

/-- `i0[:-1] + [i0[-1] or i1[0]] + i1[1:]`, sdelib/paths.py:355; `none` is IndexError. -/
def joinFlags (i0 i1 : List Bool) : Option (List Bool) :=
  match i0.getLast?, i1 with
  | some a, b :: i1' => some (i0.dropLast ++ [a || b] ++ i1')
  | _, _ => none

/-- Type of `propose_layerbr`: times, `fin_t`, `init_x`, `fin_x`, `inf_x`. -/
abbrev LayerProp := List ℝ → ℝ → ℝ → ℝ → ℝ → Prog (List ℝ × List Bool)

/-- Body of `propose_layerbr`, sdelib/paths.py:326-355; `rec` stands for the recursive calls. -/
noncomputable def layerStep (n : ℕ) (U L : Option ℝ) (rec : LayerProp) : LayerProp := fun t T a b m =>
  (Prog.assert (∀ s ∈ t, 0 < s ∧ s < T)).bind fun _ =>
  (Prog.assert (m ≤ min a b)).bind fun _ =>
  (Prog.assert (∀ U', U = some U' → max a b < U')).bind fun _ =>
  if ∃ U' L', U = some U' ∧ L = some L' ∧ ¬ L' < U' then .err .exception else
  if m = a ∨ m = b then
    if m = b then
      (proposeEdge n ((t.reverse).map (T - ·)) T (a - m) (U.map (· - m)) (L.map (· - m))).bind fun r =>
      .ret (r.1.reverse.map (· + m), r.2.reverse)
    else
      (proposeEdge n t T (b - m) (U.map (· - m)) (L.map (· - m))).bind fun r => .ret (r.1.map (· + m), r.2)
  else
    (sampleLayerMin n T a b U (some m) none).bind fun q =>
    let k := searchLeft t q.1
    (rec (t.take k) q.1 a q.2 q.2).bind fun r0 =>
    (rec ((t.drop k).map (· - q.1)) (T - q.1) q.2 b q.2).bind fun r1 =>
    match L with
    | none => .ret (r0.1 ++ r1.1, [])
    | some _ =>
      match joinFlags r0.2 r1.2 with
      | some i => .ret (r0.1 ++ r1.1, i)
      | none => .err .index

/-- `propose_layerbr`, sdelib/paths.py:287-355.  The recursive calls have their minimum at an end point and do not recur
(`proposeLayer_unfold`). -/
noncomputable def proposeLayer (n : ℕ) (U L : Option ℝ) : LayerProp := layerStep n U L (layerStep n U L fun _ _ _ _ _ => .err .fuel)

/-- The loop of `sample_layerbr`, sdelib/paths.py:218-225; the last argument is the number of proposals left, `n` the `max_props` of the
inner samplers. -/
noncomputable def layerbrLoop (n : ℕ) (t : List ℝ) (T a b m : ℝ) (U L : Option ℝ) : ℕ → Prog (List ℝ × Option (List Bool))
  | 0 => .err .budget
  | k + 1 =>
    (proposeLayer n U L t T a b m).bind fun r =>
    match L with
    | none => .ret (r.1, none)
    | some _ => if r.2.any id then .ret (r.1, some r.2) else layerbrLoop n t T a b m U L k

/-- `sample_layerbr`, sdelib/paths.py:168-225, `k` is its `max_props`, `n` the one of the samplers it calls. -/
noncomputable def sampleLayerbr (n k : ℕ) (t : List ℝ) (T a b m : ℝ) (U L : Option ℝ) : Prog (List ℝ × Option (List Bool)) :=
  if t = [] then .err .value else
  (Prog.assert (∀ s ∈ t, 0 < s ∧ s < T)).bind fun _ =>
  (Prog.assert (0 < k)).bind fun _ =>
  (Prog.assert (m ≤ min a b)).bind fun _ =>
  (Prog.assert (∀ U', U = some U' → max a b < U')).bind fun _ =>
  (Prog.assert (∀ U' L', U = some U' → L = some L' → L' < U')).bind fun _ =>
  layerbrLoop n t T a b m U L k

end Ctb
