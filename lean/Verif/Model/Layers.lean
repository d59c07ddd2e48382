import Verif.Model.Hitting

/-!
# Model of the layers of a bridge

File: sdelib/layers.py.  Bounds of the state space are `Option ℝ`, `none` for the infinite ones.
-/

namespace Ctb

open Classical

/-- `x - y` where `y` may be infinite: `mirror - ub_x`. -/
noncomputable def mirrorBound (c : ℝ) (ub : Option ℝ) : Option ℝ := ub.map (c - ·)

/-- `compute_edges`, sdelib/layers.py:161-202, with the layer index as a natural number (`assert 0 <= i`).  A quantile `-inf` does not
occur, since the probability is positive. -/
noncomputable def computeEdges (i : ℕ) (T a b : ℝ) (lb ub : Option ℝ) (pow : ℕ) : Res (ℝ × ℝ) :=
  if ¬ 0 < T then .error .assertion
  else if ¬ (∀ l, lb = some l → l < min a b) then .error .assertion
  else if ¬ (∀ u, ub = some u → max a b < u) then .error .assertion
  else if i = 0 then .ok (min a b, max a b)
  else
    let c := (a + b) / 2
    match ppfBridgeMin (1 / ((i : ℝ) ^ pow + 1)) T a b lb none,
      ppfBridgeMin (1 / ((i : ℝ) ^ pow + 1)) T (c - a) (c - b) (mirrorBound c ub) none with
    | .ok (some l), .ok (some u) => .ok (l, c - u)
    | .error e, _ => .error e
    | _, .error e => .error e
    | _, _ => .error .nan

/-! ## Sampling a layer, an anchor, the edges and a raw skeleton

`n` proposals are allowed in each rejection loop; `F` bounds the endless loop over the layers (running out of it is the model artefact `fuel`). -/

/-- The proposals of `sample_layer` with two finite bounds, sdelib/layers.py:77-84. -/
noncomputable def layerSeedLoop (T a b l u : ℝ) : ℕ → Prog ℝ
  | 0 => .err .budget
  | n + 1 =>
    (Prog.draw (.uniform 0 1)).bind fun v =>
    (brownEsc T (a - (l + u) / 2) (b - (l + u) / 2) ((u - l) / 2) none (some v)).bind fun esc =>
    if ¬ esc then .ret v else layerSeedLoop T a b l u n

/-- The seed common to all layers, sdelib/layers.py:77-90. -/
noncomputable def layerSeed (n : ℕ) (T a b : ℝ) (lb ub : Option ℝ) : Prog ℝ :=
  match lb, ub with
  | some l, some u => layerSeedLoop T a b l u n
  | some l, none => (Prog.lift (cdfBridgeMin (some l) T a b none none)).bind fun p => Prog.draw (.uniform p 1)
  | none, some u => (Prog.lift (cdfBridgeMin (some (-u)) T (-b) (-a) none none)).bind fun p => Prog.draw (.uniform p 1)
  | none, none => Prog.draw (.uniform 0 1)

/-- The loop over the layers from `l` on, sdelib/layers.py:92-96. -/
noncomputable def layerSearch (T a b : ℝ) (lb ub : Option ℝ) (u : ℝ) : ℕ → ℕ → Prog ℕ
  | 0, _ => .err .fuel
  | F + 1, l =>
    (Prog.lift (computeEdges l T a b lb ub 2)).bind fun e =>
    (brownEsc T (a - (e.1 + e.2) / 2) (b - (e.1 + e.2) / 2) ((e.2 - e.1) / 2) none (some u)).bind fun esc =>
    if ¬ esc then .ret l else layerSearch T a b lb ub u F (l + 1)

/-- `sample_layer`, sdelib/layers.py:10-96. -/
noncomputable def sampleLayer (n F : ℕ) (T a b : ℝ) (lb ub : Option ℝ) : Prog ℕ :=
  (Prog.assert (0 < T)).bind fun _ =>
  (layerSeed n T a b lb ub).bind fun u =>
  layerSearch T a b lb ub u F 1

/-- The probabilities `p_lo`, `p_hi`, sdelib/layers.py:120-121. -/
noncomputable def sectorProbs (T a b : ℝ) (lo hi : ℝ × ℝ) : Res (ℝ × ℝ) :=
  match cdfBridgeMin (some lo.2) T a b (some lo.1) none, cdfBridgeMin (some (-hi.1)) T (-b) (-a) (some (-hi.2)) none with
  | .ok p, .ok q => .ok (p, q)
  | .error e, _ => .error e
  | _, .error e => .error e

/-- `sample_anchor`, sdelib/layers.py:99-124. -/
noncomputable def sampleAnchor (n F : ℕ) (T a b : ℝ) (lb ub : Option ℝ) : Prog (Bool × (ℝ × ℝ) × ℝ × ℝ) :=
  (Prog.assert (0 < T)).bind fun _ =>
  (sampleLayer n F T a b lb ub).bind fun l =>
  (Prog.lift (computeEdges l T a b lb ub 2)).bind fun inn =>
  (Prog.lift (computeEdges (l - 1) T a b lb ub 2)).bind fun ou =>
  (Prog.lift (sectorProbs T a b (inn.1, ou.1) (ou.2, inn.2))).bind fun p =>
  (Prog.draw (.uniform 0 1)).bind fun u =>
  .ret (decide (u < p.1 / (p.1 + p.2)), (inn.1, ou.1), (ou.2, inn.2))

/-- The loop of `sample_edges`, sdelib/layers.py:149-158; `m` is the budget of `sample_layerbr_min`. -/
noncomputable def edgesLoop (m : ℕ) (T a b : ℝ) (inf sup : ℝ × ℝ) : ℕ → Prog (ℝ × ℝ × ℝ × ℝ × Option (List Bool))
  | 0 => .err .budget
  | n + 1 =>
    (sampleLayerMin m T a b (some sup.2) (some inf.1) (some inf.2)).bind fun q =>
    if min a b = inf.2 ∨ min a b = sup.1 then .ret (q.1, q.2, sup.1, sup.2, none)
    else
      (besEsc q.1 0 (a - q.2) (sup.1 - q.2) (some (sup.2 - q.2)) none).bind fun esc1 =>
      (besEsc (T - q.1) 0 (b - q.2) (sup.1 - q.2) (some (sup.2 - q.2)) none).bind fun esc2 =>
      if ¬ esc1 ∧ ¬ esc2 then .ret (q.1, q.2, sup.1, sup.2, some [esc1, esc2])
      else
        (Prog.draw (.uniform 0 1)).bind fun u =>
        if 1 / 2 < u then .ret (q.1, q.2, sup.1, sup.2, some [esc1, esc2]) else edgesLoop m T a b inf sup n

/-- `sample_edges`, sdelib/layers.py:127-158. -/
noncomputable def sampleEdges (m n : ℕ) (T a b : ℝ) (inf sup : ℝ × ℝ) : Prog (ℝ × ℝ × ℝ × ℝ × Option (List Bool)) :=
  (Prog.assert (0 < T)).bind fun _ =>
  (Prog.assert (0 < n)).bind fun _ =>
  edgesLoop m T a b inf sup n

end Ctb
