import Verif.Spec.EaSkel
import Verif.Model.SdeModels
import Mathlib.MeasureTheory.Integral.IntervalIntegral.Basic

/-! # What the EM objective should be on stored paths -/

namespace Ctb

open Classical

/-- The value a skeleton stores for a time (meaningful at its times). -/
noncomputable def EaSkel.at (s : EaSkel) (r : ℝ) : ℝ := ((s.t.zip s.x).lookup r).getD 0

/-- The hitting level lies strictly between the edges. -/
def EaSkel.HitInside (s : EaSkel) : Prop := s.tight < s.hitX ∧ s.hitX < s.loose ∨ s.loose < s.hitX ∧ s.hitX < s.tight

/-- The bridge from `a` to `b` over `[0, dt]` made from a path `z` on `[0, 1]`. -/
noncomputable def bridgeAt (dt scale a b : ℝ) (z : ℝ → ℝ) (u : ℝ) : ℝ := a + u / dt * (b - a) + scale * z (u / dt)

/-- Length of the interval times the average of `g` at the supports. -/
noncomputable def avgInt (dt : ℝ) (ts : List ℝ) (g : ℝ → ℝ) : ℝ := dt * ((ts.map g).sum / ts.length)

variable {σ : Type}

/-- Discretised integral of `disc` along the path through the reduced observations: `x z` is the normalised path of the segment with seed `z`,
`supp` lists the supports of each segment. -/
noncomputable def emDisc (disc red : ℝ → ℝ) (x : σ → ℝ → ℝ) : List ℝ → List ℝ → List (List ℝ) → List σ → ℝ
  | t0 :: t1 :: t, v0 :: v1 :: v, us :: uss, z :: zs =>
    avgInt (t1 - t0) us (fun u => disc (bridgeAt (t1 - t0) (Real.sqrt (t1 - t0)) (red v0) (red v1) (x z) u)) +
      emDisc disc red x (t1 :: t) (v1 :: v) uss zs
  | _, _, _, _ => 0

/-- The segments between the reduced observations: duration, ends, seed. -/
def emSegs (red : ℝ → ℝ) (t vt : List ℝ) (z : List σ) : List (ℝ × ℝ × ℝ × σ) :=
  (npDiff t).zip ((vt.map red).zip ((vt.tail.map red).zip z))

/-- `disc` along one segment. -/
noncomputable def segDisc (disc : ℝ → ℝ) (x : σ → ℝ → ℝ) (q : ℝ × ℝ × ℝ × σ) (u : ℝ) : ℝ :=
  disc (bridgeAt q.1 (Real.sqrt q.1) q.2.1 q.2.2.1 (x q.2.2.2) u)

/-- The integral of `disc` along the path through the reduced observations. -/
noncomputable def emInt (disc red : ℝ → ℝ) (x : σ → ℝ → ℝ) (t vt : List ℝ) (z : List σ) : ℝ :=
  ((emSegs red t vt z).map fun q => ∫ u in (0 : ℝ)..q.1, segDisc disc x q u).sum

/-- The same with a regime per segment; only the segments whose regime is selected count. -/
noncomputable def emDiscSw (disc : ℕ → ℝ → ℝ) (vol : ℕ → ℝ) (red : ℝ → ℝ) (sel : ℕ → Prop) (x : σ → ℝ → ℝ) :
    List ℝ → List ℕ → List ℝ → List (List ℝ) → List σ → ℝ
  | t0 :: t1 :: t, y :: ys, v0 :: v1 :: v, us :: uss, z :: zs =>
    (if sel y then
      avgInt (t1 - t0) us (fun u => disc y (bridgeAt (t1 - t0) (Real.sqrt (t1 - t0) * vol y) (red v0) (red v1) (x z) u)) else 0) +
      emDiscSw disc vol red sel x (t1 :: t) ys (v1 :: v) uss zs
  | _, _, _, _, _ => 0

/-- The segments of an anchorage: duration, regime, ends, seed. -/
def emSegsSw (red : ℝ → ℝ) (t : List ℝ) (yt : List ℕ) (vt : List ℝ) (z : List σ) : List (ℝ × ℕ × ℝ × ℝ × σ) :=
  (npDiff t).zip (yt.zip ((vt.map red).zip ((vt.tail.map red).zip z)))

/-- The regimes a restriction leaves: all of them, or a single one. -/
def Selected (rs : Option ℕ) (y : ℕ) : Prop := ∀ i, rs = some i → y = i

/-- `disc` along one segment, zero unless its regime is selected. -/
noncomputable def segDiscSw (disc : ℕ → ℝ → ℝ) (vol : ℕ → ℝ) (sel : ℕ → Prop) (x : σ → ℝ → ℝ) (q : ℝ × ℕ × ℝ × ℝ × σ) (u : ℝ) : ℝ :=
  if sel q.2.1 then disc q.2.1 (bridgeAt q.1 (Real.sqrt q.1 * vol q.2.1) q.2.2.1 q.2.2.2.1 (x q.2.2.2.2) u) else 0

/-- The integral of `disc` along the path through the anchors, over the segments whose regime is selected. -/
noncomputable def emIntSw (disc : ℕ → ℝ → ℝ) (vol : ℕ → ℝ) (red : ℝ → ℝ) (sel : ℕ → Prop) (x : σ → ℝ → ℝ) (t : List ℝ) (yt : List ℕ)
    (vt : List ℝ) (z : List σ) : ℝ :=
  ((emSegsSw red t yt vt z).map fun q => ∫ u in (0 : ℝ)..q.1, segDiscSw disc vol sel x q u).sum

end Ctb
