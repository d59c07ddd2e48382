import Verif.Spec.RawLaw
import Verif.Model.RawSkel

/-! # Raw skeletons filled in at given times -/

namespace Ctb

/-- A raw skeleton and its values at the times `t`: `sample_raw_skeleton` followed by `interpolate_skeleton`. -/
noncomputable def rawFill (n F k : ℕ) (T a b : ℝ) (t : List ℝ) : Prog (EaSkel × List ℝ) :=
  (sampleRawSkel n F T a b none none).bind fun s => (interpolateSkel n k s t).bind fun r => .ret (s, r.2)

/-- The flags of a skeleton of layer `k + 1` that only leaves layer `k` on the side of its extreme value. -/
def unsetFlags (k : ℕ) : Option (List Bool) := if k = 0 then none else some [false, false]

/-- The skeleton belongs to layer `k + 1`. -/
def inLayer (T a b : ℝ) (k : ℕ) (s : EaSkel) : Prop := s.loose = layerHigh T a b (k + 1) ∨ s.loose = layerLow T a b (k + 1)

end Ctb
