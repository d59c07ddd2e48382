import Verif.Model.Interp
import Verif.Model.Layers

/-! # Model of the raw bridge skeleton -/

namespace Ctb

open Classical

/-- `sample_raw_skeleton`, ea3lib/skeleton.py:57-73.  The side drawn by `sample_anchor` is not used. -/
noncomputable def sampleRawSkel (n F : ℕ) (T a b : ℝ) (lb ub : Option ℝ) : Prog EaSkel :=
  (sampleAnchor n F T a b lb ub).bind fun anc =>
  (sampleEdges n n T a b anc.2.1 anc.2.2).bind fun e =>
  let skel : EaSkel := ⟨[0, e.1, T], [a, e.2.1, b], e.2.1, e.2.2.2.1, e.2.2.1, e.2.2.2.2⟩
  (Prog.draw (.uniform 0 1)).bind fun u =>
  if u < 1 / 2 then .ret skel else Prog.lift (flipSkel skel)

end Ctb
