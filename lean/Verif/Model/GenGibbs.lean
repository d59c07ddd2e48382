import Verif.Model.MjpInference
import Verif.Model.SwitchHidden

/-!
# Model of `update_generator` in `ctbayes/switching/mcmc.py`
-/

namespace Ctb

/-- `update_generator`, switching/mcmc.py:243-246: the conjugate update of the hyper-parameters with the regimes of the anchorage, then one draw. -/
noncomputable def gibbsGenerator {V : Type} (dim : ℕ) (h : Anchorage ℝ V) (alp0 bet0 : NMat) : Prog NMat :=
  (Prog.lift (pruneAnchorage h)).bind fun y =>
    sampleParam dim (mjpUpdate y alp0 bet0).1 (mjpUpdate y alp0 bet0).2

end Ctb
