import Verif.Model.McemObjective
import Verif.Model.Ars

/-!
# Model of the end point proposals

File: ito/static.py (`sample_conv_endpt`).  `mode` is the point `scipy.optimize.minimize` returns inside `brace`.
-/

namespace Ctb

/-- `f` of `sample_conv_endpt`, ito/static.py:87-88. -/
noncomputable def convF {p : ℕ} (M : ItoFns p) (thi : Fin p → ℝ) (finT x0 x : ℝ) : ℝ := M.sxDrift thi x - (x - x0) ^ 2 / (2 * finT)

/-- `df` of `sample_conv_endpt`, ito/static.py:89-90. -/
noncomputable def convDf {p : ℕ} (M : ItoFns p) (thi : Fin p → ℝ) (finT x0 x : ℝ) : ℝ := M.drift thi x - (x - x0) / finT

/-- The starting points of the sampler, misc/ars.py:40-41. -/
noncomputable def convInit (lb ub : EReal) (mode : ℝ) : List ℝ := [(brace lb ub mode).1, (brace lb ub mode).2]

/-- The first `n` values of `sample_conv_endpt`, ito/static.py:85-91; `max_points` keeps its default 100. -/
noncomputable def sampleConvEndpt {p : ℕ} (M : ItoFns p) (lb ub : EReal) (thi : Fin p → ℝ) (finT x0 mode : ℝ) (fuel n : ℕ) :
    Prog (List ℝ × Hull) :=
  arsSample (convF M thi finT x0) (convDf M thi finT x0) lb ub (convInit lb ub mode) 100 fuel n

end Ctb
