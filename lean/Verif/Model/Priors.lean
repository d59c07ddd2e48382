import Verif.Model.SwitchParams

/-!
# Model of the log priors of the `ito` models

Files: ito/models/ou.py, ito/models/cir.py (`eval_log_prior`).  The priors of the `switching` models are in
`Verif.Model.SwitchParams` (`evalLogPrior`).  `none` is `-inf`.
-/

namespace Ctb

/-- `eval_log_prior`, ito/models/ou.py:61-65.  An entry that is exactly zero gives `-(−inf + inf)`, the model's `nan`. -/
noncomputable def itoOuLogPrior (sb sr : ℝ) (thi : Fin 2 → ℝ) : Res (Option ℝ) :=
  if ∃ j, thi j < 0 then .ok none
  else if ∃ j, thi j = 0 then .error .nan
  else .ok (some (-(Real.log (thi 0) + Real.log (thi 1) + Real.log (thi 0) ^ 2 / (2 * sb ^ 2) + Real.log (thi 1 ^ 2) ^ 2 / (2 * sr ^ 2))))

/-- `eval_log_prior`, ito/models/cir.py:62-66.  `sig = 0` gives `-(inf − inf)`, the model's `nan`. -/
noncomputable def itoCirLogPrior (thi : Fin 3 → ℝ) : Res (Option ℝ) :=
  if ∃ j, thi j < 0 then .ok none
  else if thi 2 = 0 then .error .nan
  else .ok (some (-(thi 0 + thi 1 + 1 / thi 2 ^ 2 + 3 * Real.log (thi 2))))

end Ctb
