import Verif.Spec.SwitchHidden
import Verif.Spec.PathDensity
import Mathlib.MeasureTheory.Integral.IntervalIntegral.Basic

/-!
# What the weight of a hidden state should be

The log-likelihood of the observations given the regimes: the increments between neighbouring observations are normal, with variance the integral of
the squared volatility.
-/

namespace Ctb

/-- Integrated squared volatility of the regime path `st` from `a` to `b`. -/
noncomputable def quadVar (vol : ℕ → ℝ) (st : ℝ → Option ℕ) (a b : ℝ) : ℝ := ∫ s in a..b, ((st s).elim 0 fun y => vol y ^ 2)

/-- Log-likelihood of observations `(time, value)` under the driftless process with regime path `st`, in the observed coordinates. -/
noncomputable def obsLogLik (red dvRed : ℝ → ℝ) (vol : ℕ → ℝ) (st : ℝ → Option ℕ) : List (ℝ × ℝ) → ℝ
  | (a, v) :: (b, w) :: l =>
    Real.log |dvRed w| + Real.log (normDensR (quadVar vol st a b) (red w - red v)) + obsLogLik red dvRed vol st ((b, w) :: l)
  | _ => 0

/-- Growth of the potential `sx` of the drift along anchors `(regime, value)`, each segment with the regime of its left end and relative to the squared
volatility. -/
noncomputable def driftGain (sx : ℕ → ℝ → ℝ) (vol : ℕ → ℝ) : List (ℕ × ℝ) → ℝ
  | (y, x) :: (z, x') :: l => (sx y x' - sx y x) / vol y ^ 2 + driftGain sx vol ((z, x') :: l)
  | _ => 0

/-- Regimes change exactly at the anchors that are not observation times. -/
def Anchorage.JumpsOffObs (h : Anchorage ℝ ℝ) (t : List ℝ) : Prop :=
  ∀ i a y y', h.t[i + 1]? = some a → h.yt[i]? = some y → h.yt[i + 1]? = some y' → (a ∈ t ↔ y = y')

end Ctb
