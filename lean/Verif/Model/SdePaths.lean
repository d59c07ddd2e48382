import Verif.Basic.Prog
import Verif.Basic.Numpy
import Mathlib.Analysis.SpecialFunctions.Pow.Real

/-!
# Model of `ctbayes/sdelib/paths.py`: Wiener process and Brownian bridge at given times
-/

namespace Ctb

/-- `np.ediff1d(t, to_begin=(t[0],))`, sdelib/paths.py:40. -/
def ediffBegin (t : List ℝ) : List ℝ :=
  match t with
  | [] => []
  | a :: _ => a :: npDiff t

/-- Increments of `sample_wiener`, sdelib/paths.py:41-43, for one column. -/
noncomputable def wienerIncs (t : List ℝ) (mu : ℝ) (zs : List ℝ) : List ℝ :=
  List.zipWith (fun dt z => Real.sqrt dt * z + dt * mu) (ediffBegin t) zs

/-- `sample_wiener`, sdelib/paths.py:9-45, for one column (`len(init_x) == 1`), which is how `sample_brownbr` calls it.
`np.min` of an empty array raises ValueError.  The square root of a negative time step is NaN. -/
noncomputable def sampleWiener (t : List ℝ) (initX mu : ℝ) : Prog (List ℝ) :=
  if t = [] then .err .value else
  (Prog.assert (∀ a ∈ t, 0 < a)).bind fun _ =>
  if ¬ ∀ d ∈ ediffBegin t, 0 ≤ d then .err .nan else
  (Prog.replicate t.length (.draw (.normal 0 1))).bind fun zs =>
  .ret ((npCumsum (wienerIncs t mu zs)).map (· + initX))

/-- `sample_brownbr`, sdelib/paths.py:48-86. -/
noncomputable def sampleBrownbr (t : List ℝ) (finT initX finX : ℝ) : Prog (List ℝ) :=
  if t = [] then .err .value else
  (Prog.assert (∀ a ∈ t, 0 < a ∧ a < finT)).bind fun _ =>
  let st := t.map (· / finT)
  (sampleWiener (st.map fun s => s / (1 - s)) (initX / Real.sqrt finT) (finX / Real.sqrt finT)).bind fun w =>
  .ret ((List.zipWith (fun s x => (1 - s) * x) st w).map (Real.sqrt finT * ·))

end Ctb
