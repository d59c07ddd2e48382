import Verif.Model.MjpInference
import Verif.Spec.Path
import Mathlib.LinearAlgebra.Matrix.Defs

/-! # Generators of jump processes and gamma hyper-parameters -/

namespace Ctb

/-- Generator matrix on states `0..d-1`: positive off-diagonal rates, zero row sums. -/
structure IsGenerator (d : ℕ) (g : Mat) : Prop where
  off : ∀ i < d, ∀ j < d, i ≠ j → 0 < g i j
  row : ∀ i < d, ∑ j ∈ Finset.range d, g i j = 0

/-- The same for a matrix, allowing zero rates: non-negative off-diagonal entries, zero row sums. -/
structure IsQMatrix {d : ℕ} (G : Matrix (Fin d) (Fin d) ℝ) : Prop where
  off : ∀ i j, i ≠ j → 0 ≤ G i j
  row : ∀ i, ∑ j, G i j = 0

/-- Hyper-parameters as the package builds them (`construct_gen_hyperprior`, switching/static.py:126-129, and
their updates): NaN exactly on the diagonal, positive values elsewhere. -/
structure Hyper (d : ℕ) (alp bet : NMat) (A B : Mat) : Prop where
  diagA : ∀ i < d, alp i i = none
  diagB : ∀ i < d, bet i i = none
  offA : ∀ i < d, ∀ j < d, i ≠ j → alp i j = some (A i j)
  offB : ∀ i < d, ∀ j < d, i ≠ j → bet i j = some (B i j)
  posA : ∀ i < d, ∀ j < d, i ≠ j → 0 < A i j
  posB : ∀ i < d, ∀ j < d, i ≠ j → 0 < B i j

/-- All states of the path are below `d`. -/
def Skel.StatesLt {K : Type} (sk : Skel K) (d : ℕ) : Prop := ∀ x ∈ sk.xt, x < d

/-- Time set on which a path is in state `i`. -/
def Skel.timesIn (sk : Skel ℝ) (i : ℕ) (until_ : ℝ) : Set ℝ := {s | 0 ≤ s ∧ s < until_ ∧ sk.stateAt s = some i}

end Ctb
