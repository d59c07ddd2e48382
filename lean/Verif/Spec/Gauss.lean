import Mathlib.Data.Real.Basic
import Mathlib.Algebra.BigOperators.Group.List.Basic

/-! # Vectors and matrices as lists, for statements about Gaussian vectors -/

namespace Ctb

/-- Scalar product. -/
noncomputable def dot (u v : List ℝ) : ℝ := (List.zipWith (· * ·) u v).sum

/-- Matrix times vector, the matrix given by its rows. -/
noncomputable def matVec (L : List (List ℝ)) (z : List ℝ) : List ℝ := L.map fun r => dot r z

/-- `L Lᵀ` -/
noncomputable def gram (L : List (List ℝ)) : List (List ℝ) := L.map fun r => L.map fun q => dot r q

/-- Quadratic form `cᵀ S c`. -/
noncomputable def quad (S : List (List ℝ)) (c : List ℝ) : ℝ := dot c (matVec S c)

/-- Componentwise sum. -/
noncomputable def vadd (u v : List ℝ) : List ℝ := List.zipWith (· + ·) u v

end Ctb
