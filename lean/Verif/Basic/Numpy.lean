import Mathlib.Data.List.Basic
import Mathlib.Data.List.Sort
import Mathlib.Algebra.Order.Field.Basic
import Mathlib.Algebra.Order.BigOperators.Group.List
import Verif.Basic.Prog

/-!
# numpy and Python list primitives
-/

namespace Ctb

variable {α : Type} {K : Type}

/-- `np.searchsorted(l, v, side='right')` on a sorted array. -/
def searchRight [LE K] [DecidableLE K] (l : List K) (v : K) : ℕ := (l.takeWhile (· ≤ v)).length

/-- `np.searchsorted(l, v, side='left')` on a sorted array. -/
def searchLeft [LT K] [DecidableLT K] (l : List K) (v : K) : ℕ := (l.takeWhile (· < v)).length

/-- Python list/array indexing `l[i]` with negative wrap-around; `none` is IndexError. -/
def pyGet (l : List α) (i : ℤ) : Option α :=
  if 0 ≤ i then l[i.toNat]? else if -(l.length : ℤ) ≤ i then l[(i + l.length).toNat]? else none

/-- Python clamps slice bounds to `[0, len]` after adding `len` to negative ones. -/
def pyClip (n : ℕ) (i : ℤ) : ℕ := if 0 ≤ i then min i.toNat n else (i + n).toNat

/-- Python slice `l[a:b]`. -/
def pySlice (l : List α) (a b : ℤ) : List α := (l.take (pyClip l.length b)).drop (pyClip l.length a)

/-- `np.diff(l)` -/
def npDiff [Sub K] : List K → List K
  | a :: b :: l => (b - a) :: npDiff (b :: l)
  | _ => []

/-- `np.cumsum(l)` starting from an accumulator. -/
def cumsumFrom [Add K] (acc : K) : List K → List K
  | [] => []
  | a :: l => (acc + a) :: cumsumFrom (acc + a) l

/-- `np.cumsum(l)` -/
def npCumsum [Add K] [Zero K] (l : List K) : List K := cumsumFrom 0 l

/-- Boolean mask selection `l[mask]`. -/
def select : List α → List Bool → List α
  | a :: l, true :: m => a :: select l m
  | _ :: l, false :: m => select l m
  | _, _ => []

/-- `np.sort` -/
def npSort [LE K] [DecidableLE K] (l : List K) : List K := l.insertionSort (· ≤ ·)

end Ctb
