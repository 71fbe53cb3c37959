import Mathlib.Data.Fintype.Card
import Mathlib.Data.Rat.Defs
import Mathlib.Data.Finset.Image
import Mathlib.Algebra.Order.Ring.Rat
import Mathlib.Data.Fintype.Basic
import Verif.Model.PyErr

/-!
Model of `copulae/core/misc.py` lines 39–145: `pseudo_obs` and `rank_data`.

Simplifications: NaN entries are not modelled (the element type is a linear
order); the pandas branch of `pseudo_obs` (misc.py:103-104), which re-attaches
index and column labels without touching the values, is not modelled.
-/

namespace Copulae

/-- Tie methods accepted by `scipy.stats.rankdata`. -/
inductive TieMethod
  | average | min | max | dense | ordinal
  deriving DecidableEq, Repr

/-- misc.py:134 `ties = ties.lower()` followed by the method check in
`scipy.stats.rankdata`, which raises `ValueError` for unknown methods. -/
def parseTies (s : String) : Except PyErr TieMethod :=
  let t := pyLower s
  if t = "average".toList then .ok .average
  else if t = "min".toList then .ok .min
  else if t = "max".toList then .ok .max
  else if t = "dense".toList then .ok .dense
  else if t = "ordinal".toList then .ok .ordinal
  else .error .valueError

section
variable {α : Type*} [LinearOrder α] {n : ℕ}

/-- Number of entries strictly smaller than entry `i`. -/
def cntLt (x : Fin n → α) (i : Fin n) : ℕ :=
  (Finset.univ.filter fun j => x j < x i).card

/-- Number of entries equal to entry `i` (including itself). -/
def cntEq (x : Fin n → α) (i : Fin n) : ℕ :=
  (Finset.univ.filter fun j => x j = x i).card

/-- Number of distinct values strictly smaller than entry `i`. -/
def cntDistinctLt (x : Fin n → α) (i : Fin n) : ℕ :=
  ((Finset.univ.filter fun j => x j < x i).image x).card

/-- Number of entries equal to entry `i` at positions up to and including `i`. -/
def cntEqUpTo (x : Fin n → α) (i : Fin n) : ℕ :=
  (Finset.univ.filter fun j => x j = x i ∧ j ≤ i).card

/-- `scipy.stats.rankdata(x, method)` from its documentation: `min` is one plus
the number of smaller entries, `max` the number of entries not larger,
`average` their mean, `dense` one plus the number of distinct smaller values,
`ordinal` breaks ties by position. -/
def rankdata (m : TieMethod) (x : Fin n → α) (i : Fin n) : ℚ :=
  match m with
  | .min => (cntLt x i : ℚ) + 1
  | .max => (cntLt x i : ℚ) + cntEq x i
  | .average => (((cntLt x i : ℚ) + 1) + ((cntLt x i : ℚ) + cntEq x i)) / 2
  | .dense => (cntDistinctLt x i : ℚ) + 1
  | .ordinal => (cntLt x i : ℚ) + cntEqUpTo x i

end

/-- An array argument: one-dimensional, two-dimensional (rows × columns), or of
some other number of dimensions. -/
inductive NDArr (α : Type*)
  | vec (n : ℕ) (x : Fin n → α)
  | mat (n d : ℕ) (x : Fin n → Fin d → α)
  | other (ndim : ℕ)

/-- Python `len(array)`. Zero-dimensional arrays have no length; the value for
`other` is never used because `rank_data` has raised before. -/
def NDArr.len {α : Type*} : NDArr α → ℕ
  | .vec n _ => n
  | .mat n _ _ => n
  | .other _ => 0

/-- misc.py:109-145 `rank_data(obs, axis, ties)`. -/
def rankData {α : Type*} [LinearOrder α] (obs : NDArr α) (axis : ℤ) (ties : String) :
    Except PyErr (NDArr ℚ) :=
  match obs with
  | .other _ => .error .assertionError
  | .vec n x => do
      let m ← parseTies ties
      return .vec n (rankdata m x)
  | .mat n d x =>
      if axis = 0 then do
        let m ← parseTies ties
        return .mat n d (fun i j => rankdata m (fun k => x i k) j)
      else if axis = 1 then do
        let m ← parseTies ties
        return .mat n d (fun i j => rankdata m (fun k => x k j) i)
      else .error .valueError

/-- Element-wise division by a scalar, `array / q`. -/
def NDArr.divScalar (a : NDArr ℚ) (q : ℚ) : NDArr ℚ :=
  match a with
  | .vec n x => .vec n fun i => x i / q
  | .mat n d x => .mat n d fun i j => x i j / q
  | .other k => .other k

/-- misc.py:39-106 `pseudo_obs(data, ties)`:
`rank_data(data, 1, ties) / (len(data) + 1)`. -/
def pseudoObs {α : Type*} [LinearOrder α] (data : NDArr α) (ties : String) :
    Except PyErr (NDArr ℚ) := do
  let r ← rankData data 1 ties
  return r.divScalar ((data.len : ℚ) + 1)

end Copulae
