import Mathlib.Data.List.Basic
import Mathlib.Data.List.Range
import Mathlib.Data.Nat.Sqrt
import Verif.Model.PyErr

/-!
Model of `copulae/core/misc.py` lines 15–36 (`create_cov_matrix`) and 148–206
(`tri_indices`), with the NumPy fancy indexing they rely on.
-/

namespace Copulae

/-- misc.py:189-192 / 199-202, the double loop
`for i in range(n - m): for j in range(i + m, n): append (i, j)`.
The offset `m` is a natural number (negative offsets are not modelled). -/
def triLoop (n m : ℕ) : List (ℕ × ℕ) :=
  (List.range (n - m)).flatMap fun i => (List.range' (i + m) (n - (i + m))).map fun j => (i, j)

/-- misc.py:148-206 `tri_indices(n, m, side)`; returns (row indices, column indices). -/
def triIndices (n m : ℕ) (side : String) : Except PyErr (List ℕ × List ℕ) :=
  let s := pyLower side
  if s ≠ "lower".toList ∧ s ≠ "upper".toList ∧ s ≠ "both".toList then .error .valueError
  else
    -- l_i[0] gets j, l_i[1] gets i (misc.py:191-192)
    let l0 := (triLoop n m).map Prod.snd
    let l1 := (triLoop n m).map Prod.fst
    if s = "lower".toList then .ok (l0, l1)
    else
      let u0 := (triLoop n m).map Prod.fst
      let u1 := (triLoop n m).map Prod.snd
      if s = "upper".toList then .ok (u0, u1)
      else .ok (u0 ++ l0, u1 ++ l1)

/-- A square NumPy array. -/
abbrev SqMat (α : Type) (d : ℕ) := Fin d → Fin d → α

/-- Writing one cell of a matrix. -/
def setCell {α : Type} {d : ℕ} (M : SqMat α d) (c : ℕ × ℕ) (v : α) : SqMat α d :=
  fun a b => if (a.val, b.val) = c then v else M a b

/-- NumPy `M[rows, cols] = vals`, one cell after the other. -/
def setCells {α : Type} {d : ℕ} (M : SqMat α d) (cells : List ((ℕ × ℕ) × α)) : SqMat α d :=
  cells.foldl (fun M c => setCell M c.1 c.2) M

/-- NumPy `M[rows, cols] = vals` with the shape and bounds checks: the value vector must
have as many entries as there are cells, or exactly one (broadcasting). -/
def fancyAssign {α : Type} {d : ℕ} (M : SqMat α d) (idx : List ℕ × List ℕ) (vals : List α) :
    Except PyErr (SqMat α d) :=
  let cells := idx.1.zip idx.2
  if cells.any (fun c => d ≤ c.1 ∨ d ≤ c.2) then .error .indexError
  else if vals.length = cells.length then .ok (setCells M (cells.zip vals))
  else match vals with
    | [v] => .ok (setCells M (cells.map fun c => (c, v)))
    | _ => .error .valueError

/-- NumPy `M[rows, cols]`. -/
def fancyRead {α : Type} {d : ℕ} (M : SqMat α d) (idx : List ℕ × List ℕ) :
    Except PyErr (List α) :=
  (idx.1.zip idx.2).mapM fun c =>
    if h : c.1 < d ∧ c.2 < d then .ok (M ⟨c.1, h.1⟩ ⟨c.2, h.2⟩) else .error .indexError

/-- misc.py:32 `d = int(1 + (1 + 4 * 2 * c) ** 0.5) // 2`, with the exact integer part of the
square root. -/
def covDim (c : ℕ) : ℕ := (1 + Nat.sqrt (1 + 4 * 2 * c)) / 2

/-- `np.identity(d)` -/
def npIdentity {α : Type} [Zero α] [One α] (d : ℕ) : SqMat α d := fun i j => if i = j then 1 else 0

/-- misc.py:15-36 `create_cov_matrix(params)`. -/
def createCovMatrix {α : Type} [Zero α] [One α] (params : List α) :
    Except PyErr (Σ d : ℕ, SqMat α d) := do
  let idx ← triIndices (covDim params.length) 1 "both"
  let sigma ← fancyAssign (npIdentity (covDim params.length)) idx (params ++ params)
  return ⟨covDim params.length, sigma⟩

end Copulae
