import Verif.Model.PyErr
import Verif.Model.Num

/-!
Model of the input decorators of `cdf` and `pdf`: `validate_data_dim({"u": [1, 2]})`
(`copulae/utility/annotations/validations.py`) around `shape_first_input_to_cop_dim`
(`copulae/utility/annotations/reshape.py`), and of the bookkeeping of column labels in
`copulae/copula/base.py` (`fit`) and `cast_output`.

Simplifications: labels are strings; the values are floats; row labels of frames are not modelled; the
matrix handed to the method is given by its values, whether it is an array or a frame.
-/

namespace Copulae

/-- The first positional argument of `cdf` or `pdf`. -/
inductive FirstArg
  /-- a pandas Series: labels and values -/
  | series (s : List (String × Fl))
  /-- a DataFrame with `n` rows: labelled columns -/
  | frame (n : ℕ) (cols : List (String × (Fin n → Fl)))
  /-- a vector (array or list) -/
  | vec (l : List Fl)
  /-- a matrix (array or list) -/
  | mat (n p : ℕ) (M : Fin n → Fin p → Fl)
  /-- an array with another number of dimensions -/
  | nd (ndim : ℕ) (h : ndim ≠ 1 ∧ ndim ≠ 2)

/-- `x.ndim`. -/
def FirstArg.ndim : FirstArg → ℕ
  | .series _ => 1
  | .frame _ _ => 2
  | .vec _ => 1
  | .mat _ _ _ => 2
  | .nd k _ => k

/-- What the decorators use of the copula: `dim` and `_columns`. -/
structure CopState where
  dim : ℕ
  columns : Option (List String)

/-- A matrix with a given number of columns, by its values. -/
abbrev RowMat (d : ℕ) := Σ n : ℕ, Fin n → Fin d → Fl

/-- The entries carrying a label, `KeyError` if there is none. -/
def pickLabel {β : Type} (items : List (String × β)) (c : String) : Except PyErr (List (String × β)) :=
  match items.filter fun e => decide (e.1 = c) with
  | [] => .error .keyError
  | l => .ok l

/-- Label based selection `x[labels]` (Series) or `x.loc[:, labels]` (DataFrame): for each label all
entries that carry it, `KeyError` if there is none. -/
def selectLabels {β : Type} (labels : List String) (items : List (String × β)) :
    Except PyErr (List (String × β)) := do
  let l ← labels.mapM (pickLabel items)
  return l.flatten

/-- `set(a) == set(b)`. -/
def sameSet (a b : List String) : Bool := decide (a ⊆ b ∧ b ⊆ a)

/-- reshape.py:89-92: the final shape check on a list of `p` columns of `n` entries. -/
def checkShape (d n : ℕ) (cols : List (Fin n → Fl)) : Except PyErr (RowMat d) :=
  if h : cols.length ≠ d then .error .valueError
  else .ok ⟨n, fun i j => cols.get (j.cast (not_not.mp h).symm) i⟩

/-- reshape.py:61-97 `shape_first_input_to_cop_dim` given the positional arguments; the matrix passed to the
method. -/
def shapeFirst (s : CopState) (args : List FirstArg) : Except PyErr (RowMat s.dim) :=
  match args with
  | [] => .error .indexError
  | x :: _ =>
    match x with
    | .series e =>
        match s.columns with
        | some c =>
            if sameSet (e.map Prod.fst) c then do
              let e' ← selectLabels c e
              checkShape s.dim 1 (e'.map fun v _ => v.2)
            else checkShape s.dim 1 (e.map fun v _ => v.2)
        | none => checkShape s.dim 1 (e.map fun v _ => v.2)
    | .frame n cols =>
        match s.columns with
        | some c => do
            let cols' ← selectLabels c cols
            checkShape s.dim n (cols'.map Prod.snd)
        | none => checkShape s.dim n (cols.map Prod.snd)
    | .vec l => checkShape s.dim 1 (l.map fun v _ => v)
    | .mat n p M => checkShape s.dim n ((List.finRange p).map fun j i => M i j)
    | .nd _ _ => .error .valueError

/-- validations.py:55-84 with dimensions `[1, 2]`, around `shapeFirst`: an argument with another number of
dimensions is rejected. -/
def evalInput (s : CopState) (args : List FirstArg) : Except PyErr (RowMat s.dim) :=
  match args with
  | x :: _ => if x.ndim ∈ [1, 2] then shapeFirst s args else .error .valueError
  | [] => shapeFirst s []

/-- base.py:136-137: `_columns` after a fit that succeeded. -/
def fitColumns (s : CopState) (data : FirstArg) : CopState :=
  match data with
  | .frame _ cols => { s with columns := some (cols.map Prod.fst) }
  | _ => s

/-- reshape.py:50-58 `cast_output`: the output of `random`, a matrix with one column per dimension. -/
def castOutput (s : CopState) (n : ℕ) (M : Fin n → Fin s.dim → Fl) : Except PyErr FirstArg :=
  match s.columns with
  | none => .ok (.mat n s.dim M)
  | some c =>
      if c.length ≠ s.dim then .error .valueError
      else .ok (.frame n (c.zip ((List.finRange s.dim).map fun j i => M i j)))

end Copulae
