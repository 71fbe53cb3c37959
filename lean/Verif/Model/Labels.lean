import Verif.Model.Reshape
import Verif.Model.Marginal
import Verif.Model.Empirical
import Verif.Model.Correlation

/-!
Names of columns: where the copulas get them from (`copulae/copula/base.py`, `copulae/indep/indep.py`,
`copulae/empirical/empirical.py`, `copulae/marginal/marginal.py`), the samples they are attached to (`cast_output` in
`copulae/utility/annotations/reshape.py`), the frames given to the density of the empirical copula, and the labels of correlation
matrices (`format_output` in `copulae/stats/correlation.py`).

Names are strings, except where numbered columns make a difference.
-/

namespace Copulae

/-! ### Where the names come from -/

/-- copula/base.py:25-32 `BaseCopula.__init__`: the dimension and the names; at least two dimensions are asserted. -/
def baseNew (dim : ℕ) (columns : Option (List String)) : Except PyErr CopState :=
  if dim < 2 then .error .assertionError else .ok ⟨dim, columns⟩

/-- indep/indep.py:32-36 `IndepCopula.__init__`. -/
def indepNew (dim : ℕ) (fields : Option (List String)) : Except PyErr CopState :=
  match fields with
  | some f => if f.length ≠ dim then .error .assertionError else baseNew dim (some f)
  | none => baseNew dim none

/-- empirical/empirical.py:57-102 `EmpiricalCopula.__init__`, the names and the dimension; `validate_data_dim({"data": 2})` refuses
everything that is not a matrix. -/
def empiricalNew (data : FirstArg) : Except PyErr CopState :=
  match data with
  | .frame _ cols => baseNew cols.length (some (cols.map Prod.fst))
  | .mat _ p _ => baseNew p none
  | _ => .error .valueError

/-- A `MarginalCopula` and its inner copula. -/
structure MargState where
  outer : CopState
  inner : CopState

/-- marginal/marginal.py:83-85 `MarginalCopula.__init__`: no names of its own. -/
def margNew (inner : CopState) : Except PyErr MargState := do
  let o ← baseNew inner.dim none
  return ⟨o, inner⟩

/-- marginal/marginal.py:103-121: the names after `fit`. The inner copula is fitted to `np.asarray(data)`, so it gets no names. -/
def margFitColumns (s : MargState) (data : FirstArg) : MargState := { s with outer := fitColumns s.outer data }

/-- The classes by what their method `fit` does. -/
inductive FitKind
  /-- `BaseCopula.fit`: the Archimedean and elliptical copulas -/
  | base
  /-- `GaussianMixtureCopula.fit` -/
  | mixture
  /-- `IndepCopula.fit` and `EmpiricalCopula.fit` -/
  | none
  deriving DecidableEq

/-- The names after `fit`: base.py:136-137 takes those of a frame; gmc.py:138-217, indep.py:44-49 and empirical.py:140-143 take none. -/
def fitColumnsOf : FitKind → CopState → FirstArg → CopState
  | .base => fitColumns
  | .mixture => fun s _ => s
  | .none => fun s _ => s

/-! ### Samples -/

/-- reshape.py:50-58 `cast_output` around `random`: `pd.DataFrame(output, columns=columns)` if there are names. A vector becomes a
frame of one column. -/
def labelSample (columns : Option (List String)) {d : ℕ} (u : RandOut d) : Except PyErr FirstArg :=
  match u with
  | .mat n M => castOutput ⟨d, columns⟩ n M
  | .vec v =>
    match columns with
    | none => .ok (.vec (List.ofFn v))
    | some [c] => .ok (.frame d [(c, v)])
    | some _ => .error .valueError

/-- marginal/marginal.py:148-155 `random`, given what the sampler of the inner copula draws: `u[:, i]` of a frame is pandas'
`InvalidIndexError`. -/
def margSample (s : MargState) (m : Fin s.inner.dim → Margin) (u : RandOut s.inner.dim) : Except PyErr FirstArg := do
  match ← labelSample s.inner.columns u with
  | .frame _ _ => .error .invalidIndex
  | _ => do
    let x ← margRandom m u
    labelSample s.outer.columns x

/-! ### The empirical copula as an object -/

/-- What is passed as `ties`: a string, or something without a method `lower`. -/
inductive TiesArg
  | str (s : String)
  | other
  deriving DecidableEq

/-- What is passed as `offset`: an `int` or a `float`; another number of NumPy that can be added to an integer (`np.int64`,
`np.float32`); something that cannot. -/
inductive OffsetArg
  | num (r : ℝ)
  | npNum (r : ℝ)
  | other

/-- An `EmpiricalCopula` with its data and settings. -/
structure EmpObj where
  n : ℕ
  d : ℕ
  data : Fin n → Fin d → ℝ
  smoothing : Smoothing
  ties : TiesArg
  offset : OffsetArg

/-- empirical/empirical.py:57-102 `__init__` on a matrix: any `ties` and any `offset` are taken, the smoothing is checked by its
setter, then the dimension by base.py:32. -/
def EmpObj.new {n d : ℕ} (data : Fin n → Fin d → ℝ) (smoothing : Option String) (ties : TiesArg) (offset : OffsetArg) :
    Except PyErr EmpObj := do
  let s ← parseSmoothing smoothing
  if d < 2 then .error .assertionError else .ok ⟨n, d, data, s, ties, offset⟩

/-- What a program can do to an empirical copula. -/
inductive EmpOp
  | setSmoothing (s : Option String)
  | setTies (t : TiesArg)
  | fit (data : FirstArg)

/-- empirical/empirical.py:140-143 (`fit` returns `self`), 196-202 and 290-292 (setters): the object afterwards and whether the
operation raises. -/
def EmpObj.exec (o : EmpObj) : EmpOp → EmpObj × Except PyErr Unit
  | .setSmoothing s =>
    match parseSmoothing s with
    | .ok s' => ({ o with smoothing := s' }, .ok ())
    | .error e => (o, .error e)
  | .setTies t => ({ o with ties := t }, .ok ())
  | .fit _ => (o, .ok ())

/-- The object after a sequence of operations, exceptions being caught. -/
def EmpObj.run (o : EmpObj) (ops : List EmpOp) : EmpObj := ops.foldl (fun o op => (o.exec op).1) o

/-- The number added to the size of the sample. -/
noncomputable def OffsetArg.value : OffsetArg → ℝ
  | .num r => r
  | .npNum r => r
  | .other => 0

/-- empirical/distribution.py:60-62 `_validate_offset`. -/
def OffsetArg.validate : OffsetArg → Except PyErr ℝ
  | .num r => .ok r
  | _ => .error .assertionError

open Classical in
/-- empirical/empirical.py:108-138 `cdf` and distribution.py:35-43: the points are checked first, then `ties.lower()` is called and
the ranks are computed, then the offset is asserted to be an `int` or a `float`. -/
noncomputable def EmpObj.cdf (btdtr : ℝ → ℝ → Fl → Fl) (o : EmpObj) {m : ℕ} (u : Fin m → Fin o.d → Fl) (log : Bool) :
    Except PyErr (Fin m → Fl) :=
  match o.ties with
  | .str t => do
    let v ← empCdf btdtr o.data o.smoothing t o.offset.value u log
    let _ ← o.offset.validate
    return v
  | .other =>
    if (∃ i j, u i j > .fin (1 + flEps)) ∨ ∃ i j, u i j < .fin (-flEps) then .error .valueError else .error .attributeError

/-- empirical/empirical.py:152-176 `pdf` on an array: the offset is only added. -/
noncomputable def EmpObj.pdf (bpdf blogpdf : Fl → ℝ → ℝ → Fl) (o : EmpObj) {m : ℕ} (u : Fin m → Fin o.d → Fl) (log : Bool) :
    Except PyErr (Fin m → Fl) :=
  match o.ties with
  | .str t => do
    let v ← empPdf bpdf blogpdf o.data o.smoothing t o.offset.value u log
    match o.offset with
    | .other => .error .typeError
    | _ => return v
  | .other => if o.smoothing ≠ .beta then .error .assertionError else .error .attributeError

/-- empirical/distribution.py:46-57 `_map_smoothing`: here the case of the letters does not matter. -/
def mapSmoothing : Option String → Except PyErr Smoothing
  | .none => .ok .none
  | .some s =>
    if pyLower s = "none".toList then .ok .none
    else if pyLower s = "beta".toList then .ok .beta
    else if pyLower s = "checkerboard".toList then .ok .checkerboard
    else .error .assertionError

/-- The name of a column of a frame: a string, or a number as pandas gives to columns without names. -/
inductive ColName
  | str (s : String)
  | num (k : ℕ)

/-- A frame given to `pdf`: names and columns. -/
structure NamedFrame (d : ℕ) where
  rows : ℕ
  names : Fin d → ColName
  values : Fin rows → Fin d → Fl

/-- `row` in `beta.pdf(row, a=row_rank, b=...)` when `row` is the name of a column: a number is compared with every rank, a string
raises a `TypeError`. -/
def ColName.asRow {d : ℕ} : ColName → Except PyErr (Fin d → Fl)
  | .str _ => .error .typeError
  | .num k => .ok fun _ => .fin k

/-- empirical/empirical.py:152-176 `pdf` on a frame, which `shape_first_input_to_cop_dim` leaves a frame (without names of its own
the copula does not reorder the columns): `for row in u` runs over the names of the columns. The data have at least one row,
otherwise the names would not be looked at. -/
noncomputable def EmpObj.pdfFrame (bpdf blogpdf : Fl → ℝ → ℝ → Fl) (o : EmpObj) (u : NamedFrame o.d) (log : Bool) :
    Except PyErr (Fin o.d → Fl) := do
  if o.smoothing ≠ .beta then .error .assertionError
  else
    match o.ties with
    | .str t => do
      let _ ← parseTies t
      let names ← (List.finRange o.d).mapM fun j => (u.names j).asRow
      o.pdf bpdf blogpdf (fun j => names.getD j fun _ => .nan) log
    | .other => .error .attributeError

/-! ### Labels of correlation matrices -/

/-- The first two arguments of `corr` as far as labels matter. -/
inductive CorrLabels
  | frame (labels : List String)
  | series (x y : Option String)
  | plain

/-- `x.name or 'X'`: no name, or an empty one, is replaced. -/
def nameOr (n : Option String) (dflt : String) : String :=
  match n with
  | some s => if s = "" then dflt else s
  | none => dflt

/-- stats/correlation.py:26-45 `format_output`: the labels of rows and columns, if any. -/
def corrNames : CorrLabels → Option (List String)
  | .frame l => some l
  | .series x y =>
    let a := nameOr x "X"
    let b := nameOr y "Y"
    some (if a = b then [a ++ "1", b ++ "2"] else [a, b])
  | .plain => none

/-- stats/correlation.py:32-43: the correlation matrix of a frame, looked up by labels. -/
noncomputable def corrFrame (fns : CorrFns) (labels : List String) (rows : List (Fin labels.length → Fl)) (method use : String) :
    Except PyErr (String → String → Option Fl) := do
  let r ← corr fns (.mat labels.length rows) none method use
  let names := (corrNames (.frame labels)).getD []
  return fun a b =>
    let i := names.idxOf a
    let j := names.idxOf b
    if h : i < r.1 ∧ j < r.1 then some (r.2 ⟨i, h.1⟩ ⟨j, h.2⟩) else none

end Copulae
