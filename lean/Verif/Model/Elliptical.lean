import Mathlib.Algebra.BigOperators.Fin
import Verif.Model.Num
import Verif.Model.Tri

/-!
Model of the correlation bookkeeping of elliptical copulas:
`copulae/elliptical/abstract.py` lines 66–153 (`__getitem__`, `__setitem__`,
`_force_psd`, `_get_rho_index`) and `copulae/core/linalg.py` lines 67–173
(`is_psd`, `is_symmetric`, `near_psd`).

Simplifications
* index values are slices, integers, or tuples/lists of those;
* assigned values are scalars, vectors or matrices;
* `numpy.linalg.eigvalsh` is represented by the Rayleigh characterisation of the
  eigenvalues of the real symmetric matrix stored in the lower triangle (which
  is the triangle NumPy reads);
* `statsmodels.cov_nearest` is a parameter.
-/

namespace Copulae

open Classical

/-- `EPS = np.finfo('float').eps` (core/misc.py:9). -/
noncomputable def EPS : ℝ := 2 ^ (-52 : ℤ)

/-- Element test of `np.allclose(a, b, rtol=1e-5, atol=tol)`. -/
def closeTo (tol : ℝ) : Fl → Fl → Prop
  | .fin a, .fin b => |a - b| ≤ tol + 1e-5 * |b|
  | .pinf, .pinf => True
  | .ninf, .ninf => True
  | _, _ => False

/-- linalg.py:100-124 `is_symmetric(M, tol)` on a square two-dimensional array. The cases
`M.ndim != 2` and non-square are handled by the callers below. -/
def isSymmetric {d : ℕ} (M : SqMat Fl d) (tol : ℝ) : Prop :=
  ∀ i j, closeTo tol (M i j) (M j i)

/-- The real symmetric matrix in the lower triangle of `M`, if it is finite. -/
def lowerReal {d : ℕ} (M : SqMat Fl d) (R : SqMat ℝ d) : Prop :=
  (∀ i j, j ≤ i → M i j = .fin (R i j)) ∧ ∀ i j, R i j = R j i

/-- `(la.eigvalsh(M) >= -tol).all()`: the smallest eigenvalue of the symmetric matrix in the
lower triangle is at least `-tol`, i.e. its quadratic form is at least `-tol |v|²`. False when
an entry is not finite. -/
def eigAtLeast {d : ℕ} (M : SqMat Fl d) (tol : ℝ) : Prop :=
  ∃ R : SqMat ℝ d, lowerReal M R ∧
    ∀ v : Fin d → ℝ, -tol * ∑ i, v i ^ 2 ≤ ∑ i, ∑ j, R i j * v i * v j

/-- linalg.py:67-97 `is_psd(M)` with the default arguments on a square array. -/
def isPsd {d : ℕ} (M : SqMat Fl d) : Prop :=
  isSymmetric M 1e-12 ∧ eigAtLeast M 1e-12

/-- Values that can be assigned. -/
inductive PyVal
  | scalar (v : Fl)
  | vec (l : List Fl)
  | mat (r c : ℕ) (M : Fin r → Fin c → Fl)

/-- `statsmodels.stats.correlation_tools.cov_nearest`. -/
abbrev CovNearest := (d : ℕ) → SqMat Fl d → SqMat Fl d

/-- linalg.py:127-173 `near_psd(cov)`. -/
noncomputable def nearPsd (ext : CovNearest) (v : PyVal) : Except PyErr (Σ d : ℕ, SqMat Fl d) :=
  match v with
  | .scalar _ => .error .nonSymmetric     -- ndim = 0
  | .vec _ => .error .nonSymmetric        -- ndim = 1
  | .mat r c M =>
      if h : r = c then
        let M' : SqMat Fl r := fun i j => M i (h ▸ j)
        if isSymmetric M' 1e-8 then
          if isPsd M' then .ok ⟨r, M'⟩ else .ok ⟨r, ext r M'⟩
        else .error .nonSymmetric
      else .error .nonSymmetric

/-- One component of a tuple index. -/
inductive IxE
  | slice
  | int (k : ℤ)

/-- An index. -/
inductive Ix
  | slice
  | int (k : ℤ)
  | tuple (l : List IxE)

/-- State of an elliptical copula as far as its correlations are concerned. -/
structure Ell where
  dim : ℕ
  rhos : List Fl

/-- abstract.py:16-18, `self._rhos = np.zeros(sum(range(dim)))`. -/
def Ell.init (d : ℕ) : Ell := ⟨d, List.replicate (d * (d - 1) / 2) (.fin 0)⟩

/-- abstract.py:52-60 `sigma`. -/
def Ell.sigma (s : Ell) : Except PyErr (Σ d : ℕ, SqMat Fl d) := createCovMatrix s.rhos

/-- NumPy position of a possibly negative integer index. -/
def npPos (len : ℕ) (k : ℤ) : Except PyErr ℕ :=
  if 0 ≤ k ∧ k < len then .ok k.toNat
  else if -(len : ℤ) ≤ k ∧ k < 0 then .ok (len + k).toNat
  else .error .indexError

/-- abstract.py:140-153 `_get_rho_index(dim, (x, y))`. -/
def getRhoIndex (dim : ℕ) (x y : ℤ) : Except PyErr ℕ :=
  if x < 0 ∨ y < 0 then .error .indexError
  else if x ≥ dim ∨ y ≥ dim then .error .indexError
  else if x = y then .error .indexError
  else do
    let idx ← triIndices dim 1 (if x < y then "upper" else "lower")
    match (idx.1.zip idx.2).findIdx? (fun v => v = (x.toNat, y.toNat)) with
    | some j => .ok j
    | none => .error .indexError

/-- abstract.py:66-76 `__getitem__`. NumPy integer indexing of `sigma` accepts negative
indices. -/
def Ell.getItem (s : Ell) : Ix → Except PyErr PyVal
  | .slice => do
      let M ← s.sigma
      return .mat M.1 M.1 M.2
  | .int k => do
      let p ← npPos s.rhos.length k
      match s.rhos[p]? with
      | some v => return .scalar v
      | none => .error .indexError
  | .tuple [a, b] => do
      let M ← s.sigma
      match a, b with
      | .slice, .slice => return .mat M.1 M.1 M.2
      | .int x, .slice => do
          let p ← npPos M.1 x
          if h : p < M.1 then return .vec (List.ofFn fun j => M.2 ⟨p, h⟩ j) else .error .indexError
      | .slice, .int y => do
          let p ← npPos M.1 y
          if h : p < M.1 then return .vec (List.ofFn fun i => M.2 i ⟨p, h⟩) else .error .indexError
      | .int x, .int y => do
          let p ← npPos M.1 x
          let q ← npPos M.1 y
          if h : p < M.1 ∧ q < M.1 then return .scalar (M.2 ⟨p, h.1⟩ ⟨q, h.2⟩)
          else .error .indexError
  | .tuple _ => .error .indexError

/-- abstract.py:83-89, the range check. A scalar is rejected when it is below -1 or above 1 (a
NaN scalar passes); an array must have all entries within `EPS` of `[-1, 1]`. -/
def rangeOk : PyVal → Prop
  | .scalar v => ¬ (v < .fin (-1) ∨ .fin 1 < v)
  | .vec l => ∀ v ∈ l, Fl.fin (-1 - EPS) ≤ v ∧ v ≤ Fl.fin (1 + EPS)
  | .mat _ _ M => ∀ i j, Fl.fin (-1 - EPS) ≤ M i j ∧ M i j ≤ Fl.fin (1 + EPS)

/-- `_rhos[pos] = row`, where `row` are the entries of the assigned object: only one-element
objects can be stored in a cell. -/
def storeCell (rhos : List Fl) (pos : ℕ) (row : List Fl) : Except PyErr (List Fl) :=
  match row with
  | [v] => .ok (rhos.set pos v)
  | _ => .error .valueError

/-- Entries of a value, row by row. -/
def PyVal.flat : PyVal → List Fl
  | .scalar v => [v]
  | .vec l => l
  | .mat _ _ M => (List.ofFn fun i => List.ofFn fun j => M i j).flatten

/-- abstract.py:112, `value` as the sequence iterated over by `enumerate(value)`. -/
def PyVal.rows (d : ℕ) : PyVal → List (List Fl)
  | .scalar v => List.replicate d [v]
  | .vec l => l.map fun v => [v]
  | .mat _ _ M => List.ofFn fun i => List.ofFn fun j => M i j

/-- abstract.py:91-96, `self[:] = value`. -/
noncomputable def Ell.setSlice (ext : CovNearest) (s : Ell) (v : PyVal) :
    Ell × Except PyErr Unit :=
  match nearPsd ext v with
  | .error e => (s, .error e)
  | .ok ⟨k, M⟩ =>
      if k ≠ s.dim then (s, .error .valueError)
      else match (do fancyRead M (← triIndices s.dim 1 "lower")) with
        | .error e => (s, .error e)
        | .ok l => ({ s with rhos := l }, .ok ())

/-- abstract.py:131-137 `_force_psd`. -/
noncomputable def Ell.forcePsd (ext : CovNearest) (s : Ell) : Ell × Except PyErr Unit :=
  match s.sigma with
  | .error e => (s, .error e)
  | .ok ⟨k, M⟩ =>
    match nearPsd ext (.mat k k M) with
    | .error e => (s, .error e)
    | .ok ⟨_, C⟩ =>
      match (do fancyRead C (← triIndices s.dim 1 "lower")) with
      | .error e => (s, .error e)
      | .ok l => ({ s with rhos := l }, .ok ())

/-- abstract.py:117-123, the loop over one row or column; `pair i` is the index pair of the
`i`-th element. Cells written before an exception stay written. -/
def rowLoop (d : ℕ) (pair : ℕ → ℤ × ℤ) : ℕ → List (List Fl) → List Fl →
    List Fl × Except PyErr Unit
  | _, [], rhos => (rhos, .ok ())
  | i, v :: vs, rhos =>
      if (pair i).1 = (pair i).2 then rowLoop d pair (i + 1) vs rhos
      else match (do storeCell rhos (← getRhoIndex d (pair i).1 (pair i).2) v) with
        | .error e => (rhos, .error e)
        | .ok rhos' => rowLoop d pair (i + 1) vs rhos'

/-- abstract.py:111-123: one of the two indices is a slice. -/
noncomputable def Ell.setRow (ext : CovNearest) (s : Ell) (pair : ℕ → ℤ × ℤ) (v : PyVal) :
    Ell × Except PyErr Unit :=
  if (v.rows s.dim).length ≠ s.dim then (s, .error .valueError)
  else
    let r := rowLoop s.dim pair 0 (v.rows s.dim) s.rhos
    match r.2 with
    | .error e => ({ s with rhos := r.1 }, .error e)
    | .ok _ => Ell.forcePsd ext { s with rhos := r.1 }

/-- abstract.py:78-129 `__setitem__(index, value)`: the new state and the outcome. -/
noncomputable def Ell.setItem (ext : CovNearest) (s : Ell) (ix : Ix) (v : PyVal) :
    Ell × Except PyErr Unit :=
  if ¬ rangeOk v then (s, .error .valueError)
  else match ix with
    | .slice => s.setSlice ext v
    | .int k =>
        match (do storeCell s.rhos (← npPos s.rhos.length k) v.flat) with
        | .error e => (s, .error e)
        | .ok l => Ell.forcePsd ext { s with rhos := l }
    | .tuple [.slice, .slice] => s.setSlice ext v
    | .tuple [.slice, .int y] => s.setRow ext (fun i => ((i : ℤ), y)) v
    | .tuple [.int x, .slice] => s.setRow ext (fun i => (x, (i : ℤ))) v
    | .tuple [.int x, .int y] =>
        match getRhoIndex s.dim x y with
        | .error e => (s, .error e)
        | .ok p => match v.flat with
          | [w] => Ell.forcePsd ext { s with rhos := s.rhos.set p w }
          | _ => (s, .error .typeError)
    | .tuple _ => (s, .error .indexError)

end Copulae
