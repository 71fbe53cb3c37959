import Mathlib.LinearAlgebra.Matrix.NonsingularInverse
import Mathlib.Analysis.SpecialFunctions.Gamma.Basic
import Mathlib.Analysis.SpecialFunctions.Trigonometric.Basic
import Verif.Model.Elliptical
import Verif.Model.FlAlg
import Verif.Model.Measures

/-!
Model of the distribution functions, densities and tail coefficients of the elliptical copulas
(`copulae/elliptical/gaussian.py`, `copulae/elliptical/student.py`) and of the density of the multivariate t
distribution (`copulae/stats/_multivariate_t.py`).

SciPy's distributions are parameters (`EllFns`). A function that takes a covariance matrix may raise when it reads
the matrix; it is then applied row by row. `numpy.linalg.det`, `numpy.linalg.inv`, `scipy.special.gamma` and
`scipy.special.beta` are exact.
-/

namespace Copulae

open Classical

/-- The SciPy functions called by the elliptical copulas; `copulae.stats` re-exports them
(stats/__init__.py:1). -/
structure EllFns where
  /-- `norm.ppf` -/
  normPpf : Fl → Fl
  /-- `norm.logpdf` -/
  normLogpdf : Fl → Fl
  /-- `multivariate_normal.cdf(·, cov=cov)` -/
  mvnCdf : (d : ℕ) → SqMat Fl d → Except PyErr ((Fin d → Fl) → Fl)
  /-- `multivariate_normal.logcdf(·, cov=cov)` -/
  mvnLogcdf : (d : ℕ) → SqMat Fl d → Except PyErr ((Fin d → Fl) → Fl)
  /-- `multivariate_normal.pdf(·, cov=cov)` -/
  mvnPdf : (d : ℕ) → SqMat Fl d → Except PyErr ((Fin d → Fl) → Fl)
  /-- `multivariate_normal.logpdf(·, cov=cov)` -/
  mvnLogpdf : (d : ℕ) → SqMat Fl d → Except PyErr ((Fin d → Fl) → Fl)
  /-- `t.ppf(·, df)` -/
  tPpf : Fl → Fl → Fl
  /-- `t.logpdf(·, df)` -/
  tLogpdf : Fl → Fl → Fl
  /-- `t.cdf(·, df)` -/
  tCdf : Fl → Fl → Fl

/-- The matrix `sigma` is combined with rows of `k` numbers. When the number of stored correlations belongs to
another dimension, NumPy cannot broadcast the two and raises `ValueError`. -/
def fitDim (M : Σ d : ℕ, SqMat Fl d) (k : ℕ) : Except PyErr (SqMat Fl k) :=
  if h : M.1 = k then .ok fun i j => M.2 (Fin.cast h.symm i) (Fin.cast h.symm j) else .error .valueError

/-- gaussian.py:47-53 `cdf`, after `shape_first_input_to_cop_dim` (reshape.py:61-97) compared the number of
columns with the dimension. -/
noncomputable def gaussianCdf (f : EllFns) (s : Ell) {n k : ℕ} (x : Fin n → Fin k → Fl) (log : Bool) :
    Except PyErr (Fin n → Fl) :=
  if k ≠ s.dim then .error .valueError
  else do
    let sigma ← s.sigma
    let cov ← fitDim sigma k
    let F ← if log then f.mvnLogcdf k cov else f.mvnCdf k cov
    return fun i => F fun j => f.normPpf (x i j)

/-- gaussian.py:75-82 `pdf`. -/
noncomputable def gaussianPdf (f : EllFns) (s : Ell) {n k : ℕ} (u : Fin n → Fin k → Fl) (log : Bool) :
    Except PyErr (Fin n → Fl) :=
  if k ≠ s.dim then .error .valueError
  else do
    let sigma ← s.sigma
    let cov ← fitDim sigma k
    let L ← f.mvnLogpdf k cov
    return fun i =>
      let q := fun j => f.normPpf (u i j)
      let d := L q - ∑ j, f.normLogpdf (q j)
      if log then d else Fl.exp d

/-- gaussian.py:60-62 `lambda_`: the lower and the upper coefficient of every pair. -/
noncomputable def gaussianLambda (s : Ell) : List Fl × List Fl :=
  let res := s.rhos.map fun r => if Fl.beq r (.fin 1) then Fl.fin 1 else .fin 0
  (res, res)

/-- elliptical/abstract.py:62-64 `tau`: one value for every stored correlation. -/
noncomputable def Ell.tau (s : Ell) : List Fl := s.rhos.map ellTau

/-- elliptical/abstract.py:48-50 `rho`: one value for every stored correlation. -/
noncomputable def Ell.rho (s : Ell) : List Fl := s.rhos.map ellRho

/-- The real matrix of a matrix of finite numbers. -/
def realMat {d : ℕ} (M : SqMat Fl d) : Matrix (Fin d) (Fin d) ℝ := fun i j =>
  match M i j with
  | .fin r => r
  | _ => 0

/-- _multivariate_t.py:213-248 `_process_parameters(None, None, cov, df)` for a square array: the degrees of
freedom to be used. -/
noncomputable def mvtParams {d : ℕ} (cov : SqMat Fl d) (df : Option Fl) : Except PyErr Fl :=
  if ¬ isPsd cov then .error .valueError
  else match df with
    | none => .ok (.fin 4.6692)
    | some v => if v ≤ .fin 0 then .error .valueError else .ok v

/-- _multivariate_t.py:81-118 `pdf(x, cov=cov, df=df)` for an array of rows. After `is_psd` all entries of `cov`
are finite. Only NaN reaches the last case of the match. -/
noncomputable def mvtPdf (f : EllFns) {n d : ℕ} (x : Fin n → Fin d → Fl) (cov : SqMat Fl d) (df : Option Fl) :
    Except PyErr (Fin n → Fl) := do
  let df ← mvtParams cov df
  if .fin 10000 < df then do
    let F ← f.mvnPdf d cov
    return fun i => F (x i)
  else if (realMat cov).det = 0 then .error .linAlg
  else match df with
    | .fin ν =>
      let S := realMat cov
      let a := Fl.fin (Real.Gamma (d / 2))
      let b := Fl.fin (Real.Gamma (ν / 2) * Real.Gamma (d / 2) / Real.Gamma (ν / 2 + d / 2)) *
        (Fl.fin (ν * Real.pi)) ^ (Fl.fin (d / 2)) * (Fl.fin S.det) ^ (Fl.fin 0.5)
      let quad := fun i k => ∑ j, (∑ l, x i l * .fin (S⁻¹ l j)) * x k j
      let c := fun i => (.fin 1 + quad i i / .fin ν) ^ (Fl.fin ((d + ν) / 2))
      return fun i => a / (b * c i)
    | _ => return fun _ => .nan

/-- _multivariate_t.py:56-79 `logpdf`. -/
noncomputable def mvtLogpdf (f : EllFns) {n d : ℕ} (x : Fin n → Fin d → Fl) (cov : SqMat Fl d) (df : Option Fl) :
    Except PyErr (Fin n → Fl) := do
  let p ← mvtPdf f x cov df
  return fun i => Fl.log (p i)

/-- _multivariate_t.py:16-50 `cdf`. -/
def mvtCdf {n k : ℕ} (_ : Fin n → Fin k → Fl) (_ : Σ d : ℕ, SqMat Fl d) (_ : Option Fl) : Except PyErr (Fin n → Fl) :=
  .error .notImplemented

/-- _multivariate_t.py:52-54 `logcdf`. -/
noncomputable def mvtLogcdf {n k : ℕ} (x : Fin n → Fin k → Fl) (cov : Σ d : ℕ, SqMat Fl d) (df : Option Fl) :
    Except PyErr (Fin n → Fl) := do
  let p ← mvtCdf x cov df
  return fun i => Fl.log (p i)

/-- student.py:57-64 `cdf`. -/
noncomputable def studentCdf (f : EllFns) (s : Ell) (df : Fl) {n k : ℕ} (x : Fin n → Fin k → Fl) (log : Bool) :
    Except PyErr (Fin n → Fl) :=
  if k ≠ s.dim then .error .valueError
  else do
    let sigma ← s.sigma
    let q := fun i j => f.tPpf df (x i j)
    if log then mvtLogcdf q sigma (some df) else mvtCdf q sigma (some df)

/-- student.py:169-177 `pdf`. -/
noncomputable def studentPdf (f : EllFns) (s : Ell) (df : Fl) {n k : ℕ} (u : Fin n → Fin k → Fl) (log : Bool) :
    Except PyErr (Fin n → Fl) :=
  if k ≠ s.dim then .error .valueError
  else do
    let sigma ← s.sigma
    let cov ← fitDim sigma k
    let q := fun i j => f.tPpf df (u i j)
    let p ← mvtLogpdf f q cov (some df)
    return fun i =>
      let d := p i - ∑ j, f.tLogpdf df (q i j)
      if log then d else Fl.exp d

/-- student.py:123-132 `lambda_`: the lower and the upper coefficient of every pair. -/
noncomputable def studentLambda (f : EllFns) (s : Ell) (df : Fl) : List Fl × List Fl :=
  if df = .pinf ∨ df = .ninf then gaussianLambda s
  else
    let res := s.rhos.map fun r => .fin 2 * f.tCdf (df + .fin 1) (-Fl.sqrt ((df + .fin 1) * (.fin 1 - r)))
    (res, res)

end Copulae
