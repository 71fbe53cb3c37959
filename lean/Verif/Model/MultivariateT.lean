import Verif.Model.EllDensity
import Verif.Model.Seeding

/-!
Model of the multivariate t distribution as users call it (`copulae/stats/_multivariate_t.py`): `pdf` and `rvs` with a
mean, with numbers and vectors for arrays, with the default arguments, with sizes of several dimensions, and both types.
The calls made by the Student copula, without a mean and with an array of rows, are also in `Model/EllDensity.lean` and
`Model/Seeding.lean`.

Arrays of more dimensions than those listed are not modelled, nor are arrays of objects.
-/

namespace Copulae

open Classical

/-- The argument `x` of `pdf`: a number, a vector or an array of rows. -/
inductive MtX
  | num (v : Fl)
  | vec {k : ℕ} (v : Fin k → Fl)
  | rows {n k : ℕ} (x : Fin n → Fin k → Fl)

/-- The argument `mean`: left out or `None`, a number, or a vector. -/
inductive MtMean (R : Type)
  | none
  | num (v : R)
  | vec {k : ℕ} (v : Fin k → R)

/-- The argument `cov`: `None`, a number (one by default), or a square array. -/
inductive MtCov (R : Type)
  | none
  | num (v : R)
  | mat {d : ℕ} (M : Fin d → Fin d → R)

/-- _multivariate_t.py:215-227: dimension and covariance matrix. -/
def MtCov.toMat : MtCov Fl → Σ d : ℕ, SqMat Fl d
  | .none => ⟨1, fun _ _ => .fin 1⟩
  | .num v => ⟨1, fun _ _ => v⟩
  | .mat M => ⟨_, M⟩

/-- _multivariate_t.py:229-238: the mean as a vector. -/
def MtMean.toVec (d : ℕ) : MtMean Fl → Except PyErr (Fin d → Fl)
  | .none => .ok fun _ => .fin 0
  | .num v => .ok fun _ => v
  | @MtMean.vec _ k v => if h : k = d then .ok fun j => v (Fin.cast h.symm j) else .error .valueError

/-- _multivariate_t.py:204-211 `_process_input`: the array of rows. (A number becomes a vector of one number, which is
one row of one number for `x - mean`; `mtPdf` treats it separately where it matters.) -/
def MtX.toRows (d : ℕ) : MtX → Σ n k : ℕ, Fin n → Fin k → Fl
  | .num v => ⟨1, 1, fun _ _ => v⟩
  | @MtX.vec k v => if d = 1 then ⟨k, 1, fun i _ => v i⟩ else ⟨1, k, fun _ => v⟩
  | .rows x => ⟨_, _, x⟩

/-- A row as an operand of `x - mean`: NumPy repeats a single number. -/
noncomputable def mtSpread {k : ℕ} (d : ℕ) (x : Fin k → Fl) : Fin d → Fl := fun j =>
  if h : k = d then x (Fin.cast h.symm j) else if h : k = 1 then x (Fin.cast h.symm 0) else .nan

/-- Is the argument a number? -/
def MtX.isNum : MtX → Bool
  | .num _ => true
  | _ => false

/-- _multivariate_t.py:107-118, the part of `pdf` after `_process_parameters` and `_process_input`, for the array `r` of
`n` rows of `k` numbers. `mvnPdf` is `scipy.stats.multivariate_normal.pdf(·, mean=mean, cov=cov)`, which may raise when it
reads the matrix and is then applied row by row. -/
noncomputable def mtPdfRows (mvnPdf : (d : ℕ) → (Fin d → Fl) → SqMat Fl d → Except PyErr ((Fin d → Fl) → Fl)) {d : ℕ}
    (m : Fin d → Fl) (M : SqMat Fl d) (df : Fl) (isNum : Bool) (r : Σ n k : ℕ, Fin n → Fin k → Fl) :
    Except PyErr (List Fl) :=
  let n := r.1
  let k := r.2.1
  if .fin 10000 < df then do
    let F ← mvnPdf d m M
    if k ≠ d ∧ k ≠ 1 then .error .valueError
    else return List.ofFn fun i : Fin n => F (mtSpread d (r.2.2 i))
  -- `x - mean`
  else if k ≠ d ∧ k ≠ 1 ∧ d ≠ 1 then .error .valueError
  -- `la.inv(cov)`
  else if (realMat M).det = 0 then .error .linAlg
  -- `x_us @ la.inv(cov)`
  else if k ≠ d ∧ k ≠ 1 then .error .valueError
  -- `np.diag` of a number
  else if isNum then .error .valueError
  else match df with
    | .fin ν =>
      let S := realMat M
      let a := Fl.fin (Real.Gamma (d / 2))
      let b := Fl.fin (Real.Gamma (ν / 2) * Real.Gamma (d / 2) / Real.Gamma (ν / 2 + d / 2)) *
        (Fl.fin (ν * Real.pi)) ^ (Fl.fin (d / 2)) * (Fl.fin S.det) ^ (Fl.fin 0.5)
      return List.ofFn fun i : Fin n =>
        let u := fun j => mtSpread d (r.2.2 i) j - m j
        let q := ∑ j, (∑ l, u l * .fin (S⁻¹ l j)) * u j
        a / (b * (.fin 1 + q / .fin ν) ^ (Fl.fin ((d + ν) / 2)))
    | _ => return List.ofFn fun _ : Fin n => Fl.nan

/-- _multivariate_t.py:82-118 `pdf`. The densities are returned in the order of the rows; a number and a vector of one
number are not distinguished in the result. -/
noncomputable def mtPdf (mvnPdf : (d : ℕ) → (Fin d → Fl) → SqMat Fl d → Except PyErr ((Fin d → Fl) → Fl)) (x : MtX)
    (mean : MtMean Fl) (cov : MtCov Fl) (df : Option Fl) : Except PyErr (List Fl) := do
  let m ← mean.toVec cov.toMat.1
  let df ← mvtParams cov.toMat.2 df
  mtPdfRows mvnPdf m cov.toMat.2 df x.isNum (x.toRows cov.toMat.1)

/-- _multivariate_t.py:57-79 `logpdf`. -/
noncomputable def mtLogpdf (mvnPdf : (d : ℕ) → (Fin d → Fl) → SqMat Fl d → Except PyErr ((Fin d → Fl) → Fl)) (x : MtX)
    (mean : MtMean Fl) (cov : MtCov Fl) (df : Option Fl) : Except PyErr (List Fl) := do
  let p ← mtPdf mvnPdf x mean cov df
  return p.map Fl.log

/-- The argument `size` of `rvs`: an integer, a tuple of integers, or something else. -/
inductive MtSize
  | int (n : ℤ)
  | tuple (l : List ℕ)
  | other

/-- What `rvs` returns: a Python number, or an array of the given shape; its `N * d` numbers are listed row by row. -/
inductive MtOut
  | num (v : ℝ)
  | arr (shape : List ℕ) {N d : ℕ} (x : Fin N → Fin d → ℝ)

/-- What `scipy.stats.multivariate_normal` makes of `mean` and `cov`: the dimension, the mean and the covariance
matrix. -/
def mvnArgs : MtMean ℝ → MtCov ℝ → Except PyErr (Σ d : ℕ, (Fin d → ℝ) × (Fin d → Fin d → ℝ))
  | .none, .none => .ok ⟨1, fun _ => 0, fun _ _ => 1⟩
  | .none, .num c => .ok ⟨1, fun _ => 0, fun _ _ => c⟩
  | .none, .mat M => .ok ⟨_, fun _ => 0, M⟩
  | .num m, .none => .ok ⟨1, fun _ => m, fun _ _ => 1⟩
  | .num m, .num c => .ok ⟨1, fun _ => m, fun _ _ => c⟩
  | .num m, @MtCov.mat _ d M => if d = 1 then .ok ⟨d, fun _ => m, M⟩ else .error .valueError
  | @MtMean.vec _ k m, .none => .ok ⟨k, m, fun i j => if i = j then 1 else 0⟩
  | @MtMean.vec _ k m, .num c => .ok ⟨k, m, fun i j => if i = j then c else 0⟩
  | @MtMean.vec _ k m, @MtCov.mat _ d M =>
    if h : k = d then .ok ⟨d, fun j => m (Fin.cast h.symm j), M⟩ else .error .valueError

/-- `mvn.rvs(mean, cov, size, random_state)` squeezes its result: dimensions of length one are dropped. -/
def npSqueeze (shape : List ℕ) : List ℕ := shape.filter (· ≠ 1)

/-- May an array of shape `b` be an operand of an assignment such as `a /= b` to an array of shape `a`? Both shapes are
compared from the right. -/
def inPlaceOk (a b : List ℕ) : Bool :=
  decide (b.length ≤ a.length) && (List.zip a.reverse b.reverse).all fun p => p.2 == p.1 || p.2 == 1

/-- _multivariate_t.py:183: `len(cov)` if `cov` has a length. -/
def MtCov.sized : MtCov ℝ → ℕ
  | @MtCov.mat _ d _ => d
  | _ => 1

/-- The shape of the mean as an operand. -/
def MtMean.shape : MtMean ℝ → List ℕ
  | @MtMean.vec _ k _ => [k]
  | _ => []

/-- The number added to column `j` by `r += mean`; a vector of one number is repeated. -/
noncomputable def MtMean.entry (j : ℕ) : MtMean ℝ → ℝ
  | .none => 0
  | .num v => v
  | @MtMean.vec _ k v => if h : j < k then v ⟨j, h⟩ else if h : 0 < k then v ⟨0, h⟩ else 0

/-- _multivariate_t.py:187-189, 193-195: the shape of `r` after `reshape` and `r /= d`, for `N` normal vectors of length `d`
where `k` is the length of the covariance matrix. A NumPy scalar becomes an array when it is divided. -/
def mtShape (N d k : ℕ) (dShape : List ℕ) (tuple : Option (List ℕ)) : Except PyErr (List ℕ) := do
  let r ← match tuple with
    | none => .ok (npSqueeze [N, d])
    | some l => if d = k then .ok (l ++ [k]) else .error .valueError
  if r = [] then .ok dShape
  else if inPlaceOk r dShape then .ok r
  else .error .valueError

/-- _multivariate_t.py:170-202, the part after the degrees of freedom have been looked at: `size` is given as the number
`N` of rows, the shape of `d` and, for a tuple, the tuple. The division by a chi-square variate of zero, which has
probability zero, is the division of real numbers. -/
noncomputable def mtRvsT {G : Gen} (mean : MtMean ℝ) (cov : MtCov ℝ) (df : ℝ) (N : ℕ) (dShape : List ℕ)
    (tuple : Option (List ℕ)) (type : String) (seed : Option ℤ) : Rnd G MtOut := do
  seedGlobal seed
  let c ← Rnd.draw (G.chisq df N)
  -- `reshape(*size, -1)` of no numbers
  if tuple.isSome ∧ N = 0 then throw .valueError
  else do
    let shifted := pyLower type = pyLower "shifted"
    if ¬ (shifted ∨ pyLower type = pyLower "kshirsagar") then throw .valueError
    else do
      let args ← Rnd.ofExcept (if shifted then
          match cov with
          | .mat M => mvnArgs .none (.mat M)
          | _ => .error .typeError
        else mvnArgs mean cov)
      let z ← mvnRvs N args.1 args.2.1 args.2.2 seed
      let rShape ← Rnd.ofExcept (mtShape N args.1 cov.sized dShape tuple)
      -- `r += mean`
      if shifted ∧ ¬ inPlaceOk rShape mean.shape then throw .valueError
      else
        let r : Fin N → Fin args.1 → ℝ := fun i j =>
          z i j / √(c i / df) + (if shifted then mean.entry j else 0)
        return if h : N = 1 ∧ args.1 = 1 then .num (r ⟨0, by omega⟩ ⟨0, by omega⟩) else .arr rShape r

/-- _multivariate_t.py:121-202 `rvs`. Random numbers are drawn before the type is looked at. -/
noncomputable def mtRvs {G : Gen} (mean : MtMean ℝ) (cov : MtCov ℝ) (df : Option ℝ) (size : MtSize) (type : String)
    (seed : Option ℤ) : Rnd G MtOut :=
  match size with
  | .other => throw .valueError
  | .tuple [] => throw .valueError
  | size =>
    match df with
    | none => throw .valueError
    | some df =>
      if df ≤ 0 then throw .valueError
      else if 10000 < df then do
        let args ← Rnd.ofExcept (mvnArgs mean cov)
        match size with
        | .int n =>
          if n < 0 then throw .valueError
          else do
            let z ← mvnRvs n.toNat args.1 args.2.1 args.2.2 seed
            return .arr (npSqueeze [n.toNat, args.1]) z
        | .tuple l => do
          let z ← mvnRvs l.prod args.1 args.2.1 args.2.2 seed
          return .arr (npSqueeze (l ++ [args.1])) z
        | .other => throw .valueError
      else match size with
        | .int n =>
          -- `np.random.seed` comes before the refusal of a negative size
          if n < 0 then do
            seedGlobal seed
            throw .valueError
          else mtRvsT mean cov df n.toNat (if 1 < n then [n.toNat, 1] else [n.toNat]) none type seed
        | .tuple l => mtRvsT mean cov df l.prod (l ++ [1]) (some l) type seed
        | .other => throw .valueError

end Copulae
