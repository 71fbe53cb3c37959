import Mathlib.Algebra.Order.Floor.Ring
import Verif.Model.Fit
import Verif.Model.ArchPdf

/-!
Model of `copulae/marginal/marginal.py` (`MarginalCopula`) and of `log_lik` in `copulae/copula/base.py`.

The inner copula and the frozen SciPy distributions of the margins are parameters of the model: a margin is
given by its methods `cdf`, `pdf`, `logpdf` and `ppf` (element by element), an inner copula by its `cdf` and
`pdf` on matrices with the right number of columns. The arguments are taken after the decorators
`validate_data_dim` and `shape_first_input_to_cop_dim` (modelled in `Model/Reshape.lean`), except for the kind
of number in the array, which those decorators keep. Results are given by their values; that a result of one
row is returned as a number matters for `log_lik` only and is modelled there.
-/

namespace Copulae

/-- A frozen SciPy distribution. -/
structure Margin where
  cdf : Fl → Fl
  pdf : Fl → Fl
  logpdf : Fl → Fl
  ppf : Fl → Fl

/-- The methods of the inner copula that are called. -/
structure Inner (d : ℕ) where
  cdf : {n : ℕ} → (Fin n → Fin d → Fl) → Bool → Except PyErr (Fin n → Fl)
  pdf : {n : ℕ} → (Fin n → Fin d → Fl) → Bool → Except PyErr (Fin n → Fl)

/-- An Archimedean copula as inner copula. -/
noncomputable def archInner (F : Family) (θ : ℝ) (d : ℕ) : Inner d where
  cdf := fun x log => archCdf F θ d x log
  pdf := fun x log => archPdf F θ d x log

/-- The independence copula as inner copula. -/
noncomputable def indepInner (d : ℕ) : Inner d where
  cdf := fun x log => indepCdf d x log
  pdf := fun x log => indepPdf d x log

/-- The kind of number in a NumPy array. -/
inductive DType
  | float
  | int
  deriving DecidableEq

open Classical in
/-- Assigning a number to an element of an array: integers are cut off towards zero; NaN and infinities
become the smallest integer of 64 bits. -/
noncomputable def DType.store : DType → Fl → Fl
  | .float, v => v
  | .int, .fin r => .fin (if 0 ≤ r then (⌊r⌋ : ℝ) else (⌈r⌉ : ℝ))
  | .int, _ => .fin (-(2 : ℝ) ^ 63)

/-- marginal.py:96-99 and 133-139: the array `u = np.empty_like(x)` filled with the values of the marginal
distribution functions; it has the kind of number that `x` has. -/
noncomputable def marginU {d : ℕ} (m : Fin d → Margin) (dt : DType) {n : ℕ} (x : Fin n → Fin d → Fl) :
    Fin n → Fin d → Fl :=
  fun i j => dt.store ((m j).cdf (x i j))

/-- marginal.py:92-101 `cdf`. -/
noncomputable def margCdf {d : ℕ} (inner : Inner d) (m : Fin d → Margin) (dt : DType) {n : ℕ}
    (x : Fin n → Fin d → Fl) (log : Bool) : Except PyErr (Fin n → Fl) :=
  inner.cdf (marginU m dt x) log

/-- marginal.py:135-143: the product of the marginal densities, or the sum of their logarithms. -/
noncomputable def densityMargin {d : ℕ} (m : Fin d → Margin) {n : ℕ} (x : Fin n → Fin d → Fl) (log : Bool)
    (i : Fin n) : Fl :=
  (List.finRange d).foldl
    (fun acc j => if log then acc + (m j).logpdf (x i j) else acc * (m j).pdf (x i j))
    (if log then .fin 0 else .fin 1)

/-- marginal.py:129-146 `pdf`. -/
noncomputable def margPdf {d : ℕ} (inner : Inner d) (m : Fin d → Margin) (dt : DType) {n : ℕ}
    (x : Fin n → Fin d → Fl) (log : Bool) : Except PyErr (Fin n → Fl) := do
  let c ← inner.pdf (marginU m dt x) log
  return fun i => if log then c i + densityMargin m x log i else c i * densityMargin m x log i

/-- The array returned by the `random` method of a copula. -/
inductive RandOut (d : ℕ)
  | mat (n : ℕ) (M : Fin n → Fin d → Fl)
  | vec (v : Fin d → Fl)

/-- `norm.cdf(mvn.rvs(cov=..., size=n))` and `t.cdf(mvt.rvs(...), df)` (gaussian.py:85-88, student.py:179-182):
SciPy drops the axes of length one, so one observation is a vector. The dimension of a copula is at least two. -/
def rvsShape {d n : ℕ} (M : Fin n → Fin d → Fl) : RandOut d :=
  if h : n = 1 then .vec (M ⟨0, by omega⟩) else .mat n M

/-- marginal.py:148-155 `random`, given the sample of the inner copula: `u[:, i]` of a vector is an
`IndexError`. -/
def margRandom {d : ℕ} (m : Fin d → Margin) (u : RandOut d) : Except PyErr (RandOut d) :=
  match u with
  | .mat n M => .ok (.mat n fun i j => (m j).ppf (M i j))
  | .vec _ => .error .indexError

/-- base.py:165-166: `self.pdf(data, log=True).sum()`. A result with one element is a Python `float`
(`squeeze_output`, utility/annotations/reshape.py:100-104), which has no method `sum`. -/
noncomputable def sumLog {n : ℕ} (v : Fin n → Fl) : Except PyErr Fl :=
  if n = 1 then .error .attributeError else .ok (∑ i, v i)

/-- base.py:142-166 `log_lik` of a copula with the given density. -/
noncomputable def baseLogLik {d : ℕ} (pdf : {n : ℕ} → (Fin n → Fin d → Fl) → Bool → Except PyErr (Fin n → Fl))
    {n : ℕ} (data : Fin n → Fin d → ℚ) (toPobs : Bool) (ties : String) : Except PyErr Fl := do
  let u ← maybePobs data toPobs ties
  let v ← pdf (fun i j => .fin ((u i j : ℚ) : ℝ)) true
  sumLog v

/-- base.py:142-166 `log_lik` of a `MarginalCopula` (it is inherited), on an array of floats. -/
noncomputable def margLogLik {d : ℕ} (inner : Inner d) (m : Fin d → Margin) {n : ℕ}
    (data : Fin n → Fin d → ℚ) (toPobs : Bool) (ties : String) : Except PyErr Fl :=
  baseLogLik (fun x log => margPdf inner m .float x log) data toPobs ties

end Copulae
