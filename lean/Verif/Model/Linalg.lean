import Verif.Model.Elliptical
import Verif.Model.Measures

/-!
Model of `copulae/core/linalg.py`: `corr2cov`, `cov2corr` and the strict variant of `is_psd`
(`is_psd`, `is_symmetric` and `near_psd` with default arguments are in `Verif.Model.Elliptical`).

Simplification: the arguments are square arrays (and a vector of the same length); broadcasting of
arrays of other shapes is not modelled.
-/

namespace Copulae

/-- linalg.py:12-32 `corr2cov`: `corr * np.outer(std, std)`. -/
noncomputable def corr2cov {d : ℕ} (corr : SqMat Fl d) (std : Fin d → Fl) : SqMat Fl d :=
  fun i j => corr i j * (std i * std j)

/-- linalg.py:58: `np.sqrt(np.diag(cov))`. -/
noncomputable def covStd {d : ℕ} (cov : SqMat Fl d) : Fin d → Fl := fun i => Fl.sqrt (cov i i)

/-- linalg.py:35-64 `cov2corr(cov)`: `cov / np.outer(std, std)`. -/
noncomputable def cov2corr {d : ℕ} (cov : SqMat Fl d) : SqMat Fl d :=
  fun i j => cov i j / (covStd cov i * covStd cov j)

/-- linalg.py:35-64 `cov2corr(cov, return_std=True)`. -/
noncomputable def cov2corrStd {d : ℕ} (cov : SqMat Fl d) : SqMat Fl d × (Fin d → Fl) :=
  (cov2corr cov, covStd cov)

/-- linalg.py:94-95 `(la.eigvalsh(M) > -tol).all()`; see `eigAtLeast`. -/
def eigAbove {d : ℕ} (M : SqMat Fl d) (tol : ℝ) : Prop :=
  ∃ R : SqMat ℝ d, lowerReal M R ∧
    ∀ v : Fin d → ℝ, v ≠ 0 → -tol * ∑ i, v i ^ 2 < ∑ i, ∑ j, R i j * v i * v j

/-- linalg.py:67-97 `is_psd(M, strict, tol)` on a square array. -/
def isPsdTol {d : ℕ} (M : SqMat Fl d) (strict : Bool) (tol : ℝ) : Prop :=
  isSymmetric M tol ∧ if strict then eigAbove M tol else eigAtLeast M tol

/-- linalg.py:86-87 `is_psd(M, strict, tol)` of a number. -/
def isPsdScalar (M : Fl) (strict : Bool) (tol : ℝ) : Prop :=
  if strict then (.fin (-tol) : Fl) < M else (.fin (-tol) : Fl) ≤ M

end Copulae
