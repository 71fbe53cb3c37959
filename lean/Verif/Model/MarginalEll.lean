import Verif.Model.Marginal
import Verif.Model.EllDensity

/-!
The elliptical copulas as inner copulas of `MarginalCopula` (copulae/marginal/marginal.py) and of `log_lik`.
-/

namespace Copulae

/-- A `GaussianCopula` as inner copula: gaussian.py:47-53 `cdf` and 75-82 `pdf`. -/
noncomputable def gaussInner (f : EllFns) (s : Ell) (d : ℕ) : Inner d where
  cdf := fun x log => gaussianCdf f s x log
  pdf := fun x log => gaussianPdf f s x log

/-- A `StudentCopula` as inner copula: student.py:57-64 `cdf` and 169-177 `pdf`. -/
noncomputable def studentInner (f : EllFns) (s : Ell) (df : Fl) (d : ℕ) : Inner d where
  cdf := fun x log => studentCdf f s df x log
  pdf := fun x log => studentPdf f s df x log

end Copulae
