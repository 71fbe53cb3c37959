import Verif.Spec.EllLaw
import Verif.Spec.Sampling

/-!
The two multivariate t laws with a location documented for `multivariate_t.rvs`.
-/

namespace Copulae.Spec

open MeasureTheory ProbabilityTheory

/-- The location shifted law: the t law moved by `m`. -/
noncomputable def tShifted {d : ℕ} (m : Fin d → ℝ) (S : Matrix (Fin d) (Fin d) ℝ) (ν : ℝ) : Measure (Fin d → ℝ) :=
  (tVector S ν).map fun x j => x j + m j

/-- Kshirsagar's non-central law: a normal vector with mean `m` and covariance matrix `S`, divided by the root of an
independent chi-square variable over its degrees of freedom. -/
noncomputable def tNoncentral {d : ℕ} (m : Fin d → ℝ) (S : Matrix (Fin d) (Fin d) ℝ) (ν : ℝ) : Measure (Fin d → ℝ) :=
  ((normalLaw m S).prod (gammaMeasure (ν / 2) (1 / 2))).map fun p j => p.1 j / √(p.2 / ν)

end Copulae.Spec
