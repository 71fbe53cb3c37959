import Mathlib.Probability.Distributions.Gaussian.Multivariate
import Verif.Spec.IsCopula

/-!
What a Gaussian mixture copula is supposed to be: the copula of a mixture of normal laws.
-/

namespace Copulae.Spec

open MeasureTheory ProbabilityTheory
open scoped ENNReal

variable {m d : ℕ}

/-- The mixture of the normal laws with means `μ c` and covariance matrices `S c`, weighted by `p c`. -/
noncomputable def gmmLaw (p : Fin m → ℝ) (μ : Fin m → Fin d → ℝ) (S : Fin m → Matrix (Fin d) (Fin d) ℝ) :
    Measure (Fin d → ℝ) :=
  ∑ c, ENNReal.ofReal (p c) • (multivariateGaussian 0 (S c)).map fun z j => μ c j + z j

/-- The marginal distribution functions of the mixture. -/
noncomputable def gmmMargin (p : Fin m → ℝ) (μ : Fin m → Fin d → ℝ) (S : Fin m → Matrix (Fin d) (Fin d) ℝ)
    (j : Fin d) (x : ℝ) : ℝ := (gmmLaw p μ S).real {z | z j ≤ x}

/-- The Gaussian mixture copula as a law: every coordinate of the mixture under its marginal distribution function. -/
noncomputable def gmcLaw (p : Fin m → ℝ) (μ : Fin m → Fin d → ℝ) (S : Fin m → Matrix (Fin d) (Fin d) ℝ) :
    Measure (Fin d → ℝ) := (gmmLaw p μ S).map fun z j => gmmMargin p μ S j (z j)

end Copulae.Spec
