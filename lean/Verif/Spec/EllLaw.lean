import Mathlib.Probability.Distributions.Gaussian.Multivariate
import Mathlib.Probability.CDF
import Mathlib.Probability.Distributions.Gamma
import Verif.Spec.IsCopula

/-!
What the elliptical copulas are supposed to be: laws of transformed elliptical vectors.
-/

namespace Copulae.Spec

open MeasureTheory ProbabilityTheory

/-- The law of `(Φ(Z₁), …, Φ(Z_d))` for a centred normal vector `Z` with covariance matrix `S`; `Φ` is the standard
normal distribution function. -/
noncomputable def gaussLaw {d : ℕ} (S : Matrix (Fin d) (Fin d) ℝ) : Measure (Fin d → ℝ) :=
  (multivariateGaussian 0 S).map fun z j => cdf (gaussianReal 0 1) (z j)

/-- The multivariate t law with `ν` degrees of freedom: the law of `Z / √(W / ν)` for a centred normal vector `Z` with
covariance matrix `S` and an independent chi-square variable `W` with `ν` degrees of freedom. -/
noncomputable def tVector {d : ℕ} (S : Matrix (Fin d) (Fin d) ℝ) (ν : ℝ) : Measure (Fin d → ℝ) :=
  ((multivariateGaussian 0 S).prod (gammaMeasure (ν / 2) (1 / 2))).map fun p j => p.1 j / √(p.2 / ν)

/-- The t distribution with `ν` degrees of freedom. -/
noncomputable def tLine (ν : ℝ) : Measure ℝ :=
  ((gaussianReal 0 1).prod (gammaMeasure (ν / 2) (1 / 2))).map fun p => p.1 / √(p.2 / ν)

/-- The law of `(T(X₁), …, T(X_d))` for a t vector `X`; `T` is the distribution function of the t distribution. -/
noncomputable def studentLaw {d : ℕ} (S : Matrix (Fin d) (Fin d) ℝ) (ν : ℝ) : Measure (Fin d → ℝ) :=
  (tVector S ν).map fun x j => cdf (tLine ν) (x j)

end Copulae.Spec
