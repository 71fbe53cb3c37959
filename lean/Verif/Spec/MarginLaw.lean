import Mathlib.MeasureTheory.Integral.Bochner.Set
import Verif.Spec.IsCopula
import Verif.Model.Marginal

/-!
Margins as laws of real random variables, and laws of random vectors with given margins.
-/

namespace Copulae.Spec

open MeasureTheory Set

/-- The methods `cdf` and `ppf` of a frozen distribution are the distribution function and the quantile function `q` of
the law `M`. The law may be discrete, continuous or neither. -/
structure IsMarginLaw (m : Margin) (M : Measure ℝ) (q : ℝ → ℝ) : Prop where
  prob : IsProbabilityMeasure M
  cdf : ∀ x, m.cdf (.fin x) = .fin (M.real (Iic x))
  ppf : ∀ u, 0 < u → u < 1 → m.ppf (.fin u) = .fin (q u)
  quantile : ∀ u, 0 < u → u < 1 → ∀ x, q u ≤ x ↔ u ≤ M.real (Iic x)

/-- The methods `pdf` and `logpdf` of a frozen distribution are a density `f` of the law `M` and its logarithm. -/
structure HasMarginDensity (m : Margin) (M : Measure ℝ) (f : ℝ → ℝ) : Prop where
  meas : Measurable f
  nonneg : ∀ x, 0 ≤ f x
  density : M = (MeasureTheory.volume : Measure ℝ).withDensity fun x => ENNReal.ofReal (f x)
  pdf : ∀ x, m.pdf (.fin x) = .fin (f x)
  logpdf : ∀ x, m.logpdf (.fin x) = Fl.log (.fin (f x))

/-- `Q` is a law with margins `M` and copula `C`: its distribution function is `C` at the marginal probabilities
(Sklar's theorem). -/
structure IsJoint {d : ℕ} (Q : Measure (Fin d → ℝ)) (M : Fin d → Measure ℝ) (C : (Fin d → ℝ) → ℝ) : Prop where
  prob : IsProbabilityMeasure Q
  margin : ∀ j, Q.map (fun x => x j) = M j
  dist : ∀ x, distFn Q x = C fun j => (M j).real (Iic (x j))

/-- `h` is a density of `Q`, which gives no probability to the points outside `U`. -/
def HasDensityOn {d : ℕ} (Q : Measure (Fin d → ℝ)) (U : Set (Fin d → ℝ)) (h : (Fin d → ℝ) → ℝ) : Prop :=
  ∀ s : Set (Fin d → ℝ), MeasurableSet s → IntegrableOn h (s ∩ U) ∧ Q.real s = ∫ x in s ∩ U, h x

/-- The points with every marginal probability strictly between zero and one. -/
def inside {d : ℕ} (M : Fin d → Measure ℝ) : Set (Fin d → ℝ) :=
  {x | ∀ j, 0 < (M j).real (Iic (x j)) ∧ (M j).real (Iic (x j)) < 1}

end Copulae.Spec
