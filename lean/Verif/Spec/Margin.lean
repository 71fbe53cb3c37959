import Mathlib.Analysis.Calculus.Deriv.Basic
import Verif.Model.Marginal

/-!
What is expected of a marginal distribution, without reference to the code of the marginal copula.
-/

namespace Copulae.Spec

/-- `F` computes the distribution function `G` of a real random variable, also at the infinities. -/
structure IsDistFn (F : Fl → Fl) (G : Fl → ℝ) : Prop where
  val : ∀ v, v ≠ .nan → F v = .fin (G v)
  mono : ∀ v w, v ≤ w → G v ≤ G w
  top : G .pinf = 1
  bot : G .ninf = 0

/-- `ppf` is the quantile function belonging to the distribution function `G`: below a threshold exactly when
the level is at most the probability of the threshold. -/
def IsQuantile (ppf : Fl → Fl) (G : Fl → ℝ) : Prop :=
  ∀ u : ℝ, 0 < u → u < 1 → ∀ v, v ≠ .nan → (ppf (.fin u) ≤ v ↔ u ≤ G v)

/-- The density methods compute the derivative `f` of the distribution function `G`, plain and
logarithmic, at the points of `S`. -/
structure IsSmooth (m : Margin) (G f : ℝ → ℝ) (S : Set ℝ) : Prop where
  cdf : ∀ x ∈ S, m.cdf (.fin x) = .fin (G x)
  pdf : ∀ x ∈ S, m.pdf (.fin x) = .fin (f x)
  logpdf : ∀ x ∈ S, m.logpdf (.fin x) = Fl.log (.fin (f x))
  nonneg : ∀ x ∈ S, 0 ≤ f x
  deriv : ∀ x ∈ S, HasDerivAt G (f x) x

end Copulae.Spec
