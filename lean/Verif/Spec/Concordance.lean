import Mathlib.MeasureTheory.Measure.Prod
import Mathlib.MeasureTheory.Measure.Real
import Mathlib.MeasureTheory.Integral.Bochner.Basic

/-!
Measures of concordance of two coordinates of a law (Nelsen, Definitions 5.1.1 and 5.1.3, Theorem 5.1.6).
-/

namespace Copulae.Spec

open MeasureTheory

/-- Kendall's tau: the probability of concordance minus the probability of discordance of two independent
observations. -/
noncomputable def kendallTau {d : ℕ} (P : Measure (Fin d → ℝ)) (i j : Fin d) : ℝ :=
  (P.prod P).real {p | 0 < (p.1 i - p.2 i) * (p.1 j - p.2 j)} -
    (P.prod P).real {p | (p.1 i - p.2 i) * (p.1 j - p.2 j) < 0}

/-- Spearman's rho: the correlation of two uniform variables, which have mean 1/2 and variance 1/12. -/
noncomputable def spearmanRho {d : ℕ} (P : Measure (Fin d → ℝ)) (i j : Fin d) : ℝ :=
  12 * ∫ u, u i * u j ∂P - 3

end Copulae.Spec
