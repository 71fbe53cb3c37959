import Verif.Spec.IsCopula
import Mathlib.MeasureTheory.Constructions.Pi
import Mathlib.Probability.Distributions.Gaussian.Real

/-!
Exchangeable pairs and the normal variates of the test of exchangeability.
-/

namespace Copulae.Spec

open MeasureTheory ProbabilityTheory

variable {d n : ℕ}

/-- The law of two coordinates. -/
noncomputable def pairLaw (P : Measure (Fin d → ℝ)) (i j : Fin d) : Measure (Fin 2 → ℝ) := P.map fun x => ![x i, x j]

/-- A law of pairs that stays the same when the coordinates change places. -/
def Exchangeable (P : Measure (Fin 2 → ℝ)) : Prop := pairLaw P 1 0 = P

/-- The difference between the distribution functions of the law and of the law with the coordinates exchanged. -/
noncomputable def exchGap (P : Measure (Fin 2 → ℝ)) (w : Fin 2 → ℝ) : ℝ := distFn P w - distFn P ![w 1, w 0]

/-- In every replicate the variates of the observations are standard normal and independent (the replicates need not be
independent). -/
structure NormalDraws (Z : Measure (ℕ → Fin n → ℝ)) : Prop where
  prob : IsProbabilityMeasure Z
  normal : ∀ k, Z.map (fun f => f k) = Measure.pi fun _ : Fin n => gaussianReal 0 1

end Copulae.Spec
