import Mathlib.Analysis.SpecialFunctions.Exp
import Mathlib.Analysis.SpecialFunctions.Trigonometric.Basic
import Mathlib.MeasureTheory.Integral.IntervalIntegral.Basic

/-!
The stable laws of index one with a skewness (Nolan 1997, in the parametrisation S0 with scale one and location zero).
-/

namespace Copulae

open Real

/-- The function in the exponent. -/
noncomputable def Spec.stableVOne (β x θ : ℝ) : ℝ :=
  2 / π * ((π / 2 + β * θ) / cos θ) * exp ((π / 2 + β * θ) / β * tan θ - π * x / (2 * β))

/-- The density. -/
noncomputable def Spec.stableDensityOne (β x : ℝ) : ℝ :=
  1 / (2 * |β|) * ∫ θ in (-(π / 2))..(π / 2), stableVOne β x θ * exp (-stableVOne β x θ)

end Copulae
