import Mathlib.Analysis.SpecialFunctions.Pow.Real
import Mathlib.Analysis.SpecialFunctions.Trigonometric.Arctan
import Mathlib.MeasureTheory.Integral.IntervalIntegral.Basic

/-!
The density of stable laws as an integral (Nolan 1997, in the parametrisation S0 with scale one and location zero), for
an index other than one.
-/

namespace Copulae

open Real

/-- The point `ζ` at which the two halves of the density meet. -/
noncomputable def Spec.stableZeta (α β : ℝ) : ℝ := -(β * tan (α * π / 2))

/-- The angle `θ₀`. -/
noncomputable def Spec.stableAngle (α β : ℝ) : ℝ := arctan (β * tan (α * π / 2)) / α

/-- The function in the exponent; `y` is the distance from `ζ`, `t` the angle. -/
noncomputable def Spec.stableV (α t y θ : ℝ) : ℝ :=
  cos (α * (θ + t) - θ) * (cos (α * t) * cos θ * (y / sin (α * (θ + t))) ^ α) ^ (1 / (α - 1))

/-- The density at distance `y > 0` on the side with angle `t`. -/
noncomputable def Spec.stableHalf (α t y : ℝ) : ℝ :=
  α / (π * |α - 1| * y) * ∫ θ in (-t)..(π / 2), stableV α t y θ * exp (-stableV α t y θ)

/-- The density. (The point `ζ` itself has probability zero.) -/
noncomputable def Spec.stableDensity (α β x : ℝ) : ℝ :=
  if stableZeta α β < x then stableHalf α (stableAngle α β) (x - stableZeta α β)
  else if x < stableZeta α β then stableHalf α (-stableAngle α β) (stableZeta α β - x)
  else 0

end Copulae
