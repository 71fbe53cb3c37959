import Mathlib.Analysis.SpecialFunctions.Pow.Real
import Mathlib.Algebra.BigOperators.Fin

/-!
What the literature calls these things, without reference to the code: closed forms of the
Archimedean copulas and admissible parameters.
-/

namespace Copulae.Spec

/-- Clayton copula, Nelsen (4.2.1), any sign of the parameter. -/
noncomputable def clayton (θ : ℝ) {d : ℕ} (u : Fin d → ℝ) : ℝ :=
  (max (∑ i, u i ^ (-θ) - d + 1) 0) ^ (-1 / θ)

/-- Gumbel copula. -/
noncomputable def gumbel (θ : ℝ) {d : ℕ} (u : Fin d → ℝ) : ℝ :=
  Real.exp (-(∑ i, (-Real.log (u i)) ^ θ) ^ (1 / θ))

/-- Frank copula. -/
noncomputable def frank (θ : ℝ) {d : ℕ} (u : Fin d → ℝ) : ℝ :=
  -1 / θ * Real.log (1 + (∏ i, (Real.exp (-θ * u i) - 1)) / (Real.exp (-θ) - 1) ^ (d - 1))

/-- The volume a function assigns to the box between `a` and `b`: the alternating sum of its values at
the corners. -/
noncomputable def volume {d : ℕ} (C : (Fin d → ℝ) → ℝ) (a b : Fin d → ℝ) : ℝ :=
  ∑ S : Finset (Fin d), (-1) ^ S.card * C fun j => if j ∈ S then a j else b j

end Copulae.Spec
