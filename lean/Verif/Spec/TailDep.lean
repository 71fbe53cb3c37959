import Mathlib.MeasureTheory.Measure.Real
import Mathlib.MeasureTheory.Constructions.BorelSpace.Real

/-!
Coefficients of tail dependence of two coordinates of a law on the unit cube (Nelsen, Definition 5.4.1).
-/

namespace Copulae.Spec

open MeasureTheory Filter Topology

/-- `l` is the limit of the probability that one coordinate is at most `u` given that the other is, as `u` tends to 0. -/
def LowerTailDep {d : ℕ} (P : Measure (Fin d → ℝ)) (i j : Fin d) (l : ℝ) : Prop :=
  Tendsto (fun u : ℝ => P.real {x | x i ≤ u ∧ x j ≤ u} / P.real {x | x i ≤ u}) (𝓝[>] 0) (𝓝 l)

/-- `l` is the limit of the probability that one coordinate exceeds `u` given that the other does, as `u` tends to 1. -/
def UpperTailDep {d : ℕ} (P : Measure (Fin d → ℝ)) (i j : Fin d) (l : ℝ) : Prop :=
  Tendsto (fun u : ℝ => P.real {x | u < x i ∧ u < x j} / P.real {x | u < x i}) (𝓝[<] 1) (𝓝 l)

end Copulae.Spec
