import Mathlib.MeasureTheory.Measure.Real
import Mathlib.MeasureTheory.Constructions.BorelSpace.Real
import Mathlib.MeasureTheory.Integral.IntegrableOn
import Mathlib.MeasureTheory.Integral.Bochner.Set
import Mathlib.MeasureTheory.Measure.Lebesgue.Basic
import Verif.Spec.Copula

/-!
The definition of a copula: a function on the unit cube that vanishes when a coordinate is zero, has uniform
margins, and gives every box a non-negative volume (Nelsen, Definition 2.10.6).
-/

namespace Copulae.Spec

open MeasureTheory

/-- A `d`-dimensional copula. -/
structure IsCopula {d : ℕ} (C : (Fin d → ℝ) → ℝ) : Prop where
  grounded : ∀ u : Fin d → ℝ, (∀ j, 0 ≤ u j ∧ u j ≤ 1) → (∃ j, u j = 0) → C u = 0
  margin : ∀ (j : Fin d) (v : ℝ), 0 ≤ v → v ≤ 1 → C (fun k => if k = j then v else 1) = v
  volume : ∀ a b : Fin d → ℝ, (∀ j, 0 ≤ a j) → (∀ j, a j ≤ b j) → (∀ j, b j ≤ 1) → 0 ≤ volume C a b

/-- The distribution function of a law. -/
noncomputable def distFn {d : ℕ} (P : Measure (Fin d → ℝ)) (u : Fin d → ℝ) : ℝ := P.real {x | ∀ j, x j ≤ u j}

/-- `P` is a law on the open unit cube with distribution function `C`. -/
structure IsLawOf {d : ℕ} (P : Measure (Fin d → ℝ)) (C : (Fin d → ℝ) → ℝ) : Prop where
  prob : IsProbabilityMeasure P
  mem : ∀ᵐ x ∂P, ∀ j, 0 < x j ∧ x j < 1
  dist : ∀ b : Fin d → ℝ, (∀ j, 0 < b j ∧ b j ≤ 1) → distFn P b = C b

/-- `c` is a density of the law `P` inside the unit cube. -/
def HasCubeDensity {d : ℕ} (P : Measure (Fin d → ℝ)) (c : (Fin d → ℝ) → ℝ) : Prop :=
  ∀ s : Set (Fin d → ℝ), MeasurableSet s →
    IntegrableOn c (s ∩ {u | ∀ j, 0 < u j ∧ u j < 1}) ∧
      P.real s = ∫ u in s ∩ {u | ∀ j, 0 < u j ∧ u j < 1}, c u

end Copulae.Spec
