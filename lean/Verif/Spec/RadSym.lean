import Verif.Spec.IsCopula
import Mathlib.MeasureTheory.Constructions.Pi

/-!
Radial symmetry and the coins of the test of radial symmetry.
-/

namespace Copulae

open MeasureTheory

variable {d n : ℕ}

/-- The reflected point. -/
def reflect (x : Fin d → ℝ) : Fin d → ℝ := fun j => 1 - x j

/-- The law of the reflected points. -/
noncomputable def Spec.reflected (P : Measure (Fin d → ℝ)) : Measure (Fin d → ℝ) := P.map reflect

/-- A fair coin. -/
noncomputable def Spec.fairCoin : Measure Bool := (2 : ENNReal)⁻¹ • Measure.dirac true + (2 : ENNReal)⁻¹ • Measure.dirac false

/-- In every replicate the coins of the observations are fair and independent (the replicates need not be independent). -/
structure Spec.CoinFlips (K : Measure (ℕ → Fin n → Bool)) : Prop where
  prob : IsProbabilityMeasure K
  fair : ∀ k, K.map (fun f => f k) = Measure.pi fun _ : Fin n => Spec.fairCoin

end Copulae
