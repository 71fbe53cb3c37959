import Verif.Spec.Consistency
import Mathlib.Analysis.SpecialFunctions.Pow.Real

/-!
Spearman's rho of a sample.
-/

namespace Copulae.Spec

/-- The rank of an observation: how many observations are not larger. -/
noncomputable def rankOf {n : ℕ} (x : Fin n → ℝ) (i : Fin n) : ℝ := Nat.card {k // x k ≤ x i}

/-- Pearson's coefficient of correlation. -/
noncomputable def pearson {n : ℕ} (u v : Fin n → ℝ) : ℝ :=
  (∑ i, (u i - (∑ k, u k) / n) * (v i - (∑ k, v k) / n)) /
    √((∑ i, (u i - (∑ k, u k) / n) ^ 2) * ∑ i, (v i - (∑ k, v k) / n) ^ 2)

/-- Spearman's rho of two samples without ties: the correlation of the ranks. -/
noncomputable def sampleRho {n : ℕ} (x y : Fin n → ℝ) : ℝ := pearson (rankOf x) (rankOf y)

/-- `scipy.stats.spearmanr` on two samples of at least two numbers without ties. -/
def IsSpearman (f : List Fl → List Fl → Except PyErr Fl) : Prop :=
  ∀ (n : ℕ) (x y : Fin n → ℝ), 2 ≤ n → Function.Injective x → Function.Injective y →
    f (List.ofFn fun i => .fin (x i)) (List.ofFn fun i => .fin (y i)) = .ok (.fin (sampleRho x y))

end Copulae.Spec
