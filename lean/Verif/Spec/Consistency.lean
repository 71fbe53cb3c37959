import Verif.Spec.Sampling
import Verif.Spec.Concordance
import Verif.Spec.IsCopula

/-!
Computations from random samples: what it means to give a good result with high probability, and the coefficients of samples
without ties.
-/

namespace Copulae.Spec

open MeasureTheory

/-- Started in a state with law `R`, the computation `c` raises, or returns a value that is not `good`, with probability at
most `δ`. -/
def Likely {G : Gen} [MeasurableSpace G.S] {α : Type} (R : Measure G.S) (c : Rnd G α) (δ : ℝ) (good : α → Prop) : Prop :=
  R {s | ¬ ∃ a s', c.exec s = (.ok a, s') ∧ good a} ≤ ENNReal.ofReal δ

/-- No column of the sample has ties. -/
def NoTies {n d : ℕ} (x : Fin n → Fin d → ℝ) : Prop := ∀ j i k, i ≠ k → x i j ≠ x k j

/-- The margins of the law have no atoms. -/
def Atomless {d : ℕ} (P : Measure (Fin d → ℝ)) : Prop := ∀ j y, P {x | x j = y} = 0

/-- Kendall's tau of two samples without ties: the numbers of concordant minus discordant pairs of observations divided by the
number of pairs. -/
noncomputable def sampleTau {n : ℕ} (x y : Fin n → ℝ) : ℝ :=
  (Nat.card {p : Fin n × Fin n // p.1 < p.2 ∧ 0 < (x p.1 - x p.2) * (y p.1 - y p.2)} -
    Nat.card {p : Fin n × Fin n // p.1 < p.2 ∧ (x p.1 - x p.2) * (y p.1 - y p.2) < 0}) / (n * (n - 1) / 2)

/-- `scipy.stats.kendalltau` on two samples of at least two numbers without ties. -/
def IsKendall (f : List Fl → List Fl → Except PyErr Fl) : Prop :=
  ∀ (n : ℕ) (x y : Fin n → ℝ), 2 ≤ n → Function.Injective x → Function.Injective y →
    f (List.ofFn fun i => .fin (x i)) (List.ofFn fun i => .fin (y i)) = .ok (.fin (sampleTau x y))

end Copulae.Spec
