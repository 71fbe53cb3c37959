import Verif.Props.Seeding
import Mathlib.Probability.Distributions.Gamma
import Mathlib.Probability.Distributions.Exponential
import Mathlib.Probability.Distributions.Gaussian.Multivariate
import Mathlib.MeasureTheory.Constructions.Pi

/-!
What it means for a computation to draw from a law, and for a random generator to be ideal.

The state of the global generator is random with a law `P`. A computation draws from the law `L` when its result is a
value with law `L` that is independent of the state it leaves behind, and that state again has the law `P`. A generator is
ideal when its draws do so, with the laws documented by NumPy and SciPy.
-/

namespace Copulae.Spec

open MeasureTheory ProbabilityTheory Set

/-- The law of `n` independent values with law `L`. -/
noncomputable def iid {β : Type} [MeasurableSpace β] (n : ℕ) (L : Measure β) : Measure (Fin n → β) :=
  Measure.pi fun _ => L

/-- Started in a state with law `P`, the computation `c` almost surely returns `e x` where `x` has the law `L`, and leaves a
state that is independent of `x` and has the law `P`. -/
def Draws {G : Gen} [MeasurableSpace G.S] {α β : Type} [MeasurableSpace β] (P : Measure G.S) (c : Rnd G α) (e : β → α)
    (L : Measure β) : Prop :=
  ∃ (X : G.S → β) (next : G.S → G.S), Measurable X ∧ Measurable next ∧
    (∀ᵐ s ∂P, c.exec s = (.ok (e (X s)), next s)) ∧ P.map (fun s => (X s, next s)) = L.prod P

/-- The uniform law on (0, 1). -/
noncomputable def unif : Measure ℝ := volume.restrict (Ioo 0 1)

/-- The law on `Fin k` that gives `c` the probability `p c`. -/
noncomputable def pick {k : ℕ} (p : Fin k → ℝ) : Measure (Fin k) := ∑ c, ENNReal.ofReal (p c) • Measure.dirac c

/-- The normal law with given mean and covariance matrix. -/
noncomputable def normalLaw {d : ℕ} (mean : Fin d → ℝ) (S : Matrix (Fin d) (Fin d) ℝ) : Measure (Fin d → ℝ) :=
  (multivariateGaussian 0 S).map fun z j => mean j + z j

/-- A matrix of numbers as a matrix of floats. -/
def matFl {n d : ℕ} (x : Fin n → Fin d → ℝ) : Fin n → Fin d → Fl := fun i j => .fin (x i j)

/-- Every draw has the documented law. -/
structure IsIdeal (G : Gen) [MeasurableSpace G.S] (P : Measure G.S) : Prop where
  prob : IsProbabilityMeasure P
  uniform : ∀ n d, Draws P (Rnd.draw (G.uniform n d)) matFl (iid n (iid d unif))
  uniform1 : ∀ n, Draws P (Rnd.draw (G.uniform1 n)) id (iid n unif)
  gamma : ∀ a, 0 < a → ∀ n, Draws P (Rnd.draw (G.gamma a n)) (fun x i => .fin (x i)) (iid n (gammaMeasure a 1))
  expo : ∀ n, Draws P (Rnd.draw (G.expo n)) id (iid n (expMeasure 1))
  chisq : ∀ ν, 0 < ν → ∀ n, Draws P (Rnd.draw (G.chisq ν n)) id (iid n (gammaMeasure (ν / 2) (1 / 2)))
  randint : ∀ m n, 0 < m →
    Draws P (Rnd.draw (G.randint m n)) (fun x i => (x i : ℕ)) (iid n (pick fun _ : Fin m => 1 / m))
  choice : ∀ k n (p : Fin k → ℝ), (∀ c, 0 ≤ p c) → ∑ c, p c = 1 →
    Draws P (Rnd.draw (G.choice k n p)) (fun x i => (x i : ℕ)) (iid n (pick p))
  normal : ∀ n, Draws P (Rnd.draw (G.normal n)) id (iid n (gaussianReal 0 1))
  mvn : ∀ n d mean (S : Matrix (Fin d) (Fin d) ℝ), S.PosSemidef →
    Draws P (Rnd.draw (G.mvn n d mean S)) id (iid n (normalLaw mean S))

end Copulae.Spec
