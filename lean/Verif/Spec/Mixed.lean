import Mathlib.Analysis.Calculus.Deriv.Basic

/-!
Mixed partial derivatives, stated without reference to the code.
-/

namespace Copulae.Spec

/-- `g` is the mixed partial derivative of `C` along the coordinates in the list (last one first),
on the set `U`: every intermediate derivative exists there. `U` is meant to be open. -/
def HasMixed {d : ℕ} (U : Set (Fin d → ℝ)) (C : (Fin d → ℝ) → ℝ) :
    List (Fin d) → ((Fin d → ℝ) → ℝ) → Prop
  | [], g => ∀ x ∈ U, C x = g x
  | j :: l, g => ∃ f, HasMixed U C l f ∧
      ∀ x ∈ U, HasDerivAt (fun t => f (Function.update x j t)) (g x) (x j)

/-- `g` is a density of `C` on `U`: the derivative with respect to all coordinates, once each, in
whatever order. -/
def IsDensityOn {d : ℕ} (U : Set (Fin d → ℝ)) (C g : (Fin d → ℝ) → ℝ) : Prop :=
  ∀ l : List (Fin d), l.Nodup → (∀ j, j ∈ l) → HasMixed U C l g

end Copulae.Spec
