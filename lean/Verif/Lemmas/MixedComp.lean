import Mathlib.Analysis.Calculus.Deriv.Comp
import Mathlib.Analysis.Calculus.Deriv.Mul
import Verif.Lemmas.Mixed

/-!
Mixed derivatives of a function after a change of every coordinate.
-/

namespace Copulae

open Spec

/-- Mixed derivatives of `C (G₁ x₁, …, G_d x_d)`. -/
theorem hasMixed_comp {d : ℕ} {U : Set (Fin d → ℝ)} {C g : (Fin d → ℝ) → ℝ} {G f : Fin d → ℝ → ℝ}
    {V : Set (Fin d → ℝ)} (hV : ∀ x ∈ V, (fun j => G j (x j)) ∈ U)
    (hG : ∀ x ∈ V, ∀ j, HasDerivAt (G j) (f j (x j)) (x j)) {l : List (Fin d)} (hl : l.Nodup)
    (h : HasMixed U C l g) :
    HasMixed V (fun x => C fun j => G j (x j)) l
      (fun x => g (fun j => G j (x j)) * (l.map fun j => f j (x j)).prod) := by
  induction l generalizing g with
  | nil =>
    intro x hx
    simp only [List.map_nil, List.prod_nil, mul_one]
    exact h _ (hV x hx)
  | cons k l ih =>
    obtain ⟨g', h1, h2⟩ := h
    rw [List.nodup_cons] at hl
    refine ⟨_, ih hl.2 h1, fun x hx => ?_⟩
    have hu := h2 _ (hV x hx)
    have hupd : ∀ t, (fun j => G j (Function.update x k t j)) =
        Function.update (fun j => G j (x j)) k (G k t) := by
      intro t
      funext j
      by_cases hj : j = k
      · subst hj; simp
      · rw [Function.update_of_ne hj, Function.update_of_ne hj]
    have hprod : ∀ t, (l.map fun j => f j (Function.update x k t j)).prod = (l.map fun j => f j (x j)).prod := by
      intro t
      congr 1
      apply List.map_congr_left
      intro j hj
      have hne : j ≠ k := fun e => hl.1 (e ▸ hj)
      rw [Function.update_of_ne hne]
    have hc := HasDerivAt.comp (x k) hu (hG x hx k)
    have hm := hc.mul_const (l.map fun j => f j (x j)).prod
    simp only [hupd, hprod]
    refine hm.congr_deriv ?_
    rw [List.map_cons, List.prod_cons]
    ring

theorem isDensityOn_comp {d : ℕ} {U : Set (Fin d → ℝ)} {C g : (Fin d → ℝ) → ℝ} {G f : Fin d → ℝ → ℝ}
    {V : Set (Fin d → ℝ)} (hV : ∀ x ∈ V, (fun j => G j (x j)) ∈ U)
    (hG : ∀ x ∈ V, ∀ j, HasDerivAt (G j) (f j (x j)) (x j)) (h : IsDensityOn U C g) :
    IsDensityOn V (fun x => C fun j => G j (x j)) (fun x => g (fun j => G j (x j)) * ∏ j, f j (x j)) := by
  intro l hl hall
  have := hasMixed_comp hV hG hl (h l hl hall)
  simpa only [prod_list_univ l hl hall] using this

end Copulae
