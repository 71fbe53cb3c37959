import Mathlib.Analysis.Calculus.Deriv.Comp
import Mathlib.Analysis.Calculus.Deriv.Add
import Mathlib.Analysis.Calculus.Deriv.Mul
import Mathlib.Topology.Algebra.Monoid
import Verif.Spec.Mixed

/-!
Mixed derivatives of `ψ (Σ φ (x j))`.
-/

namespace Copulae

open Finset Spec

/-- The derivative along `l` of an Archimedean function. -/
theorem hasMixed_gen {d : ℕ} {φ φ' : ℝ → ℝ} {ψ : ℕ → ℝ → ℝ} {I T : Set ℝ}
    (hφ : ∀ u ∈ I, HasDerivAt φ (φ' u) u)
    (hψ : ∀ k, ∀ s ∈ T, HasDerivAt (ψ k) (ψ (k + 1) s) s)
    {C : (Fin d → ℝ) → ℝ} (hC : ∀ x, (∀ j, x j ∈ I) → (∑ j, φ (x j)) ∈ T → C x = ψ 0 (∑ j, φ (x j)))
    (l : List (Fin d)) (hl : l.Nodup) :
    HasMixed {x | (∀ j, x j ∈ I) ∧ (∑ j, φ (x j)) ∈ T} C l
      (fun x => ψ l.length (∑ j, φ (x j)) * (l.map fun j => φ' (x j)).prod) := by
  induction l with
  | nil =>
    intro x hx
    rw [hC x hx.1 hx.2]
    simp
  | cons j l ih =>
    rw [List.nodup_cons] at hl
    refine ⟨_, ih hl.2, fun x hx => ?_⟩
    have hprod : ∀ t, (l.map fun i => φ' (Function.update x j t i)).prod =
        (l.map fun i => φ' (x i)).prod := by
      intro t
      congr 1
      apply List.map_congr_left
      intro i hi
      rw [Function.update_of_ne]
      rintro rfl
      exact hl.1 hi
    have hsum : ∀ t, ∑ i, φ (Function.update x j t i) = φ t + ∑ i ∈ univ.erase j, φ (x i) := by
      intro t
      rw [← Finset.add_sum_erase _ _ (mem_univ j), Function.update_self]
      congr 1
      apply Finset.sum_congr rfl
      intro i hi
      rw [Function.update_of_ne (Finset.ne_of_mem_erase hi)]
    have hsx : ∑ i, φ (x i) = φ (x j) + ∑ i ∈ univ.erase j, φ (x i) :=
      (Finset.add_sum_erase _ _ (mem_univ j)).symm
    simp only [hprod, hsum]
    have h1 : HasDerivAt (fun t => φ t + ∑ i ∈ univ.erase j, φ (x i)) (φ' (x j)) (x j) :=
      (hφ _ (hx.1 j)).add_const _
    have h2 := hψ l.length _ hx.2
    rw [hsx] at h2
    have h3 := (h2.comp (x j) h1).mul_const ((l.map fun i => φ' (x i)).prod)
    refine h3.congr_deriv ?_
    rw [hsx, List.length_cons, List.map_cons, List.prod_cons]
    ring

theorem prod_list_univ {d : ℕ} (l : List (Fin d)) (hl : l.Nodup) (hall : ∀ j, j ∈ l) (f : Fin d → ℝ) :
    (l.map f).prod = ∏ j, f j := by
  rw [← List.prod_toFinset f hl]
  congr 1
  ext j
  simp [hall j]

theorem length_list_univ {d : ℕ} (l : List (Fin d)) (hl : l.Nodup) (hall : ∀ j, j ∈ l) :
    l.length = d := by
  have h : l.toFinset = univ := by ext j; simp [hall j]
  rw [← List.toFinset_card_of_nodup hl, h, card_univ, Fintype.card_fin]

theorem isDensityOn_gen {d : ℕ} {φ φ' : ℝ → ℝ} {ψ : ℕ → ℝ → ℝ} {I T : Set ℝ}
    (hφ : ∀ u ∈ I, HasDerivAt φ (φ' u) u)
    (hψ : ∀ k, ∀ s ∈ T, HasDerivAt (ψ k) (ψ (k + 1) s) s)
    {C : (Fin d → ℝ) → ℝ} (hC : ∀ x, (∀ j, x j ∈ I) → (∑ j, φ (x j)) ∈ T → C x = ψ 0 (∑ j, φ (x j))) :
    IsDensityOn {x | (∀ j, x j ∈ I) ∧ (∑ j, φ (x j)) ∈ T} C
      (fun x => ψ d (∑ j, φ (x j)) * ∏ j, φ' (x j)) := by
  intro l hl hall
  have h := hasMixed_gen hφ hψ hC l hl
  rw [length_list_univ l hl hall] at h
  have e : (fun x : Fin d → ℝ => ψ d (∑ j, φ (x j)) * (l.map fun j => φ' (x j)).prod) =
      fun x => ψ d (∑ j, φ (x j)) * ∏ j, φ' (x j) := by
    funext x
    rw [prod_list_univ l hl hall fun j => φ' (x j)]
  rwa [e] at h

theorem hasMixed_congr {d : ℕ} {U : Set (Fin d → ℝ)} {C : (Fin d → ℝ) → ℝ} {l : List (Fin d)}
    {g g' : (Fin d → ℝ) → ℝ} (h : HasMixed U C l g) (hg : ∀ x ∈ U, g x = g' x) :
    HasMixed U C l g' := by
  cases l with
  | nil => exact fun x hx => (h x hx).trans (hg x hx)
  | cons j l =>
    obtain ⟨f, h1, h2⟩ := h
    exact ⟨f, h1, fun x hx => (hg x hx) ▸ h2 x hx⟩

theorem isDensityOn_congr {d : ℕ} {U : Set (Fin d → ℝ)} {C g g' : (Fin d → ℝ) → ℝ}
    (h : IsDensityOn U C g) (hg : ∀ x ∈ U, g x = g' x) : IsDensityOn U C g' :=
  fun l hl hall => hasMixed_congr (h l hl hall) hg

theorem hasMixed_mono {d : ℕ} {U V : Set (Fin d → ℝ)} {C : (Fin d → ℝ) → ℝ} {l : List (Fin d)}
    {g : (Fin d → ℝ) → ℝ} (h : HasMixed U C l g) (hV : V ⊆ U) : HasMixed V C l g := by
  induction l generalizing g with
  | nil => exact fun x hx => h x (hV hx)
  | cons j l ih =>
    obtain ⟨f, h1, h2⟩ := h
    exact ⟨f, ih h1, fun x hx => h2 x (hV hx)⟩

theorem isDensityOn_mono {d : ℕ} {U V : Set (Fin d → ℝ)} {C g : (Fin d → ℝ) → ℝ}
    (h : IsDensityOn U C g) (hV : V ⊆ U) : IsDensityOn V C g :=
  fun l hl hall => hasMixed_mono (h l hl hall) hV

end Copulae
