import Mathlib.Analysis.Convex.Function
import Mathlib.Analysis.Convex.Slope
import Mathlib.Algebra.Order.BigOperators.Group.Finset
import Verif.Model.Archimedean

/-!
Consequences of a generator pair being inverse, decreasing and convex.
-/

namespace Copulae

open Finset

/-- On `(lo, 1]` the vectorised functions `psi`, `ipsi` compute a decreasing generator `ψ` and its
inverse `φ`; at `0` (when it belongs to the domain) the product is handled by infinities or by the
generator reaching zero. -/
structure IsGen (psi ipsi : Fl → Fl) (lo : ℝ) (φ ψ : ℝ → ℝ) : Prop where
  lo_nonneg : 0 ≤ lo
  lo_lt : lo < 1
  ipsi_fin : ∀ u, lo < u → u ≤ 1 → ipsi (.fin u) = .fin (φ u)
  zero : lo = 0 → (ipsi (.fin 0) = .pinf ∧ psi .pinf = .fin 0) ∨
    (∃ z, 0 ≤ z ∧ ipsi (.fin 0) = .fin z ∧ ∀ s, z ≤ s → ψ s = 0)
  psi_fin : ∀ s, 0 ≤ s → psi (.fin s) = .fin (ψ s)
  phi_one : φ 1 = 0
  phi_anti : ∀ u v, lo < u → u ≤ v → v ≤ 1 → φ v ≤ φ u
  psi_anti : ∀ s t, 0 ≤ s → s ≤ t → ψ t ≤ ψ s
  psi_nonneg : ∀ s, 0 ≤ s → 0 ≤ ψ s
  psi_phi : ∀ u, lo < u → u ≤ 1 → ψ (φ u) = u
  convex : ConvexOn ℝ (Set.Ici 0) ψ

/-- The points where the generator is right. -/
def GenDom (lo u : ℝ) : Prop := (lo < u ∨ (lo = 0 ∧ u = 0)) ∧ u ≤ 1

open Classical in
/-- The distribution function as a real function. -/
noncomputable def genC (φ ψ : ℝ → ℝ) {d : ℕ} (x : Fin d → ℝ) : ℝ :=
  if ∃ j, x j = 0 then 0 else ψ (∑ j, φ (x j))

namespace IsGen

variable {psi ipsi : Fl → Fl} {lo : ℝ} {φ ψ : ℝ → ℝ}

theorem phi_nonneg (h : IsGen psi ipsi lo φ ψ) {u : ℝ} (h0 : lo < u) (h1 : u ≤ 1) : 0 ≤ φ u := by
  rw [← h.phi_one]; exact h.phi_anti u 1 h0 h1 le_rfl

theorem sum_nonneg (h : IsGen psi ipsi lo φ ψ) {d : ℕ} {x : Fin d → ℝ}
    (hx : ∀ j, lo < x j ∧ x j ≤ 1) (s : Finset (Fin d)) : 0 ≤ ∑ j ∈ s, φ (x j) :=
  Finset.sum_nonneg fun j _ => h.phi_nonneg (hx j).1 (hx j).2

theorem pos_of_dom (_ : IsGen psi ipsi lo φ ψ) {u : ℝ} (hu : GenDom lo u) (h0 : u ≠ 0) : lo < u := by
  rcases hu.1 with h1 | h1
  · exact h1
  · exact absurd h1.2 h0

theorem cdf_val (h : IsGen psi ipsi lo φ ψ) {d : ℕ} (x : Fin d → ℝ) (hx : ∀ j, GenDom lo (x j)) :
    psi (∑ j, ipsi (.fin (x j))) = .fin (genC φ ψ x) := by
  classical
  by_cases hz : ∃ j, x j = 0
  · rw [genC, if_pos hz]
    obtain ⟨k, hk⟩ := hz
    have hlo : lo = 0 := by
      rcases (hx k).1 with h1 | h1
      · rw [hk] at h1; linarith [h.lo_nonneg]
      · exact h1.1
    rcases h.zero hlo with ⟨hi, hp⟩ | ⟨z, hz0, hi, hψ⟩
    · rw [Fl.sum_pinf _ _ _ ⟨k, mem_univ k, by rw [hk, hi]⟩, hp]
      intro j _
      by_cases hj : x j = 0
      · rw [hj, hi]; exact ⟨by simp, by simp⟩
      · rw [h.ipsi_fin _ (h.pos_of_dom (hx j) hj) (hx j).2]
        exact ⟨by simp, by simp⟩
    · have hall : ∀ j, ipsi (.fin (x j)) = .fin (if x j = 0 then z else φ (x j)) := by
        intro j
        by_cases hj : x j = 0
        · rw [if_pos hj, hj, hi]
        · rw [if_neg hj, h.ipsi_fin _ (h.pos_of_dom (hx j) hj) (hx j).2]
      have hnn : ∀ j, 0 ≤ (if x j = 0 then z else φ (x j)) := by
        intro j
        by_cases hj : x j = 0
        · rw [if_pos hj]; exact hz0
        · rw [if_neg hj]; exact h.phi_nonneg (h.pos_of_dom (hx j) hj) (hx j).2
      rw [Finset.sum_congr rfl fun j _ => hall j, Fl.sum_fin,
        h.psi_fin _ (Finset.sum_nonneg fun j _ => hnn j), hψ]
      calc z = (if x k = 0 then z else φ (x k)) := by rw [if_pos hk]
        _ ≤ _ := Finset.single_le_sum (f := fun j => if x j = 0 then z else φ (x j))
            (fun j _ => hnn j) (mem_univ k)
  · rw [genC, if_neg hz]
    push Not at hz
    have hx' : ∀ j, lo < x j ∧ x j ≤ 1 := fun j => ⟨h.pos_of_dom (hx j) (hz j), (hx j).2⟩
    rw [Finset.sum_congr rfl fun j _ => h.ipsi_fin _ (hx' j).1 (hx' j).2, Fl.sum_fin,
      h.psi_fin _ (h.sum_nonneg hx' _)]

theorem genC_zero {d : ℕ} {x : Fin d → ℝ} {k : Fin d} (hk : x k = 0) : genC φ ψ x = 0 := by
  rw [genC, if_pos ⟨k, hk⟩]

theorem genC_pos (h : IsGen psi ipsi lo φ ψ) {d : ℕ} {x : Fin d → ℝ} (hx : ∀ j, lo < x j) :
    genC φ ψ x = ψ (∑ j, φ (x j)) := by
  rw [genC, if_neg]
  rintro ⟨j, hj⟩
  have := hx j
  rw [hj] at this
  linarith [h.lo_nonneg]

theorem genC_margin (h : IsGen psi ipsi lo φ ψ) {d : ℕ} (k : Fin d) {u : ℝ} (hu : GenDom lo u) :
    genC φ ψ (Function.update (fun _ : Fin d => (1 : ℝ)) k u) = u := by
  by_cases hu0 : u = 0
  · rw [genC_zero (k := k) (by rw [Function.update_self, hu0]), hu0]
  · have hlt := h.pos_of_dom hu hu0
    rw [h.genC_pos]
    · rw [Finset.sum_eq_single k]
      · rw [Function.update_self, h.psi_phi u hlt hu.2]
      · intro j _ hj
        rw [Function.update_of_ne hj, h.phi_one]
      · intro hk; exact absurd (mem_univ k) hk
    · intro j
      by_cases hj : j = k
      · rw [hj, Function.update_self]; exact hlt
      · rw [Function.update_of_ne hj]; exact h.lo_lt

theorem genC_nonneg (h : IsGen psi ipsi lo φ ψ) {d : ℕ} {x : Fin d → ℝ}
    (hx : ∀ j, GenDom lo (x j)) : 0 ≤ genC φ ψ x := by
  by_cases hz : ∃ j, x j = 0
  · rw [genC, if_pos hz]
  · push Not at hz
    have hx' : ∀ j, lo < x j ∧ x j ≤ 1 := fun j => ⟨h.pos_of_dom (hx j) (hz j), (hx j).2⟩
    rw [h.genC_pos fun j => (hx' j).1]
    exact h.psi_nonneg _ (h.sum_nonneg hx' _)

theorem genC_mono (h : IsGen psi ipsi lo φ ψ) {d : ℕ} {x y : Fin d → ℝ}
    (hx : ∀ j, GenDom lo (x j)) (hy : ∀ j, GenDom lo (y j)) (hxy : ∀ j, x j ≤ y j) :
    genC φ ψ x ≤ genC φ ψ y := by
  by_cases hz : ∃ j, x j = 0
  · rw [genC, if_pos hz]
    exact h.genC_nonneg hy
  · push Not at hz
    have hx' : ∀ j, lo < x j ∧ x j ≤ 1 := fun j => ⟨h.pos_of_dom (hx j) (hz j), (hx j).2⟩
    have hy' : ∀ j, lo < y j ∧ y j ≤ 1 := fun j => ⟨lt_of_lt_of_le (hx' j).1 (hxy j), (hy j).2⟩
    rw [h.genC_pos fun j => (hx' j).1, h.genC_pos fun j => (hy' j).1]
    exact h.psi_anti _ _ (h.sum_nonneg hy' _)
      (Finset.sum_le_sum fun j _ => h.phi_anti _ _ (hx' j).1 (hxy j) (hy' j).2)

theorem genC_le (h : IsGen psi ipsi lo φ ψ) {d : ℕ} {x : Fin d → ℝ}
    (hx : ∀ j, GenDom lo (x j)) (k : Fin d) : genC φ ψ x ≤ x k := by
  have h1 := h.genC_margin k (hx k)
  have hdom : ∀ j, GenDom lo (Function.update (fun _ : Fin d => (1 : ℝ)) k (x k) j) := by
    intro j
    by_cases hj : j = k
    · rw [hj, Function.update_self]; exact hx k
    · rw [Function.update_of_ne hj]; exact ⟨Or.inl h.lo_lt, le_rfl⟩
  calc genC φ ψ x ≤ genC φ ψ (Function.update (fun _ : Fin d => (1 : ℝ)) k (x k)) := by
        refine h.genC_mono hx hdom fun j => ?_
        by_cases hj : j = k
        · rw [hj, Function.update_self]
        · rw [Function.update_of_ne hj]; exact (hx j).2
    _ = x k := h1

/-- Increments of a convex function increase. -/
theorem convex_increment {f : ℝ → ℝ} (hf : ConvexOn ℝ (Set.Ici 0) f) {s t k : ℝ} (hs : 0 ≤ s)
    (hst : s ≤ t) (hk : 0 ≤ k) : f (s + k) - f s ≤ f (t + k) - f t := by
  rcases hk.eq_or_lt with rfl | hk
  · simp
  rcases hst.eq_or_lt with rfl | hst
  · rfl
  -- both `s + k` and `t` are convex combinations of `s` and `t + k`
  have hL : 0 < t + k - s := by linarith
  have hp : 0 ≤ (t - s) / (t + k - s) := by apply div_nonneg <;> linarith
  have hq : 0 ≤ k / (t + k - s) := by positivity
  have h1 := hf.2 (Set.mem_Ici.mpr hs) (Set.mem_Ici.mpr (by linarith : (0 : ℝ) ≤ t + k)) hp hq
    (by field_simp; ring)
  have h2 := hf.2 (Set.mem_Ici.mpr hs) (Set.mem_Ici.mpr (by linarith : (0 : ℝ) ≤ t + k)) hq hp
    (by field_simp; ring)
  simp only [smul_eq_mul] at h1 h2
  rw [show (t - s) / (t + k - s) * s + k / (t + k - s) * (t + k) = s + k by field_simp; ring] at h1
  rw [show k / (t + k - s) * s + (t - s) / (t + k - s) * (t + k) = t by field_simp; ring] at h2
  have h3 : (t - s) / (t + k - s) + k / (t + k - s) = 1 := by field_simp; ring
  have h4 : (t - s) / (t + k - s) * f s + k / (t + k - s) * f (t + k) +
      (k / (t + k - s) * f s + (t - s) / (t + k - s) * f (t + k)) = f s + f (t + k) := by
    calc _ = ((t - s) / (t + k - s) + k / (t + k - s)) * (f s + f (t + k)) := by ring
      _ = _ := by rw [h3, one_mul]
  linarith

theorem genC_two (h : IsGen psi ipsi lo φ ψ) {a b : ℝ} (ha : lo < a) (hb : lo < b) :
    genC φ ψ ![a, b] = ψ (φ a + φ b) := by
  rw [h.genC_pos]
  · simp [Fin.sum_univ_two]
  · intro j; fin_cases j <;> simpa

theorem rectangle (h : IsGen psi ipsi lo φ ψ) {a a' b b' : ℝ} (ha : GenDom lo a)
    (hb : GenDom lo b) (haa : a ≤ a') (hbb : b ≤ b') (ha' : a' ≤ 1) (hb' : b' ≤ 1) :
    0 ≤ genC φ ψ ![a', b'] - genC φ ψ ![a, b'] - genC φ ψ ![a', b] + genC φ ψ ![a, b] := by
  have hdom : ∀ u v, GenDom lo u → u ≤ v → v ≤ 1 → GenDom lo v := by
    intro u v hu huv hv
    refine ⟨?_, hv⟩
    rcases hu.1 with h1 | h1
    · exact Or.inl (lt_of_lt_of_le h1 huv)
    · rcases eq_or_ne v 0 with h2 | h2
      · exact Or.inr ⟨h1.1, h2⟩
      · left
        rw [h1.1]
        rw [h1.2] at huv
        exact lt_of_le_of_ne huv (Ne.symm h2)
  have ha2 := hdom a a' ha haa ha'
  have hb2 := hdom b b' hb hbb hb'
  have hp : ∀ {u v : ℝ}, GenDom lo u → GenDom lo v → ∀ j, GenDom lo (![u, v] j) := by
    intro u v hu hv j; fin_cases j <;> simpa
  by_cases ha0 : a = 0
  · rw [genC_zero (x := ![a, b']) (k := 0) (by simpa), genC_zero (x := ![a, b]) (k := 0) (by simpa)]
    have := h.genC_mono (hp ha2 hb) (hp ha2 hb2) (fun j => by fin_cases j <;> simp [hbb])
    linarith
  by_cases hb0 : b = 0
  · rw [genC_zero (x := ![a', b]) (k := 1) (by simpa), genC_zero (x := ![a, b]) (k := 1) (by simpa)]
    have := h.genC_mono (hp ha hb2) (hp ha2 hb2) (fun j => by fin_cases j <;> simp [haa])
    linarith
  have la := h.pos_of_dom ha ha0
  have lb := h.pos_of_dom hb hb0
  have la' := lt_of_lt_of_le la haa
  have lb' := lt_of_lt_of_le lb hbb
  rw [h.genC_two la' lb', h.genC_two la lb', h.genC_two la' lb, h.genC_two la lb]
  have n1 := h.phi_nonneg la' ha'
  have n2 := h.phi_nonneg lb' hb'
  have m1 := h.phi_anti a a' la haa ha'
  have m2 := h.phi_anti b b' lb hbb hb'
  have := convex_increment h.convex (s := φ a' + φ b') (t := φ a' + φ b) (k := φ a - φ a')
    (by linarith) (by linarith) (by linarith)
  rw [show φ a' + φ b' + (φ a - φ a') = φ a + φ b' by ring,
    show φ a' + φ b + (φ a - φ a') = φ a + φ b by ring] at this
  linarith

end IsGen

end Copulae
