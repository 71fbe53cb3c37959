import Mathlib.Analysis.Calculus.Deriv.MeanValue
import Mathlib.Algebra.BigOperators.Ring.Finset
import Verif.Lemmas.ArchGen
import Verif.Spec.Copula

/-!
Volumes of boxes under Archimedean functions, in any dimension: a generator whose repeated differences
alternate in sign assigns a non-negative volume to every box.
-/

namespace Copulae

open Finset

/-- Repeated differences of order up to `n` alternate in sign on `(l, ∞)` or `[l, ∞)`: `P s` says that `s`
belongs to the half-line. -/
def Alt (P : ℝ → Prop) : ℕ → (ℝ → ℝ) → Prop
  | 0, f => ∀ s, P s → 0 ≤ f s
  | n + 1, f => Alt P n f ∧ ∀ h, 0 ≤ h → Alt P n fun s => f s - f (s + h)

theorem Alt.pred {P : ℝ → Prop} {n : ℕ} {f : ℝ → ℝ} (h : Alt P (n + 1) f) : Alt P n f := h.1

theorem Alt.shift {P : ℝ → Prop} (hP : ∀ s c, P s → 0 ≤ c → P (s + c)) {n : ℕ} {f : ℝ → ℝ} (h : Alt P n f)
    {c : ℝ} (hc : 0 ≤ c) : Alt P n fun s => f (s + c) := by
  induction n generalizing f with
  | zero => exact fun s hs => h (s + c) (hP s c hs hc)
  | succ n ih =>
    refine ⟨ih h.1, fun k hk => ?_⟩
    have := ih (h.2 k hk)
    simpa only [add_right_comm] using this

/-- Derivatives of alternating sign give alternating differences. -/
theorem alt_of_deriv {n : ℕ} {ψ : ℕ → ℝ → ℝ} (hd : ∀ k, ∀ s, 0 < s → HasDerivAt (ψ k) (ψ (k + 1) s) s)
    (hs : ∀ k, k ≤ n → ∀ s, 0 < s → 0 ≤ (-1) ^ k * ψ k s) : Alt (fun s => 0 < s) n (ψ 0) := by
  induction n generalizing ψ with
  | zero => exact fun s h => by simpa using hs 0 le_rfl s h
  | succ n ih =>
    refine ⟨ih hd fun k hk => hs k (by omega), fun h hh => ?_⟩
    refine ih (ψ := fun k s => ψ k s - ψ k (s + h)) (fun k s hspos => ?_) fun k hk s hspos => ?_
    · have h1 := hd k (s + h) (by linarith)
      have h2 : HasDerivAt (fun s => ψ k (s + h)) (ψ (k + 1) (s + h)) s :=
        (HasDerivAt.comp s h1 ((hasDerivAt_id s).add_const h)).congr_deriv (mul_one _)
      exact (hd k s hspos).sub h2
    · have hanti : AntitoneOn (fun s => (-1) ^ k * ψ k s) (Set.Ioi 0) := by
        apply antitoneOn_of_deriv_nonpos (convex_Ioi 0)
        · exact fun x hx => ((hd k x hx).const_mul _).continuousAt.continuousWithinAt
        · rw [interior_Ioi]
          exact fun x hx => ((hd k x hx).const_mul _).differentiableAt.differentiableWithinAt
        · rw [interior_Ioi]
          intro x hx
          rw [((hd k x hx).const_mul _).deriv]
          have := hs (k + 1) (by omega) x hx
          rw [pow_succ] at this
          linarith
      have := hanti (Set.mem_Ioi.mpr hspos) (Set.mem_Ioi.mpr (by linarith : 0 < s + h))
        (by linarith)
      simp only at this
      rw [mul_sub]
      linarith

/-- Continuity brings in the end point. -/
theorem alt_closure {n : ℕ} {f : ℝ → ℝ} (hc : ContinuousOn f (Set.Ici 0)) (h : Alt (fun s => 0 < s) n f) :
    Alt (fun s => 0 ≤ s) n f := by
  induction n generalizing f with
  | zero =>
    intro s hs
    rcases hs.eq_or_lt with rfl | hs
    · have h1 : Filter.Tendsto f (nhdsWithin 0 (Set.Ioi 0)) (nhds (f 0)) :=
        (hc 0 (Set.mem_Ici.mpr le_rfl)).mono Set.Ioi_subset_Ici_self
      exact ge_of_tendsto h1 (by
        filter_upwards [self_mem_nhdsWithin] with x hx using h x hx)
    · exact h s hs
  | succ n ih =>
    refine ⟨ih hc h.1, fun k hk => ih ?_ (h.2 k hk)⟩
    refine hc.sub (hc.comp (continuous_id.add continuous_const).continuousOn fun x hx => ?_)
    have : (0 : ℝ) ≤ x := hx
    exact Set.mem_Ici.mpr (by show (0:ℝ) ≤ x + k; linarith)

/-- The alternating sum over the corners. `Z` is the set of coordinates whose lower corner is zero. -/
theorem alt_volume {ι : Type*} [DecidableEq ι] (Z : ι → Prop) [DecidablePred Z] (A B : ι → ℝ) (T : Finset ι)
    (hB : ∀ j ∈ T, 0 ≤ B j) (hAB : ∀ j ∈ T, ¬ Z j → B j ≤ A j) {f : ℝ → ℝ} (h : Alt (fun s => 0 ≤ s) T.card f) :
    0 ≤ ∑ S ∈ T.powerset, (-1) ^ S.card *
      (if ∃ j ∈ S, Z j then 0 else f (∑ j ∈ T, if j ∈ S then A j else B j)) := by
  induction T using Finset.induction_on generalizing f with
  | empty =>
    simp only [powerset_empty, sum_singleton, card_empty, pow_zero, one_mul, notMem_empty, false_and,
      exists_false, if_false, sum_empty]
    exact h 0 le_rfl
  | insert k T hk ih =>
    rw [card_insert_of_notMem hk] at h
    have hBk := hB k (mem_insert_self k T)
    have hB' : ∀ j ∈ T, 0 ≤ B j := fun j hj => hB j (mem_insert_of_mem hj)
    have hAB' : ∀ j ∈ T, ¬ Z j → B j ≤ A j := fun j hj => hAB j (mem_insert_of_mem hj)
    have hsh := h.shift (fun s c hs hc => add_nonneg hs hc) hBk
    rw [sum_powerset_insert hk]
    have e1 : ∀ S ∈ T.powerset, (∑ j ∈ insert k T, if j ∈ S then A j else B j) =
        (∑ j ∈ T, if j ∈ S then A j else B j) + B k := by
      intro S hS
      rw [sum_insert hk, if_neg fun h' => hk (mem_powerset.mp hS h'), add_comm]
    have e2 : ∀ S ∈ T.powerset, (∑ j ∈ insert k T, if j ∈ insert k S then A j else B j) =
        (∑ j ∈ T, if j ∈ S then A j else B j) + A k := by
      intro S hS
      rw [sum_insert hk, if_pos (mem_insert_self k S), add_comm]
      congr 1
      apply sum_congr rfl
      intro j hj
      have : j ≠ k := fun e => hk (e ▸ hj)
      simp [this]
    have e3 : ∀ S ∈ T.powerset, (insert k S).card = S.card + 1 := fun S hS =>
      card_insert_of_notMem fun h' => hk (mem_powerset.mp hS h')
    by_cases hZ : Z k
    · have z : ∑ S ∈ T.powerset, (-1 : ℝ) ^ (insert k S).card * (if ∃ j ∈ insert k S, Z j then 0 else
          f (∑ j ∈ insert k T, if j ∈ insert k S then A j else B j)) = 0 := by
        apply sum_eq_zero
        intro S _
        rw [if_pos ⟨k, mem_insert_self k S, hZ⟩, mul_zero]
      rw [z, add_zero, sum_congr rfl fun S hS => by rw [e1 S hS]]
      exact ih hB' hAB' hsh.pred
    · have hAk := hAB k (mem_insert_self k T) hZ
      have hd : Alt (fun s => 0 ≤ s) T.card fun s => f (s + B k) - f (s + A k) := by
        have := hsh.2 (A k - B k) (by linarith)
        simpa only [show ∀ s, s + (A k - B k) + B k = s + A k from fun s => by ring] using this
      have := ih hB' hAB' hd
      rw [← sum_add_distrib]
      refine this.trans_eq (sum_congr rfl fun S hS => ?_)
      rw [e1 S hS, e2 S hS, e3 S hS]
      have ex : (∃ j ∈ insert k S, Z j) ↔ ∃ j ∈ S, Z j := by
        constructor
        · rintro ⟨j, hj, hz⟩
          rcases mem_insert.mp hj with rfl | hj
          · exact absurd hz hZ
          · exact ⟨j, hj, hz⟩
        · rintro ⟨j, hj, hz⟩
          exact ⟨j, mem_insert_of_mem hj, hz⟩
      by_cases hx : ∃ j ∈ S, Z j
      · rw [if_pos hx, if_pos hx, if_pos (ex.mpr hx)]
        simp
      · rw [if_neg hx, if_neg hx, if_neg (fun h' => hx (ex.mp h'))]
        ring

namespace IsGen

variable {psi ipsi : Fl → Fl} {lo : ℝ} {φ ψ : ℝ → ℝ}

/-- Every box has a non-negative volume. -/
theorem volume_nonneg (h : IsGen psi ipsi lo φ ψ) {d : ℕ} (halt : Alt (fun s => 0 ≤ s) d ψ) {a b : Fin d → ℝ}
    (ha : ∀ j, GenDom lo (a j)) (hab : ∀ j, a j ≤ b j) (hb : ∀ j, b j ≤ 1) :
    0 ≤ Spec.volume (genC φ ψ) a b := by
  classical
  unfold Spec.volume
  by_cases hz : ∃ j, b j = 0
  · obtain ⟨k, hk⟩ := hz
    have hak : a k = 0 := by
      rcases (ha k).1 with h1 | h1
      · have := hab k
        rw [hk] at this
        linarith [h.lo_nonneg]
      · exact h1.2
    refine (Finset.sum_eq_zero fun S _ => ?_).ge
    rw [genC_zero (k := k), mul_zero]
    by_cases hS : k ∈ S
    · rw [if_pos hS, hak]
    · rw [if_neg hS, hk]
  · push Not at hz
    have hb0 : ∀ j, lo < b j := by
      intro j
      rcases (ha j).1 with h1 | h1
      · exact lt_of_lt_of_le h1 (hab j)
      · have := hab j
        rw [h1.2] at this
        rw [h1.1]
        exact lt_of_le_of_ne this (Ne.symm (hz j))
    have key := alt_volume (fun j => a j = 0) (fun j => φ (a j)) (fun j => φ (b j)) (univ : Finset (Fin d))
      (fun j _ => h.phi_nonneg (hb0 j) (hb j))
      (fun j _ hj => h.phi_anti _ _ (h.pos_of_dom (ha j) hj) (hab j) (hb j)) (f := ψ) (by simpa using halt)
    rw [powerset_univ] at key
    refine key.trans_eq (sum_congr rfl fun S _ => ?_)
    congr 1
    rw [genC]
    have ex : (∃ j, (if j ∈ S then a j else b j) = 0) ↔ ∃ j ∈ S, a j = 0 := by
      constructor
      · rintro ⟨j, hj⟩
        by_cases hS : j ∈ S
        · rw [if_pos hS] at hj; exact ⟨j, hS, hj⟩
        · rw [if_neg hS] at hj; exact absurd hj (hz j)
      · rintro ⟨j, hS, hj⟩
        exact ⟨j, by rw [if_pos hS, hj]⟩
    by_cases hx : ∃ j ∈ S, a j = 0
    · rw [if_pos hx, if_pos (ex.mpr hx)]
    · rw [if_neg hx, if_neg fun h' => hx (ex.mp h')]
      congr 1
      apply sum_congr rfl
      intro j _
      by_cases hS : j ∈ S <;> simp [hS]

/-- Convexity is the case of two dimensions. -/
theorem alt_two (h : IsGen psi ipsi lo φ ψ) : Alt (fun s => 0 ≤ s) 2 ψ := by
  have h1 : Alt (fun s => 0 ≤ s) 1 ψ :=
    ⟨h.psi_nonneg, fun k hk s hs => sub_nonneg.mpr (h.psi_anti s (s + k) hs (by linarith))⟩
  refine ⟨h1, fun k hk => ⟨fun s hs => sub_nonneg.mpr (h.psi_anti s (s + k) hs (by linarith)), fun m hm s hs => ?_⟩⟩
  have := convex_increment h.convex hs (by linarith : s ≤ s + m) hk
  linarith

end IsGen

end Copulae
