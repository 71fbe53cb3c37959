import Mathlib.Analysis.SpecialFunctions.Pow.Deriv
import Verif.Model.ArchPdf
import Verif.Lemmas.ArchFamilies
import Verif.Lemmas.Mixed

/-!
Derivatives of the Clayton generator and the value of the Clayton density.
-/

namespace Copulae

open Finset

/-- Rows in the unit cube are valid. -/
theorem validRow_fin {k : ℕ} {u : Fin k → ℝ} (h : ∀ j, 0 ≤ u j ∧ u j ≤ 1) :
    validRow fun j => Fl.fin (u j) :=
  fun j => ⟨by simp, by simpa using (h j).1, by simpa using (h j).2⟩

theorem rowsM_ok {n k : ℕ} {f : (Fin k → Fl) → Except PyErr Fl} {x : Fin n → Fin k → Fl}
    {v : Fin n → Fl} (h : ∀ i, f (x i) = .ok (v i)) : rowsM f x = .ok v := by
  have h1 : (List.ofFn x).mapM f = .ok (List.ofFn v) := by
    induction n with
    | zero => simp; rfl
    | succ n ih =>
      rw [List.ofFn_succ, List.ofFn_succ, List.mapM_cons, h 0,
        ih (x := fun i => x i.succ) (v := fun i => v i.succ) fun i => h i.succ]
      rfl
  unfold rowsM
  rw [h1]
  simp only [bind, Except.bind, pure, Except.pure]
  congr 1
  funext i
  simp [List.getD_eq_getElem?_getD]

/-- Derivatives of `(1 + c s) ^ p`. -/
theorem hasDerivAt_power (c p : ℝ) (k : ℕ) {s : ℝ} (hs : 0 < 1 + c * s) :
    HasDerivAt (fun s => (c ^ k * ∏ i ∈ range k, (p - i)) * (1 + c * s) ^ (p - k))
      ((c ^ (k + 1) * ∏ i ∈ range (k + 1), (p - i)) * (1 + c * s) ^ (p - (k + 1 : ℕ))) s := by
  have h1 : HasDerivAt (fun s : ℝ => 1 + c * s) c s := by
    simpa using ((hasDerivAt_id s).const_mul c).const_add 1
  have h2 := (h1.rpow_const (p := p - k) (Or.inl hs.ne')).const_mul
    (c ^ k * ∏ i ∈ range k, (p - i))
  refine h2.congr_deriv ?_
  rw [prod_range_succ, show p - ((k + 1 : ℕ) : ℝ) = p - k - 1 by push_cast; ring, pow_succ]
  ring

theorem prod_clayton {θ : ℝ} (h : θ ≠ 0) (d : ℕ) :
    (∏ i ∈ range d, (-1 / θ - (i : ℝ))) * (-θ) ^ d = ∏ i ∈ range d, (1 + θ * i) := by
  induction d with
  | zero => simp
  | succ d ih =>
    rw [prod_range_succ, prod_range_succ, pow_succ, ← ih]
    field_simp
    ring

theorem exp_sum_log {ι : Type*} (s : Finset ι) (f : ι → ℝ) (h : ∀ i ∈ s, 0 < f i) :
    Real.exp (∑ i ∈ s, Real.log (f i)) = ∏ i ∈ s, f i := by
  rw [Real.exp_sum]
  exact prod_congr rfl fun i hi => Real.exp_log (h i hi)

theorem clayton_sum_pos {θ : ℝ} (h : 0 < θ) {d : ℕ} {x : Fin d → ℝ} (hx : ∀ j, 0 < x j ∧ x j < 1) :
    0 ≤ ∑ j, (x j ^ (-θ) - 1) := by
  apply Finset.sum_nonneg
  intro j _
  have := Real.one_le_rpow_of_pos_of_le_one_of_nonpos (hx j).1 (hx j).2.le (by linarith : -θ ≤ 0)
  linarith

/-- Positive parameter: the logarithm the code returns. -/
theorem claytonLogPos_fin {θ : ℝ} (h : 0 < θ) {d : ℕ} {x : Fin d → ℝ}
    (hx : ∀ j, 0 < x j ∧ x j < 1) :
    claytonLogPos θ (fun j => Fl.fin (x j)) =
      .fin (∑ j ∈ range (d - 1), Real.log (1 + θ * ((j : ℝ) + 1)) - (1 + θ) * ∑ j, Real.log (x j)
        - (d + 1 / θ) * Real.log (1 + ∑ j, (x j ^ (-θ) - 1))) := by
  have h1 : ∀ j, Fl.log (Fl.fin (x j)) = .fin (Real.log (x j)) := fun j => Fl.log_pos (hx j).1
  have h2 : ∀ j, claytonIpsi θ (Fl.fin (x j)) = .fin (x j ^ (-θ) - 1) := by
    intro j
    rw [claytonIpsi_fin (hx j).1, claytonPhi, sign_pos h]
    simp
  have h3 : ∀ j : ℕ, Fl.log1p (.fin (θ * ((j : ℝ) + 1))) = .fin (Real.log (1 + θ * ((j : ℝ) + 1))) := by
    intro j
    have : 0 ≤ θ * ((j : ℝ) + 1) := by positivity
    exact Fl.log1p_pos (by linarith)
  unfold claytonLogPos
  simp only [h1, h2, h3]
  rw [Fl.sum_fin, Fl.sum_fin, Fl.sum_fin, Fl.log1p_pos (by linarith [clayton_sum_pos h hx]),
    Fl.fin_mul_fin, Fl.fin_mul_fin, Fl.fin_sub_fin, Fl.fin_sub_fin]

/-- Positive parameter: that is the logarithm of the mixed derivative. -/
theorem clayton_density_pos {θ : ℝ} (h : 0 < θ) {d : ℕ} (hd : 1 ≤ d) {x : Fin d → ℝ}
    (hx : ∀ j, 0 < x j ∧ x j < 1) :
    Real.exp (∑ j ∈ range (d - 1), Real.log (1 + θ * ((j : ℝ) + 1)) - (1 + θ) * ∑ j, Real.log (x j)
        - (d + 1 / θ) * Real.log (1 + ∑ j, (x j ^ (-θ) - 1))) =
    ((1 : ℝ) ^ d * ∏ i ∈ range d, (-1 / θ - (i : ℝ))) *
        (1 + 1 * ∑ j, (x j ^ (-θ) - 1)) ^ (-1 / θ - d) * ∏ j, (-θ * x j ^ (-θ - 1)) := by
  have ht := clayton_sum_pos h hx
  set t := ∑ j, (x j ^ (-θ) - 1)
  have e1 : ∏ j : Fin d, (-θ * x j ^ (-θ - 1)) = (-θ) ^ d * Real.exp (-(1 + θ) * ∑ j, Real.log (x j)) := by
    rw [prod_mul_distrib, prod_const, card_univ, Fintype.card_fin, mul_sum, Real.exp_sum]
    congr 1
    apply prod_congr rfl
    intro j _
    rw [Real.rpow_def_of_pos (hx j).1]
    congr 1
    ring
  have e2 : Real.exp (∑ j ∈ range (d - 1), Real.log (1 + θ * ((j : ℝ) + 1))) =
      ∏ i ∈ range d, (1 + θ * i) := by
    rw [exp_sum_log]
    · obtain ⟨m, rfl⟩ : ∃ m, d = m + 1 := ⟨d - 1, by omega⟩
      rw [Finset.prod_range_succ']
      simp
    · intro j _; positivity
  have e3 : (1 + t) ^ (-1 / θ - (d : ℝ)) = Real.exp (-((d + 1 / θ) * Real.log (1 + t))) := by
    rw [Real.rpow_def_of_pos (by linarith)]
    congr 1
    ring
  rw [one_mul, one_pow, one_mul, e1, e3, sub_eq_add_neg, Real.exp_add, sub_eq_add_neg, Real.exp_add, e2,
    ← prod_clayton h.ne' d, neg_mul]
  ring

/-- Negative parameter, dimension two. -/
theorem claytonLogNeg_fin {θ : ℝ} (h1 : -1 < θ) (h : θ < 0) {x : Fin 2 → ℝ}
    (hx : ∀ j, 0 < x j ∧ x j < 1) (ht : ∑ j, (1 - x j ^ (-θ)) < 1) :
    claytonLogNeg θ (fun j => Fl.fin (x j)) =
      .fin (Real.log (1 + θ) - (1 + θ) * ∑ j, Real.log (x j)
        - (2 + 1 / θ) * Real.log (1 - ∑ j, (1 - x j ^ (-θ)))) := by
  have e1 : ∀ j, Fl.log (Fl.fin (x j)) = .fin (Real.log (x j)) := fun j => Fl.log_pos (hx j).1
  have e2 : ∀ j, claytonIpsi θ (Fl.fin (x j)) = .fin (1 - x j ^ (-θ)) := by
    intro j
    rw [claytonIpsi_fin (hx j).1, claytonPhi, sign_neg h]
    simp
  unfold claytonLogNeg
  simp only [e1, e2]
  rw [Fl.sum_fin, Fl.sum_fin, Fl.log1p_pos (by linarith), Fl.neg_fin, Fl.log1p_pos (by linarith),
    Fl.fin_mul_fin, Fl.fin_mul_fin, Fl.fin_sub_fin, Fl.fin_sub_fin]
  push_cast
  rfl

/-- At the lower Fréchet bound the code takes the logarithm of zero. -/
theorem claytonLogNeg_one {x : Fin 2 → ℝ}
    (hx : ∀ j, 0 < x j ∧ x j < 1) (ht : ∑ j, (1 - x j ^ (-(-1 : ℝ))) < 1) :
    claytonLogNeg (-1) (fun j => Fl.fin (x j)) = .ninf := by
  have e1 : ∀ j, Fl.log (Fl.fin (x j)) = .fin (Real.log (x j)) := fun j => Fl.log_pos (hx j).1
  have e2 : ∀ j, claytonIpsi (-1) (Fl.fin (x j)) = .fin (1 - x j ^ (-(-1 : ℝ))) := by
    intro j
    rw [claytonIpsi_fin (hx j).1, claytonPhi, sign_neg (by norm_num)]
    simp
  unfold claytonLogNeg
  simp only [e1, e2]
  have hm := Fl.log1p_pos (a := -∑ j, (1 - x j ^ (-(-1 : ℝ)))) (by linarith)
  rw [Fl.sum_fin, Fl.sum_fin, Fl.neg_fin, hm, Fl.fin_mul_fin, Fl.fin_mul_fin]
  have : Fl.log1p (.fin (-1)) = .ninf := by simp [Fl.log1p]
  rw [this, Fl.ninf_sub_fin, Fl.ninf_sub_fin]

theorem clayton_density_neg {θ : ℝ} (h1 : -1 < θ) (h : θ < 0) {x : Fin 2 → ℝ}
    (hx : ∀ j, 0 < x j ∧ x j < 1) (ht : ∑ j, (1 - x j ^ (-θ)) < 1) :
    Real.exp (Real.log (1 + θ) - (1 + θ) * ∑ j, Real.log (x j)
        - (2 + 1 / θ) * Real.log (1 - ∑ j, (1 - x j ^ (-θ)))) =
    ((-1 : ℝ) ^ 2 * ∏ i ∈ range 2, (-1 / θ - (i : ℝ))) *
        (1 + (-1) * ∑ j, (1 - x j ^ (-θ))) ^ (-1 / θ - (2 : ℕ)) * ∏ j, (θ * x j ^ (-θ - 1)) := by
  set t := ∑ j, (1 - x j ^ (-θ))
  have e1 : ∏ j : Fin 2, (θ * x j ^ (-θ - 1)) = θ ^ 2 * Real.exp (-(1 + θ) * ∑ j, Real.log (x j)) := by
    rw [prod_mul_distrib, prod_const, card_univ, Fintype.card_fin, mul_sum, Real.exp_sum]
    congr 1
    apply prod_congr rfl
    intro j _
    rw [Real.rpow_def_of_pos (hx j).1]
    congr 1
    ring
  have e3 : (1 + -1 * t) ^ (-1 / θ - ((2 : ℕ) : ℝ)) = Real.exp (-((2 + 1 / θ) * Real.log (1 - t))) := by
    rw [show 1 + -1 * t = 1 - t by ring, Real.rpow_def_of_pos (by linarith)]
    congr 1
    push_cast
    ring
  rw [e1, e3, sub_eq_add_neg, Real.exp_add, sub_eq_add_neg, Real.exp_add, Real.exp_log (by linarith),
    neg_mul, prod_range_succ, prod_range_succ, prod_range_zero]
  have : θ ≠ 0 := h.ne
  field_simp
  push_cast
  ring

end Copulae
