import Verif.Lemmas.PdfClayton
import Verif.Props.Special

/-!
Derivatives of the Frank generator and the value of the Frank density.
-/

namespace Copulae

open Finset

/-- Polylogarithm of order `-n` as a polynomial in `r = z / (1 - z)`. -/
noncomputable def frankL (n : ℕ) (z : ℝ) : ℝ :=
  z / (1 - z) * ∑ k ∈ range (n + 1), ((k.factorial : ℝ) * (s2 (n + 1) (k + 1) : ℝ)) * (z / (1 - z)) ^ k

theorem frankL_eq (n : ℕ) (z : ℝ) : frankL n z =
    ∑ k ∈ range (n + 1), ((k.factorial : ℝ) * (s2 (n + 1) (k + 1) : ℝ)) * (z / (1 - z)) ^ (k + 1) := by
  rw [frankL, mul_sum]
  exact sum_congr rfl fun k _ => by rw [pow_succ]; ring

theorem frankL_pos (n : ℕ) {z : ℝ} (h0 : 0 < z) (h1 : z < 1) : 0 < frankL n z := by
  have hr : 0 < z / (1 - z) := div_pos h0 (by linarith)
  rw [frankL_eq]
  refine sum_pos' (fun k _ => ?_) ⟨n, by simp, ?_⟩
  · have : (0 : ℝ) ≤ (s2 (n + 1) (k + 1) : ℝ) := by exact_mod_cast s2_nonneg _ _
    positivity
  · rw [s2_self]
    positivity

/-- `z L_n'(z) = L_{n+1}(z)`, along `z = p exp (-s)`. -/
theorem frankL_hasDerivAt (n : ℕ) (p : ℝ) {s : ℝ} (hz : p * Real.exp (-s) < 1) :
    HasDerivAt (fun s => frankL n (p * Real.exp (-s))) (-frankL (n + 1) (p * Real.exp (-s))) s := by
  have h1z : (1 : ℝ) - p * Real.exp (-s) ≠ 0 := by linarith
  have h1 : HasDerivAt (fun s : ℝ => p * Real.exp (-s)) (-(p * Real.exp (-s))) s := by
    simpa using ((hasDerivAt_neg s).exp).const_mul p
  have h2 : HasDerivAt (fun s : ℝ => p * Real.exp (-s) / (1 - p * Real.exp (-s)))
      (-(p * Real.exp (-s) / (1 - p * Real.exp (-s)) * (1 + p * Real.exp (-s) / (1 - p * Real.exp (-s))))) s := by
    refine (h1.div (h1.const_sub 1) h1z).congr_deriv ?_
    field_simp
    ring
  simp only [frankL_eq]
  have h3 := HasDerivAt.fun_sum (u := range (n + 1)) fun k _ =>
    (h2.pow (k + 1)).const_mul ((k.factorial : ℝ) * (s2 (n + 1) (k + 1) : ℝ))
  refine h3.congr_deriv ?_
  set r := p * Real.exp (-s) / (1 - p * Real.exp (-s))
  have e1 : ∀ k : ℕ, (k.factorial : ℝ) * (s2 (n + 1 + 1) (k + 1) : ℝ) * r ^ (k + 1) =
      ((k + 1).factorial : ℝ) * (s2 (n + 1) (k + 1) : ℝ) * r ^ (k + 1) +
        (k.factorial : ℝ) * (s2 (n + 1) k : ℝ) * r ^ (k + 1) := by
    intro k
    rw [s2_succ_succ, Nat.factorial_succ]
    push_cast
    ring
  simp only [e1]
  rw [sum_add_distrib, sum_range_succ (fun k : ℕ => ((k + 1).factorial : ℝ) *
    (s2 (n + 1) (k + 1) : ℝ) * r ^ (k + 1)) (n + 1), s2_eq_zero (show n + 1 < n + 1 + 1 by omega),
    sum_range_succ' (fun k : ℕ => (k.factorial : ℝ) * (s2 (n + 1) k : ℝ) * r ^ (k + 1)) (n + 1),
    s2_succ_zero]
  simp only [Int.cast_zero, mul_zero, zero_mul, add_zero]
  rw [← sum_add_distrib, ← sum_neg_distrib]
  apply sum_congr rfl
  intro k _
  simp only [Nat.add_sub_cancel]
  rw [Nat.factorial_succ]
  push_cast
  ring

/-- Derivatives of the Frank generator. -/
noncomputable def frankPsiK (θ : ℝ) : ℕ → ℝ → ℝ
  | 0 => frankPsiR θ
  | n + 1 => fun s => (-1) ^ (n + 1) * (1 / θ) * frankL n ((1 - Real.exp (-θ)) * Real.exp (-s))

theorem frank_z_lt {θ s : ℝ} (hs : 0 ≤ s) : (1 - Real.exp (-θ)) * Real.exp (-s) < 1 := by
  have := frank_one_add_pos (θ := θ) hs
  nlinarith

theorem frankPsiK_hasDerivAt (θ : ℝ) (k : ℕ) {s : ℝ} (hs : 0 ≤ s) :
    HasDerivAt (frankPsiK θ k) (frankPsiK θ (k + 1) s) s := by
  cases k with
  | zero =>
    refine (frankPsiR_hasDerivAt hs).congr_deriv ?_
    have h1 := frank_one_add_pos (θ := θ) hs
    have h2 : (1 : ℝ) - (1 - Real.exp (-θ)) * Real.exp (-s) ≠ 0 := by linarith [frank_z_lt (θ := θ) hs]
    simp only [frankPsiK, frankL_eq]
    simp [s2_self 1]
    rw [show (1 : ℝ) + Real.exp (-s) * (Real.exp (-θ) - 1) =
      1 - (1 - Real.exp (-θ)) * Real.exp (-s) by ring]
    field_simp
    ring
  | succ n =>
    have h := (frankL_hasDerivAt n (1 - Real.exp (-θ)) (frank_z_lt (θ := θ) hs)).const_mul
      ((-1) ^ (n + 1) * (1 / θ))
    refine h.congr_deriv ?_
    simp only [frankPsiK]
    rw [pow_succ (-1 : ℝ) (n + 1)]
    ring

/-- Derivative of the inverse generator. -/
noncomputable def frankPhi' (θ u : ℝ) : ℝ := -θ / (Real.exp (θ * u) - 1)

theorem frank_expm1_ne {θ u : ℝ} (hθ : θ ≠ 0) (hu : 0 < u) : Real.exp (θ * u) - 1 ≠ 0 := by
  intro h
  have : Real.exp (θ * u) = 1 := by linarith
  rw [Real.exp_eq_one_iff] at this
  rcases mul_eq_zero.mp this with h | h
  · exact hθ h
  · exact hu.ne' h

theorem frankPhi_hasDerivAt {θ u : ℝ} (hθ : θ ≠ 0) (hu : 0 < u) :
    HasDerivAt (frankPhi θ) (frankPhi' θ u) u := by
  have hem := exp_neg_ne hθ
  have h1 : HasDerivAt (fun u : ℝ => Real.exp (-θ * u)) (Real.exp (-θ * u) * (-θ)) u := by
    simpa using ((hasDerivAt_id u).const_mul (-θ)).exp
  have h2 := (((h1.sub_const 1).div_const (Real.exp (-θ) - 1)).log (frank_ratio_pos hθ hu).ne').neg
  refine h2.congr_deriv ?_
  have h3 := frank_expm1_ne hθ hu
  have h4 : Real.exp (-θ * u) * Real.exp (θ * u) = 1 := by rw [← Real.exp_add]; simp
  have h5 : Real.exp (-θ * u) - 1 ≠ 0 := by
    intro h
    rw [show Real.exp (-θ * u) = 1 by linarith, one_mul] at h4
    exact h3 (by linarith)
  rw [frankPhi']
  generalize Real.exp (-θ * u) = a at h4 h5 ⊢
  generalize Real.exp (θ * u) = b at h3 h4 ⊢
  have e : -(a * -θ / (Real.exp (-θ) - 1) / ((a - 1) / (Real.exp (-θ) - 1))) = a * θ / (a - 1) := by
    field_simp
  rw [e, div_eq_div_iff h5 h3]
  linear_combination θ * h4

theorem frank_ratio_lt {θ u : ℝ} (hθ : θ ≠ 0) (hu1 : u < 1) :
    (Real.exp (-θ * u) - 1) / (Real.exp (-θ) - 1) < 1 := by
  rcases lt_or_gt_of_ne hθ with h | h
  · have h1 : 0 < Real.exp (-θ) - 1 := by
      have := Real.one_lt_exp_iff.mpr (by linarith : 0 < -θ)
      linarith
    rw [div_lt_one h1]
    have : Real.exp (-θ * u) < Real.exp (-θ) := Real.exp_lt_exp.mpr (by nlinarith)
    linarith
  · have h1 : Real.exp (-θ) - 1 < 0 := by
      have := Real.exp_lt_one_iff.mpr (by linarith : -θ < 0)
      linarith
    rw [div_lt_one_of_neg h1]
    have : Real.exp (-θ) < Real.exp (-θ * u) := Real.exp_lt_exp.mpr (by nlinarith)
    linarith

theorem frankPhi_pos {θ u : ℝ} (hθ : θ ≠ 0) (hu : 0 < u) (hu1 : u < 1) : 0 < frankPhi θ u := by
  have := Real.log_neg (frank_ratio_pos hθ hu) (frank_ratio_lt hθ hu1)
  rw [frankPhi]
  linarith

/-- The density. -/
noncomputable def frankDensity (θ : ℝ) {d : ℕ} (x : Fin d → ℝ) : ℝ :=
  frankPsiK θ d (∑ j, frankPhi θ (x j)) * ∏ j, frankPhi' θ (x j)

theorem frank_z_eq {θ : ℝ} (hθ : θ ≠ 0) {d : ℕ} {x : Fin d → ℝ} (hx : ∀ j, 0 < x j) :
    (1 - Real.exp (-θ)) * Real.exp (-∑ j, frankPhi θ (x j)) =
      (1 - Real.exp (-θ)) * ∏ j, ((Real.exp (-θ * x j) - 1) / (Real.exp (-θ) - 1)) := by
  congr 1
  rw [← sum_neg_distrib, Real.exp_sum]
  apply prod_congr rfl
  intro j _
  rw [frankPhi, neg_neg, Real.exp_log (frank_ratio_pos hθ (hx j))]

theorem frankDensity_eq {θ : ℝ} (hθ : θ ≠ 0) {n : ℕ} {x : Fin (n + 1) → ℝ} (hx : ∀ j, 0 < x j) :
    frankDensity θ x = θ ^ n *
      frankL n ((1 - Real.exp (-θ)) * ∏ j, ((Real.exp (-θ * x j) - 1) / (Real.exp (-θ) - 1))) *
        ∏ j, (1 / (Real.exp (θ * x j) - 1)) := by
  rw [frankDensity]
  simp only [frankPsiK, frankPhi']
  rw [frank_z_eq hθ hx]
  have : ∏ j, (-θ / (Real.exp (θ * x j) - 1)) =
      (-1) ^ (n + 1) * θ ^ (n + 1) * ∏ j, (1 / (Real.exp (θ * x j) - 1)) := by
    have e : ∀ j, -θ / (Real.exp (θ * x j) - 1) = (-1 * θ) * (1 / (Real.exp (θ * x j) - 1)) := by
      intro j; ring
    simp only [e]
    rw [prod_mul_distrib, prod_const, card_univ, Fintype.card_fin, mul_pow]
  rw [this]
  have h3 : ((-1 : ℝ) ^ (n + 1)) * (-1) ^ (n + 1) = 1 := by rw [← mul_pow]; simp
  rw [show ∀ a b c P Q : ℝ, a * (1 / θ) * b * (a * c * P) = (a * a) * (c * (1 / θ)) * b * P from
    fun _ _ _ _ _ => by ring]
  · rw [h3, pow_succ, mul_assoc (θ ^ n), mul_one_div_cancel hθ]
    ring
  · exact 0

theorem frankDensity_pos {θ : ℝ} (h : 0 < θ) {d : ℕ} (hd : 1 ≤ d) {x : Fin d → ℝ}
    (hx : ∀ j, 0 < x j ∧ x j < 1) : 0 < frankDensity θ x := by
  obtain ⟨n, rfl⟩ : ∃ n, d = n + 1 := ⟨d - 1, by omega⟩
  rw [frankDensity_eq h.ne' fun j => (hx j).1, ← frank_z_eq h.ne' fun j => (hx j).1]
  have hs : 0 ≤ ∑ j, frankPhi θ (x j) := sum_nonneg fun j _ => (frankPhi_pos h.ne' (hx j).1 (hx j).2).le
  have hp : 0 < 1 - Real.exp (-θ) := by
    have := Real.exp_lt_one_iff.mpr (by linarith : -θ < 0)
    linarith
  refine mul_pos (mul_pos (by positivity) (frankL_pos n (by positivity) (frank_z_lt hs)))
    (prod_pos fun j _ => ?_)
  have := Real.one_lt_exp_iff.mpr (mul_pos h (hx j).1)
  exact one_div_pos.mpr (by linarith)

/-- Positive parameter: the logarithm of the density is what the code computes. -/
theorem frankLogRow_fin {θ : ℝ} (h : 0 < θ) {d : ℕ} (hd : 1 ≤ d) {x : Fin d → ℝ}
    (hx : ∀ j, 0 < x j ∧ x j < 1) :
    frankLogRow θ (fun j => Fl.fin (x j)) = .ok (.fin (Real.log (frankDensity θ x))) := by
  obtain ⟨n, rfl⟩ : ∃ n, d = n + 1 := ⟨d - 1, by omega⟩
  have hp : 0 < 1 - Real.exp (-θ) := by
    have := Real.exp_lt_one_iff.mpr (by linarith : -θ < 0)
    linarith
  have hpu : ∀ j, 0 < 1 - Real.exp (-(θ * x j)) := by
    intro j
    have := Real.exp_lt_one_iff.mpr (by have := mul_pos h (hx j).1; linarith : -(θ * x j) < 0)
    linarith
  have hl : ∀ j, log1mexp (.fin θ * Fl.fin (x j)) = .fin (Real.log (1 - Real.exp (-(θ * x j)))) := by
    intro j
    rw [Fl.fin_mul_fin, log1mexp_fin (mul_pos h (hx j).1)]
  unfold frankLogRow
  simp only [hl, log1mexp_fin h, Fl.fin_sub_fin]
  rw [Fl.sum_fin, Fl.sum_fin, Fl.sum_fin, Fl.fin_add_fin, Fl.exp_fin, Real.exp_add, Real.exp_log hp,
    Real.exp_sum]
  have hz : ∏ j, Real.exp (Real.log (1 - Real.exp (-(θ * x j))) - Real.log (1 - Real.exp (-θ))) =
      ∏ j, ((Real.exp (-θ * x j) - 1) / (Real.exp (-θ) - 1)) := by
    apply prod_congr rfl
    intro j _
    rw [Real.exp_sub, Real.exp_log (hpu j), Real.exp_log hp, ← neg_sub, ← neg_sub (Real.exp (-θ)),
      neg_div_neg_eq, neg_mul]
  rw [hz]
  have hs : 0 ≤ ∑ j, frankPhi θ (x j) := sum_nonneg fun j _ => (frankPhi_pos h.ne' (hx j).1 (hx j).2).le
  have hzlt := frank_z_lt (θ := θ) hs
  have hzpos : 0 < (1 - Real.exp (-θ)) * Real.exp (-∑ j, frankPhi θ (x j)) := by positivity
  have hden := frankDensity_eq h.ne' fun j => (hx j).1
  rw [← frank_z_eq h.ne' fun j => (hx j).1] at hden ⊢
  set z := (1 - Real.exp (-θ)) * Real.exp (-∑ j, frankPhi θ (x j))
  have habs : |z| < 1 := by rw [abs_of_pos hzpos]; exact hzlt
  obtain ⟨v, hv1, -, hv2⟩ := polyLog_negStirling n habs
  have hv : v = frankL n z := hv1.unique (polylog_stirling n habs)
  rw [show (1 : ℤ) - ((n + 1 : ℕ) : ℤ) = -(n : ℤ) by push_cast; ring, hv2 hzpos.le, hv,
    Fl.log_pos (frankL_pos n hzpos hzlt), Fl.log_pos h]
  simp only [bind, Except.bind, pure, Except.pure, Fl.fin_mul_fin, Fl.fin_add_fin, Fl.fin_sub_fin]
  congr 2
  rw [hden, Real.log_mul, Real.log_mul, Real.log_pow, Real.log_prod]
  · rw [mul_sum, sub_sub, ← sum_add_distrib]
    push_cast
    rw [add_sub_cancel_right, sub_eq_add_neg _ (∑ j, _), ← sum_neg_distrib]
    congr 1
    apply sum_congr rfl
    intro j _
    have hu := Real.one_lt_exp_iff.mpr (mul_pos h (hx j).1)
    rw [one_div, Real.log_inv, show Real.exp (θ * x j) - 1 =
      Real.exp (θ * x j) * (1 - Real.exp (-(θ * x j))) by
        rw [mul_sub, ← Real.exp_add]; simp, Real.log_mul (Real.exp_ne_zero _) (hpu j).ne', Real.log_exp]
  · intro j _
    exact one_div_ne_zero (frank_expm1_ne h.ne' (hx j).1)
  · positivity
  · exact (frankL_pos n hzpos hzlt).ne'
  · exact mul_ne_zero (by positivity) (frankL_pos n hzpos hzlt).ne'
  · exact prod_ne_zero_iff.mpr fun j _ => one_div_ne_zero (frank_expm1_ne h.ne' (hx j).1)

end Copulae
