import Verif.Lemmas.GumbelPoly

/-!
The value of the Gumbel density for one row.
-/

namespace Copulae

open Finset

/-- The polynomial never raises in the situations met by `pdf`. -/
theorem calcGumbelPoly_ok {d : ℕ} (hd : 2 ≤ d) {α : ℝ} (h0 : 0 < α) (h1 : α < 1) (lx : Fl)
    (m : PolyAlg) (log : Bool) : ∃ v, calcGumbelPoly lx α d m log = .ok v := by
  unfold calcGumbelPoly
  by_cases hm : m = .pois
  · rw [if_pos hm]
    obtain ⟨r, hr, hrl⟩ := signFF_scalar_d h0 h1.le ((List.range d).map fun (k : ℕ) => k + 1) d (by
      intro n hn
      rw [List.mem_map] at hn
      obtain ⟨k, hk, rfl⟩ := hn
      rw [List.mem_range] at hk
      omega)
    have hr' : signFF α (.arr ((List.range d).map fun (k : ℕ) => (k : ℤ) + 1)) (.scalar d) = .ok r := by
      rw [← hr, List.map_map]
      congr 2
    rw [hr']
    cases r with
    | scalar v =>
      have := congrArg List.length hrl
      simp [FlRes.toList] at this
      omega
    | arr sg =>
      obtain ⟨k, rfl⟩ : ∃ k, d = k + 1 := ⟨d - 1, by omega⟩
      simp only [bind, Except.bind, pure, Except.pure, poisSum, poisTerms, List.range_succ_eq_map,
        List.map_cons, npMax]
      exact ⟨_, rfl⟩
  · rw [if_neg hm, gumbelCoef_methods_partial (by omega) h0 h1.le m.coef true (fun _ => Or.inr hd)
      (fun _ _ => h1.ne)]
    exact ⟨_, rfl⟩

/-- Derivative of the inverse generator. -/
noncomputable def gumbelPhi' (θ u : ℝ) : ℝ := -θ * (-Real.log u) ^ (θ - 1) / u

theorem gumbelPhi_hasDerivAt {θ u : ℝ} (hu : 0 < u) (hu1 : u < 1) :
    HasDerivAt (gumbelPhi θ) (gumbelPhi' θ u) u := by
  have hl : 0 < -Real.log u := by have := Real.log_neg hu hu1; linarith
  have h := (Real.hasDerivAt_log hu.ne').neg.rpow_const (p := θ) (Or.inl hl.ne')
  refine h.congr_deriv ?_
  simp only [gumbelPhi', Pi.neg_apply]
  field_simp

/-- The density. -/
noncomputable def gumbelDensity (θ : ℝ) {d : ℕ} (x : Fin d → ℝ) : ℝ :=
  gumbelPsiK (1 / θ) d (∑ j, gumbelPhi θ (x j)) * ∏ j, gumbelPhi' θ (x j)

theorem gumbelPhi_pos {θ u : ℝ} (hu : 0 < u) (hu1 : u < 1) : 0 < gumbelPhi θ u := by
  have hl : 0 < -Real.log u := by have := Real.log_neg hu hu1; linarith
  exact Real.rpow_pos_of_pos hl _

theorem gumbelDensity_eq (θ : ℝ) {d : ℕ} (x : Fin d → ℝ) :
    gumbelDensity θ x = Real.exp (-(∑ j, gumbelPhi θ (x j)) ^ (1 / θ)) * θ ^ d *
      (∏ j, ((-Real.log (x j)) ^ (θ - 1) / x j)) *
      (gumbelP d (1 / θ) ((∑ j, gumbelPhi θ (x j)) ^ (1 / θ)) / (∑ j, gumbelPhi θ (x j)) ^ d) := by
  rw [gumbelDensity, gumbelPsiK]
  have : ∏ j, gumbelPhi' θ (x j) = (-1) ^ d * θ ^ d * ∏ j, ((-Real.log (x j)) ^ (θ - 1) / x j) := by
    have e : ∀ j, gumbelPhi' θ (x j) = (-1 * θ) * ((-Real.log (x j)) ^ (θ - 1) / x j) := by
      intro j; rw [gumbelPhi']; ring
    simp only [e]
    rw [prod_mul_distrib, prod_const, card_univ, Fintype.card_fin, mul_pow]
  rw [this]
  have h3 : ((-1 : ℝ) ^ d) * (-1) ^ d = 1 := by rw [← mul_pow]; simp
  linear_combination (Real.exp (-(∑ j, gumbelPhi θ (x j)) ^ (1 / θ)) * θ ^ d *
      (∏ j, ((-Real.log (x j)) ^ (θ - 1) / x j)) *
      (gumbelP d (1 / θ) ((∑ j, gumbelPhi θ (x j)) ^ (1 / θ)) / (∑ j, gumbelPhi θ (x j)) ^ d)) * h3

theorem gumbel_sum_pos {θ : ℝ} {d : ℕ} (hd : 1 ≤ d) {x : Fin d → ℝ} (hx : ∀ j, 0 < x j ∧ x j < 1) :
    0 < ∑ j, gumbelPhi θ (x j) :=
  sum_pos (fun j _ => gumbelPhi_pos (hx j).1 (hx j).2) ⟨⟨0, hd⟩, mem_univ _⟩

theorem gumbelDensity_pos {θ : ℝ} (h : 1 ≤ θ) {d : ℕ} (hd : 1 ≤ d) {x : Fin d → ℝ}
    (hx : ∀ j, 0 < x j ∧ x j < 1) : 0 < gumbelDensity θ x := by
  have hθ : 0 < θ := by linarith
  have ht := gumbel_sum_pos (θ := θ) hd hx
  rw [gumbelDensity_eq]
  have hP := gumbelP_pos (α := 1 / θ) (by positivity) (by rw [div_le_one hθ]; exact h) (d := d)
    (Real.rpow_pos_of_pos ht (1 / θ))
  have : 0 < ∏ j, ((-Real.log (x j)) ^ (θ - 1) / x j) := prod_pos fun j _ =>
    div_pos (Real.rpow_pos_of_pos (by have := Real.log_neg (hx j).1 (hx j).2; linarith) _) (hx j).1
  positivity

theorem gumbelDensity_one {d : ℕ} (hd : 1 ≤ d) {x : Fin d → ℝ} (hx : ∀ j, 0 < x j ∧ x j < 1) :
    gumbelDensity 1 x = 1 := by
  have ht := gumbel_sum_pos (θ := 1) hd hx
  rw [gumbelDensity_eq, one_div_one, gumbelP_one, Real.rpow_one, div_self (pow_ne_zero _ ht.ne'),
    one_pow, mul_one, mul_one]
  simp only [sub_self, Real.rpow_zero, gumbelPhi, Real.rpow_one]
  rw [sum_neg_distrib, neg_neg, exp_sum_log univ x fun j _ => (hx j).1, ← prod_mul_distrib]
  exact prod_eq_one fun j _ => mul_one_div_cancel (hx j).1.ne'

/-- The logarithm of the density is what the code computes. -/
theorem gumbelLogRow_fin {θ : ℝ} (h : 1 < θ) {d : ℕ} (hd : 2 ≤ d) {x : Fin d → ℝ}
    (hx : ∀ j, 0 < x j ∧ x j < 1) :
    gumbelLogRow θ (fun j => Fl.fin (x j)) = .ok (.fin (Real.log (gumbelDensity θ x))) := by
  have hθ : 0 < θ := by linarith
  have hα0 : 0 < 1 / θ := by positivity
  have hα1 : 1 / θ < 1 := by rw [div_lt_one hθ]; exact h
  have hnl : ∀ j, 0 < -Real.log (x j) := fun j => by
    have := Real.log_neg (hx j).1 (hx j).2; linarith
  have ht := gumbel_sum_pos (θ := θ) (by omega : 1 ≤ d) hx
  set t := ∑ j, gumbelPhi θ (x j) with htdef
  have htα : 0 < t ^ (1 / θ) := Real.rpow_pos_of_pos ht _
  obtain ⟨M, hM⟩ := npMax_fin (l := List.ofFn x) (by
    intro h0
    have := congrArg List.length h0
    simp at this
    omega)
  rw [List.map_ofFn] at hM
  have hls : gumbelLogSum θ (fun j => Fl.fin (x j)) (.fin M) = .fin (Real.log t) := by
    unfold gumbelLogSum
    have : ∀ j, Fl.exp (Fl.log (gumbelIpsi θ (.fin (x j))) - .fin M)
        = .fin (gumbelPhi θ (x j) * Real.exp (-M)) := by
      intro j
      have hp := gumbelPhi_pos (θ := θ) (hx j).1 (hx j).2
      rw [gumbelIpsi_fin hθ (hx j).1 (hx j).2.le, Fl.log_pos hp, Fl.fin_sub_fin, Fl.exp_fin,
        sub_eq_add_neg, Real.exp_add, Real.exp_log hp]
    simp only [this]
    rw [Fl.sum_fin, ← sum_mul, ← htdef, Fl.log_pos (by positivity), Real.log_mul ht.ne'
      (Real.exp_ne_zero _), Real.log_exp, Fl.fin_add_fin]
    congr 1
    ring
  have hexp : Real.exp (1 / θ * Real.log t) = t ^ (1 / θ) := by
    rw [Real.rpow_def_of_pos ht, mul_comm]
  have hP := gumbelP_pos (α := 1 / θ) hα0 hα1.le (d := d) htα
  have hpoly : ∀ m, calcGumbelPoly (.fin (1 / θ * Real.log t)) (1 / θ) d m true =
      .ok (.fin (Real.log (gumbelP d (1 / θ) (t ^ (1 / θ))))) := by
    intro m
    by_cases hm : m = .pois
    · rw [hm, calcGumbelPoly_pois hd hα0 hα1.le, coefVal, if_pos rfl, hexp, Fl.log_pos hP]
    · rw [calcGumbelPoly_coef (by omega) hα0 hα1.le _ m hm (fun _ => ⟨hα1.ne, hd⟩), coefVal,
        if_pos rfl, hexp, Fl.log_pos hP]
  have hj : ∀ j, Fl.fin (θ - 1) * Fl.log (-(Fl.log (Fl.fin (x j)))) + -(Fl.log (Fl.fin (x j))) =
      .fin ((θ - 1) * Real.log (-Real.log (x j)) + -Real.log (x j)) := by
    intro j
    rw [Fl.log_pos (hx j).1, Fl.neg_fin, Fl.log_pos (hnl j), Fl.fin_mul_fin, Fl.fin_add_fin]
  unfold gumbelLogRow
  rw [show List.ofFn (fun j => Fl.fin (x j)) = List.ofFn (Fl.fin ∘ x) from rfl, hM]
  simp only [bind, Except.bind, pure, Except.pure, hls, Fl.fin_mul_fin, hpoly, hj]
  rw [Fl.exp_fin, Fl.log_pos hθ, Fl.sum_fin, Fl.fin_div_fin' _ hα0.ne', Fl.fin_sub_fin, Fl.neg_fin,
    Fl.fin_mul_fin, Fl.fin_add_fin, Fl.fin_add_fin, Fl.fin_add_fin, hexp]
  refine congrArg (fun v => Except.ok (Fl.fin v)) ?_
  have hQ : ∀ j ∈ (univ : Finset (Fin d)), (-Real.log (x j)) ^ (θ - 1) / x j ≠ 0 := fun j _ =>
    div_ne_zero (Real.rpow_pos_of_pos (hnl j) _).ne' (hx j).1.ne'
  rw [gumbelDensity_eq, ← htdef, Real.log_mul (mul_ne_zero (mul_ne_zero (Real.exp_ne_zero _)
    (pow_ne_zero _ hθ.ne')) (prod_ne_zero_iff.mpr hQ)) (div_ne_zero hP.ne' (pow_ne_zero _ ht.ne')),
    Real.log_mul (mul_ne_zero (Real.exp_ne_zero _) (pow_ne_zero _ hθ.ne')) (prod_ne_zero_iff.mpr hQ),
    Real.log_mul (Real.exp_ne_zero _) (pow_ne_zero _ hθ.ne'), Real.log_exp, Real.log_pow,
    Real.log_prod hQ, Real.log_div hP.ne' (pow_ne_zero _ ht.ne'), Real.log_pow]
  have e1 : (d : ℝ) * (1 / θ * Real.log t) / (1 / θ) = d * Real.log t := by field_simp
  rw [e1]
  congr 2
  apply sum_congr rfl
  intro j _
  rw [Real.log_div (Real.rpow_pos_of_pos (hnl j) _).ne' (hx j).1.ne', Real.log_rpow (hnl j)]
  ring

/-- Rows with an invalid coordinate. -/
theorem gumbelLogRow_invalid {θ : ℝ} (h : 1 < θ) {d : ℕ} (hd : 2 ≤ d) {u : Fin d → Fl}
    (hu : ¬ validRow u) : gumbelLogRow θ u = .ok .nan := by
  have hθ : 0 < θ := by linarith
  have hα0 : 0 < 1 / θ := by positivity
  have hα1 : 1 / θ < 1 := by rw [div_lt_one hθ]; exact h
  obtain ⟨j, hj⟩ : ∃ j, ¬ (u j ≠ .nan ∧ Fl.fin 0 ≤ u j ∧ u j ≤ Fl.fin 1) := by
    simpa [validRow] using hu
  have hnan : Fl.fin (θ - 1) * Fl.log (-(Fl.log (u j))) + -(Fl.log (u j)) = .nan := by
    cases hv : u j with
    | nan => simp
    | ninf => simp [Fl.log]
    | pinf => simp [Fl.log]
    | fin v =>
      rw [hv] at hj
      simp only [ne_eq, reduceCtorEq, not_false_eq_true, Fl.fin_le_fin, true_and, not_and, not_le] at hj
      rcases lt_or_ge v 0 with h0 | h0
      · rw [Fl.log_neg h0]; simp
      · have h1 := hj h0
        rw [Fl.log_pos (by linarith), Fl.neg_fin, Fl.log_neg (by
          have := Real.log_pos h1; linarith)]
        simp
  have hsum : ∑ j, (Fl.fin (θ - 1) * Fl.log (-(Fl.log (u j))) + -(Fl.log (u j))) = .nan :=
    Fl.sum_nan _ _ ⟨j, mem_univ _, hnan⟩
  obtain ⟨mx, hmx⟩ : ∃ mx, npMax (List.ofFn u) = .ok mx := by
    obtain ⟨n, rfl⟩ : ∃ n, d = n + 1 := ⟨d - 1, by omega⟩
    rw [List.ofFn_succ]
    exact ⟨_, rfl⟩
  unfold gumbelLogRow
  rw [hmx]
  simp only [bind, Except.bind, pure, Except.pure]
  obtain ⟨v, hv⟩ := calcGumbelPoly_ok hd hα0 hα1 (.fin (1 / θ) * gumbelLogSum θ u mx)
    (getPolyMethod (.fin (1 / θ) * gumbelLogSum θ u mx) (1 / θ) d) true
  rw [hv]
  simp only
  rw [hsum]
  simp

/-- No row raises. -/
theorem gumbelLogRow_ok {θ : ℝ} (h : 1 < θ) {d : ℕ} (hd : 2 ≤ d) (u : Fin d → Fl) :
    ∃ v, gumbelLogRow θ u = .ok v := by
  have hθ : 0 < θ := by linarith
  have hα0 : 0 < 1 / θ := by positivity
  have hα1 : 1 / θ < 1 := by rw [div_lt_one hθ]; exact h
  obtain ⟨mx, hmx⟩ : ∃ mx, npMax (List.ofFn u) = .ok mx := by
    obtain ⟨n, rfl⟩ : ∃ n, d = n + 1 := ⟨d - 1, by omega⟩
    rw [List.ofFn_succ]
    exact ⟨_, rfl⟩
  unfold gumbelLogRow
  rw [hmx]
  simp only [bind, Except.bind, pure, Except.pure]
  obtain ⟨v, hv⟩ := calcGumbelPoly_ok hd hα0 hα1 (.fin (1 / θ) * gumbelLogSum θ u mx)
    (getPolyMethod (.fin (1 / θ) * gumbelLogSum θ u mx) (1 / θ) d) true
  rw [hv]
  exact ⟨_, rfl⟩

end Copulae
