import Mathlib.Probability.Distributions.Beta
import Mathlib.Analysis.SpecialFunctions.Integrals.Basic
import Mathlib.MeasureTheory.Integral.IntervalIntegral.FundThmCalculus
import Verif.Spec.Copula
import Verif.Lemmas.Ranks
import Verif.Model.Empirical

/-!
Kernels of the empirical copula as real functions; beta distribution function; volumes of sums of
products.
-/

namespace Copulae

open MeasureTheory intervalIntegral

namespace Spec

/-- Distribution function of the beta distribution on [0, 1]. -/
noncomputable def betaCdf (a b x : ℝ) : ℝ :=
  (∫ t in (0 : ℝ)..x, t ^ (a - 1) * (1 - t) ^ (b - 1)) / ProbabilityTheory.beta a b

end Spec

theorem betaKernel_continuous {a b : ℝ} (ha : 1 ≤ a) (hb : 1 ≤ b) :
    Continuous fun t : ℝ => t ^ (a - 1) * (1 - t) ^ (b - 1) :=
  (Real.continuous_rpow_const (by linarith)).mul
    ((Real.continuous_rpow_const (by linarith)).comp (by fun_prop))

theorem beta_eq_integral {a b : ℝ} (ha : 1 ≤ a) (hb : 1 ≤ b) :
    ∫ t in (0 : ℝ)..1, t ^ (a - 1) * (1 - t) ^ (b - 1) = ProbabilityTheory.beta a b := by
  rw [ProbabilityTheory.beta_eq_betaIntegralReal a b (by linarith) (by linarith)]
  have : Complex.betaIntegral a b
      = ((∫ t in (0 : ℝ)..1, t ^ (a - 1) * (1 - t) ^ (b - 1) : ℝ) : ℂ) := by
    rw [Complex.betaIntegral, ← intervalIntegral.integral_ofReal]
    refine intervalIntegral.integral_congr fun t ht => ?_
    rw [Set.uIcc_of_le zero_le_one] at ht
    push_cast
    rw [Complex.ofReal_cpow ht.1, Complex.ofReal_cpow (by linarith [ht.2])]
    push_cast
    rfl
  rw [this, Complex.ofReal_re]

theorem betaCdf_zero (a b : ℝ) : Spec.betaCdf a b 0 = 0 := by
  simp [Spec.betaCdf]

theorem betaCdf_one {a b : ℝ} (ha : 1 ≤ a) (hb : 1 ≤ b) : Spec.betaCdf a b 1 = 1 := by
  rw [Spec.betaCdf, beta_eq_integral ha hb]
  exact div_self (ProbabilityTheory.beta_pos (by linarith) (by linarith)).ne'

theorem betaCdf_mono {a b : ℝ} (ha : 1 ≤ a) (hb : 1 ≤ b) {x y : ℝ} (h0 : 0 ≤ x) (hxy : x ≤ y)
    (h1 : y ≤ 1) : Spec.betaCdf a b x ≤ Spec.betaCdf a b y := by
  unfold Spec.betaCdf
  refine div_le_div_of_nonneg_right ?_ (ProbabilityTheory.beta_pos (by linarith) (by linarith)).le
  have hc := betaKernel_continuous ha hb
  rw [← intervalIntegral.integral_add_adjacent_intervals (hc.intervalIntegrable 0 x)
    (hc.intervalIntegrable x y)]
  have : 0 ≤ ∫ t in x..y, t ^ (a - 1) * (1 - t) ^ (b - 1) := by
    refine intervalIntegral.integral_nonneg hxy fun t ht => ?_
    exact mul_nonneg (Real.rpow_nonneg (by linarith [ht.1]) _)
      (Real.rpow_nonneg (by linarith [ht.2]) _)
  linarith

theorem betaCdf_hasDerivAt {a b : ℝ} (ha : 1 ≤ a) (hb : 1 ≤ b) (x : ℝ) :
    HasDerivAt (Spec.betaCdf a b) (x ^ (a - 1) * (1 - x) ^ (b - 1) / ProbabilityTheory.beta a b) x := by
  unfold Spec.betaCdf
  refine HasDerivAt.div_const ?_ _
  have hc := betaKernel_continuous ha hb
  exact intervalIntegral.integral_hasDerivAt_right (hc.intervalIntegrable 0 x)
    (hc.stronglyMeasurableAtFilter _ _) hc.continuousAt

theorem beta_nat {n k : ℕ} (h : k < n) :
    (ProbabilityTheory.beta ((k : ℝ) + 1) ((n : ℝ) - k))⁻¹ = n * ((n - 1).choose k : ℝ) := by
  obtain ⟨m, rfl⟩ := Nat.exists_eq_add_of_lt h
  have e1 : ((k + m + 1 : ℕ) : ℝ) - k = (m : ℝ) + 1 := by push_cast; ring
  have e2 : (k : ℝ) + 1 + (((k + m + 1 : ℕ) : ℝ) - k) = ((k + m + 1 : ℕ) : ℝ) + 1 := by
    push_cast
    ring
  rw [ProbabilityTheory.beta, e2, e1, Real.Gamma_nat_eq_factorial, Real.Gamma_nat_eq_factorial,
    Real.Gamma_nat_eq_factorial, Nat.add_sub_cancel, add_comm k m, Nat.add_choose, inv_div, Nat.factorial_succ]
  rw [Nat.cast_div (Nat.factorial_mul_factorial_dvd_factorial_add m k) (by positivity)]
  push_cast
  field_simp

/-- The beta kernels of the ranks 1, ..., n add up to n times the identity. -/
theorem sum_betaCdf (n : ℕ) (x : ℝ) :
    ∑ k : Fin n, Spec.betaCdf ((k : ℕ) + 1) ((n : ℝ) - (k : ℕ)) x = n * x := by
  have hk : ∀ k : Fin n, Spec.betaCdf ((k : ℕ) + 1) ((n : ℝ) - (k : ℕ)) x
      = ∫ t in (0 : ℝ)..x, (n * ((n - 1).choose k : ℝ)) * (t ^ (k : ℕ) * (1 - t) ^ (n - 1 - k)) := by
    intro k
    rw [Spec.betaCdf, div_eq_mul_inv, beta_nat k.2, mul_comm, ← intervalIntegral.integral_const_mul]
    refine intervalIntegral.integral_congr fun t _ => ?_
    rw [add_sub_cancel_right, Real.rpow_natCast]
    have : ((n : ℝ) - (k : ℕ) - 1) = ((n - 1 - k : ℕ) : ℝ) := by
      have := k.2
      rw [Nat.cast_sub (by omega), Nat.cast_sub (by omega)]
      push_cast
      ring
    rw [this, Real.rpow_natCast]
  simp only [hk]
  rw [← intervalIntegral.integral_finsetSum fun k _ =>
    Continuous.intervalIntegrable (by fun_prop) 0 x]
  rcases Nat.eq_zero_or_pos n with rfl | hn
  · simp
  have hs : ∀ t : ℝ, ∑ k : Fin n, (n * ((n - 1).choose k : ℝ)) * (t ^ (k : ℕ) * (1 - t) ^ (n - 1 - k))
      = n := by
    intro t
    have hb := add_pow t (1 - t) (n - 1)
    rw [add_sub_cancel, one_pow, Nat.sub_add_cancel hn, Finset.sum_range] at hb
    calc _ = (n : ℝ) * ∑ k : Fin n, t ^ (k : ℕ) * (1 - t) ^ (n - 1 - (k : ℕ)) * ((n - 1).choose k : ℝ) := by
            rw [Finset.mul_sum]
            refine Finset.sum_congr rfl fun k _ => by ring
      _ = n := by rw [← hb, mul_one]
  simp only [hs]
  rw [intervalIntegral.integral_const, sub_zero, smul_eq_mul, mul_comm]

/-- The checkerboard kernels of the ranks 1, ..., n. -/
theorem sum_clamp (n : ℕ) (x : ℝ) (h0 : 0 ≤ x) (h1 : x ≤ n) :
    ∑ k : Fin n, min (max (x - (k : ℕ)) 0) 1 = x := by
  have key : ∀ n : ℕ, ∑ k ∈ Finset.range n, min (max (x - (k : ℕ)) 0) 1 = min x n := by
    intro n
    induction n with
    | zero => simpa using h0
    | succ n ih =>
      rw [Finset.sum_range_succ, ih]
      push_cast
      rcases le_total x n with h | h
      · rw [min_eq_left h, max_eq_right (by linarith), min_eq_left zero_le_one,
          min_eq_left (by linarith), add_zero]
      · rw [min_eq_right h, max_eq_left (by linarith)]
        rcases le_total x (n + 1) with h' | h'
        · rw [min_eq_left h', min_eq_left (by linarith)]
          ring
        · rw [min_eq_right h', min_eq_right (by linarith)]
  rw [← Finset.sum_range fun k : ℕ => min (max (x - (k : ℝ)) 0) 1, key, min_eq_left h1]

/-- Volume of a product. -/
theorem volume_prod {d : ℕ} (g : Fin d → ℝ → ℝ) (a b : Fin d → ℝ) :
    Spec.volume (fun x => ∏ j, g j (x j)) a b = ∏ j, (g j (b j) - g j (a j)) := by
  have : ∏ j, (g j (b j) - g j (a j)) = ∏ j, (-g j (a j) + g j (b j)) :=
    Finset.prod_congr rfl fun j _ => by ring
  rw [this, Finset.prod_add, Finset.powerset_univ, Spec.volume]
  refine Finset.sum_congr rfl fun S _ => ?_
  have hsplit : ∏ j, g j (if j ∈ S then a j else b j)
      = (∏ j ∈ S, g j (a j)) * ∏ j ∈ Finset.univ \ S, g j (b j) := by
    rw [← Finset.prod_mul_prod_compl S, ← Finset.compl_eq_univ_sdiff]
    congr 1
    · exact Finset.prod_congr rfl fun j hj => by rw [if_pos hj]
    · exact Finset.prod_congr rfl fun j hj => by rw [if_neg (Finset.mem_compl.mp hj)]
  rw [hsplit, Finset.prod_neg, mul_assoc]

theorem volume_sum {d : ℕ} {ι : Type*} (s : Finset ι) (C : ι → (Fin d → ℝ) → ℝ) (a b : Fin d → ℝ) :
    Spec.volume (fun x => ∑ i ∈ s, C i x) a b = ∑ i ∈ s, Spec.volume (C i) a b := by
  unfold Spec.volume
  rw [Finset.sum_comm]
  exact Finset.sum_congr rfl fun S _ => Finset.mul_sum _ _ _

theorem volume_div {d : ℕ} (C : (Fin d → ℝ) → ℝ) (c : ℝ) (a b : Fin d → ℝ) :
    Spec.volume (fun x => C x / c) a b = Spec.volume C a b / c := by
  unfold Spec.volume
  rw [Finset.sum_div]
  exact Finset.sum_congr rfl fun S _ => by ring

end Copulae
