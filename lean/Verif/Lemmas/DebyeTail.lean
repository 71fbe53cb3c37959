import Mathlib.MeasureTheory.Integral.DominatedConvergence
import Mathlib.NumberTheory.ZetaValues
import Mathlib.Analysis.Real.Pi.Bounds
import Mathlib.Analysis.Complex.ExponentialBounds
import Verif.Lemmas.Debye

/-!
The exponential series of the Debye functions, with bounds for the truncation.
-/

namespace Copulae

open MeasureTheory Set intervalIntegral

theorem _root_.HasSum.congr_fun' {f g : ℕ → ℝ} {a : ℝ} (h : HasSum g a) (e : ∀ n, f n = g n) : HasSum f a := by
  rw [show f = g from funext e]; exact h

theorem _root_.HasSum.congr_val' {f : ℕ → ℝ} {a b : ℝ} (h : HasSum f a) (e : b = a) : HasSum f b := e ▸ h

theorem integral_mul_exp {k : ℝ} (hk : 0 < k) (x : ℝ) :
    ∫ t in (0 : ℝ)..x, t * Real.exp (-k * t) = 1 / k ^ 2 - Real.exp (-k * x) * (x / k + 1 / k ^ 2) := by
  have h : ∀ t ∈ uIcc 0 x, HasDerivAt (fun t => -(Real.exp (-k * t) * (t / k + 1 / k ^ 2)))
      (t * Real.exp (-k * t)) t := by
    intro t _
    have h1 : HasDerivAt (fun t => Real.exp (-k * t)) (Real.exp (-k * t) * (-k * 1)) t :=
      ((hasDerivAt_id t).const_mul (-k)).exp
    have h2 : HasDerivAt (fun t : ℝ => t / k + 1 / k ^ 2) (1 / k) t :=
      ((hasDerivAt_id t).div_const k).add_const _
    refine ((h1.mul h2).neg).congr_deriv ?_
    have := hk.ne'
    field_simp
    ring
  rw [integral_eq_sub_of_hasDerivAt h (Continuous.intervalIntegrable (by fun_prop) _ _)]
  simp
  ring

theorem integral_sq_mul_exp {k : ℝ} (hk : 0 < k) (x : ℝ) :
    ∫ t in (0 : ℝ)..x, t ^ 2 * Real.exp (-k * t) =
      2 / k ^ 3 - Real.exp (-k * x) * (x ^ 2 / k + 2 * x / k ^ 2 + 2 / k ^ 3) := by
  have h : ∀ t ∈ uIcc 0 x, HasDerivAt (fun t => -(Real.exp (-k * t) * (t ^ 2 / k + 2 * t / k ^ 2 + 2 / k ^ 3)))
      (t ^ 2 * Real.exp (-k * t)) t := by
    intro t _
    have h1 : HasDerivAt (fun t => Real.exp (-k * t)) (Real.exp (-k * t) * (-k * 1)) t :=
      ((hasDerivAt_id t).const_mul (-k)).exp
    have h2 : HasDerivAt (fun t : ℝ => t ^ 2 / k + 2 * t / k ^ 2 + 2 / k ^ 3)
        ((2 * t) / k + 2 * 1 / k ^ 2) t := by
      have := ((hasDerivAt_pow 2 t).div_const k).add (((hasDerivAt_id t).const_mul 2).div_const (k ^ 2))
      simpa using this.add_const (2 / k ^ 3)
    refine ((h1.mul h2).neg).congr_deriv ?_
    have := hk.ne'
    field_simp
    ring
  rw [integral_eq_sub_of_hasDerivAt h (Continuous.intervalIntegrable (by fun_prop) _ _)]
  simp
  ring

theorem bose_geom {t : ℝ} (ht : 0 < t) :
    ∑' n : ℕ, Real.exp (-((n : ℝ) + 1) * t) = 1 / (Real.exp t - 1) := by
  have h1 : Real.exp (-t) < 1 := by rw [← Real.exp_zero]; exact Real.exp_lt_exp.mpr (by linarith)
  have e : ∀ n : ℕ, Real.exp (-((n : ℝ) + 1) * t) = Real.exp (-t) * Real.exp (-t) ^ n := by
    intro n
    rw [← Real.exp_nat_mul, ← Real.exp_add]
    congr 1
    ring
  simp only [e]
  rw [tsum_mul_left, tsum_geometric_of_lt_one (Real.exp_pos _).le h1, Real.exp_neg]
  have := Real.exp_pos t
  have h2 : Real.exp t - 1 ≠ 0 := by
    have := Real.one_lt_exp_iff.mpr ht
    linarith
  have h3 : 1 - (Real.exp t)⁻¹ = (Real.exp t - 1) / Real.exp t := by field_simp
  rw [h3]
  field_simp

theorem summable_inv_sq : Summable fun n : ℕ => 1 / ((n : ℝ) + 1) ^ 2 := by
  have := (summable_nat_add_iff 1).mpr (Real.summable_one_div_nat_pow.mpr (by norm_num : 1 < 2))
  simpa using this

theorem summable_inv_cube : Summable fun n : ℕ => 2 / ((n : ℝ) + 1) ^ 3 := by
  have := ((summable_nat_add_iff 1).mpr (Real.summable_one_div_nat_pow.mpr (by norm_num : 1 < 3))).mul_left 2
  simpa [div_eq_mul_inv] using this

theorem hasSum_debye_int {x : ℝ} (hx : 0 < x) (j : ℕ) (B : ℕ → ℝ) (hB : Summable B)
    (h : ∀ n : ℕ, ∫ t in (0 : ℝ)..x, t ^ j * Real.exp (-((n : ℝ) + 1) * t) ≤ B n) :
    HasSum (fun n : ℕ => ∫ t in (0 : ℝ)..x, t ^ j * Real.exp (-((n : ℝ) + 1) * t))
      (∫ t in (0 : ℝ)..x, t ^ j / (Real.exp t - 1)) := by
  have hc : ∀ n : ℕ, Continuous fun t : ℝ => t ^ j * Real.exp (-((n : ℝ) + 1) * t) := fun n => by fun_prop
  have hnn : ∀ n : ℕ, ∀ t ∈ Ioc 0 x, ‖t ^ j * Real.exp (-((n : ℝ) + 1) * t)‖ =
      t ^ j * Real.exp (-((n : ℝ) + 1) * t) := fun n t ht =>
    Real.norm_of_nonneg (mul_nonneg (pow_nonneg ht.1.le _) (Real.exp_pos _).le)
  have key := hasSum_integral_of_summable_integral_norm (μ := volume.restrict (Ioc 0 x))
    (F := fun (n : ℕ) t => t ^ j * Real.exp (-((n : ℝ) + 1) * t))
    (fun n => (hc n).integrableOn_Ioc) (by
      refine Summable.of_nonneg_of_le (fun n => MeasureTheory.integral_nonneg fun t => norm_nonneg _) (fun n => ?_) hB
      refine le_trans (le_of_eq ?_) (h n)
      rw [intervalIntegral.integral_of_le hx.le]
      exact setIntegral_congr_fun measurableSet_Ioc (hnn n))
  simp only [intervalIntegral.integral_of_le hx.le]
  refine key.congr_val' ?_
  refine setIntegral_congr_fun measurableSet_Ioc fun t ht => ?_
  rw [tsum_mul_left, bose_geom ht.1, mul_one_div]

theorem hasSum_zeta_two' : HasSum (fun n : ℕ => 1 / ((n : ℝ) + 1) ^ 2) (Real.pi ^ 2 / 6) := by
  have := (hasSum_nat_add_iff' 1).mpr hasSum_zeta_two
  simpa using this

/-- The series of the first Debye function. -/
theorem debye1_series {x : ℝ} (hx : 0 < x) :
    HasSum (fun n : ℕ => Real.exp (-((n : ℝ) + 1) * x) * (1 / (n + 1) + 1 / (x * (n + 1) ^ 2)))
      (Real.pi ^ 2 / 6 / x - Spec.debye1 x) := by
  have h1 : ∀ n : ℕ, ∫ t in (0 : ℝ)..x, t ^ 1 * Real.exp (-((n : ℝ) + 1) * t) =
      1 / ((n : ℝ) + 1) ^ 2 - Real.exp (-((n : ℝ) + 1) * x) * (x / (n + 1) + 1 / ((n : ℝ) + 1) ^ 2) := by
    intro n
    simp only [pow_one]
    exact integral_mul_exp (by positivity) x
  have h2 := hasSum_debye_int hx 1 (fun n => 1 / ((n : ℝ) + 1) ^ 2) summable_inv_sq (fun n => by
    rw [h1]
    have : 0 ≤ Real.exp (-((n : ℝ) + 1) * x) * (x / (n + 1) + 1 / ((n : ℝ) + 1) ^ 2) := by positivity
    linarith)
  simp only [h1] at h2
  have h3 := (hasSum_zeta_two'.sub h2).mul_left (1 / x)
  refine (h3.congr_fun' fun n => ?_).congr_val' ?_
  · have : (n : ℝ) + 1 ≠ 0 := by positivity
    field_simp
    ring
  · rw [Spec.debye1]
    simp only [pow_one]
    ring

/-- The series of the second Debye function. -/
theorem debye2_series {x : ℝ} (hx : 0 < x) {Z : ℝ} (hZ : HasSum (fun n : ℕ => 1 / ((n : ℝ) + 1) ^ 3) Z) :
    HasSum (fun n : ℕ => Real.exp (-((n : ℝ) + 1) * x) *
        (1 / (n + 1) + 2 / (x * (n + 1) ^ 2) + 2 / (x ^ 2 * (n + 1) ^ 3)))
      ((4 * Z / x ^ 2 - Spec.debye2 x) / 2) := by
  have h1 : ∀ n : ℕ, ∫ t in (0 : ℝ)..x, t ^ 2 * Real.exp (-((n : ℝ) + 1) * t) =
      2 / ((n : ℝ) + 1) ^ 3 - Real.exp (-((n : ℝ) + 1) * x) *
        (x ^ 2 / (n + 1) + 2 * x / ((n : ℝ) + 1) ^ 2 + 2 / ((n : ℝ) + 1) ^ 3) := fun n =>
    integral_sq_mul_exp (by positivity) x
  have h2 := hasSum_debye_int hx 2 (fun n => 2 / ((n : ℝ) + 1) ^ 3) summable_inv_cube (fun n => by
    rw [h1]
    have : 0 ≤ Real.exp (-((n : ℝ) + 1) * x) *
        (x ^ 2 / (n + 1) + 2 * x / ((n : ℝ) + 1) ^ 2 + 2 / ((n : ℝ) + 1) ^ 3) := by positivity
    linarith)
  simp only [h1] at h2
  have h3 := ((hZ.mul_left 2).sub h2).mul_left (1 / x ^ 2)
  refine (h3.congr_fun' fun n => ?_).congr_val' ?_
  · have : (n : ℝ) + 1 ≠ 0 := by positivity
    field_simp
    ring
  · rw [Spec.debye2]
    field_simp
    ring

/-- Truncation of a series with terms below `2 e^{-(n+1)x}`. -/
theorem exp_series_tail {f : ℕ → ℝ} {S x : ℝ} (hx : 4 ≤ x) (hf : HasSum f S) (h0 : ∀ n, 0 ≤ f n)
    (h2 : ∀ n : ℕ, f n ≤ 2 * Real.exp (-((n : ℝ) + 1) * x)) (N : ℕ) :
    0 ≤ S - ∑ n ∈ Finset.range N, f n ∧
      S - ∑ n ∈ Finset.range N, f n ≤ 3 * Real.exp (-((N : ℝ) + 1) * x) := by
  have hN := (hasSum_nat_add_iff' N).mpr hf
  have hr : Real.exp (-x) ≤ 1 / 5 := by
    rw [Real.exp_neg, one_div]
    gcongr
    linarith [Real.add_one_le_exp x]
  have hg := (hasSum_geometric_of_lt_one (Real.exp_pos (-x)).le (by linarith)).mul_left
    (2 * Real.exp (-((N : ℝ) + 1) * x))
  refine ⟨hN.nonneg fun n => h0 _, ?_⟩
  have hle := hasSum_le (fun n => ?_) hN hg
  · refine hle.trans ?_
    have hpos := Real.exp_pos (-((N : ℝ) + 1) * x)
    rw [← div_eq_mul_inv, div_le_iff₀ (by linarith)]
    nlinarith
  · refine (h2 (n + N)).trans (le_of_eq ?_)
    rw [← Real.exp_nat_mul, mul_assoc, ← Real.exp_add]
    congr 2
    push_cast
    ring

theorem debye1_tail {x : ℝ} (hx : 4 ≤ x) (N : ℕ) :
    |Spec.debye1 x - (Real.pi ^ 2 / 6 / x - ∑ n ∈ Finset.range N,
        Real.exp (-((n : ℝ) + 1) * x) * (1 / (n + 1) + 1 / (x * (n + 1) ^ 2)))| ≤
      3 * Real.exp (-((N : ℝ) + 1) * x) := by
  have := exp_series_tail hx (debye1_series (by linarith)) (fun n => by positivity) (fun n => ?_) N
  · rw [abs_le]
    constructor <;> linarith [this.1, this.2, Real.exp_pos (-((N : ℝ) + 1) * x)]
  · rw [mul_comm]
    gcongr
    have h1 : (1 : ℝ) ≤ (n : ℝ) + 1 := by linarith [(Nat.cast_nonneg n : (0 : ℝ) ≤ n)]
    have a : 1 / ((n : ℝ) + 1) ≤ 1 := by rw [div_le_one (by positivity)]; exact h1
    have b : 1 / (x * ((n : ℝ) + 1) ^ 2) ≤ 1 := by
      rw [div_le_one (by positivity)]; nlinarith
    linarith

theorem debye2_tail {x : ℝ} (hx : 4 ≤ x) {Z : ℝ} (hZ : HasSum (fun n : ℕ => 1 / ((n : ℝ) + 1) ^ 3) Z) (N : ℕ) :
    |Spec.debye2 x - (4 * Z / x ^ 2 - 2 * ∑ n ∈ Finset.range N, Real.exp (-((n : ℝ) + 1) * x) *
        (1 / (n + 1) + 2 / (x * (n + 1) ^ 2) + 2 / (x ^ 2 * (n + 1) ^ 3)))| ≤
      6 * Real.exp (-((N : ℝ) + 1) * x) := by
  have := exp_series_tail hx (debye2_series (by linarith) hZ) (fun n => by positivity) (fun n => ?_) N
  · rw [abs_le]
    constructor <;> linarith [this.1, this.2, Real.exp_pos (-((N : ℝ) + 1) * x)]
  · rw [mul_comm]
    gcongr
    have h1 : (1 : ℝ) ≤ (n : ℝ) + 1 := by linarith [(Nat.cast_nonneg n : (0 : ℝ) ≤ n)]
    have a : 1 / ((n : ℝ) + 1) ≤ 1 := by rw [div_le_one (by positivity)]; exact h1
    have b : 2 / (x * ((n : ℝ) + 1) ^ 2) ≤ 1 / 2 := by
      rw [div_le_iff₀ (by positivity)]; nlinarith
    have c : 2 / (x ^ 2 * ((n : ℝ) + 1) ^ 3) ≤ 1 / 2 := by
      rw [div_le_iff₀ (by positivity)]
      have : (1 : ℝ) ≤ ((n : ℝ) + 1) ^ 3 := one_le_pow₀ h1
      nlinarith [sq_nonneg x]
    linarith

/-- `e^{-y}` for large `y`. -/
theorem exp_neg_small {y : ℝ} (hy : 50 ≤ y) : Real.exp (-y) ≤ 1 / 10 ^ 21 := by
  have h1 : Real.exp (-y) ≤ Real.exp (-50) := Real.exp_le_exp.mpr (by linarith)
  have h2 : Real.exp (-50) = (Real.exp 1 ^ 50)⁻¹ := by
    rw [← Real.exp_nat_mul, ← Real.exp_neg]
    norm_num
  have h3 : (2.7 : ℝ) ≤ Real.exp 1 := by linarith [Real.exp_one_gt_d9]
  have h4 : (10 : ℝ) ^ 21 ≤ Real.exp 1 ^ 50 :=
    le_trans (by norm_num) (pow_le_pow_left₀ (by norm_num) h3 50)
  rw [h2] at h1
  refine h1.trans ?_
  rw [one_div]
  gcongr

theorem pi_sq_const : |(1.64493406684822644 : ℝ) - Real.pi ^ 2 / 6| ≤ 4 / 10 ^ 18 := by
  have h1 := Real.pi_gt_d20
  have h2 := Real.pi_lt_d20
  rw [abs_le]
  constructor <;> nlinarith

end Copulae
