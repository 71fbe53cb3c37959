import Verif.Lemmas.Special

namespace Copulae

open Finset

theorem falling_cast (m k : ℕ) :
    ∏ i ∈ range k, ((m : ℝ) - i) = (k.factorial : ℝ) * (m.choose k : ℝ) := by
  have h : ∏ i ∈ range k, ((m : ℝ) - i) = (m.descFactorial k : ℝ) := by
    induction k with
    | zero => simp
    | succ k ih =>
      rw [prod_range_succ, ih, Nat.descFactorial_succ]
      rcases le_or_gt k m with h | h
      · push_cast [Nat.cast_sub h]; ring
      · rw [Nat.descFactorial_eq_zero_iff_lt.mpr h]; simp
  rw [h, Nat.descFactorial_eq_factorial_mul_choose]
  push_cast; rfl

theorem hasSum_choose_geom (k : ℕ) {z : ℝ} (hz : |z| < 1) :
    HasSum (fun m : ℕ => (m.choose k : ℝ) * z ^ m) (z ^ k / (1 - z) ^ (k + 1)) := by
  have hz' : ‖z‖ < 1 := by rwa [Real.norm_eq_abs]
  have h := (hasSum_choose_mul_geometric_of_norm_lt_one k hz').mul_left (z ^ k)
  rw [← hasSum_nat_add_iff' k]
  have h0 : ∑ i ∈ range k, (i.choose k : ℝ) * z ^ i = 0 := by
    apply sum_eq_zero
    intro i hi
    rw [mem_range] at hi
    rw [Nat.choose_eq_zero_of_lt hi]; simp
  rw [h0, sub_zero]
  have e : (fun m : ℕ => ((m + k).choose k : ℝ) * z ^ (m + k))
      = fun m => z ^ k * (((m + k).choose k : ℝ) * z ^ m) := by
    funext m
    rw [pow_add]; ring
  rw [e, ← mul_one_div]
  exact h

theorem hasSum_pow_geom (n : ℕ) {z : ℝ} (hz : |z| < 1) :
    HasSum (fun m : ℕ => (m : ℝ) ^ n * z ^ m)
      (∑ k ∈ range (n + 1), (s2 n k : ℝ) * (k.factorial : ℝ) * (z ^ k / (1 - z) ^ (k + 1))) := by
  have h : ∀ k ∈ range (n + 1), HasSum
      (fun m : ℕ => (s2 n k : ℝ) * (k.factorial : ℝ) * ((m.choose k : ℝ) * z ^ m))
      ((s2 n k : ℝ) * (k.factorial : ℝ) * (z ^ k / (1 - z) ^ (k + 1))) :=
    fun k _ => (hasSum_choose_geom k hz).mul_left _
  convert hasSum_sum h using 2 with m
  rw [pow_eq_sum_s2 n (m : ℝ), sum_mul]
  apply sum_congr rfl
  intro k _
  rw [falling_cast]; ring

/-- Tail of the series: `Σ_{m ≥ 1}`. -/
theorem hasSum_pow_geom_succ (n : ℕ) {z S : ℝ}
    (h : HasSum (fun m : ℕ => (m : ℝ) ^ n * z ^ m) S) :
    HasSum (fun m : ℕ => ((m : ℝ) + 1) ^ n * z ^ (m + 1)) (S - (0 : ℝ) ^ n) := by
  rw [← hasSum_nat_add_iff' 1] at h
  simpa using h

theorem polylog_stirling (n : ℕ) {z : ℝ} (hz : |z| < 1) :
    HasSum (fun m : ℕ => ((m : ℝ) + 1) ^ n * z ^ (m + 1))
      (z / (1 - z) * ∑ k ∈ range (n + 1),
        ((k.factorial : ℝ) * (s2 (n + 1) (k + 1) : ℝ)) * (z / (1 - z)) ^ k) := by
  have h1z : 1 - z ≠ 0 := by
    have := (abs_lt.mp hz).2
    linarith
  convert hasSum_pow_geom_succ n (hasSum_pow_geom n hz) using 1
  set r := z / (1 - z) with hr
  have hrr : 1 + r = 1 / (1 - z) := by rw [hr]; field_simp; ring
  have e1 : ∀ k : ℕ, z ^ k / (1 - z) ^ (k + 1) = (1 + r) * r ^ k := by
    intro k
    rw [hrr, hr, div_pow, pow_succ]; field_simp
  simp only [e1]
  have e2 : ∀ k : ℕ, (k.factorial : ℝ) * (s2 (n + 1) (k + 1) : ℝ) * r ^ k
      = (s2 n (k + 1) : ℝ) * ((k + 1).factorial : ℝ) * r ^ k
        + (s2 n k : ℝ) * (k.factorial : ℝ) * r ^ k := by
    intro k
    rw [s2_succ_succ, Nat.factorial_succ]; push_cast; ring
  simp only [e2]
  rw [sum_add_distrib, mul_add]
  have e3 : r * ∑ k ∈ range (n + 1), (s2 n (k + 1) : ℝ) * ((k + 1).factorial : ℝ) * r ^ k
      = ∑ k ∈ range (n + 1), (s2 n k : ℝ) * (k.factorial : ℝ) * r ^ k - (s2 n 0 : ℝ) := by
    rw [sum_range_succ, s2_eq_zero (show n < n + 1 by omega),
      sum_range_succ' (fun k => (s2 n k : ℝ) * (k.factorial : ℝ) * r ^ k) n]
    rw [mul_add, mul_sum]
    simp only [Int.cast_zero, zero_mul, mul_zero, add_zero, Nat.factorial_zero, Nat.cast_one,
      mul_one, pow_zero, add_sub_cancel_right]
    apply sum_congr rfl
    intro k _
    rw [pow_succ]; ring
  have e4 : (s2 n 0 : ℝ) = (0 : ℝ) ^ n := by
    cases n with
    | zero => simp [s2_zero_zero]
    | succ n => rw [s2_succ_zero]; simp
  rw [e3, e4, mul_sum]
  have e5 : ∑ k ∈ range (n + 1), (s2 n k : ℝ) * (k.factorial : ℝ) * ((1 + r) * r ^ k)
      = ∑ k ∈ range (n + 1), (s2 n k : ℝ) * (k.factorial : ℝ) * r ^ k
        + ∑ k ∈ range (n + 1), r * ((s2 n k : ℝ) * (k.factorial : ℝ) * r ^ k) := by
    rw [← sum_add_distrib]
    exact sum_congr rfl fun k _ => by ring
  rw [e5]; ring

theorem polylog_eulerian {n : ℕ} (hn : 1 ≤ n) {z : ℝ} (hz : |z| < 1) :
    HasSum (fun m : ℕ => ((m : ℝ) + 1) ^ n * z ^ (m + 1))
      (z * (∑ k ∈ range n, (eulerianSpec n k : ℝ) * z ^ k) / (1 - z) ^ (n + 1)) := by
  have h1z : 1 - z ≠ 0 := by
    have := (abs_lt.mp hz).2
    linarith
  have hz' : ‖z‖ < 1 := by rwa [Real.norm_eq_abs]
  have hS := hasSum_pow_geom n hz
  have hT := hasSum_pow_geom_succ n hS
  rw [zero_pow (by omega), sub_zero] at hT
  convert hT using 1
  rw [div_eq_iff (pow_ne_zero _ h1z)]
  set S := ∑ k ∈ range (n + 1), (s2 n k : ℝ) * (k.factorial : ℝ) * (z ^ k / (1 - z) ^ (k + 1))
  -- the coefficients of `(1 - z)^(n+1)`
  let f : ℕ → ℝ := fun j => (-1) ^ j * ((n + 1).choose j : ℝ) * z ^ j
  have hf0 : ∀ j ∉ range (n + 2), f j = 0 := by
    intro j hj
    rw [mem_range] at hj
    simp only [f]
    rw [Nat.choose_eq_zero_of_lt (by omega)]; simp
  have hfsum : ∑' j, f j = (1 - z) ^ (n + 1) := by
    rw [tsum_eq_sum hf0, show (1 : ℝ) - z = -z + 1 by ring, add_pow]
    apply sum_congr rfl
    intro j _
    simp only [f, one_pow, mul_one]
    rw [neg_pow]; ring
  have hfn : Summable fun j => ‖f j‖ :=
    summable_of_ne_finset_zero (s := range (n + 2)) fun j hj => by rw [hf0 j hj, norm_zero]
  have hgn := summable_norm_pow_mul_geometric_of_norm_lt_one n hz'
  have hprod := tsum_mul_tsum_eq_tsum_sum_antidiagonal_of_summable_norm hfn hgn
  rw [hfsum, hS.tsum_eq] at hprod
  rw [mul_comm S, hprod]
  have hc : ∀ N : ℕ, ∑ kl ∈ antidiagonal N, f kl.1 * ((kl.2 : ℝ) ^ n * z ^ kl.2)
      = (if N = 0 then 0 else (eulerianSpec n (N - 1) : ℝ)) * z ^ N := by
    intro N
    have e : ∀ kl ∈ antidiagonal N, f kl.1 * ((kl.2 : ℝ) ^ n * z ^ kl.2)
        = ((-1) ^ kl.1 * ((n + 1).choose kl.1 : ℝ) * (kl.2 : ℝ) ^ n) * z ^ N := by
      intro kl hkl
      rw [mem_antidiagonal] at hkl
      simp only [f]
      rw [← hkl, pow_add]; ring
    rw [sum_congr rfl e, ← sum_mul]
    congr 1
    rw [Nat.sum_antidiagonal_eq_sum_range_succ_mk]
    cases N with
    | zero => simp [show n ≠ 0 by omega]
    | succ k =>
      rw [if_neg (by omega), Nat.add_sub_cancel, ← eulerAlt_eq_spec, eulerAlt, sum_range_succ]
      push_cast
      rw [Nat.sub_self, Nat.cast_zero, zero_pow (by omega), mul_zero, add_zero]
  simp only [hc]
  rw [tsum_eq_sum (s := range (n + 1))]
  · rw [sum_range_succ', mul_sum]
    simp only [if_true, zero_mul, add_zero]
    apply sum_congr rfl
    intro k _
    rw [if_neg (by omega), Nat.add_sub_cancel, pow_succ]; ring
  · intro N hN
    rw [mem_range] at hN
    rw [if_neg (by omega), eulerianSpec_eq_zero hn (by omega)]; simp

end Copulae
