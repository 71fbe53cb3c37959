import Mathlib.RingTheory.Polynomial.Bernstein
import Mathlib.Analysis.Calculus.Deriv.Polynomial
import Verif.Props.Empirical

/-!
The kernels of the empirical copula at the ranks `1, ..., n` are close to the indicator of the ranks up to `n v`.
-/

namespace Copulae

open Finset Polynomial

/-- The probabilities of the binomial distribution. -/
noncomputable def bern (n i : ℕ) (x : ℝ) : ℝ := (bernsteinPolynomial ℝ n i).eval x

theorem bern_nonneg (n i : ℕ) {x : ℝ} (h0 : 0 ≤ x) (h1 : x ≤ 1) : 0 ≤ bern n i x := by
  have : 0 ≤ 1 - x := by linarith
  simp only [bern, bernsteinPolynomial, eval_mul, eval_pow, eval_natCast, eval_X, eval_sub, eval_one]
  positivity

theorem bern_sum (n : ℕ) (x : ℝ) : ∑ i ∈ range (n + 1), bern n i x = 1 := by
  have := congrArg (Polynomial.eval x) (bernsteinPolynomial.sum ℝ n)
  rwa [eval_finsetSum, eval_one] at this

theorem bern_variance (n : ℕ) (x : ℝ) :
    ∑ i ∈ range (n + 1), (n * x - i) ^ 2 * bern n i x = n * x * (1 - x) := by
  have := congrArg (Polynomial.eval x) (bernsteinPolynomial.variance ℝ n)
  rw [eval_finsetSum] at this
  simpa [bern] using this

/-- The beta kernel of the rank `k + 1` is the probability of more than `k` successes in `n` trials. -/
theorem betaCdf_tail {n k : ℕ} (hk : k < n) (x : ℝ) :
    Spec.betaCdf ((k : ℕ) + 1) ((n : ℝ) - (k : ℕ)) x = ∑ i ∈ range (n + 1), if k < i then bern n i x else 0 := by
  have hsum : ∀ x, ∑ i ∈ range (n + 1), (if k < i then bern n i x else 0) = 1 - ∑ i ∈ range (k + 1), bern n i x := by
    intro x
    rw [← bern_sum n x, ← sum_filter, eq_sub_iff_add_eq,
      ← sum_filter_add_sum_filter_not (range (n + 1)) (fun i => k < i)]
    congr 1
    refine sum_congr ?_ fun _ _ => rfl
    ext i
    simp only [mem_range, mem_filter]
    omega
  rw [hsum]
  have hder : ∀ m : ℕ, derivative (∑ i ∈ range (m + 1), bernsteinPolynomial ℝ n i) = -(n * bernsteinPolynomial ℝ (n - 1) m) := by
    intro m
    induction m with
    | zero => simp [bernsteinPolynomial.derivative_zero]
    | succ m ih =>
      rw [sum_range_succ, derivative_add, ih, bernsteinPolynomial.derivative_succ]
      ring
  have h2 : ∀ x, HasDerivAt (fun x => 1 - ∑ i ∈ range (k + 1), bern n i x)
      (n * (bernsteinPolynomial ℝ (n - 1) k).eval x) x := by
    intro x
    have h := (∑ i ∈ range (k + 1), bernsteinPolynomial ℝ n i).hasDerivAt x
    rw [hder] at h
    have h' := h.const_sub 1
    simp only [eval_finsetSum, eval_neg, neg_neg, eval_mul, eval_natCast] at h'
    exact h'
  have h1 : ∀ x, HasDerivAt (Spec.betaCdf ((k : ℕ) + 1) ((n : ℝ) - (k : ℕ))) (n * (bernsteinPolynomial ℝ (n - 1) k).eval x) x := by
    intro x
    have hkn : (k : ℝ) + 1 ≤ n := by exact_mod_cast hk
    have h := betaCdf_hasDerivAt (a := (k : ℝ) + 1) (b := (n : ℝ) - k) (by simp) (by linarith) x
    convert h using 1
    rw [div_eq_mul_inv, beta_nat hk, add_sub_cancel_right, Real.rpow_natCast]
    have e : (n : ℝ) - k - 1 = ((n - 1 - k : ℕ) : ℝ) := by
      rw [Nat.cast_sub (by omega), Nat.cast_sub (by omega)]
      push_cast
      ring
    rw [e, Real.rpow_natCast]
    simp only [bernsteinPolynomial, eval_mul, eval_pow, eval_natCast, eval_X, eval_sub, eval_one]
    ring
  have hc := is_const_of_deriv_eq_zero (f := fun x => Spec.betaCdf ((k : ℕ) + 1) ((n : ℝ) - (k : ℕ)) x
      - (1 - ∑ i ∈ range (k + 1), bern n i x))
    (fun x => ((h1 x).sub (h2 x)).differentiableAt) (fun x => by
      have := ((h1 x).sub (h2 x)).deriv
      rw [sub_self] at this
      exact this) x 0
  have h00 : ∑ i ∈ range (k + 1), bern n i 0 = 1 := by
    simp only [bern, bernsteinPolynomial.eval_at_0]
    simp
  simp only [betaCdf_zero, h00, sub_self] at hc
  linarith

/-- Counting the positions between two numbers. -/
theorem sum_between {n a b : ℕ} (ha : a ≤ n) (hb : b ≤ n) :
    ∑ k ∈ range n, |(if k < a then (1 : ℝ) else 0) - if k < b then 1 else 0| = |(a : ℝ) - b| := by
  wlog h : b ≤ a generalizing a b
  · rw [abs_sub_comm, ← this hb ha (by omega)]
    exact sum_congr rfl fun k _ => abs_sub_comm _ _
  have hc : (b : ℝ) ≤ a := by exact_mod_cast h
  rw [abs_of_nonneg (by linarith)]
  have e : ∀ k ∈ range n, |(if k < a then (1 : ℝ) else 0) - if k < b then 1 else 0|
      = (if k < a then (1 : ℝ) else 0) - if k < b then 1 else 0 := by
    intro k _
    refine abs_of_nonneg ?_
    split_ifs <;> first | omega | norm_num
  have hcount : ∀ c ≤ n, ∑ k ∈ range n, (if k < c then (1 : ℝ) else 0) = c := by
    intro c hc
    rw [← sum_filter, sum_const, nsmul_one]
    congr 1
    have : (range n).filter (fun k => k < c) = range c := by
      ext k
      simp only [mem_filter, mem_range]
      omega
    rw [this, card_range]
  rw [sum_congr rfl e, sum_sub_distrib, hcount a ha, hcount b hb]

/-- The kernels of all ranks, compared with the indicator of the first ranks. -/
theorem kernel_near (s : Smoothing) {n : ℕ} (hn : 0 < n) {v : ℝ} (h0 : 0 ≤ v) (h1 : v ≤ 1) :
    ∃ m ≤ n, |(m : ℝ) - n * v| ≤ 1 ∧
      ∑ k ∈ range n, |s.real n ((k : ℕ) + 1) v - if k < m then 1 else 0| ≤ Real.sqrt n + 1 := by
  have hn' : (0 : ℝ) < n := by exact_mod_cast hn
  have hnv : (n : ℝ) * v ≤ n := by nlinarith
  have hfl : ⌊(n : ℝ) * v⌋₊ ≤ n := by
    have := Nat.floor_le_floor hnv
    rwa [Nat.floor_natCast] at this
  have hf1 : (⌊(n : ℝ) * v⌋₊ : ℝ) ≤ n * v := Nat.floor_le (by positivity)
  have hf2 : (n : ℝ) * v < ⌊(n : ℝ) * v⌋₊ + 1 := Nat.lt_floor_add_one _
  have hfm : |(⌊(n : ℝ) * v⌋₊ : ℝ) - n * v| ≤ 1 := by rw [abs_le]; constructor <;> linarith
  have hs0 := Real.sqrt_nonneg (n : ℝ)
  rcases s with _ | _ | _
  · refine ⟨min n ⌊((n : ℝ) + 1) * v⌋₊, min_le_left _ _, ?_, ?_⟩
    · have hg1 : (⌊((n : ℝ) + 1) * v⌋₊ : ℝ) ≤ (n + 1) * v := Nat.floor_le (by positivity)
      have hg2 : ((n : ℝ) + 1) * v < ⌊((n : ℝ) + 1) * v⌋₊ + 1 := Nat.lt_floor_add_one _
      rw [Nat.cast_min, abs_le]
      rcases le_total (n : ℝ) ⌊((n : ℝ) + 1) * v⌋₊ with h | h
      · rw [min_eq_left h]
        constructor <;> nlinarith
      · rw [min_eq_right h]
        constructor <;> nlinarith
    · rw [sum_eq_zero]
      · positivity
      intro k hk
      rw [mem_range] at hk
      have hiff : ((k : ℝ) + 1) / (n + 1) ≤ v ↔ k < min n ⌊((n : ℝ) + 1) * v⌋₊ := by
        have : k + 1 ≤ ⌊((n : ℝ) + 1) * v⌋₊ ↔ ((k : ℝ) + 1) / (n + 1) ≤ v := by
          rw [Nat.le_floor_iff (by positivity), div_le_iff₀ (by positivity), mul_comm]
          push_cast
          rfl
        rw [← this]
        omega
      simp only [Smoothing.real, hiff, sub_self, abs_zero]
  · refine ⟨⌊(n : ℝ) * v⌋₊, hfl, hfm, ?_⟩
    set m := ⌊(n : ℝ) * v⌋₊ with hm
    have hstep : ∀ k ∈ range n, |Smoothing.beta.real n ((k : ℕ) + 1) v - if k < m then 1 else 0|
        ≤ ∑ i ∈ range (n + 1), bern n i v * |(if k < i then (1 : ℝ) else 0) - if k < m then 1 else 0| := by
      intro k hk
      simp only [Smoothing.real]
      rw [show ((n : ℝ) + 1 - ((k : ℝ) + 1)) = (n : ℝ) - (k : ℕ) by ring, betaCdf_tail (mem_range.mp hk)]
      have e : ∑ i ∈ range (n + 1), (if k < i then bern n i v else 0) - (if k < m then (1 : ℝ) else 0)
          = ∑ i ∈ range (n + 1), bern n i v * ((if k < i then (1 : ℝ) else 0) - if k < m then 1 else 0) := by
        simp only [mul_sub, sum_sub_distrib]
        rw [← sum_mul, bern_sum, one_mul]
        simp only [mul_ite, mul_one, mul_zero]
      rw [e]
      refine (abs_sum_le_sum_abs _ _).trans (sum_le_sum fun i _ => ?_)
      rw [abs_mul, abs_of_nonneg (bern_nonneg n i h0 h1)]
    refine (sum_le_sum hstep).trans ?_
    rw [sum_comm]
    have hin : ∀ i ∈ range (n + 1), ∑ k ∈ range n, bern n i v * |(if k < i then (1 : ℝ) else 0) - if k < m then 1 else 0|
        ≤ bern n i v * ((Real.sqrt n + (n * v - i) ^ 2 / Real.sqrt n) / 2 + 1) := by
      intro i hi
      rw [← mul_sum, sum_between (by rw [mem_range] at hi; omega) hfl]
      refine mul_le_mul_of_nonneg_left ?_ (bern_nonneg n i h0 h1)
      have hsq : 0 < Real.sqrt n := Real.sqrt_pos.mpr hn'
      have hamgm : |(i : ℝ) - n * v| ≤ (Real.sqrt n + (n * v - i) ^ 2 / Real.sqrt n) / 2 := by
        rw [le_div_iff₀ two_pos, ← sub_nonneg]
        have : Real.sqrt n + (n * v - i) ^ 2 / Real.sqrt n - |(i : ℝ) - n * v| * 2
            = (Real.sqrt n - |(i : ℝ) - n * v|) ^ 2 / Real.sqrt n := by
          have e : ((n : ℝ) * v - i) ^ 2 = |(i : ℝ) - n * v| ^ 2 := by rw [sq_abs]; ring
          rw [e]
          field_simp
          ring
        rw [this]
        positivity
      have := abs_sub_le (i : ℝ) (n * v) m
      rw [abs_sub_comm (n * v : ℝ)] at this
      linarith
    refine (sum_le_sum hin).trans ?_
    have e : ∑ i ∈ range (n + 1), bern n i v * ((Real.sqrt n + (n * v - i) ^ 2 / Real.sqrt n) / 2 + 1)
        = (Real.sqrt n / 2 + 1) * ∑ i ∈ range (n + 1), bern n i v
          + (∑ i ∈ range (n + 1), (n * v - i) ^ 2 * bern n i v) / (2 * Real.sqrt n) := by
      rw [mul_sum, sum_div, ← sum_add_distrib]
      refine sum_congr rfl fun i _ => ?_
      have hsq : 0 < Real.sqrt n := Real.sqrt_pos.mpr hn'
      field_simp
      ring
    rw [e, bern_sum, bern_variance, mul_one]
    have hsq : 0 < Real.sqrt n := Real.sqrt_pos.mpr hn'
    have : (n : ℝ) * v * (1 - v) / (2 * Real.sqrt n) ≤ Real.sqrt n / 2 := by
      rw [div_le_iff₀ (by positivity)]
      have hs := Real.mul_self_sqrt hn'.le
      nlinarith [mul_nonneg h0 h0]
    linarith
  · refine ⟨⌊(n : ℝ) * v⌋₊, hfl, hfm, ?_⟩
    set m := ⌊(n : ℝ) * v⌋₊ with hm
    have hstep : ∀ k ∈ range n, |Smoothing.checkerboard.real n ((k : ℕ) + 1) v - if k < m then 1 else 0|
        ≤ if k = m then 1 else 0 := by
      intro k _
      simp only [Smoothing.real]
      rw [add_sub_cancel_right]
      rcases lt_trichotomy k m with h | h | h
      · have : (k : ℝ) + 1 ≤ m := by exact_mod_cast h
        rw [if_pos h, if_neg h.ne, max_eq_left (by linarith), min_eq_right (by linarith)]
        simp
      · rw [if_neg (by omega), if_pos h, sub_zero, abs_le]
        have := min_le_right (max ((n : ℝ) * v - k) 0) 1
        have := le_min (le_max_right ((n : ℝ) * v - k) 0) zero_le_one
        constructor <;> linarith
      · have : (m : ℝ) + 1 ≤ k := by exact_mod_cast h
        rw [if_neg (by omega), if_neg h.ne', max_eq_right (by linarith), min_eq_left zero_le_one]
        simp
    refine (sum_le_sum hstep).trans ?_
    have : ∑ k ∈ range n, (if k = m then (1 : ℝ) else 0) ≤ 1 := by
      rw [sum_ite_eq']
      split_ifs <;> norm_num
    linarith

end Copulae
