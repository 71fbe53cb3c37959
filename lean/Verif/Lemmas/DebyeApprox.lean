import Verif.Lemmas.ListPoly
import Verif.Lemmas.Debye

/-!
Approximation of `t / (e^t - 1)` and of the Debye functions on [0, 4] by polynomials. The coefficients are
computed by the recursion of the Bernoulli numbers; bounds on sums of coefficients are evaluated by the kernel.
-/

namespace Copulae

open LP intervalIntegral

/-- `c, c/(k+1), c/((k+1)(k+2)), ...` (`n` terms). -/
def invFac : ℕ → ℕ → ℚ → List ℚ
  | 0, _, _ => []
  | n + 1, k, c => c :: invFac n (k + 1) (c / (k + 1))

/-- Coefficients of `t / (e^t - 1)` up to degree `n`, highest first. -/
def boseRev : ℕ → List ℚ
  | 0 => [1]
  | n + 1 =>
    let l := boseRev n;
    -((l.zipWith (· * ·) (invFac (n + 1) 2 (1 / 2))).sum) :: l

def every2 : List ℚ → List ℚ
  | [] => []
  | [a] => [a]
  | a :: _ :: l => a :: every2 l

/-- Coefficients of `t / (e^t - 1) + t / 2` in `t²`. -/
def boseEven : List ℚ := every2 (boseRev 104).reverse

/-- Coefficients of the approximation of `t / (e^t - 1)`. -/
def boseP : List ℚ := add (spread boseEven) [0, -1 / 2]

/-- Coefficients of `(e^t - 1) / t`. -/
def expQ : List ℚ := invFac 144 1 1

theorem eval_invFac (n k : ℕ) (t : ℝ) :
    t ^ k * eval (invFac n k (1 / (k.factorial : ℚ))) t = ∑ m ∈ Finset.range n, t ^ (k + m) / (k + m).factorial := by
  induction n generalizing k with
  | zero => simp [invFac]
  | succ n ih =>
    rw [Finset.sum_range_succ', invFac, eval_cons]
    have e : (1 / (k.factorial : ℚ)) / (k + 1) = 1 / ((k + 1).factorial : ℚ) := by
      rw [Nat.factorial_succ]
      push_cast
      rw [div_div, mul_comm]
    have := ih (k + 1)
    rw [e, mul_add, ← mul_assoc, ← pow_succ, this, add_comm]
    congr 1
    · refine Finset.sum_congr rfl fun m _ => ?_
      rw [show k + 1 + m = k + (m + 1) by ring]
    · push_cast
      rw [add_zero]
      ring

theorem exp_expQ {t : ℝ} (h0 : 0 ≤ t) (h4 : t ≤ 4) :
    |Real.exp t - 1 - t * eval expQ t| ≤ t ^ 145 / (Nat.factorial 145) * 2 := by
  have h := Complex.exp_bound' (x := (t : ℂ)) (n := 145) (by
    rw [Complex.norm_real, Real.norm_of_nonneg h0]
    push_cast
    linarith)
  have e : 1 + t * eval expQ t = ∑ m ∈ Finset.range 145, t ^ m / m.factorial := by
    rw [Finset.sum_range_succ']
    have := eval_invFac 144 1 t
    simp only [pow_one, Nat.factorial_one, Nat.cast_one, div_one] at this
    rw [expQ, this, pow_zero, Nat.factorial_zero, Nat.cast_one, div_one, add_comm]
    congr 1
  have e2 : Complex.exp t - ∑ m ∈ Finset.range 145, (t : ℂ) ^ m / m.factorial =
      ((Real.exp t - ∑ m ∈ Finset.range 145, t ^ m / m.factorial : ℝ) : ℂ) := by
    push_cast
    rfl
  rw [e2, Complex.norm_real, Complex.norm_real, Real.norm_eq_abs, Real.norm_of_nonneg h0, ← e] at h
  rwa [← sub_sub] at h

set_option maxRecDepth 100000 in
theorem boseP_abs : absSum 4 boseP ≤ 7 := by decide +kernel

set_option maxRecDepth 100000 in
theorem boseP_mul : absSum 4 (add (mul boseP expQ) [-1]) ≤ 1 / 10 ^ 19 := by decide +kernel

set_option maxRecDepth 100000 in
theorem boseP_head : boseP.headD 0 = 1 := by decide +kernel

theorem eval_zero_head (l : List ℚ) : eval l 0 = (l.headD 0 : ℚ) := by
  cases l <;> simp

theorem fac145 : (4 : ℝ) ^ 144 / (Nat.factorial 145) * 2 * 7 ≤ 1 / 10 ^ 20 := by
  have : (4 : ℚ) ^ 144 / (Nat.factorial 145) * 2 * 7 ≤ 1 / 10 ^ 20 := by decide +kernel
  have h := (Rat.cast_le (K := ℝ)).mpr this
  push_cast at h
  exact h

/-- The polynomial is within 1.1e-19 of `t / (e^t - 1)` on [0, 4]. -/
theorem bose_approx {t : ℝ} (h0 : 0 ≤ t) (h4 : t ≤ 4) : |boseG t - eval boseP t| ≤ 11 / 10 ^ 20 := by
  rcases h0.eq_or_lt with rfl | hpos
  · rw [boseG_zero, eval_zero_head, boseP_head]
    norm_num
  have habs : |t| ≤ ((4 : ℚ) : ℝ) := by rw [abs_of_pos hpos]; exact_mod_cast h4
  have hP : |eval boseP t| ≤ 7 := (abs_eval_le habs boseP).trans (by exact_mod_cast boseP_abs)
  have hM : |eval boseP t * eval expQ t - 1| ≤ 1 / 10 ^ 19 := by
    have h1 : ((absSum 4 (add (mul boseP expQ) [-1]) : ℚ) : ℝ) ≤ 1 / 10 ^ 19 := by
      have := boseP_mul
      have h2 : ((absSum 4 (add (mul boseP expQ) [-1]) : ℚ) : ℝ) ≤ ((1 / 10 ^ 19 : ℚ) : ℝ) := by
        exact_mod_cast this
      refine h2.trans (le_of_eq ?_)
      push_cast
      rfl
    refine le_trans ?_ h1
    have := abs_eval_le habs (add (mul boseP expQ) [-1])
    rw [eval_add, eval_mul] at this
    simpa [sub_eq_add_neg] using this
  have hr := exp_expQ h0 h4
  have hr' : t ^ 145 / (Nat.factorial 145 : ℝ) * 2 ≤ t * ((4 : ℝ) ^ 144 / (Nat.factorial 145) * 2) := by
    have : t ^ 144 ≤ 4 ^ 144 := pow_le_pow_left₀ h0 h4 144
    rw [pow_succ', mul_div_assoc, mul_assoc]
    gcongr
  have hexp : t ≤ Real.exp t - 1 := by linarith [Real.add_one_le_exp t]
  have hexp0 : 0 < Real.exp t - 1 := hpos.trans_le hexp
  have key : |eval boseP t * (Real.exp t - 1) - t| ≤ t * (11 / 10 ^ 20) := by
    have e : eval boseP t * (Real.exp t - 1) - t =
        t * (eval boseP t * eval expQ t - 1) + eval boseP t * (Real.exp t - 1 - t * eval expQ t) := by ring
    rw [e]
    calc _ ≤ t * |eval boseP t * eval expQ t - 1| + |eval boseP t| * |Real.exp t - 1 - t * eval expQ t| := by
          refine (abs_add_le _ _).trans ?_
          rw [abs_mul, abs_mul, abs_of_pos hpos]
      _ ≤ t * (1 / 10 ^ 19) + 7 * (t * ((4 : ℝ) ^ 144 / (Nat.factorial 145) * 2)) := by
          gcongr
          exact hr.trans hr'
      _ = t * (1 / 10 ^ 19) + t * ((4 : ℝ) ^ 144 / (Nat.factorial 145) * 2 * 7) := by ring
      _ ≤ t * (1 / 10 ^ 19) + t * (1 / 10 ^ 20) := by gcongr; exact fac145
      _ = t * (11 / 10 ^ 20) := by ring
  rw [boseG_ne hpos.ne']
  have e : t / (Real.exp t - 1) - eval boseP t = -(eval boseP t * (Real.exp t - 1) - t) / (Real.exp t - 1) := by
    field_simp
    ring
  rw [e, abs_div, abs_neg, abs_of_pos hexp0, div_le_iff₀ hexp0]
  refine key.trans ?_
  rw [mul_comm]
  gcongr

theorem eval_boseP (t : ℝ) : eval boseP t = eval boseEven (t ^ 2) - t / 2 := by
  rw [boseP, eval_add, eval_spread]
  simp
  ring

/-- The first Debye function on (0, 4]. -/
theorem debye1_poly {x : ℝ} (h0 : 0 < x) (h4 : x ≤ 4) :
    |Spec.debye1 x - (eval (intE 0 boseEven) (x ^ 2) - x / 4)| ≤ 11 / 10 ^ 20 := by
  have hc1 : Continuous fun s : ℝ => boseG (x * s) := boseG_continuous.comp (by fun_prop)
  have hc2 : Continuous fun s : ℝ => eval boseEven ((x * s) ^ 2) := (continuous_eval _).comp (by fun_prop)
  have hc3 : Continuous fun s : ℝ => eval boseP (x * s) := (continuous_eval _).comp (by fun_prop)
  have e : eval (intE 0 boseEven) (x ^ 2) - x / 4 = ∫ s in (0 : ℝ)..1, eval boseP (x * s) := by
    simp only [eval_boseP]
    rw [integral_sub (hc2.intervalIntegrable _ _) (Continuous.intervalIntegrable (by fun_prop) _ _)]
    have := integral_intE 0 boseEven x
    simp only [pow_zero, one_mul] at this
    rw [this, intervalIntegral.integral_div, intervalIntegral.integral_const_mul, integral_id]
    ring
  rw [debye1_unit h0.ne', e, ← integral_sub (hc1.intervalIntegrable _ _) (hc3.intervalIntegrable _ _)]
  have := norm_integral_le_of_norm_le_const (a := (0 : ℝ)) (b := 1) (C := 11 / 10 ^ 20)
    (f := fun s => boseG (x * s) - eval boseP (x * s)) (fun s hs => by
      rw [Set.uIoc_of_le zero_le_one] at hs
      exact bose_approx (mul_nonneg h0.le hs.1.le) (by nlinarith [hs.1, hs.2]))
  simpa using this

/-- The second Debye function on (0, 4]. -/
theorem debye2_poly {x : ℝ} (h0 : 0 < x) (h4 : x ≤ 4) :
    |Spec.debye2 x - (2 * eval (intE 1 boseEven) (x ^ 2) - x / 3)| ≤ 22 / 10 ^ 20 := by
  have hc1 : Continuous fun s : ℝ => 2 * s * boseG (x * s) :=
    (by fun_prop : Continuous fun s : ℝ => 2 * s).mul (boseG_continuous.comp (by fun_prop))
  have hc2 : Continuous fun s : ℝ => s ^ 1 * eval boseEven ((x * s) ^ 2) :=
    (by fun_prop : Continuous fun s : ℝ => s ^ 1).mul ((continuous_eval _).comp (by fun_prop))
  have hc3 : Continuous fun s : ℝ => 2 * s * eval boseP (x * s) :=
    (by fun_prop : Continuous fun s : ℝ => 2 * s).mul ((continuous_eval _).comp (by fun_prop))
  have e : 2 * eval (intE 1 boseEven) (x ^ 2) - x / 3 = ∫ s in (0 : ℝ)..1, 2 * s * eval boseP (x * s) := by
    have e1 : (fun s : ℝ => 2 * s * eval boseP (x * s)) =
        fun s => 2 * (s ^ 1 * eval boseEven ((x * s) ^ 2)) - x * s ^ 2 := by
      funext s
      rw [eval_boseP]
      ring
    have hc2' : Continuous fun s : ℝ => 2 * (s ^ 1 * eval boseEven ((x * s) ^ 2)) := continuous_const.mul hc2
    have hc4 : Continuous fun s : ℝ => x * s ^ 2 := by fun_prop
    rw [e1, integral_sub (hc2'.intervalIntegrable _ _) (hc4.intervalIntegrable _ _),
      intervalIntegral.integral_const_mul, integral_intE, intervalIntegral.integral_const_mul, integral_pow]
    norm_num
    ring
  rw [debye2_unit h0.ne', e, ← integral_sub (hc1.intervalIntegrable _ _) (hc3.intervalIntegrable _ _)]
  have := norm_integral_le_of_norm_le_const (a := (0 : ℝ)) (b := 1) (C := 22 / 10 ^ 20)
    (f := fun s => 2 * s * boseG (x * s) - 2 * s * eval boseP (x * s)) (fun s hs => by
      rw [Set.uIoc_of_le zero_le_one] at hs
      have h := bose_approx (mul_nonneg h0.le hs.1.le) (by nlinarith [hs.1, hs.2] : x * s ≤ 4)
      rw [← mul_sub, Real.norm_eq_abs, abs_mul, abs_of_nonneg (by linarith [hs.1])]
      nlinarith [hs.1, hs.2, abs_nonneg (boseG (x * s) - eval boseP (x * s))])
  simpa using this

end Copulae
