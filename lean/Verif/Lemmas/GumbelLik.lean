import Verif.Lemmas.WaldContrast
import Verif.Lemmas.FrankLik
import Mathlib.Analysis.MeanInequalities
import Mathlib.Analysis.Convex.SpecificFunctions.Basic
import Mathlib.Analysis.SpecialFunctions.Log.NegMulLog

/-!
The log-density of Gumbel copulas as a function of the parameter.
-/

namespace Copulae

open MeasureTheory ProbabilityTheory Spec CopulaMeasure Finset

variable {d : ℕ} {θ : ℝ}

/-! ### Norms in logarithmic coordinates -/

/-- The logarithm of the norm with exponent `θ`, in terms of the logarithms of the coordinates. -/
noncomputable def lnorm (θ : ℝ) (a : Fin d → ℝ) : ℝ := 1 / θ * Real.log (∑ j, Real.exp (θ * a j))

theorem sumExp_pos (hd : 0 < d) (θ : ℝ) (a : Fin d → ℝ) : 0 < ∑ j, Real.exp (θ * a j) :=
  sum_pos (fun _ _ => Real.exp_pos _) ⟨⟨0, hd⟩, mem_univ _⟩

theorem exp_mul_lnorm (hd : 0 < d) (h : 0 < θ) (a : Fin d → ℝ) : Real.exp (θ * lnorm θ a) = ∑ j, Real.exp (θ * a j) := by
  rw [lnorm, ← mul_assoc, mul_one_div_cancel h.ne', one_mul, Real.exp_log (sumExp_pos hd θ a)]

theorem lnorm_le (hd : 0 < d) (h : 0 < θ) {a : Fin d → ℝ} {m : ℝ} (hm : ∑ j, Real.exp (θ * a j) ≤ Real.exp (θ * m)) : lnorm θ a ≤ m := by
  rw [← exp_mul_lnorm hd h, Real.exp_le_exp] at hm
  exact le_of_mul_le_mul_left hm h

theorem le_lnorm (h : 0 < θ) (a : Fin d → ℝ) (j : Fin d) : a j ≤ lnorm θ a := by
  have h1 : Real.exp (θ * a j) ≤ ∑ j, Real.exp (θ * a j) :=
    single_le_sum (f := fun j => Real.exp (θ * a j)) (fun j _ => (Real.exp_pos _).le) (mem_univ j)
  rw [← exp_mul_lnorm (by have := j.isLt; omega) h, Real.exp_le_exp] at h1
  exact le_of_mul_le_mul_left h1 h

theorem lnorm_shift (hd : 0 < d) (h : 0 < θ) {a b : Fin d → ℝ} {c : ℝ} (hab : ∀ j, a j ≤ b j + c) : lnorm θ a ≤ lnorm θ b + c := by
  refine lnorm_le hd h ?_
  rw [mul_add, Real.exp_add, exp_mul_lnorm hd h, sum_mul]
  refine sum_le_sum fun j _ => ?_
  rw [← Real.exp_add, ← mul_add, Real.exp_le_exp]
  exact mul_le_mul_of_nonneg_left (hab j) h.le

theorem lnorm_lip (hd : 0 < d) (h : 0 < θ) (a b : Fin d → ℝ) : |lnorm θ a - lnorm θ b| ≤ ∑ j, |a j - b j| := by
  have h1 : ∀ j, |a j - b j| ≤ ∑ j, |a j - b j| := fun j =>
    single_le_sum (f := fun j => |a j - b j|) (fun j _ => abs_nonneg _) (mem_univ j)
  have h2 := lnorm_shift hd h (a := a) (b := b) (c := ∑ j, |a j - b j|) fun j => by have := h1 j; have := le_abs_self (a j - b j); linarith
  have h3 := lnorm_shift hd h (a := b) (b := a) (c := ∑ j, |a j - b j|) fun j => by have := h1 j; have := neg_abs_le (a j - b j); linarith
  rw [abs_le]
  constructor <;> linarith

theorem lnorm_anti (hd : 0 < d) {p q : ℝ} (hp : 0 < p) (hpq : p ≤ q) (a : Fin d → ℝ) : lnorm q a ≤ lnorm p a := by
  refine lnorm_le hd (hp.trans_le hpq) ?_
  have h1 : ∀ j, Real.exp (q * a j) ≤ Real.exp ((q - p) * lnorm p a) * Real.exp (p * a j) := fun j => by
    rw [← Real.exp_add, Real.exp_le_exp]
    have := mul_le_mul_of_nonneg_left (le_lnorm hp a j) (by linarith : 0 ≤ q - p)
    linarith
  refine (sum_le_sum fun j _ => h1 j).trans (le_of_eq ?_)
  rw [← mul_sum, ← exp_mul_lnorm hd hp, ← Real.exp_add]
  congr 1
  ring

theorem lnorm_continuousAt (hd : 0 < d) (h : 0 < θ) (a : Fin d → ℝ) : ContinuousAt (fun t => lnorm t a) θ := by
  unfold lnorm
  have h1 : ContinuousAt (fun t : ℝ => ∑ j, Real.exp (t * a j)) θ := Continuous.continuousAt (by fun_prop)
  exact (continuousAt_const.div continuousAt_id h.ne').mul (h1.log (sumExp_pos hd θ a).ne')

theorem sum_rpow_le_sum (h : 1 ≤ θ) {z : Fin d → ℝ} (hz : ∀ j, 0 ≤ z j) : (∑ j, z j ^ θ) ^ (1 / θ) ≤ ∑ j, z j := by
  have hS : 0 ≤ ∑ j, z j := sum_nonneg fun j _ => hz j
  have h0 : 0 < θ := by linarith
  have h1 : ∑ j, z j ^ θ ≤ (∑ j, z j) ^ θ := by
    have e : ∀ {t : ℝ}, 0 ≤ t → t ^ θ = t * t ^ (θ - 1) := fun {t} ht => by
      rcases ht.eq_or_lt with rfl | ht
      · rw [Real.zero_rpow h0.ne', zero_mul]
      · rw [Real.rpow_sub_one ht.ne']
        field_simp
    rw [e hS, sum_mul]
    refine sum_le_sum fun j _ => ?_
    rw [e (hz j)]
    exact mul_le_mul_of_nonneg_left (Real.rpow_le_rpow (hz j) (single_le_sum (fun j _ => hz j) (mem_univ j)) (by linarith)) (hz j)
  refine (Real.rpow_le_rpow (sum_nonneg fun j _ => Real.rpow_nonneg (hz j) _) h1 (by positivity)).trans (le_of_eq ?_)
  rw [← Real.rpow_mul hS, mul_one_div_cancel h0.ne', Real.rpow_one]

theorem exp_lnorm (hd : 0 < d) (a : Fin d → ℝ) : Real.exp (lnorm θ a) = (∑ j, Real.exp (a j) ^ θ) ^ (1 / θ) := by
  have e : ∀ j, Real.exp (a j) ^ θ = Real.exp (θ * a j) := fun j => by rw [← Real.exp_mul, mul_comm]
  simp only [e]
  rw [Real.rpow_def_of_pos (sumExp_pos hd θ a), lnorm, mul_comm]

theorem exp_lnorm_lip (hd : 0 < d) (h : 1 ≤ θ) (a b : Fin d → ℝ) :
    |Real.exp (lnorm θ a) - Real.exp (lnorm θ b)| ≤ ∑ j, |Real.exp (a j) - Real.exp (b j)| := by
  have key : ∀ a b : Fin d → ℝ, Real.exp (lnorm θ a) ≤ Real.exp (lnorm θ b) + ∑ j, |Real.exp (a j) - Real.exp (b j)| := fun a b => by
    rw [exp_lnorm hd, exp_lnorm hd]
    have h1 := Real.Lp_add_le_of_nonneg univ (f := fun j => Real.exp (b j)) (g := fun j => |Real.exp (a j) - Real.exp (b j)|) h
      (fun j _ => (Real.exp_pos _).le) fun j _ => abs_nonneg _
    have h2 := sum_rpow_le_sum h (z := fun j => |Real.exp (a j) - Real.exp (b j)|) fun j => abs_nonneg _
    have h3 : (∑ j, Real.exp (a j) ^ θ) ^ (1 / θ) ≤ (∑ j, (Real.exp (b j) + |Real.exp (a j) - Real.exp (b j)|) ^ θ) ^ (1 / θ) := by
      refine Real.rpow_le_rpow (sum_nonneg fun j _ => Real.rpow_nonneg (Real.exp_pos _).le _) (sum_le_sum fun j _ => ?_) (by positivity)
      refine Real.rpow_le_rpow (Real.exp_pos _).le ?_ (by linarith)
      have := le_abs_self (Real.exp (a j) - Real.exp (b j))
      linarith
    linarith
  have h1 := key a b
  have h2 := key b a
  simp only [abs_sub_comm (Real.exp (b _))] at h2
  rw [abs_le]
  constructor <;> linarith

/-! ### Sums of exponentials in one variable -/

/-- The logarithm of a sum of exponentials with nonnegative coefficients. -/
noncomputable def lpoly (c e : ℕ → ℝ) (d : ℕ) (s : ℝ) : ℝ := Real.log (∑ k ∈ range (d + 1), c k * Real.exp (e k * s))

theorem lpoly_pos {c : ℕ → ℝ} (hc : ∀ k, 0 ≤ c k) (hcd : 0 < c d) (e : ℕ → ℝ) (s : ℝ) :
    0 < ∑ k ∈ range (d + 1), c k * Real.exp (e k * s) :=
  sum_pos' (fun k _ => mul_nonneg (hc k) (Real.exp_pos _).le) ⟨d, by simp, mul_pos hcd (Real.exp_pos _)⟩

theorem lpoly_lip {c e : ℕ → ℝ} (hc : ∀ k, 0 ≤ c k) (hcd : 0 < c d) (he : ∀ k ≤ d, |e k| ≤ d) (s t : ℝ) :
    |lpoly c e d s - lpoly c e d t| ≤ d * |s - t| := by
  have key : ∀ s t : ℝ, lpoly c e d s ≤ lpoly c e d t + d * |s - t| := fun s t => by
    have hs := lpoly_pos hc hcd e s
    have ht := lpoly_pos hc hcd e t
    have h1 : ∑ k ∈ range (d + 1), c k * Real.exp (e k * s) ≤ Real.exp (d * |s - t|) * ∑ k ∈ range (d + 1), c k * Real.exp (e k * t) := by
      rw [mul_sum]
      refine sum_le_sum fun k hk => ?_
      rw [mul_left_comm]
      refine mul_le_mul_of_nonneg_left ?_ (hc k)
      rw [← Real.exp_add, Real.exp_le_exp]
      have h2 : e k * (s - t) ≤ |e k| * |s - t| := by rw [← abs_mul]; exact le_abs_self _
      have h3 := mul_le_mul_of_nonneg_right (he k (by simpa [Nat.lt_succ_iff] using hk)) (abs_nonneg (s - t))
      linarith
    have h4 := Real.log_le_log hs h1
    rw [Real.log_mul (Real.exp_pos _).ne' ht.ne', Real.log_exp] at h4
    unfold lpoly
    linarith
  have h1 := key s t
  have h2 := key t s
  rw [abs_sub_comm t s] at h2
  rw [abs_le]
  constructor <;> linarith

/-! ### The logarithm of the negative logarithm -/

/-- The logarithm of the negative logarithm of a coordinate. -/
noncomputable def logLog (u : Fin d → ℝ) (j : Fin d) : ℝ := Real.log (negLog u j)

theorem negLog_pos {u : Fin d → ℝ} (hu : u ∈ cube d) (j : Fin d) : 0 < negLog u j := by
  have := Real.log_neg (hu j).1 (hu j).2
  rw [negLog]
  linarith

theorem exp_logLog {u : Fin d → ℝ} (hu : u ∈ cube d) (j : Fin d) : Real.exp (logLog u j) = negLog u j := Real.exp_log (negLog_pos hu j)

theorem log_negLog_lip {x y : ℝ} (hx : 0 < x) (hx1 : x < 1) (hy : 0 < y) (hy1 : y < 1) :
    |Real.log (-Real.log x) - Real.log (-Real.log y)| ≤ |Real.log x - Real.log y| + |Real.log (1 - x) - Real.log (1 - y)| := by
  have key : ∀ {x y : ℝ}, 0 < x → x ≤ y → y < 1 →
      |Real.log (-Real.log x) - Real.log (-Real.log y)| ≤ |Real.log x - Real.log y| + |Real.log (1 - x) - Real.log (1 - y)| := by
    intro x y hx hxy hy1
    have hy : 0 < y := hx.trans_le hxy
    have hx1 : x < 1 := hxy.trans_lt hy1
    have lx : 0 < -Real.log x := by linarith [Real.log_neg hx hx1]
    have ly : 0 < -Real.log y := by linarith [Real.log_neg hy hy1]
    have m1 : Real.log x ≤ Real.log y := Real.log_le_log hx hxy
    have m2 : Real.log (-Real.log y) ≤ Real.log (-Real.log x) := Real.log_le_log ly (by linarith)
    have m3 : Real.log (1 - y) ≤ Real.log (1 - x) := Real.log_le_log (by linarith) (by linarith)
    have hc := Real.convexOn_mul_log.secant_mono (a := 1) (x := x) (y := y) (by simp) (by simpa using hx.le) (by simpa using hy.le)
      hx1.ne hy1.ne hxy
    simp only [Real.log_one, mul_zero, sub_zero] at hc
    have h1 : x * -Real.log x / (1 - x) ≤ y * -Real.log y / (1 - y) := by
      have e : ∀ t : ℝ, t * -Real.log t / (1 - t) = t * Real.log t / (t - 1) := fun t => by
        rw [← neg_sub t 1, mul_neg, neg_div_neg_eq]
      rw [e, e]
      exact hc
    have h2 := Real.log_le_log (div_pos (mul_pos hx lx) (by linarith)) h1
    rw [Real.log_div (mul_pos hx lx).ne' (by linarith), Real.log_div (mul_pos hy ly).ne' (by linarith), Real.log_mul hx.ne' lx.ne',
      Real.log_mul hy.ne' ly.ne'] at h2
    rw [abs_of_nonneg (by linarith), abs_of_nonpos (by linarith : Real.log x - Real.log y ≤ 0), abs_of_nonneg (by linarith :
      0 ≤ Real.log (1 - x) - Real.log (1 - y))]
    linarith
  rcases le_total x y with h | h
  · exact key hx h hy1
  · rw [abs_sub_comm, abs_sub_comm (Real.log x), abs_sub_comm (Real.log (1 - x))]
    exact key hy h hx1

theorem logLog_lip {u v : Fin d → ℝ} (hu : u ∈ cube d) (hv : v ∈ cube d) : ∑ j, |logLog u j - logLog v j| ≤ logitDist u v :=
  sum_le_sum fun j _ => log_negLog_lip (hu j).1 (hu j).2 (hv j).1 (hv j).2

theorem negLog_lip (u v : Fin d → ℝ) : ∑ j, |negLog u j - negLog v j| ≤ logitDist u v := by
  refine sum_le_sum fun j _ => ?_
  rw [negLog_abs]
  have := abs_nonneg (Real.log (1 - u j) - Real.log (1 - v j))
  linarith

theorem measurable_logLog (j : Fin d) : Measurable fun u : Fin d → ℝ => logLog u j := Real.measurable_log.comp (measurable_negLog j)

theorem measurable_lnorm (θ : ℝ) : Measurable fun u : Fin d → ℝ => lnorm θ (logLog u) := by
  unfold lnorm
  refine Measurable.const_mul (Real.measurable_log.comp ?_) _
  exact Finset.measurable_fun_sum _ fun j _ => Real.measurable_exp.comp ((measurable_logLog j).const_mul θ)

theorem measurable_lpoly (c e : ℕ → ℝ) (m : ℕ) : Measurable (lpoly c e m) := by
  unfold lpoly
  refine Real.measurable_log.comp ?_
  exact Finset.measurable_fun_sum _ fun k _ => (Real.measurable_exp.comp (measurable_id.const_mul _)).const_mul _

end Copulae
