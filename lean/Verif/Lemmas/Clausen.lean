import Verif.Lemmas.ListPolyPos
import Verif.Lemmas.DebyeApprox
import Mathlib.Analysis.SpecialFunctions.Trigonometric.Sinc
import Mathlib.Analysis.SpecialFunctions.Integrals.LogTrigonometric
import Mathlib.Analysis.Real.Pi.Bounds

/-!
The Clausen function of the documentation, its symmetries, and its approximation by
`x (Q(x²) - log x)` on [0, 3.2] with a rational polynomial `Q`.
-/

namespace Copulae

/-- clausen.py:10-12: `Cl_2(x) = - ∫_0^x log(2 sin(t/2)) dt`; the logarithm is that of the absolute value, which
matters only outside the first period. -/
noncomputable def Spec.clausen (x : ℝ) : ℝ := -∫ t in (0 : ℝ)..x, Real.log (2 * Real.sin (t / 2))

open LP Filter Topology

/-! ### Polynomials for the sine and the cosine -/

/-- `c, -c/(4(k+1)(k+2)), ...` (`n` terms). -/
def trigL : ℕ → ℕ → ℚ → List ℚ
  | 0, _, _ => []
  | n + 1, k, c => c :: trigL n (k + 2) (-c / (4 * ((k + 1) * (k + 2))))

theorem eval_trigL (n k : ℕ) (c : ℚ) (t : ℝ) :
    t ^ k * eval (trigL n k (c / (k.factorial : ℚ))) (4 * t ^ 2) =
      c * ∑ j ∈ Finset.range n, (-1) ^ j * t ^ (k + 2 * j) / (k + 2 * j).factorial := by
  induction n generalizing k c with
  | zero => simp [trigL]
  | succ n ih =>
    rw [Finset.sum_range_succ', trigL, eval_cons]
    have e : -(c / (k.factorial : ℚ)) / (4 * ((k + 1) * (k + 2))) = (-c / 4) / ((k + 2).factorial : ℚ) := by
      rw [Nat.factorial_succ, Nat.factorial_succ]
      have h1 : (k.factorial : ℚ) ≠ 0 := by exact_mod_cast (Nat.factorial_pos k).ne'
      have h2 : (k : ℚ) + 1 ≠ 0 := by positivity
      have h3 : (k : ℚ) + 2 ≠ 0 := by positivity
      push_cast
      field_simp
      ring
    have h := ih (k + 2) (-c / 4)
    rw [e, mul_add]
    have : t ^ k * (4 * t ^ 2 * eval (trigL n (k + 2) (-c / 4 / ((k + 2).factorial : ℚ))) (4 * t ^ 2)) =
        4 * (t ^ (k + 2) * eval (trigL n (k + 2) (-c / 4 / ((k + 2).factorial : ℚ))) (4 * t ^ 2)) := by
      rw [pow_add]; ring
    rw [this, h, mul_add, add_comm]
    congr 1
    · rw [← mul_assoc, Finset.mul_sum, Finset.mul_sum]
      refine Finset.sum_congr rfl fun j _ => ?_
      rw [show k + 2 * (j + 1) = k + 2 + 2 * j by ring, pow_succ]
      push_cast
      ring
    · push_cast
      simp
      ring

theorem sum_I (u : ℝ) (n : ℕ) : ∑ m ∈ Finset.range (2 * n), ((u : ℂ) * Complex.I) ^ m / (m.factorial : ℂ) =
    ((∑ j ∈ Finset.range n, (-1) ^ j * u ^ (0 + 2 * j) / (0 + 2 * j).factorial : ℝ) : ℂ) +
      ((∑ j ∈ Finset.range n, (-1) ^ j * u ^ (1 + 2 * j) / (1 + 2 * j).factorial : ℝ) : ℂ) * Complex.I := by
  induction n with
  | zero => simp
  | succ n ih =>
    rw [show 2 * (n + 1) = 2 * n + 1 + 1 by ring, Finset.sum_range_succ, Finset.sum_range_succ, ih,
      Finset.sum_range_succ, Finset.sum_range_succ]
    have h1 : ((u : ℂ) * Complex.I) ^ (2 * n) = (-1) ^ n * (u : ℂ) ^ (2 * n) := by
      rw [mul_pow, pow_mul Complex.I, Complex.I_sq, mul_comm]
    rw [pow_succ, h1, zero_add, add_comm 1 (2 * n), pow_succ u]
    push_cast
    ring

theorem trig_bound {u : ℝ} (h0 : 0 ≤ u) (h2 : u ≤ 2) (n : ℕ) (hn : 2 ≤ n) :
    |Real.cos u - ∑ j ∈ Finset.range n, (-1) ^ j * u ^ (0 + 2 * j) / (0 + 2 * j).factorial| ≤
        u ^ (2 * n) / (2 * n).factorial * 2 ∧
      |Real.sin u - ∑ j ∈ Finset.range n, (-1) ^ j * u ^ (1 + 2 * j) / (1 + 2 * j).factorial| ≤
        u ^ (2 * n) / (2 * n).factorial * 2 := by
  have hnorm : ‖(u : ℂ) * Complex.I‖ = u := by simp [abs_of_nonneg h0]
  have h := Complex.exp_bound' (x := (u : ℂ) * Complex.I) (n := 2 * n) (by
    rw [hnorm, div_le_iff₀ (by positivity)]
    have : (2 : ℝ) ≤ n := by exact_mod_cast hn
    push_cast
    linarith)
  rw [hnorm, sum_I, Complex.exp_mul_I, ← Complex.ofReal_cos, ← Complex.ofReal_sin] at h
  generalize (∑ j ∈ Finset.range n, (-1) ^ j * u ^ (0 + 2 * j) / (0 + 2 * j).factorial : ℝ) = A at h ⊢
  generalize (∑ j ∈ Finset.range n, (-1) ^ j * u ^ (1 + 2 * j) / (1 + 2 * j).factorial : ℝ) = B at h ⊢
  generalize Real.cos u = c at h ⊢
  generalize Real.sin u = s at h ⊢
  constructor
  · refine le_trans ?_ h
    refine le_trans (le_of_eq ?_) (Complex.abs_re_le_norm _)
    congr 1
    simp
  · refine le_trans ?_ h
    refine le_trans (le_of_eq ?_) (Complex.abs_im_le_norm _)
    congr 1
    simp

theorem half_pow_fac {t : ℝ} (h0 : 0 ≤ t) (n M : ℕ) (hM : 0 < M) (h : 2 * M ≤ 2 ^ n * n.factorial) :
    (t / 2) ^ n / n.factorial * 2 ≤ t ^ n / M := by
  have h' : (2 : ℝ) * M ≤ 2 ^ n * n.factorial := by exact_mod_cast h
  have hM' : (0 : ℝ) < M := by exact_mod_cast hM
  have hf : (0 : ℝ) < n.factorial := by exact_mod_cast n.factorial_pos
  rw [div_pow, div_div, div_mul_eq_mul_div, div_le_div_iff₀ (by positivity) hM', mul_assoc]
  exact mul_le_mul_of_nonneg_left h' (by positivity)

theorem pow_fac {t : ℝ} (h0 : 0 ≤ t) : (t / 2) ^ (2 * 60) / (2 * 60).factorial * 2 ≤ t ^ 120 / 10 ^ 190 := by
  have h := half_pow_fac h0 (2 * 60) (10 ^ 190) (by positivity) (by decide +kernel)
  rwa [Nat.cast_pow, Nat.cast_ofNat] at h

/-- Coefficients of `cos(t/2)` in `t²`. -/
def cosL : List ℚ := trigL 60 0 1

/-- Coefficients of `sin(t/2) / t` in `t²`. -/
def sinL : List ℚ := trigL 60 1 (1 / 2)

theorem cosL_close {t : ℝ} (h0 : 0 ≤ t) (h2 : t ≤ 16 / 5) :
    |Real.cos (t / 2) - eval cosL (t ^ 2)| ≤ t ^ 120 / 10 ^ 190 := by
  have h := (trig_bound (u := t / 2) (by linarith) (by linarith) 60 (by norm_num)).1
  have e := eval_trigL 60 0 1 (t / 2)
  rw [Nat.factorial_zero, Nat.cast_one, div_one, pow_zero, one_mul, Rat.cast_one, one_mul,
    show 4 * (t / 2) ^ 2 = t ^ 2 by ring] at e
  rw [← e] at h
  exact h.trans (pow_fac h0)

theorem sinL_close {t : ℝ} (h0 : 0 ≤ t) (h2 : t ≤ 16 / 5) :
    |Real.sin (t / 2) - t * eval sinL (t ^ 2)| ≤ t ^ 120 / 10 ^ 190 := by
  have h := (trig_bound (u := t / 2) (by linarith) (by linarith) 60 (by norm_num)).2
  have e := eval_trigL 60 1 (1 / 2) (t / 2)
  rw [Nat.factorial_one, Nat.cast_one, div_one, pow_one, show 4 * (t / 2) ^ 2 = t ^ 2 by ring] at e
  have e' : t * eval sinL (t ^ 2) = ∑ j ∈ Finset.range 60, (-1) ^ j * (t / 2) ^ (1 + 2 * j) / (1 + 2 * j).factorial := by
    rw [sinL]
    push_cast at e
    linarith
  rw [← e'] at h
  exact h.trans (pow_fac h0)

/-! ### The logarithm of the cardinal sine -/

/-- Coefficients of `(1/t - cot(t/2)/2)/t` in `t²`. -/
def cotK : List ℚ := smul (-1) (scale (-1) boseEven).tail

/-- Coefficients of `-log(sin(t/2)/(t/2)) / t²` in `t²`. -/
def sincK : List ℚ := intE 1 cotK

/-- Coefficients of `(sin(t/2) - (t/2) cos(t/2) - t² cotK sin(t/2))/t` in `t²`: nothing but the truncation. -/
def sincRem : List ℚ := add (add sinL (smul (-1 / 2) cosL)) (smul (-1) (0 :: mul cotK sinL))

set_option maxRecDepth 100000 in
theorem sincRem_small : sincRem.headD 1 = 0 ∧ absSum (1024 / 100) sincRem.tail ≤ 1 / 10 ^ 28 ∧
    absSum (1024 / 100) cotK ≤ 1 := by decide +kernel

set_option maxRecDepth 100000 in
theorem sincK_deriv :
    absSum (16 / 5) (add (derivL (spread (0 :: sincK))) (smul (-1) (0 :: spread cotK))) ≤ 0 := by decide +kernel

theorem sin_half_ge {t : ℝ} (h0 : 0 ≤ t) (h2 : t ≤ 16 / 5) : t / 4 ≤ Real.sin (t / 2) := by
  have hp := Real.pi_gt_d2
  rcases le_total (t / 2) (Real.pi / 2) with h | h
  · have h1 := Real.mul_le_sin (by linarith : 0 ≤ t / 2) h
    refine le_trans ?_ h1
    have : (1 : ℝ) / 2 ≤ 2 / Real.pi := by
      rw [div_le_div_iff₀ (by norm_num) Real.pi_pos]
      linarith [Real.pi_lt_d2]
    nlinarith
  · have h1 := Real.one_sub_sq_div_two_le_cos (x := t / 2 - Real.pi / 2)
    rw [Real.cos_sub_pi_div_two] at h1
    nlinarith

theorem sinc_half_pos {t : ℝ} (h0 : 0 ≤ t) (h2 : t ≤ 16 / 5) : 0 < Real.sinc (t / 2) := by
  rcases h0.eq_or_lt with rfl | h
  · simp
  · rw [Real.sinc_of_ne_zero (by positivity)]
    have := sin_half_ge h0 h2
    exact div_pos (by linarith) (by linarith)

/-- `-log(sin(t/2)/(t/2))`. -/
noncomputable def sincLog (t : ℝ) : ℝ := -Real.log (Real.sinc (t / 2))

theorem sincLog_hasDerivAt {t : ℝ} (h0 : 0 < t) (h2 : t ≤ 16 / 5) :
    HasDerivAt sincLog (1 / t - Real.cos (t / 2) / (2 * Real.sin (t / 2))) t := by
  have hs : 0 < Real.sin (t / 2) := by linarith [sin_half_ge h0.le h2]
  have hd : HasDerivAt (fun t : ℝ => t / 2) (1 / 2) t := (hasDerivAt_id t).div_const 2
  have h1 : HasDerivAt (fun t : ℝ => Real.sin (t / 2)) (Real.cos (t / 2) * (1 / 2)) t :=
    hd.sin
  have h3 := ((h1.log hs.ne').sub ((hd.log (by positivity)))).neg
  have e : sincLog =ᶠ[𝓝 t] fun t => -(Real.log (Real.sin (t / 2)) - Real.log (t / 2)) := by
    have hev : ∀ᶠ u in 𝓝 t, 0 < u ∧ Real.sin (u / 2) ≠ 0 :=
      (eventually_gt_nhds h0).and ((by fun_prop : Continuous fun u : ℝ => Real.sin (u / 2)).continuousAt.eventually_ne hs.ne')
    filter_upwards [hev] with u hu
    have hu0 : u / 2 ≠ 0 := by have := hu.1; positivity
    rw [sincLog, Real.sinc_of_ne_zero hu0, Real.log_div hu.2 hu0]
  refine HasDerivAt.congr_of_eventuallyEq ?_ e
  refine h3.congr_deriv ?_
  field_simp
  ring

theorem sincLog_continuousOn : ContinuousOn sincLog (Set.Icc 0 (16 / 5)) := by
  refine ContinuousOn.neg (ContinuousOn.log ?_ fun t ht => (sinc_half_pos ht.1 ht.2).ne')
  exact (Real.continuous_sinc.comp (by fun_prop : Continuous fun t : ℝ => t / 2)).continuousOn

theorem sincLog_zero : sincLog 0 = 0 := by simp [sincLog]

theorem abs_eval_small {c ε : ℚ} {t : ℝ} {l : List ℚ} (h : |t| ≤ c) (hl : absSum c l ≤ ε) : |eval l t| ≤ ε :=
  (abs_eval_le h l).trans (by exact_mod_cast hl)

theorem cot_close {t : ℝ} (h0 : 0 < t) (h2 : t ≤ 16 / 5) :
    |1 / t - Real.cos (t / 2) / (2 * Real.sin (t / 2)) - t * eval cotK (t ^ 2)| ≤ 2 / 10 ^ 27 := by
  have hs := sin_half_ge h0.le h2
  have hsp : 0 < Real.sin (t / 2) := by linarith
  have hz : |t ^ 2| ≤ ((1024 / 100 : ℚ) : ℝ) := by
    rw [abs_of_nonneg (by positivity)]
    push_cast
    nlinarith
  obtain ⟨hh, hr, hk⟩ := sincRem_small
  have hr' := abs_eval_small hz hr
  have hk' := abs_eval_small hz hk
  have e1 : eval sincRem (t ^ 2) = t ^ 2 * eval sincRem.tail (t ^ 2) := by
    generalize sincRem = l at hh
    cases l with
    | nil => simp
    | cons a l =>
      have : a = 0 := by simpa using hh
      simp [this]
  have e2 : eval sincRem (t ^ 2) = eval sinL (t ^ 2) - eval cosL (t ^ 2) / 2
      - t ^ 2 * eval cotK (t ^ 2) * eval sinL (t ^ 2) := by
    rw [sincRem, eval_add, eval_add, eval_smul, eval_smul, eval_cons, eval_mul]
    push_cast
    ring
  have hS := sinL_close h0.le h2
  have hC := cosL_close h0.le h2
  generalize eval cotK (t ^ 2) = k at *
  generalize eval sinL (t ^ 2) = S at *
  generalize eval cosL (t ^ 2) = C at *
  generalize eval sincRem.tail (t ^ 2) = R at *
  generalize Real.sin (t / 2) = s at *
  generalize Real.cos (t / 2) = c at *
  have hp : t ^ 120 / 10 ^ 190 ≤ t ^ 2 * (1 / 10 ^ 100) := by
    have h118 : t ^ 118 ≤ (16 / 5) ^ 118 := pow_le_pow_left₀ h0.le h2 118
    have h119 : ((16 : ℝ) / 5) ^ 118 ≤ 10 ^ 90 := by norm_num
    rw [show t ^ 120 = t ^ 2 * t ^ 118 by ring, mul_div_assoc]
    refine mul_le_mul_of_nonneg_left ?_ (by positivity)
    rw [div_le_div_iff₀ (by positivity) (by positivity)]
    calc t ^ 118 * 10 ^ 100 ≤ 10 ^ 90 * 10 ^ 100 := by gcongr; exact h118.trans h119
      _ = 1 * 10 ^ 190 := by norm_num
  have hN : |s - t / 2 * c - t ^ 2 * k * s| ≤ t ^ 2 * (4 / 10 ^ 28) := by
    have e : s - t / 2 * c - t ^ 2 * k * s = t * (t ^ 2 * R) + (1 - t ^ 2 * k) * (s - t * S) - t / 2 * (c - C) := by
      rw [← e1, e2]
      ring
    have hk1 : |1 - t ^ 2 * k| ≤ 12 := by
      rw [abs_of_nonneg (by positivity)] at hz
      push_cast at hz hk'
      have h1 : |t ^ 2 * k| ≤ 1024 / 100 * 1 := by
        rw [abs_mul, abs_of_nonneg (by positivity : (0 : ℝ) ≤ t ^ 2)]
        gcongr
      rw [abs_le] at h1 ⊢
      constructor <;> linarith [h1.1, h1.2]
    rw [e]
    push_cast at hr'
    calc _ ≤ |t * (t ^ 2 * R)| + |(1 - t ^ 2 * k) * (s - t * S)| + |t / 2 * (c - C)| :=
          (abs_sub _ _).trans (by gcongr; exact abs_add_le _ _)
      _ ≤ 16 / 5 * (t ^ 2 * (1 / 10 ^ 28)) + 12 * (t ^ 2 * (1 / 10 ^ 100)) + (8 / 5 : ℝ) * (t ^ 2 * (1 / 10 ^ 100)) := by
          rw [abs_mul t, abs_mul (t ^ 2), abs_of_pos h0, abs_of_nonneg (by positivity : (0 : ℝ) ≤ t ^ 2),
            abs_mul (1 - _), abs_mul (t / 2), abs_of_pos (by positivity : 0 < t / 2)]
          have h85 : t / 2 ≤ 8 / 5 := by linarith
          have hS' := hS.trans hp
          have hC' := hC.trans hp
          refine add_le_add (add_le_add ?_ ?_) ?_
          · exact mul_le_mul h2 (mul_le_mul_of_nonneg_left hr' (by positivity)) (by positivity) (by norm_num)
          · exact mul_le_mul hk1 hS' (abs_nonneg _) (by norm_num)
          · exact mul_le_mul h85 hC' (abs_nonneg _) (by norm_num)
      _ = t ^ 2 * (16 / 5 / 10 ^ 28 + (12 + 8 / 5) / 10 ^ 100) := by ring
      _ ≤ t ^ 2 * (4 / 10 ^ 28) := by gcongr; norm_num
  have e : 1 / t - c / (2 * s) - t * k = (s - t / 2 * c - t ^ 2 * k * s) / (t * s) := by
    field_simp
  rw [e, abs_div, abs_of_pos (by positivity : 0 < t * s), div_le_iff₀ (by positivity)]
  refine hN.trans ?_
  have : t * (t / 4) ≤ t * s := by gcongr
  nlinarith

/-- The logarithm of the cardinal sine is a polynomial up to 7e-27. -/
theorem sincLog_close {t : ℝ} (h0 : 0 ≤ t) (h2 : t ≤ 16 / 5) :
    |sincLog t - t ^ 2 * eval sincK (t ^ 2)| ≤ 7 / 10 ^ 27 := by
  rcases h0.eq_or_lt with rfl | hpos
  · rw [sincLog_zero]; norm_num
  have ev : ∀ u : ℝ, eval (spread (0 :: sincK)) u = u ^ 2 * eval sincK (u ^ 2) := fun u => by
    rw [eval_spread, eval_cons]
    simp
  have hc : ContinuousOn (fun u => sincLog u - eval (spread (0 :: sincK)) u) (Set.Icc 0 t) :=
    (sincLog_continuousOn.mono (Set.Icc_subset_Icc le_rfl h2)).sub (continuous_eval _).continuousOn
  obtain ⟨u, hu, hd⟩ := exists_hasDerivAt_eq_slope (fun u => sincLog u - eval (spread (0 :: sincK)) u)
    (fun u => 1 / u - Real.cos (u / 2) / (2 * Real.sin (u / 2)) - eval (derivL (spread (0 :: sincK))) u) hpos hc
    fun u hu => (sincLog_hasDerivAt hu.1 (hu.2.le.trans h2)).sub (eval_hasDerivAt _ u)
  have hu2 : u ≤ 16 / 5 := hu.2.le.trans h2
  have hder : eval (derivL (spread (0 :: sincK))) u = u * eval cotK (u ^ 2) := by
    have h := abs_eval_small (t := u) (by rw [abs_of_pos hu.1]; push_cast; exact hu2) sincK_deriv
    rw [eval_add, eval_smul, eval_cons, eval_spread] at h
    push_cast at h
    have := abs_nonpos_iff.mp h
    linarith
  have hb := cot_close hu.1 hu2
  rw [hder] at hd
  rw [hd, ev, ev, sincLog_zero, sub_zero, abs_div, abs_of_pos hpos, div_le_iff₀ hpos] at hb
  have e : (0 : ℝ) - 0 ^ 2 * eval sincK (0 ^ 2) = 0 := by ring
  rw [e, sub_zero] at hb
  linarith

/-! ### The integral -/

/-- Coefficients of `Cl_2(x)/x + log x` in `x²`. -/
def clausenP : List ℚ := 1 :: intE 2 sincK

theorem clausen_sinc {x : ℝ} (h0 : 0 ≤ x) (h2 : x ≤ 16 / 5) :
    Spec.clausen x = x - x * Real.log x + ∫ t in (0 : ℝ)..x, sincLog t := by
  have hi : IntervalIntegrable sincLog MeasureTheory.volume 0 x := by
    refine ContinuousOn.intervalIntegrable ?_
    rw [Set.uIcc_of_le h0]
    exact sincLog_continuousOn.mono (Set.Icc_subset_Icc le_rfl h2)
  have e : ∫ t in (0 : ℝ)..x, Real.log (2 * Real.sin (t / 2)) = ∫ t in (0 : ℝ)..x, (Real.log t - sincLog t) := by
    refine intervalIntegral.integral_congr_ae (Filter.Eventually.of_forall fun t ht => ?_)
    rw [Set.uIoc_of_le h0] at ht
    have ht0 : t / 2 ≠ 0 := by have := ht.1; positivity
    have hs := sin_half_ge ht.1.le (ht.2.trans h2)
    have hsp : Real.sin (t / 2) ≠ 0 := by have := ht.1; linarith [this] |> fun h : 0 < Real.sin (t / 2) => h.ne'
    rw [sincLog, Real.sinc_of_ne_zero ht0, Real.log_div hsp ht0, Real.log_mul two_ne_zero hsp,
      Real.log_div ht.1.ne' two_ne_zero]
    ring
  rw [Spec.clausen, e, intervalIntegral.integral_sub intervalIntegral.intervalIntegrable_log' hi, integral_log]
  simp
  ring

theorem clausen_poly {x : ℝ} (h0 : 0 ≤ x) (h2 : x ≤ 16 / 5) :
    |Spec.clausen x - x * (eval clausenP (x ^ 2) - Real.log x)| ≤ x * (7 / 10 ^ 27) := by
  have hi : IntervalIntegrable sincLog MeasureTheory.volume 0 x := by
    refine ContinuousOn.intervalIntegrable ?_
    rw [Set.uIcc_of_le h0]
    exact sincLog_continuousOn.mono (Set.Icc_subset_Icc le_rfl h2)
  have hc : Continuous fun t : ℝ => t ^ 2 * eval sincK (t ^ 2) :=
    (continuous_pow 2).mul ((continuous_eval _).comp (continuous_pow 2))
  have e1 : ∫ t in (0 : ℝ)..x, t ^ 2 * eval sincK (t ^ 2) = x * (x ^ 2 * eval (intE 2 sincK) (x ^ 2)) := by
    have h := intervalIntegral.mul_integral_comp_mul_left (a := (0 : ℝ)) (b := 1)
      (f := fun t => t ^ 2 * eval sincK (t ^ 2)) (c := x)
    rw [mul_zero, mul_one] at h
    rw [← h, ← integral_intE, ← intervalIntegral.integral_const_mul (x ^ 2)]
    congr 1
    refine intervalIntegral.integral_congr fun s _ => ?_
    ring
  have e2 : Spec.clausen x - x * (eval clausenP (x ^ 2) - Real.log x) =
      ∫ t in (0 : ℝ)..x, (sincLog t - t ^ 2 * eval sincK (t ^ 2)) := by
    rw [intervalIntegral.integral_sub hi (hc.intervalIntegrable _ _), e1, clausen_sinc h0 h2, clausenP, eval_cons]
    push_cast
    ring
  rw [e2]
  have h := intervalIntegral.norm_integral_le_of_norm_le_const (a := (0 : ℝ)) (b := x) (C := 7 / 10 ^ 27)
    (f := fun t => sincLog t - t ^ 2 * eval sincK (t ^ 2)) (fun t ht => by
      rw [Set.uIoc_of_le h0] at ht
      exact sincLog_close ht.1.le (ht.2.trans h2))
  rw [sub_zero, abs_of_nonneg h0, Real.norm_eq_abs] at h
  linarith

/-! ### Symmetries -/

theorem clausen_integrable (a b : ℝ) :
    IntervalIntegrable (fun t => Real.log (2 * Real.sin (t / 2))) MeasureTheory.volume a b := by
  have hm : MeromorphicOn (fun t : ℝ => 2 * Real.sin (t / 2)) (Set.uIcc a b) := fun t _ => by
    have : AnalyticAt ℝ (fun t : ℝ => 2 * Real.sin (t / 2)) t := by fun_prop
    exact this.meromorphicAt
  exact hm.intervalIntegrable_log

theorem clausen_neg (x : ℝ) : Spec.clausen (-x) = -Spec.clausen x := by
  have h := intervalIntegral.integral_comp_neg (a := (0 : ℝ)) (b := x)
    (f := fun t => Real.log (2 * Real.sin (t / 2)))
  rw [neg_zero] at h
  have e : ∫ t in (0 : ℝ)..x, Real.log (2 * Real.sin (-t / 2)) = ∫ t in (0 : ℝ)..x, Real.log (2 * Real.sin (t / 2)) := by
    refine intervalIntegral.integral_congr fun t _ => ?_
    rw [neg_div, Real.sin_neg, mul_neg, Real.log_neg_eq_log]
  rw [e] at h
  rw [Spec.clausen, Spec.clausen, intervalIntegral.integral_symm, ← h]

theorem clausen_full : ∫ t in (0 : ℝ)..(2 * Real.pi), Real.log (2 * Real.sin (t / 2)) = 0 := by
  have h := intervalIntegral.integral_comp_div (a := (0 : ℝ)) (b := 2 * Real.pi) (c := 2)
    (f := fun t => Real.log (2 * Real.sin t)) two_ne_zero
  rw [zero_div, mul_div_cancel_left₀ _ (two_ne_zero' ℝ)] at h
  rw [h]
  have e : ∫ t in (0 : ℝ)..Real.pi, Real.log (2 * Real.sin t) =
      ∫ t in (0 : ℝ)..Real.pi, (Real.log 2 + Real.log (Real.sin t)) := by
    have hne : ∀ᵐ t : ℝ, t ≠ Real.pi := MeasureTheory.ae_iff.mpr (by simp)
    refine intervalIntegral.integral_congr_ae ?_
    filter_upwards [hne] with t htp ht
    rw [Set.uIoc_of_le Real.pi_pos.le] at ht
    rw [Real.log_mul two_ne_zero (Real.sin_pos_of_pos_of_lt_pi ht.1 (lt_of_le_of_ne ht.2 htp)).ne']
  have hi : IntervalIntegrable (fun t => Real.log (Real.sin t)) MeasureTheory.volume 0 Real.pi :=
    intervalIntegrable_log_sin
  rw [e, intervalIntegral.integral_add (by simp) hi, integral_log_sin_zero_pi]
  simp
  ring

theorem clausen_reflect (x : ℝ) : Spec.clausen (2 * Real.pi - x) = -Spec.clausen x := by
  have h1 := intervalIntegral.integral_add_adjacent_intervals (clausen_integrable 0 (2 * Real.pi - x))
    (clausen_integrable (2 * Real.pi - x) (2 * Real.pi))
  rw [clausen_full] at h1
  have h2 := intervalIntegral.integral_comp_sub_left (a := (0 : ℝ)) (b := x)
    (fun t => Real.log (2 * Real.sin (t / 2))) (2 * Real.pi)
  rw [sub_zero] at h2
  have e : ∫ t in (0 : ℝ)..x, Real.log (2 * Real.sin ((2 * Real.pi - t) / 2)) =
      ∫ t in (0 : ℝ)..x, Real.log (2 * Real.sin (t / 2)) := by
    refine intervalIntegral.integral_congr fun t _ => ?_
    rw [show (2 * Real.pi - t) / 2 = Real.pi - t / 2 by ring, Real.sin_pi_sub]
  rw [e] at h2
  rw [Spec.clausen, Spec.clausen, h2]
  linarith

end Copulae
