import Mathlib.Analysis.Calculus.ParametricIntervalIntegral
import Mathlib.Analysis.SpecialFunctions.Complex.LogBounds
import Mathlib.NumberTheory.ZetaValues
import Verif.Lemmas.Clausen
import Verif.Lemmas.Dilog

/-!
The dilogarithm of complex numbers: its series, its derivative, the reflection and the inversion, its values on the
unit circle.
-/

namespace Copulae

open Complex MeasureTheory intervalIntegral Set Filter Topology

/-- The dilogarithm of a complex number, by the integral of the documentation of the real one (dilog.py:11-12), along
the segment from 0 and with the principal logarithm. For real `x > 1` the imaginary part is `-π log x` as it is
documented there. -/
noncomputable def Spec.li2 (z : ℂ) : ℂ := -∫ t in (0 : ℝ)..1, Complex.log (1 - t * z) / t

/-- The plane without the part of the real line from 1 on. -/
def liPlane : Set ℂ := {z | 1 - z ∈ slitPlane}

theorem isOpen_liPlane : IsOpen liPlane := isOpen_slitPlane.preimage (by fun_prop)

theorem liPlane_smul {z : ℂ} (hz : z ∈ liPlane) {t : ℝ} (h0 : 0 ≤ t) (h1 : t ≤ 1) : (t : ℂ) * z ∈ liPlane := by
  have := StarConvex.add_smul_mem starConvex_one_slitPlane (x := (1 : ℂ)) (y := -z) (by
    simpa [liPlane, sub_eq_add_neg] using hz) h0 h1
  change 1 - t * z ∈ slitPlane
  convert this using 1
  simp [sub_eq_add_neg]

theorem liPlane_of_im {z : ℂ} (h : z.im ≠ 0) : z ∈ liPlane := by
  change 1 - z ∈ slitPlane
  rw [mem_slitPlane_iff]
  right
  simpa using h

theorem liPlane_of_re {z : ℂ} (h : z.re < 1) : z ∈ liPlane := by
  change 1 - z ∈ slitPlane
  rw [mem_slitPlane_iff]
  left
  simpa using h

theorem liPlane_of_norm {z : ℂ} (h : ‖z‖ < 1) : z ∈ liPlane :=
  liPlane_of_re ((re_le_norm z).trans_lt h)

/-- The kernel is bounded near 0 and continuous elsewhere. -/
theorem li2_integrable {z : ℂ} (hz : z ∈ liPlane) :
    IntervalIntegrable (fun t : ℝ => Complex.log (1 - t * z) / t) volume 0 1 := by
  set g : ℂ → ℂ := dslope (fun w => Complex.log (1 - w)) 0 with hg
  have hc : ContinuousOn g liPlane := by
    rw [hg, continuousOn_dslope (isOpen_liPlane.mem_nhds (by
      exact liPlane_of_norm (by simp)))]
    refine ⟨?_, ?_⟩
    · exact ContinuousOn.clog (by fun_prop) fun w hw => hw
    · exact ((hasDerivAt_id (0 : ℂ)).const_sub 1 |>.clog (by simp)).differentiableAt
  have h1 : IntervalIntegrable (fun t : ℝ => z * g (t * z)) volume 0 1 := by
    apply ContinuousOn.intervalIntegrable
    rw [uIcc_of_le zero_le_one]
    refine continuousOn_const.mul (hc.comp (by fun_prop) fun t ht => liPlane_smul hz ht.1 ht.2)
  refine h1.congr fun t ht => ?_
  rw [uIoc_of_le zero_le_one] at ht
  rcases eq_or_ne z 0 with rfl | hz0
  · simp
  have ht0 : (t : ℂ) ≠ 0 := by exact_mod_cast ht.1.ne'
  simp only [hg]
  rw [dslope_of_ne _ (mul_ne_zero ht0 hz0), slope_def_field]
  simp only [sub_zero, log_one]
  field_simp

theorem li2_kernel_integral {z : ℂ} (hz : z ∈ liPlane) (h0 : z ≠ 0) :
    ∫ t in (0 : ℝ)..1, (1 - t * z)⁻¹ = -Complex.log (1 - z) / z := by
  have h := log_eq_integral (z := -z) (by simpa [liPlane, sub_eq_add_neg] using hz)
  simp only [smul_neg, ← sub_eq_add_neg, real_smul] at h
  rw [h, neg_mul, neg_neg, mul_div_cancel_left₀ _ h0]

theorem hasDerivAt_li2 {z : ℂ} (hz : z ∈ liPlane) (h0 : z ≠ 0) :
    HasDerivAt Spec.li2 (-Complex.log (1 - z) / z) z := by
  obtain ⟨ε, hε, hb⟩ := Metric.nhds_basis_closedBall.mem_iff.mp (isOpen_liPlane.mem_nhds hz)
  set K : Set (ℝ × ℂ) := Icc 0 1 ×ˢ Metric.closedBall z ε
  have hK : IsCompact K := isCompact_Icc.prod (isCompact_closedBall z ε)
  have hne : ∀ p ∈ K, 1 - (p.1 : ℂ) * p.2 ≠ 0 := fun p hp =>
    slitPlane_ne_zero (liPlane_smul (hb hp.2) hp.1.1 hp.1.2)
  have hcont : ContinuousOn (fun p : ℝ × ℂ => ‖(1 - (p.1 : ℂ) * p.2)⁻¹‖) K := by
    refine (ContinuousOn.inv₀ (by fun_prop) hne).norm
  obtain ⟨C, hC⟩ := hK.bddAbove_image hcont
  have hbound : ∀ t ∈ Icc (0 : ℝ) 1, ∀ w ∈ Metric.closedBall z ε, ‖(1 - (t : ℂ) * w)⁻¹‖ ≤ C := fun t ht w hw =>
    hC ⟨(t, w), ⟨ht, hw⟩, rfl⟩
  have key := intervalIntegral.hasDerivAt_integral_of_dominated_loc_of_deriv_le (μ := volume) (a := 0) (b := 1)
    (F := fun (w : ℂ) (t : ℝ) => Complex.log (1 - t * w) / t) (F' := fun (w : ℂ) (t : ℝ) => -(1 - t * w)⁻¹)
    (x₀ := z) (s := Metric.ball z ε) (bound := fun _ => C) (Metric.ball_mem_nhds z hε)
    (by
      filter_upwards [Metric.ball_mem_nhds z hε] with w hw
      have := (li2_integrable (hb (Metric.ball_subset_closedBall hw))).aestronglyMeasurable
      rwa [uIoc_of_le zero_le_one])
    (li2_integrable hz)
    (by
      rw [uIoc_of_le zero_le_one]
      refine (ContinuousOn.neg (ContinuousOn.inv₀ (by fun_prop) fun t ht => ?_)).aestronglyMeasurable measurableSet_Ioc
      exact slitPlane_ne_zero (liPlane_smul hz ht.1.le ht.2))
    (by
      filter_upwards with t ht w hw
      rw [uIoc_of_le zero_le_one] at ht
      rw [norm_neg]
      exact hbound t ⟨ht.1.le, ht.2⟩ w (Metric.ball_subset_closedBall hw))
    intervalIntegrable_const
    (by
      filter_upwards with t ht w hw
      rw [uIoc_of_le zero_le_one] at ht
      have hw' : (1 : ℂ) - t * w ∈ slitPlane :=
        liPlane_smul (hb (Metric.ball_subset_closedBall hw)) ht.1.le ht.2
      have ht0 : (t : ℂ) ≠ 0 := by exact_mod_cast ht.1.ne'
      have := ((((hasDerivAt_id w).const_mul (t : ℂ)).const_sub 1).clog hw').div_const (t : ℂ)
      refine this.congr_deriv ?_
      have := slitPlane_ne_zero hw'
      simp only [id]
      field_simp)
  refine (key.2.neg).congr_deriv ?_
  rw [intervalIntegral.integral_neg, neg_neg, li2_kernel_integral hz h0]

/-- The series of the dilogarithm on the closed unit disk. -/
theorem hasSum_li2 {z : ℂ} (h : ‖z‖ ≤ 1) : HasSum (fun n : ℕ => z ^ n / (n : ℂ) ^ 2) (Spec.li2 z) := by
  have hi : ∀ n : ℕ, 1 ≤ n → ∫ t in (0 : ℝ)..1, (t : ℝ) ^ (n - 1) = 1 / n := fun n hn => by
    rw [integral_pow]
    simp [Nat.cast_sub hn]
  set F : ℕ → ℝ → ℂ := fun n t => z ^ n / n * ((t ^ (n - 1) : ℝ) : ℂ) with hF
  have hnorm : ∀ n : ℕ, ∫ t in Ioc (0 : ℝ) 1, ‖F n t‖ = ‖z‖ ^ n / (n : ℝ) ^ 2 := by
    intro n
    rcases Nat.eq_zero_or_pos n with rfl | hn
    · simp [hF]
    rw [← intervalIntegral.integral_of_le zero_le_one]
    have : ∀ t ∈ uIcc (0 : ℝ) 1, ‖F n t‖ = ‖z‖ ^ n / n * t ^ (n - 1) := by
      intro t ht
      rw [uIcc_of_le zero_le_one] at ht
      simp only [hF, norm_mul, norm_div, norm_pow, norm_natCast, norm_real, Real.norm_eq_abs]
      rw [abs_of_nonneg ht.1]
    rw [intervalIntegral.integral_congr this, intervalIntegral.integral_const_mul, hi n hn]
    field_simp
  have hsum : Summable fun n : ℕ => ‖z‖ ^ n / (n : ℝ) ^ 2 := by
    refine Summable.of_nonneg_of_le (fun n => by positivity) (fun n => ?_)
      (Real.summable_one_div_nat_pow.mpr (by norm_num : 1 < 2))
    gcongr
    exact pow_le_one₀ (norm_nonneg z) h
  have key := hasSum_integral_of_summable_integral_norm (μ := volume.restrict (Ioc (0 : ℝ) 1)) (F := F)
    (fun n => by
      have : Continuous (F n) := by fun_prop
      exact (this.integrableOn_Icc (a := 0) (b := 1)).mono_set Ioc_subset_Icc_self)
    (by simpa only [hnorm] using hsum)
  have e1 : ∀ n : ℕ, ∫ t in Ioc (0 : ℝ) 1, F n t = z ^ n / (n : ℂ) ^ 2 := by
    intro n
    rcases Nat.eq_zero_or_pos n with rfl | hn
    · simp [hF]
    rw [← intervalIntegral.integral_of_le zero_le_one, intervalIntegral.integral_const_mul,
      intervalIntegral.integral_ofReal, hi n hn]
    push_cast
    field_simp
  have e2 : ∫ t in Ioc (0 : ℝ) 1, ∑' n, F n t = Spec.li2 z := by
    rw [Spec.li2, ← intervalIntegral.integral_neg, intervalIntegral.integral_of_le zero_le_one]
    have hae : ∀ᵐ t : ℝ ∂volume, t ≠ 1 := by
      rw [ae_iff]
      simp
    refine integral_congr_ae ((ae_restrict_iff' measurableSet_Ioc).mpr ?_)
    filter_upwards [hae] with t ht1 ht
    have htlt : t < 1 := lt_of_le_of_ne ht.2 ht1
    have hn1 : ‖(t : ℂ) * z‖ < 1 := by
      rw [norm_mul, norm_real, Real.norm_eq_abs, abs_of_pos ht.1]
      calc t * ‖z‖ ≤ t * 1 := by gcongr; exact ht.1.le
        _ < 1 := by linarith
    have ht0 : (t : ℂ) ≠ 0 := by exact_mod_cast ht.1.ne'
    have hs := (hasSum_taylorSeries_neg_log hn1).div_const (t : ℂ)
    rw [neg_div] at hs
    rw [← hs.tsum_eq]
    congr 1
    funext n
    rcases Nat.eq_zero_or_pos n with rfl | hn
    · simp [hF]
    simp only [hF]
    obtain ⟨m, rfl⟩ : ∃ m, n = m + 1 := ⟨n - 1, by omega⟩
    rw [add_tsub_cancel_right]
    push_cast
    rw [mul_pow, pow_succ (t : ℂ)]
    field_simp
  simpa only [e1, e2] using key

theorem continuousOn_li2_closedBall : ContinuousOn Spec.li2 (Metric.closedBall 0 1) := by
  have h1 : ContinuousOn (fun z : ℂ => ∑' n : ℕ, z ^ n / (n : ℂ) ^ 2) (Metric.closedBall 0 1) := by
    refine continuousOn_tsum (u := fun n : ℕ => 1 / (n : ℝ) ^ 2) (fun n => by fun_prop)
      (Real.summable_one_div_nat_pow.mpr (by norm_num : 1 < 2)) fun n z hz => ?_
    rw [mem_closedBall_zero_iff] at hz
    rw [norm_div, norm_pow, norm_pow, norm_natCast]
    gcongr
    exact pow_le_one₀ (norm_nonneg z) hz
  refine h1.congr fun z hz => ?_
  exact (hasSum_li2 (mem_closedBall_zero_iff.mp hz)).tsum_eq.symm

theorem li2_conj {z : ℂ} (hz : z ∈ liPlane) :
    Spec.li2 ((starRingEnd ℂ) z) = (starRingEnd ℂ) (Spec.li2 z) := by
  rw [Spec.li2, Spec.li2, map_neg, intervalIntegral.integral_of_le zero_le_one,
    intervalIntegral.integral_of_le zero_le_one, ← integral_conj]
  congr 1
  refine setIntegral_congr_fun measurableSet_Ioc fun t ht => ?_
  have hm : (1 : ℂ) - t * z ∈ slitPlane := liPlane_smul hz ht.1.le ht.2
  have := log_conj _ (slitPlane_arg_ne_pi hm)
  simp only [map_sub, map_one, map_mul, conj_ofReal] at this
  simp only [map_div₀, conj_ofReal, this]

/-! ### On the unit circle -/

/-- The real part of the dilogarithm on the unit circle. -/
theorem li2_circle_re {θ : ℝ} (h : |θ| ≤ 2 * Real.pi) :
    (Spec.li2 (exp (θ * I))).re = Real.pi ^ 2 / 6 + θ ^ 2 / 4 - Real.pi * |θ| / 2 := by
  have hp := Real.pi_pos
  have hs := hasSum_re (hasSum_li2 (z := exp (θ * I)) (by rw [norm_exp_ofReal_mul_I]))
  have hx : |θ| / (2 * Real.pi) ∈ Icc (0 : ℝ) 1 := ⟨by positivity, by rw [div_le_one (by positivity)]; exact h⟩
  have hb := hasSum_one_div_nat_pow_mul_cos (k := 1) one_ne_zero hx
  have hterm : ∀ n : ℕ, ((exp (θ * I)) ^ n / (n : ℂ) ^ 2).re =
      1 / (n : ℝ) ^ (2 * 1) * Real.cos (2 * Real.pi * n * (|θ| / (2 * Real.pi))) := by
    intro n
    rw [← exp_nat_mul, show ((n : ℂ) * (θ * I)) = ((n * θ : ℝ) : ℂ) * I by push_cast; ring,
      show ((n : ℂ) ^ 2) = ((n ^ 2 : ℝ) : ℂ) by push_cast; rfl, div_ofReal_re, exp_ofReal_mul_I_re]
    rw [show 2 * Real.pi * n * (|θ| / (2 * Real.pi)) = n * |θ| by field_simp]
    have : Real.cos (n * |θ|) = Real.cos (n * θ) := by
      rw [← Real.cos_abs (n * θ), abs_mul, Nat.abs_cast]
    rw [this]
    ring
  simp only [hterm] at hs
  rw [hs.unique hb]
  have hB : (Polynomial.map (algebraMap ℚ ℝ) (Polynomial.bernoulli (2 * 1))).eval (|θ| / (2 * Real.pi)) =
      (|θ| / (2 * Real.pi)) ^ 2 - |θ| / (2 * Real.pi) + 1 / 6 := by
    rw [Polynomial.bernoulli_def]
    simp [Finset.sum_range_succ, bernoulli_two, bernoulli_one]
    ring
  rw [hB, ← sq_abs θ]
  generalize |θ| = a
  norm_num [Nat.factorial]
  field_simp
  ring

theorem li2_one_im : (Spec.li2 1).im = 0 := by
  have hs := hasSum_im (hasSum_li2 (z := 1) (by simp))
  have h0 : ∀ n : ℕ, ((1 : ℂ) ^ n / (n : ℂ) ^ 2).im = 0 := by
    intro n
    rw [one_pow, show (1 : ℂ) / (n : ℂ) ^ 2 = ((1 / (n : ℝ) ^ 2 : ℝ) : ℂ) by push_cast; rfl, ofReal_im]
  simp only [h0] at hs
  exact hs.unique hasSum_zero

theorem cos_lt_one_of {θ : ℝ} (h0 : 0 < θ) (h1 : θ < 2 * Real.pi) : Real.cos θ < 1 := by
  refine lt_of_le_of_ne (Real.cos_le_one θ) fun h => ?_
  rw [Real.cos_eq_one_iff_of_lt_of_lt (by linarith [Real.pi_pos]) h1] at h
  exact h0.ne' h

theorem exp_liPlane {θ : ℝ} (h0 : 0 < θ) (h1 : θ < 2 * Real.pi) : exp (θ * I) ∈ liPlane :=
  liPlane_of_re (by rw [exp_ofReal_mul_I_re]; exact cos_lt_one_of h0 h1)

/-- The imaginary part of the dilogarithm on the unit circle is the Clausen function. -/
theorem li2_circle_im_nonneg {θ : ℝ} (h0 : 0 ≤ θ) (h1 : θ < 2 * Real.pi) :
    (Spec.li2 (exp (θ * I))).im = Spec.clausen θ := by
  set f : ℝ → ℝ := fun φ => (Spec.li2 (exp (φ * I))).im with hf
  have hc : ContinuousOn f (Icc 0 θ) := by
    refine Continuous.comp_continuousOn continuous_im ?_
    refine continuousOn_li2_closedBall.comp (by fun_prop) fun φ _ => ?_
    rw [mem_closedBall_zero_iff, norm_exp_ofReal_mul_I]
  have hd : ∀ φ ∈ Ioo 0 θ, HasDerivAt f (-Real.log (2 * Real.sin (φ / 2))) φ := by
    intro φ hφ
    have hφ2 : φ < 2 * Real.pi := hφ.2.trans h1
    have he : HasDerivAt (fun φ : ℝ => exp (φ * I)) (exp (φ * I) * I) φ := by
      have := ((hasDerivAt_id φ).ofReal_comp.mul_const I).cexp
      simpa using this
    have hl := (hasDerivAt_li2 (exp_liPlane hφ.1 hφ2) (exp_ne_zero _)).comp φ he
    have hi := imCLM.hasFDerivAt.comp_hasDerivAt φ hl
    refine hi.congr_deriv ?_
    have e1 : -log (1 - exp (φ * I)) / exp (φ * I) * (exp (φ * I) * I) = -(log (1 - exp (φ * I)) * I) := by
      field_simp [exp_ne_zero]
    rw [e1, imCLM_apply, neg_im, mul_I_im, log_re, ← norm_neg, neg_sub, mul_comm (φ : ℂ) I,
      norm_exp_I_mul_ofReal_sub_one, Real.norm_eq_abs, Real.log_abs]
  have key := integral_eq_sub_of_hasDerivAt_of_le h0 hc hd (clausen_integrable 0 θ).neg
  have hf0 : f 0 = 0 := by simp [hf, li2_one_im]
  rw [hf0, sub_zero, intervalIntegral.integral_neg] at key
  exact key.symm

theorem li2_circle_im {θ : ℝ} (h : |θ| < 2 * Real.pi) : (Spec.li2 (exp (θ * I))).im = Spec.clausen θ := by
  rcases le_total 0 θ with h0 | h0
  · exact li2_circle_im_nonneg h0 (by rwa [abs_of_nonneg h0] at h)
  · rcases h0.eq_or_lt with rfl | h0
    · exact li2_circle_im_nonneg le_rfl (by simpa using h)
    rw [abs_of_neg h0] at h
    have hc := li2_conj (exp_liPlane (by linarith : 0 < -θ) h)
    have e : (starRingEnd ℂ) (exp (((-θ : ℝ) : ℂ) * I)) = exp (θ * I) := by
      rw [← exp_conj]
      simp
    rw [e] at hc
    rw [hc, conj_im, li2_circle_im_nonneg (by linarith) h, clausen_neg, neg_neg]

/-! ### On the real line -/

theorem li2_ofReal (x : ℝ) :
    Spec.li2 x = Spec.dilog x + ((if 1 ≤ x then -(Real.pi * Real.log x) else 0 : ℝ) : ℂ) * I := by
  set g : ℝ → ℝ := fun t => Real.log (1 - t * x) / t with hg
  set k : ℝ → ℝ := fun t => (Complex.arg ((1 - t * x : ℝ) : ℂ)) / t with hk
  have hkey : ∀ t : ℝ, Complex.log (1 - t * x) / t = (g t : ℂ) + (k t : ℂ) * I := by
    intro t
    have : (1 : ℂ) - t * x = ((1 - t * x : ℝ) : ℂ) := by push_cast; rfl
    rw [this, hg, hk]
    simp only [Complex.log]
    rw [norm_real, Real.norm_eq_abs, Real.log_abs]
    push_cast
    ring
  have hgi : IntervalIntegrable g volume 0 1 := by
    have h := (intervalIntegrable_dilog 0 x).comp_mul_left (c := x)
    rcases eq_or_ne x 0 with rfl | hx
    · simp [hg]
    rw [zero_div, div_self hx] at h
    refine (h.const_mul x).congr fun t ht => ?_
    rw [uIoc_of_le zero_le_one] at ht
    have := ht.1.ne'
    simp only [hg]
    rw [mul_comm t x]
    field_simp
  have hgv : ∫ t in (0 : ℝ)..1, g t = -Spec.dilog x := by
    have h := intervalIntegral.smul_integral_comp_mul_left (a := 0) (b := 1)
      (fun s => Real.log (1 - s) / s) x
    rw [mul_zero, mul_one, smul_eq_mul, ← intervalIntegral.integral_const_mul] at h
    rw [Spec.dilog, neg_neg, ← h]
    refine intervalIntegral.integral_congr fun t _ => ?_
    rcases eq_or_ne t 0 with rfl | ht
    · simp [hg]
    rcases eq_or_ne x 0 with rfl | hx
    · simp [hg]
    simp only [hg]
    rw [mul_comm t x]
    field_simp
  have hkv : IntervalIntegrable k volume 0 1 ∧
      ∫ t in (0 : ℝ)..1, k t = if 1 ≤ x then Real.pi * Real.log x else 0 := by
    by_cases hx : 1 ≤ x
    · have hx0 : 0 < x := by linarith
      have hx1 : 1 / x ≤ 1 := by rw [div_le_one hx0]; exact hx
      have hxp : 0 < 1 / x := by positivity
      have e1 : ∀ t ∈ uIoc 0 (1 / x), k t = (fun _ => (0 : ℝ)) t := by
        intro t ht
        rw [uIoc_of_le hxp.le] at ht
        have : 0 ≤ 1 - t * x := by
          have := ht.2
          rw [le_div_iff₀ hx0] at this
          linarith
        simp only [hk]
        rw [arg_ofReal_of_nonneg this, zero_div]
      have e2 : ∀ t ∈ uIoc (1 / x) 1, k t = Real.pi * t⁻¹ := by
        intro t ht
        rw [uIoc_of_le hx1] at ht
        have : 1 - t * x < 0 := by
          have := ht.1
          rw [div_lt_iff₀ hx0] at this
          linarith
        simp only [hk]
        rw [arg_ofReal_of_neg this]
        rfl
      have i1 : IntervalIntegrable k volume 0 (1 / x) :=
        (intervalIntegrable_const (c := (0 : ℝ))).congr fun t ht => (e1 t ht).symm
      have i2' : IntervalIntegrable (fun t : ℝ => Real.pi * t⁻¹) volume (1 / x) 1 := by
        refine IntervalIntegrable.const_mul ?_ _
        refine intervalIntegral.intervalIntegrable_inv (fun t ht => ?_) continuousOn_id
        rw [uIcc_of_le hx1] at ht
        exact (hxp.trans_le ht.1).ne'
      have i2 : IntervalIntegrable k volume (1 / x) 1 := i2'.congr fun t ht => (e2 t ht).symm
      refine ⟨i1.trans i2, ?_⟩
      rw [if_pos hx, ← intervalIntegral.integral_add_adjacent_intervals i1 i2]
      have v1 : ∫ t in (0 : ℝ)..(1 / x), k t = 0 := by
        rw [intervalIntegral.integral_congr_ae (g := fun _ => (0 : ℝ)) (ae_of_all _ e1)]
        simp
      have v2 : ∫ t in (1 / x)..1, k t = Real.pi * Real.log x := by
        rw [intervalIntegral.integral_congr_ae (ae_of_all _ e2), intervalIntegral.integral_const_mul,
          integral_inv_of_pos hxp one_pos, one_div_one_div]
      rw [v1, v2, zero_add]
    · push Not at hx
      have e1 : ∀ t ∈ uIoc (0 : ℝ) 1, k t = (fun _ => (0 : ℝ)) t := by
        intro t ht
        rw [uIoc_of_le zero_le_one] at ht
        have : 0 ≤ 1 - t * x := by nlinarith [ht.1, ht.2]
        simp only [hk]
        rw [arg_ofReal_of_nonneg this, zero_div]
      refine ⟨(intervalIntegrable_const (c := (0 : ℝ))).congr fun t ht => (e1 t ht).symm, ?_⟩
      rw [if_neg (by linarith), intervalIntegral.integral_congr_ae (g := fun _ => (0 : ℝ)) (ae_of_all _ e1)]
      simp
  rw [Spec.li2]
  simp only [hkey]
  have hgi' : IntervalIntegrable (fun t => (g t : ℂ)) volume 0 1 := ⟨hgi.1.ofReal, hgi.2.ofReal⟩
  have hki' : IntervalIntegrable (fun t => (k t : ℂ) * I) volume 0 1 :=
    (show IntervalIntegrable (fun t => (k t : ℂ)) volume 0 1 from ⟨hkv.1.1.ofReal, hkv.1.2.ofReal⟩).mul_const I
  rw [intervalIntegral.integral_add hgi' hki', intervalIntegral.integral_mul_const,
    intervalIntegral.integral_ofReal, intervalIntegral.integral_ofReal, hgv, hkv.2]
  split_ifs <;> push_cast <;> ring

/-! ### Reflection and inversion -/

theorem li2_reflect {z : ℂ} (h0 : 0 < z.re) (h1 : z.re < 1) :
    Spec.li2 z + Spec.li2 (1 - z) + Complex.log z * Complex.log (1 - z) = Real.pi ^ 2 / 6 := by
  set S : Set ℂ := {w | 0 < w.re} ∩ {w | w.re < 1} with hS
  have hopen : IsOpen S := (isOpen_lt continuous_const continuous_re).inter (isOpen_lt continuous_re continuous_const)
  have hconv : Convex ℝ S := (convex_halfSpace_re_gt 0).inter (convex_halfSpace_re_lt 1)
  set F : ℂ → ℂ := fun w => Spec.li2 w + Spec.li2 (1 - w) + Complex.log w * Complex.log (1 - w) with hF
  have hd : ∀ w ∈ S, HasDerivAt F 0 w := by
    intro w hw
    have hw0 : 0 < w.re := hw.1
    have hw1 : w.re < 1 := hw.2
    have n0 : w ≠ 0 := fun h => by rw [h] at hw0; simp at hw0
    have n1 : 1 - w ≠ 0 := fun h => by
      rw [sub_eq_zero] at h
      rw [← h] at hw1
      simp at hw1
    have s0 : w ∈ slitPlane := mem_slitPlane_iff.mpr (Or.inl hw0)
    have s1 : 1 - w ∈ slitPlane := liPlane_of_re hw1
    have d1 := hasDerivAt_li2 (liPlane_of_re hw1) n0
    have d2 := (hasDerivAt_li2 (z := 1 - w) (liPlane_of_re (by simpa using hw0)) n1).comp w
      ((hasDerivAt_id w).const_sub 1)
    have d3 := (hasDerivAt_log s0).mul (((hasDerivAt_id w).const_sub 1).clog s1)
    refine ((d1.add d2).add d3).congr_deriv ?_
    simp only [sub_sub_cancel, id]
    field_simp
    ring
  have hc := hopen.is_const_of_deriv_eq_zero hconv.isPreconnected
    (fun w hw => (hd w hw).differentiableAt.differentiableWithinAt) (fun w hw => (hd w hw).deriv)
    (x := z) (y := ((1 / 2 : ℝ) : ℂ)) ⟨h0, h1⟩ ⟨by simp, by
      change (((1 / 2 : ℝ) : ℂ)).re < 1
      rw [ofReal_re]; norm_num⟩
  have hr := dilog_reflect (x := 1 / 2) (by norm_num) (by norm_num)
  change F z = _
  rw [hc]
  simp only [hF]
  rw [show (1 : ℂ) - ((1 / 2 : ℝ) : ℂ) = ((1 / 2 : ℝ) : ℂ) by push_cast; norm_num, li2_ofReal,
    if_neg (by norm_num), ← ofReal_log (by norm_num)]
  rw [show (1 : ℝ) - 1 / 2 = 1 / 2 by norm_num] at hr
  have hr' : Spec.dilog (1 / 2) + Spec.dilog (1 / 2) + Real.log (1 / 2) * Real.log (1 / 2) = Real.pi ^ 2 / 6 := by
    linarith
  have := congrArg ((↑) : ℝ → ℂ) hr'
  push_cast at this ⊢
  rw [← this]
  ring

theorem li2_inv_of_pos {z : ℂ} (h : 0 < z.im) :
    Spec.li2 z + Spec.li2 z⁻¹ + Complex.log (-z) ^ 2 / 2 = -(Real.pi ^ 2 / 6 : ℝ) := by
  set S : Set ℂ := {w | 0 < w.im} with hS
  have hopen : IsOpen S := isOpen_lt continuous_const continuous_im
  have hconv : Convex ℝ S := convex_halfSpace_im_gt 0
  set F : ℂ → ℂ := fun w => Spec.li2 w + Spec.li2 w⁻¹ + Complex.log (-w) ^ 2 / 2 with hF
  have hd : ∀ w ∈ S, HasDerivAt F 0 w := by
    intro w hw
    have hw0 : 0 < w.im := hw
    have n0 : w ≠ 0 := fun h => by rw [h] at hw0; simp at hw0
    have hinv : (w⁻¹).im < 0 := by
      rw [inv_im]
      exact div_neg_of_neg_of_pos (by linarith) (normSq_pos.mpr n0)
    have s0 : -w ∈ slitPlane := mem_slitPlane_iff.mpr (Or.inr (by simpa using hw0.ne'))
    have d1 := hasDerivAt_li2 (liPlane_of_im hw0.ne') n0
    have d2 := (hasDerivAt_li2 (liPlane_of_im hinv.ne) (inv_ne_zero n0)).comp w (hasDerivAt_inv n0)
    have d3 := (((hasDerivAt_id w).neg.clog s0).pow 2).div_const 2
    have n1 : 1 - w⁻¹ ≠ 0 := fun h => by
      have := congrArg im h
      simp only [sub_im, one_im, zero_im] at this
      linarith
    have hm : Complex.log (1 - w) = Complex.log (1 - w⁻¹) + Complex.log (-w) := by
      rw [← Complex.log_mul n1 (neg_ne_zero.mpr n0)]
      · congr 1
        field_simp
        ring
      · have a1 : 0 ≤ (1 - w⁻¹).arg := arg_nonneg_iff.mpr (by simp only [sub_im, one_im]; linarith)
        have a2 : (-w).arg < 0 := arg_neg_iff.mpr (by simpa using hw0)
        have a3 := arg_le_pi (1 - w⁻¹)
        have a4 := neg_pi_lt_arg (-w)
        constructor <;> linarith
    refine ((d1.add d2).add d3).congr_deriv ?_
    simp only [Pi.neg_apply, id, hm]
    push_cast
    field_simp
    ring
  have hc := hopen.is_const_of_deriv_eq_zero hconv.isPreconnected
    (fun w hw => (hd w hw).differentiableAt.differentiableWithinAt) (fun w hw => (hd w hw).deriv)
    (x := z) (y := I) h (by simp [hS])
  change F z = _
  rw [hc]
  simp only [hF]
  have hI := li2_conj (z := I) (liPlane_of_im (by simp))
  rw [inv_I, ← conj_I, hI, conj_I, log_neg_I, add_conj]
  have hre := li2_circle_re (θ := Real.pi / 2) (by
    rw [abs_of_pos (by positivity)]; linarith [Real.pi_pos])
  rw [show exp (((Real.pi / 2 : ℝ) : ℂ) * I) = I by push_cast; exact exp_pi_div_two_mul_I,
    abs_of_pos (by positivity)] at hre
  rw [hre]
  push_cast
  rw [mul_pow, I_sq]
  ring

theorem li2_inv {z : ℂ} (h : z.im ≠ 0) :
    Spec.li2 z = -Spec.li2 z⁻¹ - Complex.log (-z) ^ 2 / 2 - (Real.pi ^ 2 / 6 : ℝ) := by
  rcases h.lt_or_gt with h | h
  · have hc := li2_inv_of_pos (z := (starRingEnd ℂ) z) (by simpa using h)
    have n0 : z ≠ 0 := fun e => by rw [e] at h; simp at h
    have hinv : (z⁻¹).im ≠ 0 := by
      rw [inv_im]
      exact (div_pos (by linarith) (normSq_pos.mpr n0)).ne'
    rw [← map_inv₀, li2_conj (liPlane_of_im h.ne), li2_conj (liPlane_of_im hinv), ← map_neg,
      log_conj _ (slitPlane_arg_ne_pi (mem_slitPlane_iff.mpr (Or.inr (by simpa using h.ne))))] at hc
    have := congrArg (starRingEnd ℂ) hc
    simp only [map_add, map_div₀, map_pow, conj_conj, map_neg, conj_ofReal, map_ofNat] at this
    rw [← sub_eq_zero] at this ⊢
    rw [← this]
    ring
  · have hc := li2_inv_of_pos h
    rw [← sub_eq_zero] at hc ⊢
    rw [← hc]
    ring

end Copulae
