import Mathlib.Analysis.SpecialFunctions.Integrals.Basic
import Mathlib.Analysis.SpecialFunctions.Log.Deriv
import Mathlib.Analysis.Calculus.DSlope
import Mathlib.Analysis.Calculus.MeanValue
import Mathlib.Analysis.Normed.Group.FunctionSeries
import Mathlib.MeasureTheory.Integral.DominatedConvergence
import Mathlib.NumberTheory.ZetaValues

/-!
The dilogarithm of real numbers: the integral of the documentation, its power series and its functional equations.
-/

namespace Copulae

open MeasureTheory Set intervalIntegral Filter Topology

/-- The dilogarithm of a real number (dilog.py:12): minus the integral of `log|1 - s| / s` from 0 to `x`. The logarithm of
Mathlib is that of the absolute value, which is the real part of the complex logarithm. -/
noncomputable def Spec.dilog (x : ℝ) : ℝ := -∫ s in (0 : ℝ)..x, Real.log (1 - s) / s

/-- `log (1 - t) / t`, continuous at 0. -/
noncomputable def dilogKer : ℝ → ℝ := dslope (fun t => Real.log (1 - t)) 0

theorem dilogKer_of_ne {t : ℝ} (h : t ≠ 0) : dilogKer t = Real.log (1 - t) / t := by
  rw [dilogKer, dslope_of_ne _ h, slope_def_field]
  simp

theorem mul_dilogKer (t : ℝ) : t * dilogKer t = Real.log (1 - t) := by
  rcases eq_or_ne t 0 with rfl | h
  · simp
  · rw [dilogKer_of_ne h, mul_div_cancel₀ _ h]

theorem hasDerivAt_log_one_sub {t : ℝ} (h : t ≠ 1) :
    HasDerivAt (fun t => Real.log (1 - t)) (-1 / (1 - t)) t := by
  have h1 : HasDerivAt (fun t : ℝ => 1 - t) (-1) t := by simpa using (hasDerivAt_id t).const_sub 1
  exact h1.log (by intro e; apply h; linarith)

theorem continuousOn_dilogKer : ContinuousOn dilogKer (Iio 1) := by
  rw [dilogKer, continuousOn_dslope (Iio_mem_nhds one_pos)]
  exact ⟨fun t ht => (hasDerivAt_log_one_sub (ne_of_lt ht)).continuousAt.continuousWithinAt,
    (hasDerivAt_log_one_sub zero_ne_one).differentiableAt⟩

theorem continuousOn_log_mul_log : ContinuousOn (fun x => Real.log x * Real.log (1 - x)) (Iio 1) := by
  have h : (fun x => Real.log x * Real.log (1 - x)) = fun x => x * Real.log x * dilogKer x := by
    funext x
    rw [← mul_dilogKer x]
    ring
  rw [h]
  exact Real.continuous_mul_log.continuousOn.mul continuousOn_dilogKer

theorem dilogKer_ae : (fun s => Real.log (1 - s) / s) =ᵐ[volume] dilogKer := by
  have : ∀ᵐ s : ℝ, s ≠ 0 := by
    rw [ae_iff]
    simp
  filter_upwards [this] with s hs
  exact (dilogKer_of_ne hs).symm

theorem intervalIntegrable_dilog_left {a b : ℝ} (ha : a < 1) (hb : b < 1) :
    IntervalIntegrable (fun s => Real.log (1 - s) / s) volume a b := by
  have h : IntervalIntegrable dilogKer volume a b :=
    (continuousOn_dilogKer.mono fun x hx => lt_of_le_of_lt hx.2 (max_lt ha hb)).intervalIntegrable
  refine h.congr_ae ?_
  exact ae_restrict_of_ae dilogKer_ae.symm

theorem intervalIntegrable_dilog_right {a b : ℝ} (ha : 0 < a) (hb : 0 < b) :
    IntervalIntegrable (fun s => Real.log (1 - s) / s) volume a b := by
  have h : IntervalIntegrable (fun s => Real.log (1 - s)) volume a b := by
    have := (intervalIntegrable_log' (a := 1 - a) (b := 1 - b)).comp_sub_left 1
    simpa using this
  refine h.mul_continuousOn (g := fun s => s⁻¹) ?_
  exact continuousOn_id.inv₀ fun x hx => (lt_of_lt_of_le (lt_min ha hb) hx.1).ne'

theorem intervalIntegrable_dilog (a b : ℝ) :
    IntervalIntegrable (fun s => Real.log (1 - s) / s) volume a b := by
  have h : ∀ c, IntervalIntegrable (fun s => Real.log (1 - s) / s) volume (1 / 2) c := by
    intro c
    rcases lt_or_ge c 1 with hc | hc
    · exact intervalIntegrable_dilog_left (by norm_num) hc
    · exact intervalIntegrable_dilog_right (by norm_num) (by linarith)
  exact (h a).symm.trans (h b)

theorem continuous_dilog : Continuous Spec.dilog := (continuous_primitive intervalIntegrable_dilog 0).neg

theorem dilog_zero : Spec.dilog 0 = 0 := by simp [Spec.dilog]

theorem hasDerivAt_dilog {x : ℝ} (h0 : x ≠ 0) (h1 : x ≠ 1) :
    HasDerivAt Spec.dilog (-(Real.log (1 - x) / x)) x := by
  have hc : ∀ y : ℝ, y ≠ 0 → y ≠ 1 → ContinuousAt (fun s => Real.log (1 - s) / s) y := fun y y0 y1 =>
    (hasDerivAt_log_one_sub y1).continuousAt.div continuousAt_id y0
  refine (integral_hasDerivAt_right (intervalIntegrable_dilog 0 x) ?_ (hc x h0 h1)).neg
  refine ContinuousOn.stronglyMeasurableAtFilter (s := {0, 1}ᶜ) ?_ ?_ x ?_
  · exact (Set.toFinite {0, 1}).isClosed.isOpen_compl
  · intro y hy
    simp only [mem_compl_iff, mem_insert_iff, mem_singleton_iff, not_or] at hy
    exact (hc y hy.1 hy.2).continuousWithinAt
  · simp [h0, h1]

/-- A continuous function with derivative zero inside an interval has equal values at its ends. -/
theorem eq_of_hasDerivAt_zero {f : ℝ → ℝ} {a b : ℝ} (hab : a ≤ b) (hc : ContinuousOn f (Icc a b))
    (hd : ∀ x ∈ Ioo a b, HasDerivAt f 0 x) : f b = f a := by
  rcases hab.eq_or_lt with rfl | hab
  · rfl
  obtain ⟨c, _, h⟩ := exists_hasDerivAt_eq_slope f (fun _ => 0) hab hc hd
  have : b - a ≠ 0 := by linarith
  rw [eq_comm, div_eq_iff this] at h
  linarith

theorem hasSum_dilog_lt {x : ℝ} (h0 : 0 ≤ x) (h1 : x < 1) :
    HasSum (fun n : ℕ => x ^ (n + 1) / ((n : ℝ) + 1) ^ 2) (Spec.dilog x) := by
  have h := hasSum_integral_of_dominated_convergence (μ := volume) (a := 0) (b := x)
    (F := fun (n : ℕ) s => s ^ n / ((n : ℝ) + 1)) (f := fun s => -(Real.log (1 - s) / s))
    (bound := fun n _ => x ^ n) ?_ ?_ ?_ ?_ ?_
  · rw [Spec.dilog, ← intervalIntegral.integral_neg]
    have e : (fun n : ℕ => x ^ (n + 1) / ((n : ℝ) + 1) ^ 2) =
        fun n : ℕ => ∫ s in (0 : ℝ)..x, s ^ n / ((n : ℝ) + 1) := by
      funext n
      have : (n : ℝ) + 1 ≠ 0 := by positivity
      rw [intervalIntegral.integral_div, integral_pow]
      simp
      field_simp
    rw [e]
    exact h
  · exact fun n => (Continuous.aestronglyMeasurable (by fun_prop))
  · intro n
    refine Eventually.of_forall fun s hs => ?_
    rw [uIoc_of_le h0] at hs
    rw [Real.norm_eq_abs, abs_of_nonneg (by have := hs.1; positivity)]
    have : s ^ n ≤ x ^ n := pow_le_pow_left₀ hs.1.le hs.2 n
    refine (div_le_self (pow_nonneg hs.1.le n) ?_).trans this
    have : (0 : ℝ) ≤ n := Nat.cast_nonneg n
    linarith
  · exact Eventually.of_forall fun s _ => summable_geometric_of_lt_one h0 h1
  · exact intervalIntegrable_const
  · refine Eventually.of_forall fun s hs => ?_
    rw [uIoc_of_le h0] at hs
    have hl := Real.hasSum_pow_div_log_of_abs_lt_one (x := s) (by rw [abs_of_pos hs.1]; linarith [hs.2])
    have := hl.div_const s
    rw [neg_div] at this
    have e : (fun n : ℕ => s ^ n / ((n : ℝ) + 1)) = fun n : ℕ => s ^ (n + 1) / ((n : ℝ) + 1) / s := by
      funext n
      have := hs.1.ne'
      have : (n : ℝ) + 1 ≠ 0 := by positivity
      field_simp
      ring
    rw [e]
    exact this

theorem dilog_one : Spec.dilog 1 = Real.pi ^ 2 / 6 := by
  have hz : HasSum (fun n : ℕ => 1 / ((n : ℝ) + 1) ^ 2) (Real.pi ^ 2 / 6) := by
    have h := (hasSum_nat_add_iff' (f := fun n : ℕ => (1 : ℝ) / (n : ℝ) ^ 2) 1).mpr hasSum_zeta_two
    simpa using h
  have hc : ContinuousOn (fun x : ℝ => ∑' n : ℕ, x ^ (n + 1) / ((n : ℝ) + 1) ^ 2) (Icc 0 1) := by
    refine continuousOn_tsum (u := fun n : ℕ => 1 / ((n : ℝ) + 1) ^ 2) (fun n => by fun_prop) hz.summable ?_
    intro n x hx
    rw [Real.norm_eq_abs, abs_of_nonneg (by have := hx.1; positivity)]
    have : x ^ (n + 1) ≤ 1 := pow_le_one₀ hx.1 hx.2
    gcongr
  have e : EqOn (fun x : ℝ => ∑' n : ℕ, x ^ (n + 1) / ((n : ℝ) + 1) ^ 2) Spec.dilog (Ico 0 1) :=
    fun x hx => (hasSum_dilog_lt hx.1 hx.2).tsum_eq
  have e' := e.of_subset_closure hc continuous_dilog.continuousOn Ico_subset_Icc_self
    (by rw [closure_Ico zero_ne_one])
  rw [← e' (right_mem_Icc.mpr zero_le_one)]
  simpa using hz.tsum_eq

/-- The power series on the unit interval. -/
theorem hasSum_dilog {x : ℝ} (h0 : 0 ≤ x) (h1 : x ≤ 1) :
    HasSum (fun n : ℕ => x ^ (n + 1) / ((n : ℝ) + 1) ^ 2) (Spec.dilog x) := by
  rcases h1.eq_or_lt with rfl | h1
  · rw [dilog_one]
    have h := (hasSum_nat_add_iff' (f := fun n : ℕ => (1 : ℝ) / (n : ℝ) ^ 2) 1).mpr hasSum_zeta_two
    simpa using h
  · exact hasSum_dilog_lt h0 h1

/-- The reflection formula. -/
theorem dilog_reflect {x : ℝ} (h0 : 0 < x) (h1 : x < 1) :
    Spec.dilog x = Real.pi ^ 2 / 6 - Spec.dilog (1 - x) - Real.log x * Real.log (1 - x) := by
  have h := eq_of_hasDerivAt_zero (a := 0) (b := x)
    (f := fun x => Spec.dilog x + Spec.dilog (1 - x) + Real.log x * Real.log (1 - x)) h0.le ?_ ?_
  · simp only [dilog_zero, sub_zero, dilog_one, Real.log_zero, zero_mul, zero_add, add_zero] at h
    linarith
  · refine ((continuous_dilog.add (continuous_dilog.comp (by fun_prop))).continuousOn).add ?_
    exact continuousOn_log_mul_log.mono fun y hy => lt_of_le_of_lt hy.2 h1
  · intro y hy
    have y0 : y ≠ 0 := hy.1.ne'
    have y1 : y ≠ 1 := (hy.2.trans h1).ne
    have y2 : 1 - y ≠ 0 := by intro e; apply y1; linarith
    have d1 := hasDerivAt_dilog y0 y1
    have d2 : HasDerivAt (fun y => Spec.dilog (1 - y)) (-(Real.log (1 - (1 - y)) / (1 - y)) * -1) y := by
      have h1 : HasDerivAt (fun t : ℝ => 1 - t) (-1) y := by simpa using (hasDerivAt_id y).const_sub 1
      exact (hasDerivAt_dilog y2 (by intro e; apply y0; linarith)).comp y h1
    have d3 := (Real.hasDerivAt_log y0).mul (hasDerivAt_log_one_sub y1)
    refine ((d1.add d2).add d3).congr_deriv ?_
    rw [sub_sub_cancel]
    field_simp
    ring

/-- The square formula. -/
theorem dilog_square {x : ℝ} (h0 : 0 ≤ x) :
    Spec.dilog (-x) = 1 / 2 * Spec.dilog (x ^ 2) - Spec.dilog x := by
  set G : ℝ → ℝ := fun x => Spec.dilog x + Spec.dilog (-x) - 1 / 2 * Spec.dilog (x ^ 2) with hG
  have hc : Continuous G :=
    (continuous_dilog.add (continuous_dilog.comp continuous_neg)).sub
      (continuous_const.mul (continuous_dilog.comp (by fun_prop)))
  have hd : ∀ y : ℝ, 0 < y → y ≠ 1 → HasDerivAt G 0 y := by
    intro y y0 y1
    have s0 : y ^ 2 ≠ 0 := by positivity
    have s1 : y ^ 2 ≠ 1 := by
      intro e
      apply y1
      nlinarith
    have a1 : (1 : ℝ) - y ≠ 0 := by intro e; apply y1; linarith
    have a2 : (1 : ℝ) + y ≠ 0 := by positivity
    have d1 := hasDerivAt_dilog y0.ne' y1
    have d2 : HasDerivAt (fun y => Spec.dilog (-y)) (-(Real.log (1 - -y) / -y) * -1) y :=
      (hasDerivAt_dilog (neg_ne_zero.mpr y0.ne') (by linarith)).comp y (hasDerivAt_neg y)
    have d3 : HasDerivAt (fun y => Spec.dilog (y ^ 2)) (-(Real.log (1 - y ^ 2) / y ^ 2) * (2 * y)) y := by
      have := HasDerivAt.comp (h := fun y : ℝ => y ^ 2) y (hasDerivAt_dilog s0 s1) (hasDerivAt_pow 2 y)
      refine this.congr_deriv ?_
      norm_num
    refine ((d1.add d2).sub (d3.const_mul (1 / 2))).congr_deriv ?_
    rw [show (1 : ℝ) - y ^ 2 = (1 - y) * (1 + y) by ring, Real.log_mul a1 a2, sub_neg_eq_add]
    field_simp
    ring
  have g0 : G 0 = 0 := by simp [hG, dilog_zero]
  have key : G x = 0 := by
    rcases le_or_gt x 1 with h1 | h1
    · rw [← g0]
      exact eq_of_hasDerivAt_zero h0 hc.continuousOn fun y hy => hd y hy.1 (hy.2.trans_le h1).ne
    · rw [eq_of_hasDerivAt_zero h1.le hc.continuousOn fun y hy => hd y (one_pos.trans hy.1) hy.1.ne', ← g0]
      exact eq_of_hasDerivAt_zero zero_le_one hc.continuousOn fun y hy => hd y hy.1 hy.2.ne
  simp only [hG] at key
  linarith

/-- The inversion formula. -/
theorem dilog_inv {x : ℝ} (h1 : 1 ≤ x) :
    Spec.dilog x = Real.pi ^ 2 / 3 - Spec.dilog (1 / x) - 1 / 2 * Real.log x ^ 2 := by
  have h := eq_of_hasDerivAt_zero (a := 1) (b := x)
    (f := fun x => Spec.dilog x + Spec.dilog (1 / x) + 1 / 2 * Real.log x ^ 2) h1 ?_ ?_
  · simp only [div_one, dilog_one, Real.log_one] at h
    linarith
  · intro y hy
    have y0 : y ≠ 0 := (one_pos.trans_le hy.1).ne'
    refine ContinuousAt.continuousWithinAt ?_
    have c1 : ContinuousAt (fun y : ℝ => 1 / y) y := continuousAt_const.div continuousAt_id y0
    have c2 := Real.continuousAt_log y0
    exact (continuous_dilog.continuousAt.add (ContinuousAt.comp (f := fun y : ℝ => 1 / y)
      continuous_dilog.continuousAt c1)).add (continuousAt_const.mul (c2.pow 2))
  · intro y hy
    have yp : 0 < y := one_pos.trans hy.1
    have y0 : y ≠ 0 := yp.ne'
    have y1 : y ≠ 1 := hy.1.ne'
    have a1 : y - 1 ≠ 0 := by intro e; apply y1; linarith
    have d1 := hasDerivAt_dilog y0 y1
    have di : HasDerivAt (fun y : ℝ => 1 / y) (-(1 / y ^ 2)) y := by
      have := hasDerivAt_inv y0
      simp only [one_div]
      exact this
    have d2 : HasDerivAt (fun y => Spec.dilog (1 / y)) (-(Real.log (1 - 1 / y) / (1 / y)) * -(1 / y ^ 2)) y :=
      (hasDerivAt_dilog (by positivity) (by
        intro e
        apply y1
        field_simp at e
        linarith)).comp y di
    have d3 := ((Real.hasDerivAt_log y0).pow 2).const_mul (1 / 2)
    refine ((d1.add d2).add d3).congr_deriv ?_
    rw [show (1 : ℝ) - 1 / y = (y - 1) / y by field_simp, Real.log_div a1 y0,
      show (1 : ℝ) - y = -(y - 1) by ring, Real.log_neg_eq_log]
    field_simp
    push_cast
    ring

/-- Landen's formula above 1. -/
theorem dilog_landen {x : ℝ} (h1 : 1 < x) :
    Spec.dilog x = Real.pi ^ 2 / 6 + Spec.dilog (1 - 1 / x) -
      Real.log x * (Real.log (1 - 1 / x) + 1 / 2 * Real.log x) := by
  have hx : 0 < x := one_pos.trans h1
  have h2 : 1 / x < 1 := by rw [div_lt_one hx]; exact h1
  rw [dilog_inv h1.le, dilog_reflect (by positivity) h2]
  rw [show Real.log (1 / x) = -Real.log x by rw [one_div, Real.log_inv]]
  ring

end Copulae
