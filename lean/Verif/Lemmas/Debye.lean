import Mathlib.MeasureTheory.Integral.IntervalIntegral.FundThmCalculus
import Mathlib.Analysis.SpecialFunctions.ExpDeriv
import Mathlib.Analysis.Calculus.DSlope
import Mathlib.Analysis.Convex.SpecificFunctions.Basic
import Mathlib.Analysis.SpecialFunctions.Integrals.Basic

/-!
Debye functions as integrals: derivatives, reflection formulas and the strict inequality between the
first two.
-/

namespace Copulae

open MeasureTheory Set intervalIntegral

namespace Spec

/-- First Debye function (documentation of `debye_1`). -/
noncomputable def debye1 (x : ℝ) : ℝ := 1 / x * ∫ t in (0 : ℝ)..x, t / (Real.exp t - 1)

/-- Second Debye function (documentation of `debye_2`). -/
noncomputable def debye2 (x : ℝ) : ℝ := 2 / x ^ 2 * ∫ t in (0 : ℝ)..x, t ^ 2 / (Real.exp t - 1)

end Spec

/-- `t / (e^t - 1)`, continuously extended. -/
noncomputable def boseG (t : ℝ) : ℝ := (dslope Real.exp 0 t)⁻¹

theorem boseG_ne {t : ℝ} (h : t ≠ 0) : boseG t = t / (Real.exp t - 1) := by
  rw [boseG, dslope_of_ne _ h, slope_def_field, Real.exp_zero, sub_zero, inv_div]

theorem boseG_zero : boseG 0 = 1 := by
  rw [boseG, dslope_same, Real.deriv_exp, Real.exp_zero, inv_one]

theorem dslope_exp_pos (t : ℝ) : 0 < dslope Real.exp 0 t := by
  by_cases h : t = 0
  · rw [h, dslope_same, Real.deriv_exp, Real.exp_zero]
    exact one_pos
  · rw [dslope_of_ne _ h, slope_def_field, Real.exp_zero, sub_zero]
    rcases lt_or_gt_of_ne h with h | h
    · have := Real.exp_lt_one_iff.mpr h
      exact div_pos_of_neg_of_neg (by linarith) h
    · have := Real.one_lt_exp_iff.mpr h
      exact div_pos (by linarith) h

theorem boseG_pos (t : ℝ) : 0 < boseG t := inv_pos.mpr (dslope_exp_pos t)

theorem boseG_continuous : Continuous boseG := by
  refine Continuous.inv₀ ?_ fun t => (dslope_exp_pos t).ne'
  rw [continuous_iff_continuousAt]
  intro t
  by_cases h : t = 0
  · rw [h, continuousAt_dslope_same]
    exact Real.differentiableAt_exp
  · rw [continuousAt_dslope_of_ne h]
    exact Real.continuous_exp.continuousAt

attribute [local fun_prop] boseG_continuous

theorem dslope_exp_mono : Monotone (dslope Real.exp 0) := by
  intro a b hab
  have hz : ∀ t : ℝ, t ≠ 0 → dslope Real.exp 0 t = (Real.exp t - 1) / t := fun t h => by
    rw [dslope_of_ne _ h, slope_def_field, Real.exp_zero, sub_zero]
  have h0 : dslope Real.exp 0 0 = 1 := by rw [dslope_same, Real.deriv_exp, Real.exp_zero]
  by_cases ha : a = 0
  · by_cases hb : b = 0
    · rw [ha, hb]
    · have hb' : 0 < b := lt_of_le_of_ne (ha ▸ hab) (Ne.symm hb)
      rw [ha, h0, hz b hb, le_div_iff₀ hb']
      linarith [Real.add_one_le_exp b]
  · by_cases hb : b = 0
    · have ha' : a < 0 := lt_of_le_of_ne (hb ▸ hab) ha
      rw [hb, h0, hz a ha, div_le_one_of_neg ha']
      linarith [Real.add_one_le_exp a]
    · rw [dslope_of_ne _ ha, dslope_of_ne _ hb]
      exact convexOn_exp.slope_mono (mem_univ 0) ⟨mem_univ a, ha⟩ ⟨mem_univ b, hb⟩ hab

theorem boseG_anti : Antitone boseG := fun _ _ hab =>
  inv_anti₀ (dslope_exp_pos _) (dslope_exp_mono hab)

theorem boseG_neg (t : ℝ) : boseG (-t) = boseG t + t := by
  by_cases h : t = 0
  · rw [h, neg_zero, add_zero]
  · rw [boseG_ne h, boseG_ne (neg_ne_zero.mpr h), Real.exp_neg]
    have h1 : Real.exp t - 1 ≠ 0 := by
      rw [sub_ne_zero, Ne, Real.exp_eq_one_iff]; exact h
    have h2 : (Real.exp t)⁻¹ - 1 ≠ 0 := by
      rw [← Real.exp_neg, sub_ne_zero, Ne, Real.exp_eq_one_iff]
      exact neg_ne_zero.mpr h
    have h3 : (Real.exp t)⁻¹ - 1 = -(Real.exp t - 1) / Real.exp t := by
      have := Real.exp_pos t
      field_simp
      ring
    rw [h3]
    have := Real.exp_pos t
    field_simp
    ring

theorem integral_bose (x : ℝ) (k : ℕ) :
    ∫ t in (0 : ℝ)..x, t ^ (k + 1) / (Real.exp t - 1) = ∫ t in (0 : ℝ)..x, t ^ k * boseG t := by
  refine integral_congr_ae ?_
  have : ∀ᵐ t : ℝ, t ≠ 0 := by
    rw [ae_iff]
    simp
  filter_upwards [this] with t ht _
  rw [boseG_ne ht, pow_succ, mul_div_assoc]

theorem debye1_eq (x : ℝ) : Spec.debye1 x = 1 / x * ∫ t in (0 : ℝ)..x, boseG t := by
  have := integral_bose x 0
  simp only [zero_add, pow_one, pow_zero, one_mul] at this
  rw [Spec.debye1, this]

theorem debye2_eq (x : ℝ) : Spec.debye2 x = 2 / x ^ 2 * ∫ t in (0 : ℝ)..x, t * boseG t := by
  have := integral_bose x 1
  simp only [one_add_one_eq_two, pow_one] at this
  rw [Spec.debye2, this]

theorem debye1_unit {x : ℝ} (hx : x ≠ 0) : Spec.debye1 x = ∫ s in (0 : ℝ)..1, boseG (x * s) := by
  rw [debye1_eq, integral_comp_mul_left _ hx, mul_zero, mul_one, smul_eq_mul, one_div]

theorem debye2_unit {x : ℝ} (hx : x ≠ 0) :
    Spec.debye2 x = ∫ s in (0 : ℝ)..1, 2 * s * boseG (x * s) := by
  have : ∫ s in (0 : ℝ)..1, 2 * s * boseG (x * s)
      = ∫ s in (0 : ℝ)..1, (fun t => 2 / x * (t * boseG t)) (x * s) := by
    refine integral_congr fun s _ => ?_
    simp only
    field_simp
  rw [debye2_eq, this, integral_comp_mul_left (fun t => 2 / x * (t * boseG t)) hx, mul_zero, mul_one,
    smul_eq_mul, intervalIntegral.integral_const_mul]
  field_simp

theorem debye1_pos {x : ℝ} (hx : x ≠ 0) : 0 < Spec.debye1 x := by
  rw [debye1_unit hx]
  have hc : Continuous fun s => boseG (x * s) := boseG_continuous.comp (continuous_const.mul continuous_id)
  exact intervalIntegral_pos_of_pos_on (hc.intervalIntegrable 0 1) (fun s _ => boseG_pos _) one_pos

/-- Reflection of the first Debye function. -/
theorem debye1_neg {x : ℝ} (hx : x ≠ 0) : Spec.debye1 (-x) = Spec.debye1 x + x / 2 := by
  have hc : Continuous fun s => boseG (x * s) := boseG_continuous.comp (continuous_const.mul continuous_id)
  rw [debye1_unit hx, debye1_unit (neg_ne_zero.mpr hx)]
  simp only [neg_mul, boseG_neg]
  rw [intervalIntegral.integral_add (hc.intervalIntegrable 0 1)
    (Continuous.intervalIntegrable (by fun_prop) 0 1)]
  congr 1
  rw [intervalIntegral.integral_const_mul]
  simp
  ring

/-- Reflection of the second Debye function. -/
theorem debye2_neg {x : ℝ} (hx : x ≠ 0) : Spec.debye2 (-x) = Spec.debye2 x + 2 * x / 3 := by
  have hc : Continuous fun s => 2 * s * boseG (x * s) :=
    (continuous_const.mul continuous_id).mul
      (boseG_continuous.comp (continuous_const.mul continuous_id))
  rw [debye2_unit hx, debye2_unit (neg_ne_zero.mpr hx)]
  simp only [neg_mul, boseG_neg, mul_add]
  rw [intervalIntegral.integral_add (hc.intervalIntegrable 0 1)
    (Continuous.intervalIntegrable (by fun_prop) 0 1)]
  congr 1
  have : (fun s : ℝ => 2 * s * (x * s)) = fun s => 2 * x * s ^ 2 := by
    funext s; ring
  rw [this, intervalIntegral.integral_const_mul, integral_pow]
  norm_num
  ring

theorem debye1_hasDerivAt {x : ℝ} (hx : x ≠ 0) :
    HasDerivAt Spec.debye1 (1 / (Real.exp x - 1) - Spec.debye1 x / x) x := by
  have h1 : HasDerivAt (fun x => ∫ t in (0 : ℝ)..x, boseG t) (boseG x) x :=
    integral_hasDerivAt_right (boseG_continuous.intervalIntegrable 0 x)
      boseG_continuous.stronglyMeasurable.stronglyMeasurableAtFilter boseG_continuous.continuousAt
  have h2 : HasDerivAt (fun x : ℝ => 1 / x) (-(x ^ 2)⁻¹) x := by
    simpa using hasDerivAt_inv hx
  have h3 := h2.mul h1
  have e : Spec.debye1 = fun x => 1 / x * ∫ t in (0 : ℝ)..x, boseG t := funext debye1_eq
  rw [e]
  refine h3.congr_deriv ?_
  beta_reduce
  rw [boseG_ne hx]
  have h4 : Real.exp x - 1 ≠ 0 := by
    rw [sub_ne_zero, Ne, Real.exp_eq_one_iff]; exact hx
  generalize (∫ t in (0 : ℝ)..x, boseG t) = I
  field_simp
  ring

theorem debye2_hasDerivAt {x : ℝ} (hx : x ≠ 0) :
    HasDerivAt Spec.debye2 (2 / (Real.exp x - 1) - 2 * Spec.debye2 x / x) x := by
  have hc : Continuous fun t => t * boseG t := continuous_id.mul boseG_continuous
  have h1 : HasDerivAt (fun x => ∫ t in (0 : ℝ)..x, t * boseG t) (x * boseG x) x :=
    integral_hasDerivAt_right (hc.intervalIntegrable 0 x)
      hc.stronglyMeasurable.stronglyMeasurableAtFilter hc.continuousAt
  have h2 : HasDerivAt (fun x : ℝ => 2 / x ^ 2) (-(4 / x ^ 3)) x := by
    refine (((hasDerivAt_pow 2 x).inv (pow_ne_zero 2 hx)).const_mul 2).congr_deriv ?_
    push_cast
    field_simp
    ring
  have h3 := h2.mul h1
  have e : Spec.debye2 = fun x => 2 / x ^ 2 * ∫ t in (0 : ℝ)..x, t * boseG t := funext debye2_eq
  rw [e]
  refine h3.congr_deriv ?_
  beta_reduce
  rw [boseG_ne hx]
  have h4 : Real.exp x - 1 ≠ 0 := by
    rw [sub_ne_zero, Ne, Real.exp_eq_one_iff]; exact hx
  generalize (∫ t in (0 : ℝ)..x, t * boseG t) = I
  field_simp
  ring

theorem debye_sub {x : ℝ} (hx : x ≠ 0) : Spec.debye1 x - Spec.debye2 x
    = ∫ s in (0 : ℝ)..1, (1 - 2 * s) * (boseG (x * s) - boseG (x / 2)) := by
  have e : (fun s => (1 - 2 * s) * (boseG (x * s) - boseG (x / 2)))
      = fun s => (boseG (x * s) - 2 * s * boseG (x * s)) - (1 - 2 * s) * boseG (x / 2) := by
    funext s; ring
  have hz : ∫ s in (0 : ℝ)..1, (1 - 2 * s) * boseG (x / 2) = 0 := by
    rw [intervalIntegral.integral_mul_const, intervalIntegral.integral_sub
      (Continuous.intervalIntegrable (by fun_prop) 0 1)
      (Continuous.intervalIntegrable (by fun_prop) 0 1),
      intervalIntegral.integral_const_mul]
    simp
  rw [e, intervalIntegral.integral_sub (Continuous.intervalIntegrable (by fun_prop) 0 1)
    (Continuous.intervalIntegrable (by fun_prop) 0 1), hz, sub_zero,
    intervalIntegral.integral_sub (Continuous.intervalIntegrable (by fun_prop) 0 1)
      (Continuous.intervalIntegrable (by fun_prop) 0 1),
    ← debye1_unit hx, ← debye2_unit hx]

/-- The two Debye functions differ: for positive arguments the first is larger, for negative ones the
second. -/
theorem debye2_lt_debye1 {x : ℝ} (hx : 0 < x) : Spec.debye2 x < Spec.debye1 x := by
  have hpos : 0 < ∫ s in (0 : ℝ)..1, (1 - 2 * s) * (boseG (x * s) - boseG (x / 2)) := by
    refine integral_pos one_pos (Continuous.continuousOn (by fun_prop)) (fun s hs => ?_)
      ⟨0, ⟨le_rfl, zero_le_one⟩, ?_⟩
    · rcases le_total s (1 / 2) with h | h
      · refine mul_nonneg (by linarith) (sub_nonneg.mpr (boseG_anti ?_))
        nlinarith
      · refine mul_nonneg_of_nonpos_of_nonpos (by linarith) (sub_nonpos.mpr (boseG_anti ?_))
        nlinarith
    · have h2 : x / 2 ≠ 0 := by positivity
      have : x / 2 < Real.exp (x / 2) - 1 := by linarith [Real.add_one_lt_exp h2]
      rw [mul_zero, mul_zero, boseG_zero, boseG_ne h2, sub_zero, one_mul, sub_pos, div_lt_one]
      · exact this
      · linarith
  rw [← debye_sub hx.ne'] at hpos
  linarith

theorem debye1_lt_debye2 {x : ℝ} (hx : x < 0) : Spec.debye1 x < Spec.debye2 x := by
  have hpos : 0 < ∫ s in (0 : ℝ)..1, -((1 - 2 * s) * (boseG (x * s) - boseG (x / 2))) := by
    refine integral_pos one_pos (Continuous.continuousOn (by fun_prop)) (fun s hs => ?_)
      ⟨0, ⟨le_rfl, zero_le_one⟩, ?_⟩
    · rcases le_total s (1 / 2) with h | h
      · refine neg_nonneg.mpr (mul_nonpos_of_nonneg_of_nonpos (by linarith)
          (sub_nonpos.mpr (boseG_anti ?_)))
        nlinarith
      · refine neg_nonneg.mpr (mul_nonpos_of_nonpos_of_nonneg (by linarith)
          (sub_nonneg.mpr (boseG_anti ?_)))
        nlinarith
    · have h2 : x / 2 ≠ 0 := by
        intro h
        linarith
      have h3 : x / 2 < Real.exp (x / 2) - 1 := by linarith [Real.add_one_lt_exp h2]
      have h4 : Real.exp (x / 2) - 1 < 0 := by
        have := Real.exp_lt_one_iff.mpr (by linarith : x / 2 < 0)
        linarith
      rw [mul_zero, mul_zero, boseG_zero, boseG_ne h2, sub_zero, one_mul, neg_sub, sub_pos,
        one_lt_div_of_neg h4]
      exact h3
  rw [intervalIntegral.integral_neg, ← debye_sub hx.ne] at hpos
  linarith

theorem debye1_ne_debye2 {x : ℝ} (hx : x ≠ 0) : Spec.debye1 x ≠ Spec.debye2 x := by
  rcases lt_or_gt_of_ne hx with h | h
  · exact (debye1_lt_debye2 h).ne
  · exact (debye2_lt_debye1 h).ne'

end Copulae
