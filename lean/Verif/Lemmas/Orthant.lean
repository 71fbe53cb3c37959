import Mathlib.Analysis.SpecialFunctions.PolarCoord
import Mathlib.Analysis.SpecialFunctions.Trigonometric.Inverse
import Mathlib.MeasureTheory.Measure.CharacteristicFunction.Basic
import Verif.Lemmas.GaussMeasure

/-!
Sheppard's formula: two standard normal variables with correlation `ρ` are both positive with probability
`1/4 + arcsin ρ / (2π)`.
-/

namespace Copulae

open MeasureTheory ProbabilityTheory Set
open scoped ENNReal

/-- The probability of a cone under two independent normal variables is the share of its angles. -/
theorem normal_cone {T : Set (ℝ × ℝ)} (hT : MeasurableSet T) {A : Set ℝ} (hA : MeasurableSet A)
    (h : ∀ r θ : ℝ, 0 < r → θ ∈ Ioo (-Real.pi) Real.pi → ((r * Real.cos θ, r * Real.sin θ) ∈ T ↔ θ ∈ A)) :
    (gaussianReal 0 1).prod (gaussianReal 0 1) T =
      volume (A ∩ Ioo (-Real.pi) Real.pi) * ENNReal.ofReal (2 * Real.pi)⁻¹ := by
  set g : ℝ → ℝ := fun r => Real.exp (-r ^ 2 / 2) with hg
  have hgm : Measurable g := by rw [hg]; fun_prop
  have key : ∀ (T : Set (ℝ × ℝ)) (A : Set ℝ), MeasurableSet T → MeasurableSet A →
      (∀ r θ : ℝ, 0 < r → θ ∈ Ioo (-Real.pi) Real.pi → ((r * Real.cos θ, r * Real.sin θ) ∈ T ↔ θ ∈ A)) →
      (gaussianReal 0 1).prod (gaussianReal 0 1) T =
        (∫⁻ r in Ioi (0 : ℝ), ENNReal.ofReal (r * g r)) *
          (volume (A ∩ Ioo (-Real.pi) Real.pi) * ENNReal.ofReal (2 * Real.pi)⁻¹) := by
    intro T A hT hA h
    have hsf : SFinite (volume.withDensity (gaussianPDF 0 1)) := by
      rw [← gaussianReal_of_var_ne_zero 0 one_ne_zero]; infer_instance
    rw [gaussianReal_of_var_ne_zero 0 one_ne_zero,
      prod_withDensity (measurable_gaussianPDF 0 1) (measurable_gaussianPDF 0 1), withDensity_apply _ hT,
      ← lintegral_indicator hT, ← Measure.volume_eq_prod, ← lintegral_comp_polarCoord_symm]
    have e : ∀ p ∈ polarCoord.target, ENNReal.ofReal p.1 •
        T.indicator (fun z : ℝ × ℝ => gaussianPDF 0 1 z.1 * gaussianPDF 0 1 z.2) (polarCoord.symm p) =
        ENNReal.ofReal (p.1 * g p.1) * A.indicator (fun _ => ENNReal.ofReal (2 * Real.pi)⁻¹) p.2 := by
      rintro ⟨r, θ⟩ ⟨hr, hθ⟩
      have hr' : 0 < r := hr
      rw [polarCoord_symm_apply]
      simp only
      by_cases hm : θ ∈ A
      · rw [indicator_of_mem ((h r θ hr' hθ).mpr hm), indicator_of_mem hm, smul_eq_mul, gaussianPDF, gaussianPDF,
          ← ENNReal.ofReal_mul (gaussianPDFReal_nonneg _ _ _), ← ENNReal.ofReal_mul hr'.le,
          ← ENNReal.ofReal_mul (by rw [hg]; positivity)]
        congr 1
        unfold gaussianPDFReal
        rw [hg]
        simp only [NNReal.coe_one, mul_one, sub_zero]
        have h1 : (√(2 * Real.pi))⁻¹ * (√(2 * Real.pi))⁻¹ = (2 * Real.pi)⁻¹ := by
          rw [← mul_inv, Real.mul_self_sqrt (by positivity)]
        have h2 : Real.exp (-(r * Real.cos θ) ^ 2 / 2) * Real.exp (-(r * Real.sin θ) ^ 2 / 2) =
            Real.exp (-r ^ 2 / 2) := by
          rw [← Real.exp_add]
          congr 1
          have := Real.sin_sq_add_cos_sq θ
          linear_combination (-(r ^ 2) / 2) * this
        rw [← h1, ← h2]
        ring
      · rw [indicator_of_notMem (fun hc => hm ((h r θ hr' hθ).mp hc)), indicator_of_notMem hm]
        simp
    rw [setLIntegral_congr_fun polarCoord.open_target.measurableSet e]
    have htarget : polarCoord.target = Ioi (0 : ℝ) ×ˢ Ioo (-Real.pi) Real.pi := rfl
    rw [htarget, Measure.volume_eq_prod, ← Measure.prod_restrict,
      lintegral_prod_mul (f := fun r => ENNReal.ofReal (r * g r))
        (g := fun θ => A.indicator (fun _ => ENNReal.ofReal (2 * Real.pi)⁻¹) θ)
        ((measurable_id.mul hgm).ennreal_ofReal.aemeasurable) ((measurable_const.indicator hA).aemeasurable)]
    congr 1
    rw [lintegral_indicator hA, Measure.restrict_restrict hA, setLIntegral_const, mul_comm]
  have hone := key univ univ MeasurableSet.univ MeasurableSet.univ (fun _ _ _ _ => by simp)
  rw [measure_univ, univ_inter, Real.volume_Ioo, ← ENNReal.ofReal_mul (by linarith [Real.pi_pos])] at hone
  have : (Real.pi - -Real.pi) * (2 * Real.pi)⁻¹ = 1 := by field_simp; ring
  rw [this, ENNReal.ofReal_one, mul_one] at hone
  rw [key T A hT hA h, ← hone, one_mul]

/-- The angles at which `x > 0` and `sin α · x + cos α · y > 0`. -/
theorem orthant_angles {α : ℝ} (h1 : -(Real.pi / 2) ≤ α) (h2 : α ≤ Real.pi / 2) {θ : ℝ}
    (hθ : θ ∈ Ioo (-Real.pi) Real.pi) :
    (0 < Real.cos θ ∧ 0 < Real.sin (θ + α)) ↔ θ ∈ Ioo (-α) (Real.pi / 2) := by
  have hpi := Real.pi_pos
  constructor
  · rintro ⟨hc, hs⟩
    have hlt : θ < Real.pi / 2 := by
      by_contra hc'
      push Not at hc'
      have := Real.cos_nonpos_of_pi_div_two_le_of_le hc' (by linarith [hθ.2])
      linarith
    have hgt : -(Real.pi / 2) < θ := by
      by_contra hc'
      push Not at hc'
      have := Real.cos_nonpos_of_pi_div_two_le_of_le (x := -θ) (by linarith) (by linarith [hθ.1])
      rw [Real.cos_neg] at this
      linarith
    refine ⟨?_, hlt⟩
    by_contra hc'
    push Not at hc'
    have := Real.sin_nonpos_of_nonpos_of_neg_pi_le (x := θ + α) (by linarith) (by linarith)
    linarith
  · rintro ⟨ha, hb⟩
    exact ⟨Real.cos_pos_of_mem_Ioo ⟨by linarith, hb⟩, Real.sin_pos_of_pos_of_lt_pi (by linarith) (by linarith)⟩

/-- Sheppard's formula for `X` and `ρ X + √(1-ρ²) Y`. -/
theorem normal_orthant {ρ : ℝ} (h1 : -1 ≤ ρ) (h2 : ρ ≤ 1) :
    ((gaussianReal 0 1).prod (gaussianReal 0 1)).real {p | 0 < p.1 ∧ 0 < ρ * p.1 + √(1 - ρ ^ 2) * p.2} =
      1 / 4 + Real.arcsin ρ / (2 * Real.pi) := by
  set α := Real.arcsin ρ with hα
  have hpi := Real.pi_pos
  have ha1 : -(Real.pi / 2) ≤ α := Real.neg_pi_div_two_le_arcsin ρ
  have ha2 : α ≤ Real.pi / 2 := Real.arcsin_le_pi_div_two ρ
  have hs : Real.sin α = ρ := Real.sin_arcsin h1 h2
  have hc : Real.cos α = √(1 - ρ ^ 2) := Real.cos_arcsin ρ
  have hmeas : MeasurableSet {p : ℝ × ℝ | 0 < p.1 ∧ 0 < ρ * p.1 + √(1 - ρ ^ 2) * p.2} :=
    (measurableSet_lt measurable_const measurable_fst).inter
      (measurableSet_lt measurable_const ((measurable_fst.const_mul _).add (measurable_snd.const_mul _)))
  have key := normal_cone hmeas (measurableSet_Ioo (a := -α) (b := Real.pi / 2)) (by
    intro r θ hr hθ
    rw [← orthant_angles ha1 ha2 hθ]
    simp only [mem_ofPred_eq]
    have e : ρ * (r * Real.cos θ) + √(1 - ρ ^ 2) * (r * Real.sin θ) = r * Real.sin (θ + α) := by
      rw [Real.sin_add, hs, hc]; ring
    rw [e, mul_pos_iff_of_pos_left hr, mul_pos_iff_of_pos_left hr])
  have hin : Ioo (-α) (Real.pi / 2) ∩ Ioo (-Real.pi) Real.pi = Ioo (-α) (Real.pi / 2) :=
    inter_eq_left.mpr fun x hx => ⟨by linarith [hx.1], by linarith [hx.2]⟩
  rw [hin, Real.volume_Ioo, ← ENNReal.ofReal_mul (by linarith)] at key
  rw [measureReal_def, key, ENNReal.toReal_ofReal (mul_nonneg (by linarith) (by positivity))]
  field_simp
  ring

end Copulae
