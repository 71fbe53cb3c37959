import Verif.Lemmas.StableDensity
import Verif.Spec.StableOne

/-!
The variate of Chambers, Mallows and Stuck for the index one has the density of Nolan's integral: for a fixed angle it
is a linear function of the logarithm of the exponential variate.
-/

namespace Copulae

open MeasureTheory Set ProbabilityTheory Real

/-- The variate for the angle `θ` and the exponential variate `w`. -/
noncomputable def cmsOne (β θ w : ℝ) : ℝ :=
  2 / π * ((π / 2 + β * θ) * tan θ - β * log (π / 2 * w * cos θ / (π / 2 + β * θ)))

section
variable {β θ : ℝ} (h0 : β ≠ 0) (hβ : |β| ≤ 1) (hθ : θ ∈ Ioo (-(π / 2)) (π / 2))

include hβ hθ in
theorem stableOne_pos : 0 < π / 2 + β * θ := by
  have h1 : |θ| < π / 2 := abs_lt.mpr hθ
  have h2 : |β * θ| < π / 2 := by
    rw [abs_mul]
    exact lt_of_le_of_lt (mul_le_of_le_one_left (abs_nonneg θ) hβ) h1
  linarith [(abs_lt.mp h2).1]

include hβ hθ in
theorem stableVOne_pos (x : ℝ) : 0 < Spec.stableVOne β x θ := by
  have h1 := stableOne_pos hβ hθ
  have h2 := cos_pos_of_mem_Ioo hθ
  have := pi_pos
  unfold Spec.stableVOne
  positivity

include h0 hβ hθ in
theorem cmsOne_inv (x : ℝ) : cmsOne β θ (Spec.stableVOne β x θ) = x := by
  have h1 := stableOne_pos hβ hθ
  have h2 := cos_pos_of_mem_Ioo hθ
  have hp := pi_pos
  have e : π / 2 * Spec.stableVOne β x θ * cos θ / (π / 2 + β * θ) =
      exp ((π / 2 + β * θ) / β * tan θ - π * x / (2 * β)) := by
    unfold Spec.stableVOne
    field_simp
    exact div_self (by linarith)
  rw [cmsOne, e, log_exp]
  field_simp
  ring

include h0 hβ hθ in
theorem stableVOne_inv {w : ℝ} (hw : 0 < w) : Spec.stableVOne β (cmsOne β θ w) θ = w := by
  have h1 := stableOne_pos hβ hθ
  have h2 := cos_pos_of_mem_Ioo hθ
  have hp := pi_pos
  have e : (π / 2 + β * θ) / β * tan θ - π * cmsOne β θ w / (2 * β) =
      log (π / 2 * w * cos θ / (π / 2 + β * θ)) := by
    unfold cmsOne
    field_simp
    ring
  rw [Spec.stableVOne, e, exp_log (by positivity)]
  field_simp
  exact div_self (by linarith)

theorem measurable_stableVOne : Measurable fun p : ℝ × ℝ => Spec.stableVOne β p.2 p.1 := by
  unfold Spec.stableVOne
  have : Measurable tan := by
    rw [show tan = fun x => sin x / cos x from funext tan_eq_sin_div_cos]
    fun_prop
  fun_prop

theorem measurable_cmsOne : Measurable fun p : ℝ × ℝ => cmsOne β p.1 p.2 := by
  unfold cmsOne
  have : Measurable tan := by
    rw [show tan = fun x => sin x / cos x from funext tan_eq_sin_div_cos]
    fun_prop
  fun_prop

include h0 hβ hθ in
/-- For a fixed angle: the law of the variate. -/
theorem cmsOne_fixed (g : ℝ → ENNReal) (hg : Measurable g) :
    ∫⁻ w, g (cmsOne β θ w) ∂(expMeasure 1) =
      ∫⁻ x, ENNReal.ofReal (π / (2 * |β|) * (Spec.stableVOne β x θ * exp (-Spec.stableVOne β x θ))) * g x := by
  have hp := pi_pos
  have hm : Measurable fun w => g (cmsOne β θ w) :=
    hg.comp (measurable_cmsOne.comp (measurable_const.prodMk measurable_id))
  rw [lintegral_exp _ hm]
  have himg : (fun x => Spec.stableVOne β x θ) '' univ = Ioi 0 := by
    ext w
    constructor
    · rintro ⟨x, -, rfl⟩
      exact stableVOne_pos hβ hθ x
    · intro hw
      exact ⟨cmsOne β θ w, mem_univ _, stableVOne_inv h0 hβ hθ hw⟩
  have hinj : InjOn (fun x => Spec.stableVOne β x θ) univ := fun x _ y _ e => by
    simp only [] at e
    rw [← cmsOne_inv h0 hβ hθ x, e, cmsOne_inv h0 hβ hθ y]
  have hder : ∀ x ∈ univ, HasDerivWithinAt (fun x => Spec.stableVOne β x θ)
      (-(π / (2 * β)) * Spec.stableVOne β x θ) univ x := fun x _ => by
    have h1 : HasDerivAt (fun x => (π / 2 + β * θ) / β * tan θ - π * x / (2 * β)) (-(π / (2 * β))) x := by
      have := (((hasDerivAt_id x).const_mul π).div_const (2 * β)).const_sub ((π / 2 + β * θ) / β * tan θ)
      simpa using this
    have h2 := (h1.exp).const_mul (2 / π * ((π / 2 + β * θ) / cos θ))
    refine (h2.congr_deriv ?_).hasDerivWithinAt
    unfold Spec.stableVOne
    ring
  have key := lintegral_image_eq_lintegral_abs_deriv_mul MeasurableSet.univ hder hinj
    (fun w => ENNReal.ofReal (exp (-w)) * g (cmsOne β θ w))
  rw [himg, setLIntegral_univ] at key
  rw [key]
  refine lintegral_congr fun x => ?_
  have hV := stableVOne_pos hβ hθ x
  rw [cmsOne_inv h0 hβ hθ, ← mul_assoc, ← ENNReal.ofReal_mul (abs_nonneg _)]
  congr 2
  rw [abs_mul, abs_neg, abs_div, abs_of_pos hp, abs_mul, abs_of_pos hV, abs_of_pos (by norm_num : (0 : ℝ) < 2)]
  ring

end

section
variable {β : ℝ} (h0 : β ≠ 0) (hβ : |β| ≤ 1)

include hβ in
theorem stableOne_integrable (x : ℝ) :
    IntervalIntegrable (fun θ => Spec.stableVOne β x θ * exp (-Spec.stableVOne β x θ)) volume (-(π / 2)) (π / 2) := by
  have hm : Measurable fun θ => Spec.stableVOne β x θ :=
    measurable_stableVOne.comp (measurable_id.prodMk measurable_const)
  rw [intervalIntegrable_iff_integrableOn_Ioo_of_le (by linarith [pi_pos])]
  refine Measure.integrableOn_of_bounded (M := 1) (by simp) (hm.mul (measurable_exp.comp hm.neg)).aestronglyMeasurable ?_
  refine (ae_restrict_iff' measurableSet_Ioo).mpr (Filter.Eventually.of_forall fun θ hθ => ?_)
  have hV := stableVOne_pos hβ hθ x
  rw [norm_of_nonneg (by positivity)]
  exact mul_exp_neg_le _

include h0 hβ in
theorem stableOne_lintegral (x : ℝ) :
    ENNReal.ofReal (1 / π) * ∫⁻ θ in Ioo (-(π / 2)) (π / 2), ENNReal.ofReal (π / (2 * |β|) *
        (Spec.stableVOne β x θ * exp (-Spec.stableVOne β x θ))) = ENNReal.ofReal (Spec.stableDensityOne β x) := by
  have hp := pi_pos
  have hb := abs_pos.mpr h0
  have hi := (intervalIntegrable_iff_integrableOn_Ioo_of_le (by linarith)).mp (stableOne_integrable hβ x)
  rw [← ofReal_integral_eq_lintegral_ofReal (hi.const_mul _), ← ENNReal.ofReal_mul (by positivity), integral_const_mul,
    Spec.stableDensityOne, intervalIntegral.integral_of_le (by linarith), integral_Ioc_eq_integral_Ioo]
  · congr 1
    field_simp
  · refine (ae_restrict_iff' measurableSet_Ioo).mpr (Filter.Eventually.of_forall fun θ hθ => ?_)
    have hV := stableVOne_pos hβ hθ x
    simp only [Pi.zero_apply]
    positivity

theorem lintegral_angle (f : ℝ → ENNReal) :
    ∫⁻ v in Ioo (0 : ℝ) 1, f (π * (v - 0.5)) = ENNReal.ofReal (1 / π) * ∫⁻ θ in Ioo (-(π / 2)) (π / 2), f θ := by
  have := lintegral_image_eq_lintegral_abs_deriv_mul (s := Ioo (0 : ℝ) 1) (f := fun v => π * (v - 0.5))
    (f' := fun _ => π) measurableSet_Ioo
    (fun x _ => by simpa using (((hasDerivAt_id x).sub_const 0.5).const_mul π).hasDerivWithinAt)
    (fun x _ y _ e => by simpa [pi_ne_zero] using e) f
  have hi : (fun v : ℝ => π * (v - 0.5)) '' Ioo 0 1 = Ioo (-(π / 2)) (π / 2) := by
    ext θ
    constructor
    · rintro ⟨v, hv, rfl⟩
      have := pi_pos
      constructor <;> simp only [] <;> nlinarith [hv.1, hv.2]
    · intro hθ
      refine ⟨θ / π + 0.5, ⟨?_, ?_⟩, ?_⟩
      · have := (lt_div_iff₀ pi_pos).mpr (show (-(1 / 2)) * π < θ by linarith [hθ.1])
        linarith
      · have := (div_lt_iff₀ pi_pos).mpr (show θ < (1 / 2) * π by linarith [hθ.2])
        linarith
      · simp only [add_sub_cancel_right]
        field_simp
  rw [hi, lintegral_const_mul' _ _ ENNReal.ofReal_ne_top, abs_of_pos pi_pos] at this
  rw [this, ← mul_assoc, ← ENNReal.ofReal_mul (by positivity), one_div_mul_cancel pi_ne_zero, ENNReal.ofReal_one,
    one_mul]

include h0 hβ in
/-- The law of the variate. -/
theorem cmsOne_law :
    frailSpace.map (fun p => cmsOne β (π * (p.1 - 0.5)) p.2) =
      volume.withDensity fun x => ENNReal.ofReal (Spec.stableDensityOne β x) := by
  have hm : Measurable fun p : ℝ × ℝ => cmsOne β (π * (p.1 - 0.5)) p.2 :=
    measurable_cmsOne.comp (f := fun p : ℝ × ℝ => (π * (p.1 - 0.5), p.2)) (by fun_prop)
  ext A hA
  have hg : Measurable (A.indicator (fun _ => (1 : ENNReal))) := measurable_const.indicator hA
  have hgm : Measurable fun p : ℝ × ℝ => A.indicator (fun _ => (1 : ENNReal)) (cmsOne β (π * (p.1 - 0.5)) p.2) :=
    hg.comp hm
  have e1 : ∫⁻ p, A.indicator (fun _ => (1 : ENNReal)) (cmsOne β (π * (p.1 - 0.5)) p.2) ∂frailSpace =
      frailSpace ((fun p : ℝ × ℝ => cmsOne β (π * (p.1 - 0.5)) p.2) ⁻¹' A) := by
    rw [← lintegral_indicator_one (hm hA)]
    rfl
  rw [Measure.map_apply hm hA, withDensity_apply _ hA, ← e1, frailSpace, lintegral_prod _ hgm.aemeasurable]
  rw [lintegral_angle (fun θ => ∫⁻ w, A.indicator (fun _ => (1 : ENNReal)) (cmsOne β θ w) ∂(expMeasure 1))]
  have e : ∫⁻ θ in Ioo (-(π / 2)) (π / 2), ∫⁻ w, A.indicator (fun _ => (1 : ENNReal)) (cmsOne β θ w) ∂(expMeasure 1) =
      ∫⁻ θ in Ioo (-(π / 2)) (π / 2), ∫⁻ x, ENNReal.ofReal (π / (2 * |β|) *
        (Spec.stableVOne β x θ * exp (-Spec.stableVOne β x θ))) * A.indicator (fun _ => (1 : ENNReal)) x :=
    setLIntegral_congr_fun measurableSet_Ioo fun θ hθ => cmsOne_fixed h0 hβ hθ _ hg
  have hV := measurable_stableVOne (β := β)
  rw [e, lintegral_lintegral_swap, ← lintegral_const_mul', ← lintegral_indicator hA]
  · refine lintegral_congr fun x => ?_
    have hm : Measurable fun θ => Spec.stableVOne β x θ := hV.comp (measurable_id.prodMk measurable_const)
    have hm' : Measurable fun θ => ENNReal.ofReal (π / (2 * |β|) *
        (Spec.stableVOne β x θ * exp (-Spec.stableVOne β x θ))) :=
      ((hm.mul (measurable_exp.comp hm.neg)).const_mul _).ennreal_ofReal
    rw [lintegral_mul_const _ hm', ← mul_assoc, stableOne_lintegral h0 hβ]
    by_cases hx : x ∈ A
    · rw [indicator_of_mem hx, indicator_of_mem hx, mul_one]
    · rw [indicator_of_notMem hx, indicator_of_notMem hx, mul_zero]
  · exact ENNReal.ofReal_ne_top
  · refine Measurable.aemeasurable ?_
    have hg2 : Measurable fun p : ℝ × ℝ => A.indicator (fun _ => (1 : ENNReal)) p.2 := hg.comp measurable_snd
    exact ((hV.mul (measurable_exp.comp hV.neg)).const_mul _).ennreal_ofReal.mul hg2

end

end Copulae
