import Mathlib.Analysis.Convex.Integral
import Mathlib.Analysis.Convex.Deriv
import Mathlib.Analysis.SpecialFunctions.Trigonometric.InverseDeriv
import Verif.Lemmas.StudentMeasure

/-!
Spearman's rho of the Student copula: a mean of the values of Gaussian copulas, strictly smaller in absolute value than the
value of the Gaussian copula with the same correlation.
-/

namespace Copulae

open MeasureTheory ProbabilityTheory Set CopulaMeasure
open scoped ENNReal

variable {d : ℕ}

/-- The chi-square law. -/
noncomputable def chi (ν : ℝ) : Measure ℝ := gammaMeasure (ν / 2) (1 / 2)

theorem tCdfR_eq {ν : ℝ} (hν : 0 < ν) (x : ℝ) : tCdfR ν x = ∫ w, normCdf (x * √(w / ν)) ∂(chi ν) := by
  have : IsProbabilityMeasure (chi ν) := chi_prob hν
  have hl : Measurable fun p : ℝ × ℝ => p.1 / √(p.2 / ν) := by fun_prop
  have hs := hl (measurableSet_Iic (a := x))
  change (Spec.tLine ν).real (Iic x) = _
  rw [Spec.tLine, ← chi, map_measureReal_apply hl measurableSet_Iic, measureReal_def, Measure.prod_apply_symm hs,
    ← integral_toReal (measurable_measure_prodMk_right hs).aemeasurable
      (Filter.Eventually.of_forall fun x => measure_lt_top _ _)]
  refine integral_congr_ae ?_
  filter_upwards [(gammaMeasure_pos : ∀ᵐ w ∂(chi ν), 0 < w)] with w hw
  rw [normCdf, measureReal_def]
  congr 2
  ext z
  have : 0 < √(w / ν) := by positivity
  simp only [mem_preimage, mem_Iic, div_le_iff₀ this]

/-- Share of the second number, square root. -/
noncomputable def mixP (w v : ℝ) : ℝ := √(v / (w + v))

theorem mixP_eq {ν w v : ℝ} (hν : 0 < ν) (hw : 0 < w) (hv : 0 < v) :
    tScale ν w * √(v / ν) / √(1 + (tScale ν w * √(v / ν)) ^ 2) = mixP w v := by
  have h1 : tScale ν w * √(v / ν) = √(v / w) := by
    rw [tScale, ← Real.sqrt_inv, ← Real.sqrt_mul (by positivity)]
    congr 1; field_simp
  rw [h1, Real.sq_sqrt (by positivity), ← Real.sqrt_div (by positivity), mixP]
  congr 1; field_simp

theorem mixP_mem {w v : ℝ} (hw : 0 < w) (hv : 0 < v) : 0 < mixP w v ∧ mixP w v < 1 := by
  unfold mixP
  refine ⟨by positivity, ?_⟩
  rw [Real.sqrt_lt' one_pos, one_pow, div_lt_one (by positivity)]
  linarith

theorem normCdf_bound (x : ℝ) : ‖normCdf x‖ ≤ 1 := by
  rw [Real.norm_eq_abs, abs_of_pos (normMargin.mem x).1]
  exact (normMargin.mem x).2.le

/-- The three mixing variables. -/
noncomputable def mixQ (ν : ℝ) : Measure (ℝ × (ℝ × ℝ)) := (chi ν).prod ((chi ν).prod (chi ν))

theorem mixQ_prob {ν : ℝ} (hν : 0 < ν) : IsProbabilityMeasure (mixQ ν) := by
  have : IsProbabilityMeasure (chi ν) := chi_prob hν
  unfold mixQ; infer_instance

theorem mixQ_pos {ν : ℝ} (hν : 0 < ν) : ∀ᵐ q ∂(mixQ ν), 0 < q.1 ∧ 0 < q.2.1 ∧ 0 < q.2.2 := by
  have : IsProbabilityMeasure (chi ν) := chi_prob hν
  have h0 : ∀ᵐ w ∂(chi ν), 0 < w := gammaMeasure_pos
  have h1 : MeasurePreserving (Prod.fst : ℝ × (ℝ × ℝ) → ℝ) (mixQ ν) (chi ν) := measurePreserving_fst
  have h2 : MeasurePreserving (Prod.snd : ℝ × (ℝ × ℝ) → ℝ × ℝ) (mixQ ν) ((chi ν).prod (chi ν)) := measurePreserving_snd
  have h3 : MeasurePreserving (Prod.fst : ℝ × ℝ → ℝ) ((chi ν).prod (chi ν)) (chi ν) := measurePreserving_fst
  have h4 : MeasurePreserving (Prod.snd : ℝ × ℝ → ℝ) ((chi ν).prod (chi ν)) (chi ν) := measurePreserving_snd
  filter_upwards [h1.quasiMeasurePreserving.ae h0, (h3.comp h2).quasiMeasurePreserving.ae h0,
    (h4.comp h2).quasiMeasurePreserving.ae h0] with q a b c
  exact ⟨a, b, c⟩

theorem measurable_mix : Measurable fun q : ℝ × (ℝ × ℝ) => mixP q.1 q.2.1 * mixP q.1 q.2.2 := by
  unfold mixP; fun_prop

theorem integrable_arcsin {ν : ℝ} (hν : 0 < ν) (ρ : ℝ) :
    Integrable (fun q : ℝ × (ℝ × ℝ) => Real.arcsin (ρ * (mixP q.1 q.2.1 * mixP q.1 q.2.2))) (mixQ ν) := by
  have := mixQ_prob hν
  refine Integrable.of_bound (C := Real.pi / 2) ?_ (Filter.Eventually.of_forall fun q => ?_)
  · exact (Real.continuous_arcsin.measurable.comp (measurable_mix.const_mul ρ)).aestronglyMeasurable
  · rw [Real.norm_eq_abs, abs_le]
    exact ⟨Real.neg_pi_div_two_le_arcsin _, Real.arcsin_le_pi_div_two _⟩

/-- Spearman's rho of the Student copula as a mean. -/
theorem spearmanRho_studentLaw {S : Matrix (Fin d) (Fin d) ℝ} (hS : S.PosSemidef) (h1 : ∀ j, S j j = 1) {ν : ℝ}
    (hν : 0 < ν) (i j : Fin d) : Spec.spearmanRho (Spec.studentLaw S ν) i j =
      6 / Real.pi * ∫ q, Real.arcsin (S i j * (mixP q.1 q.2.1 * mixP q.1 q.2.2)) ∂(mixQ ν) := by
  obtain ⟨qt, hqt⟩ := exists_tMargin hν
  have : IsProbabilityMeasure (chi ν) := chi_prob hν
  have := mixQ_prob hν
  have hTm : Measurable (tCdfR ν) := hqt.measurable
  have hm : Measurable fun (x : Fin d → ℝ) k => tCdfR ν (x k) := measurable_pointwise hTm
  have hmul : Measurable fun u : Fin d → ℝ => u i * u j := (measurable_pi_apply i).mul (measurable_pi_apply j)
  have hsc : Measurable (fun p : (Fin d → ℝ) × ℝ => tScale ν p.2 • p.1) := measurable_scale (measurable_tScale ν)
  have hmul2 : Measurable fun x : Fin d → ℝ => tCdfR ν (x i) * tCdfR ν (x j) := hmul.comp hm
  have hb : ∀ x, ‖tCdfR ν x‖ ≤ 1 := fun x => by
    rw [Real.norm_eq_abs, abs_of_pos (hqt.mem x).1]; exact (hqt.mem x).2.le
  have e1 : ∫ u, u i * u j ∂(Spec.studentLaw S ν) =
      ∫ w, ∫ z, tCdfR ν (tScale ν w * z i) * tCdfR ν (tScale ν w * z j) ∂(gauss S) ∂(chi ν) := by
    have : IsProbabilityMeasure (gammaMeasure (ν / 2) (1 / 2)) := chi_prob hν
    rw [studentLaw_eq S hν, cubeLaw, integral_map hm.aemeasurable hmul.aestronglyMeasurable, tVector_eq S hν, scaleMix,
      integral_map hsc.aemeasurable hmul2.aestronglyMeasurable, integral_prod_symm]
    · rfl
    · refine Integrable.of_bound (C := 1) (hmul2.comp hsc).aestronglyMeasurable
        (Filter.Eventually.of_forall fun p => ?_)
      rw [norm_mul]
      exact mul_le_one₀ (hb _) (norm_nonneg _) (hb _)
  have e2 : ∀ᵐ w ∂(chi ν), ∫ z, tCdfR ν (tScale ν w * z i) * tCdfR ν (tScale ν w * z j) ∂(gauss S) =
      ∫ v, (1 / 4 + Real.arcsin (S i j * (mixP w v.1 * mixP w v.2)) / (2 * Real.pi)) ∂((chi ν).prod (chi ν)) := by
    filter_upwards [(gammaMeasure_pos : ∀ᵐ w ∂(chi ν), 0 < w)] with w hw
    have h3 : ∀ z : Fin d → ℝ, tCdfR ν (tScale ν w * z i) * tCdfR ν (tScale ν w * z j) =
        ∫ v : ℝ × ℝ, normCdf (tScale ν w * z i * √(v.1 / ν)) * normCdf (tScale ν w * z j * √(v.2 / ν))
          ∂((chi ν).prod (chi ν)) := by
      intro z
      rw [tCdfR_eq hν, tCdfR_eq hν]
      exact (integral_prod_mul (fun v => normCdf (tScale ν w * z i * √(v / ν)))
        (fun v => normCdf (tScale ν w * z j * √(v / ν)))).symm
    simp_rw [h3]
    rw [integral_integral_swap]
    · refine integral_congr_ae ?_
      have h0 : ∀ᵐ w ∂(chi ν), 0 < w := gammaMeasure_pos
      have h3 : MeasurePreserving (Prod.fst : ℝ × ℝ → ℝ) ((chi ν).prod (chi ν)) (chi ν) := measurePreserving_fst
      have h4 : MeasurePreserving (Prod.snd : ℝ × ℝ → ℝ) ((chi ν).prod (chi ν)) (chi ν) := measurePreserving_snd
      filter_upwards [h3.quasiMeasurePreserving.ae h0, h4.quasiMeasurePreserving.ae h0] with v hv1 hv2
      have := integral_normCdf hS h1 i j (tScale ν w * √(v.1 / ν)) (tScale ν w * √(v.2 / ν))
      rw [mixP_eq hν hw hv1, mixP_eq hν hw hv2, mul_assoc] at this
      rw [← this]
      refine integral_congr_ae (Filter.Eventually.of_forall fun z => ?_)
      simp only
      rw [mul_right_comm, mul_right_comm (tScale ν w) (z j)]
    · refine Integrable.of_bound (C := 1) ?_ (Filter.Eventually.of_forall fun p => ?_)
      · have hN := normMargin.measurable
        refine Measurable.aestronglyMeasurable (Measurable.mul (hN.comp ?_) (hN.comp ?_)) <;> fun_prop
      · simp only [Function.uncurry]
        rw [norm_mul]
        exact mul_le_one₀ (normCdf_bound _) (norm_nonneg _) (normCdf_bound _)
  have hint := (integrable_arcsin hν (S i j)).div_const (2 * Real.pi)
  have hint2 : Integrable (fun q : ℝ × (ℝ × ℝ) => 1 / 4 +
      Real.arcsin (S i j * (mixP q.1 q.2.1 * mixP q.1 q.2.2)) / (2 * Real.pi)) (mixQ ν) :=
    (integrable_const _).add hint
  have e3 : ∫ u, u i * u j ∂(Spec.studentLaw S ν) = ∫ q : ℝ × (ℝ × ℝ), (1 / 4 +
      Real.arcsin (S i j * (mixP q.1 q.2.1 * mixP q.1 q.2.2)) / (2 * Real.pi)) ∂(mixQ ν) := by
    rw [e1, integral_congr_ae e2, mixQ, integral_prod _ hint2]
  rw [Spec.spearmanRho, e3, integral_add (integrable_const _) hint, integral_const, integral_div]
  simp only [probReal_univ, smul_eq_mul, one_mul]
  field_simp
  ring

/-- The second moment of a uniform coordinate. -/
theorem spearmanRho_self {P : Measure (Fin d → ℝ)} (hP : Uniform P) (i : Fin d) : Spec.spearmanRho P i i = 1 := by
  have hm : Measurable fun t : ℝ => t * t := by fun_prop
  have h : ∫ u, u i * u i ∂P = ∫ t, t * t ∂(P.map fun u => u i) := by
    rw [integral_map (measurable_pi_apply i).aemeasurable hm.aestronglyMeasurable]
  rw [Spec.spearmanRho, h, hP i, ← intervalIntegral.integral_of_le zero_le_one]
  have : ∀ t : ℝ, t * t = t ^ 2 := fun t => (sq t).symm
  simp_rw [this]
  rw [integral_pow]
  norm_num

theorem integral_arcsin_mix {ν : ℝ} (hν : 0 < ν) :
    ∫ q : ℝ × (ℝ × ℝ), Real.arcsin (mixP q.1 q.2.1 * mixP q.1 q.2.2) ∂(mixQ ν) = Real.pi / 6 := by
  have h1 : ∀ j : Fin 1, (1 : Matrix (Fin 1) (Fin 1) ℝ) j j = 1 := fun j => Matrix.one_apply_eq j
  have h := spearmanRho_studentLaw (S := (1 : Matrix (Fin 1) (Fin 1) ℝ)) Matrix.PosSemidef.one h1 hν 0 0
  rw [spearmanRho_self (studentLaw_uniform Matrix.PosSemidef.one h1 hν)] at h
  simp only [Matrix.one_apply_eq, one_mul] at h
  have hpi := Real.pi_pos
  field_simp at h
  linarith

/-- `arcsin (ρ sin θ)` is strictly concave between 0 and π/2. -/
theorem strictConcave_arcsin_sin {ρ : ℝ} (h0 : 0 < ρ) (h1 : ρ < 1) :
    StrictConcaveOn ℝ (Icc 0 (Real.pi / 2)) fun θ => Real.arcsin (ρ * Real.sin θ) := by
  have hpi := Real.pi_pos
  refine StrictAntiOn.strictConcaveOn_of_deriv (convex_Icc _ _)
    (Real.continuous_arcsin.comp (continuous_const.mul Real.continuous_sin)).continuousOn ?_
  rw [interior_Icc]
  have hmem : ∀ θ ∈ Ioo 0 (Real.pi / 2), 0 < Real.sin θ ∧ Real.sin θ < 1 ∧ 0 < Real.cos θ := by
    intro θ hθ
    have hs : 0 < Real.sin θ := Real.sin_pos_of_pos_of_lt_pi hθ.1 (by linarith [hθ.2])
    have hc : 0 < Real.cos θ := Real.cos_pos_of_mem_Ioo ⟨by linarith [hθ.1], hθ.2⟩
    refine ⟨hs, ?_, hc⟩
    nlinarith [Real.sin_sq_add_cos_sq θ]
  have hder : ∀ θ ∈ Ioo 0 (Real.pi / 2), deriv (fun θ => Real.arcsin (ρ * Real.sin θ)) θ =
      √(ρ ^ 2 * (1 - Real.sin θ ^ 2) / (1 - ρ ^ 2 * Real.sin θ ^ 2)) := by
    intro θ hθ
    obtain ⟨hs, hs1, hc⟩ := hmem θ hθ
    have hlt : ρ * Real.sin θ < 1 := by nlinarith
    have hgt : 0 < ρ * Real.sin θ := by positivity
    have h := (Real.hasDerivAt_arcsin (by linarith) hlt.ne).comp θ ((Real.hasDerivAt_sin θ).const_mul ρ)
    have hd := h.deriv
    change deriv (fun θ => Real.arcsin (ρ * Real.sin θ)) θ = _ at hd
    rw [hd]
    have e : 1 - Real.sin θ ^ 2 = Real.cos θ ^ 2 := by linarith [Real.sin_sq_add_cos_sq θ]
    rw [e, Real.sqrt_div (by positivity), ← mul_pow, Real.sqrt_sq (by positivity), mul_pow]
    ring
  intro x hx y hy hxy
  rw [hder x hx, hder y hy]
  obtain ⟨hs, hs1, -⟩ := hmem x hx
  obtain ⟨ht, ht1, -⟩ := hmem y hy
  have hst : Real.sin x < Real.sin y := Real.sin_lt_sin_of_lt_of_le_pi_div_two (by linarith [hx.1]) hy.2.le hxy
  set s := Real.sin x
  set t := Real.sin y
  have hρ2 : 0 < 1 - ρ ^ 2 := by nlinarith
  have hst2 : s ^ 2 < t ^ 2 := by nlinarith
  have ht2 : t ^ 2 < 1 := by nlinarith
  have hds : 0 < 1 - ρ ^ 2 * s ^ 2 := by nlinarith [mul_pos h0 h0]
  have hdt : 0 < 1 - ρ ^ 2 * t ^ 2 := by nlinarith [mul_pos h0 h0]
  refine Real.sqrt_lt_sqrt (by have : 0 < 1 - t ^ 2 := by linarith
                               positivity) ?_
  rw [div_lt_div_iff₀ hdt hds]
  have : 0 < ρ ^ 2 * (1 - ρ ^ 2) * (t ^ 2 - s ^ 2) := by
    have : 0 < t ^ 2 - s ^ 2 := by linarith
    positivity
  nlinarith

theorem chi_Ioo_pos {ν a b : ℝ} (hν : 0 < ν) (ha : 0 < a) (hab : a < b) : chi ν (Ioo a b) ≠ 0 := by
  rw [chi, gammaMeasure, withDensity_apply _ measurableSet_Ioo]
  have hm : Measurable (gammaPDF (ν / 2) (1 / 2)) := (measurable_gammaPDFReal _ _).ennreal_ofReal
  rw [Ne, setLIntegral_eq_zero_iff measurableSet_Ioo hm]
  intro h
  have h2 : ∀ᵐ x : ℝ, x ∉ Ioo a b := by
    filter_upwards [h] with x hx hxm
    have := hx hxm
    rw [gammaPDF, ENNReal.ofReal_eq_zero] at this
    exact absurd (gammaPDFReal_pos (half_pos hν) (by norm_num) (ha.trans hxm.1)) (not_lt.mpr this)
  have h3 := measure_eq_zero_iff_ae_notMem.mpr h2
  rw [Real.volume_Ioo, ENNReal.ofReal_eq_zero] at h3
  linarith

/-- The mean is strictly smaller than the value of the Gaussian copula. -/
theorem integral_arcsin_lt {ν ρ : ℝ} (hν : 0 < ν) (h0 : 0 < ρ) (h1 : ρ < 1) :
    ∫ q : ℝ × (ℝ × ℝ), Real.arcsin (ρ * (mixP q.1 q.2.1 * mixP q.1 q.2.2)) ∂(mixQ ν) < Real.arcsin (ρ / 2) := by
  have := mixQ_prob hν
  have : IsProbabilityMeasure (chi ν) := chi_prob hν
  set Θ : ℝ × (ℝ × ℝ) → ℝ := fun q => Real.arcsin (mixP q.1 q.2.1 * mixP q.1 q.2.2) with hΘ
  have hmem : ∀ᵐ q ∂(mixQ ν), 0 < mixP q.1 q.2.1 * mixP q.1 q.2.2 ∧ mixP q.1 q.2.1 * mixP q.1 q.2.2 < 1 := by
    filter_upwards [mixQ_pos hν] with q hq
    obtain ⟨a1, a2⟩ := mixP_mem hq.1 hq.2.1
    obtain ⟨b1, b2⟩ := mixP_mem hq.1 hq.2.2
    exact ⟨by positivity, by nlinarith⟩
  have hi1 := integrable_arcsin hν 1
  simp only [one_mul] at hi1
  have hcomp : ∀ᵐ q ∂(mixQ ν), Real.arcsin (ρ * Real.sin (Θ q)) = Real.arcsin (ρ * (mixP q.1 q.2.1 * mixP q.1 q.2.2)) := by
    filter_upwards [hmem] with q hq
    rw [hΘ]
    simp only
    rw [Real.sin_arcsin (by linarith [hq.1]) hq.2.le]
  have hi2 : Integrable ((fun θ => Real.arcsin (ρ * Real.sin θ)) ∘ Θ) (mixQ ν) :=
    (integrable_arcsin hν ρ).congr (by filter_upwards [hcomp] with q hq using hq.symm)
  have hj := (strictConcave_arcsin_sin h0 h1).ae_eq_const_or_lt_map_average (μ := mixQ ν) (f := Θ)
    (Real.continuous_arcsin.comp (continuous_const.mul Real.continuous_sin)).continuousOn isClosed_Icc
    (by filter_upwards [hmem] with q hq using ⟨Real.arcsin_nonneg.mpr hq.1.le, Real.arcsin_le_pi_div_two _⟩) hi1 hi2
  rw [average_eq_integral, average_eq_integral, integral_congr_ae hcomp,
    show ∫ q, Θ q ∂(mixQ ν) = Real.pi / 6 from integral_arcsin_mix hν, Real.sin_pi_div_six] at hj
  rcases hj with hc | hlt
  · exfalso
    have hae : ∀ᵐ q ∂(mixQ ν), q ∉ Ioo (2 : ℝ) 3 ×ˢ (Ioo (1 : ℝ) 2 ×ˢ Ioo (1 : ℝ) 2) := by
      filter_upwards [hc, hmem] with q hq hqm hb
      obtain ⟨⟨hw, -⟩, ⟨hu, hu'⟩, hv, hv'⟩ := hb
      have hhalf : mixP q.1 q.2.1 * mixP q.1 q.2.2 = 1 / 2 := by
        have h := congrArg Real.sin hq
        simp only [hΘ, Function.const] at h
        rwa [Real.sin_arcsin (by linarith [hqm.1]) hqm.2.le, Real.sin_pi_div_six] at h
      have hlt : ∀ v : ℝ, 1 < v → v < 2 → mixP q.1 v < √(1 / 2) := by
        intro v h1 h2
        unfold mixP
        refine Real.sqrt_lt_sqrt (by positivity) ?_
        rw [div_lt_div_iff₀ (by linarith) two_pos]
        linarith
      have ha := hlt _ hu hu'
      have hb := hlt _ hv hv'
      have hs : √(1 / 2 : ℝ) * √(1 / 2) = 1 / 2 := Real.mul_self_sqrt (by norm_num)
      have hp : 0 ≤ mixP q.1 q.2.2 := Real.sqrt_nonneg _
      have hq0 : 0 ≤ mixP q.1 q.2.1 := Real.sqrt_nonneg _
      nlinarith
    have hz := measure_eq_zero_iff_ae_notMem.mpr hae
    rw [mixQ, Measure.prod_prod, Measure.prod_prod] at hz
    have p1 := chi_Ioo_pos (a := 2) (b := 3) hν (by norm_num) (by norm_num)
    have p2 := chi_Ioo_pos (a := 1) (b := 2) hν (by norm_num) (by norm_num)
    exact mul_ne_zero p1 (mul_ne_zero p2 p2) hz
  · rw [show ρ * (1 / 2) = ρ / 2 by ring] at hlt
    exact hlt

end Copulae
