import Verif.Lemmas.NormalMix

/-!
The multivariate t law: margins and density.
-/

namespace Copulae

open MeasureTheory ProbabilityTheory Set CopulaMeasure Matrix
open scoped ENNReal

variable {d : ℕ}

/-- The scale of a t vector. -/
noncomputable def tScale (ν w : ℝ) : ℝ := (√(w / ν))⁻¹

theorem measurable_tScale (ν : ℝ) : Measurable (tScale ν) := by unfold tScale; fun_prop

theorem chi_prob {ν : ℝ} (hν : 0 < ν) : IsProbabilityMeasure (gammaMeasure (ν / 2) (1 / 2)) :=
  isProbabilityMeasure_gammaMeasure (half_pos hν) (by norm_num)

theorem gammaMeasure_pos {a r : ℝ} : ∀ᵐ w ∂(gammaMeasure a r), 0 < w := by
  have hm : Measurable (gammaPDF a r) := (measurable_gammaPDFReal a r).ennreal_ofReal
  rw [gammaMeasure, ae_withDensity_iff hm]
  filter_upwards [Measure.ae_ne volume (0 : ℝ)] with w hw h
  by_contra hc
  exact h (gammaPDF_of_neg (lt_of_le_of_ne (not_lt.mp hc) hw))

theorem tVector_eq (S : Matrix (Fin d) (Fin d) ℝ) {ν : ℝ} (hν : 0 < ν) :
    Spec.tVector S ν = scaleMix S (gammaMeasure (ν / 2) (1 / 2)) (tScale ν) := by
  have := chi_prob hν
  have hm : Measurable (fun p : (Fin d → ℝ) × ℝ => tScale ν p.2 • p.1) := measurable_scale (measurable_tScale ν)
  rw [scaleMix, gauss]
  conv_rhs => rw [← Measure.map_id (μ := gammaMeasure (ν / 2) (1 / 2))]
  rw [Measure.map_prod_map _ _ (by fun_prop) measurable_id, Measure.map_map hm (by fun_prop), Spec.tVector]
  congr 1
  funext p j
  simp [tScale, div_eq_inv_mul]

theorem tVector_prob (S : Matrix (Fin d) (Fin d) ℝ) {ν : ℝ} (hν : 0 < ν) : IsProbabilityMeasure (Spec.tVector S ν) := by
  have := chi_prob hν
  rw [tVector_eq S hν]
  exact scaleMix_prob (measurable_tScale ν)

/-- The margins of a t vector. -/
theorem tVector_margin {S : Matrix (Fin d) (Fin d) ℝ} (hS : S.PosSemidef) (h1 : ∀ j, S j j = 1) {ν : ℝ} (hν : 0 < ν)
    (j : Fin d) : (Spec.tVector S ν).map (fun x => x j) = Spec.tLine ν := by
  have := chi_prob hν
  have hm : Measurable (fun p : (Fin d → ℝ) × ℝ => tScale ν p.2 • p.1) := measurable_scale (measurable_tScale ν)
  have hl : Measurable fun p : ℝ × ℝ => p.1 / √(p.2 / ν) := by fun_prop
  have hg := gauss_margin hS j
  rw [h1, Real.toNNReal_one] at hg
  rw [tVector_eq S hν, scaleMix, Measure.map_map (measurable_pi_apply j) hm, Spec.tLine, ← hg]
  conv_rhs => rw [← Measure.map_id (μ := gammaMeasure (ν / 2) (1 / 2))]
  rw [Measure.map_prod_map _ _ (measurable_pi_apply j) measurable_id, Measure.map_map hl (by fun_prop)]
  congr 1
  funext p
  simp [tScale, div_eq_inv_mul]

/-- The density of a t vector. -/
noncomputable def tPdf (S : Matrix (Fin d) (Fin d) ℝ) (ν : ℝ) (x : Fin d → ℝ) : ℝ :=
  Real.Gamma (ν / 2 + d / 2) / (Real.Gamma (ν / 2) * (ν * Real.pi) ^ ((d : ℝ) / 2) * √S.det *
    (1 + (x ⬝ᵥ S⁻¹ *ᵥ x) / ν) ^ (ν / 2 + d / 2))

theorem quad_nonneg {S : Matrix (Fin d) (Fin d) ℝ} (hS : S.PosDef) (x : Fin d → ℝ) : 0 ≤ x ⬝ᵥ S⁻¹ *ᵥ x := by
  have := hS.inv.posSemidef.dotProduct_mulVec_nonneg x
  rwa [star_trivial] at this

theorem tPdf_pos {S : Matrix (Fin d) (Fin d) ℝ} (hS : S.PosDef) {ν : ℝ} (hν : 0 < ν) (x : Fin d → ℝ) :
    0 < tPdf S ν x := by
  have hdet : 0 < S.det := hS.det_pos
  have hq := quad_nonneg hS x
  have h1 : 0 < Real.Gamma (ν / 2) := Real.Gamma_pos_of_pos (by positivity)
  have h2 : 0 < Real.Gamma (ν / 2 + d / 2) := Real.Gamma_pos_of_pos (by positivity)
  unfold tPdf
  positivity

theorem measurable_quad (S : Matrix (Fin d) (Fin d) ℝ) : Measurable fun x : Fin d → ℝ => x ⬝ᵥ S⁻¹ *ᵥ x :=
  (continuous_id.dotProduct (Continuous.matrix_mulVec continuous_const continuous_id)).measurable

theorem measurable_tPdf (S : Matrix (Fin d) (Fin d) ℝ) (ν : ℝ) : Measurable (tPdf S ν) := by
  unfold tPdf
  exact measurable_const.div (measurable_const.mul ((((measurable_quad S).div_const ν).const_add 1).pow_const _))

/-- The normal density with scaled covariance. -/
theorem gaussPdf_scaled {S : Matrix (Fin d) (Fin d) ℝ} (hS : S.PosDef) {ν w : ℝ} (hν : 0 < ν) (hw : 0 < w)
    (x : Fin d → ℝ) : gaussPdf (tScale ν w ^ 2 • S) x =
      (w / ν) ^ ((d : ℝ) / 2) * Real.exp (-(w * ((x ⬝ᵥ S⁻¹ *ᵥ x) / ν) / 2)) /
        ((2 * Real.pi) ^ ((d : ℝ) / 2) * √S.det) := by
  have hdet : 0 < S.det := hS.det_pos
  have hr : 0 < w / ν := by positivity
  have hc : tScale ν w ^ 2 = (w / ν)⁻¹ := by rw [tScale, inv_pow, Real.sq_sqrt hr.le]
  unfold gaussPdf
  rw [hc, det_smul, Fintype.card_fin]
  have hinv : ((w / ν)⁻¹ • S)⁻¹ = (w / ν) • S⁻¹ := by
    have hu : IsUnit S.det := isUnit_iff_ne_zero.mpr hdet.ne'
    refine inv_eq_left_inv ?_
    rw [smul_mul, Matrix.mul_smul, smul_smul, nonsing_inv_mul _ hu, mul_inv_cancel₀ hr.ne', one_smul]
  rw [hinv, smul_mulVec, dotProduct_smul, smul_eq_mul]
  have hsq : √((2 * Real.pi) ^ d * ((w / ν)⁻¹ ^ d * S.det)) =
      (2 * Real.pi) ^ ((d : ℝ) / 2) * √S.det / (w / ν) ^ ((d : ℝ) / 2) := by
    have hpow : ∀ y : ℝ, 0 ≤ y → √(y ^ d) = y ^ ((d : ℝ) / 2) := by
      intro y hy
      rw [Real.sqrt_eq_rpow, ← Real.rpow_natCast, ← Real.rpow_mul hy]
      congr 1; ring
    rw [Real.sqrt_mul (by positivity), Real.sqrt_mul (by positivity), hpow _ (by positivity), hpow _ (by positivity),
      Real.inv_rpow hr.le]
    field_simp
  rw [hsq, div_div_eq_mul_div]
  congr 1
  rw [mul_comm]
  congr 2
  field_simp

/-- The mixing integral in one number: a normal density times a chi-square density is a t density times a gamma
density. -/
theorem mix_identity {S : Matrix (Fin d) (Fin d) ℝ} (hS : S.PosDef) {ν w : ℝ} (hν : 0 < ν) (hw : 0 < w)
    (x : Fin d → ℝ) : gammaPDFReal (ν / 2) (1 / 2) w * gaussPdf (tScale ν w ^ 2 • S) x =
      tPdf S ν x * gammaPDFReal (ν / 2 + d / 2) ((1 + (x ⬝ᵥ S⁻¹ *ᵥ x) / ν) / 2) w := by
  have hdet : 0 < S.det := hS.det_pos
  have hq := quad_nonneg hS x
  rw [gaussPdf_scaled hS hν hw, gammaPDFReal, gammaPDFReal, if_pos hw.le, if_pos hw.le, tPdf]
  set q := (x ⬝ᵥ S⁻¹ *ᵥ x) / ν with hqd
  have hq0 : 0 ≤ q := by positivity
  set a := ν / 2 with ha
  set b := (d : ℝ) / 2 with hb
  have ha0 : 0 < a := by positivity
  have hb0 : 0 ≤ b := by positivity
  have hG1 : 0 < Real.Gamma a := Real.Gamma_pos_of_pos ha0
  have hG2 : 0 < Real.Gamma (a + b) := Real.Gamma_pos_of_pos (by positivity)
  have hpi := Real.pi_pos
  have e1 : ((1 + q) / 2) ^ (a + b) = (1 + q) ^ (a + b) / (2 ^ a * 2 ^ b) := by
    rw [Real.div_rpow (by positivity) (by norm_num), Real.rpow_add two_pos]
  have e2 : (1 / 2 : ℝ) ^ a = 1 / 2 ^ a := by rw [Real.div_rpow one_pos.le two_pos.le, Real.one_rpow]
  have e3 : w ^ (a + b - 1) = w ^ (a - 1) * w ^ b := by
    rw [← Real.rpow_add hw]; congr 1; ring
  have e4 : (w / ν) ^ b = w ^ b / ν ^ b := Real.div_rpow hw.le hν.le b
  have e5 : (2 * Real.pi) ^ b = 2 ^ b * Real.pi ^ b := Real.mul_rpow two_pos.le hpi.le
  have e6 : (ν * Real.pi) ^ b = ν ^ b * Real.pi ^ b := Real.mul_rpow hν.le hpi.le
  have e7 : Real.exp (-((1 + q) / 2 * w)) = Real.exp (-(1 / 2 * w)) * Real.exp (-(w * q / 2)) := by
    rw [← Real.exp_add]; congr 1; ring
  rw [e1, e2, e3, e4, e5, e6, e7]
  have h1 : (0 : ℝ) < (1 + q) ^ (a + b) := by positivity
  have h2 : (0 : ℝ) < 2 ^ a := by positivity
  have h3 : (0 : ℝ) < 2 ^ b := by positivity
  have h4 : (0 : ℝ) < ν ^ b := by positivity
  have h5 : (0 : ℝ) < Real.pi ^ b := by positivity
  have h6 : 0 < √S.det := Real.sqrt_pos.mpr hdet
  field_simp

/-- The t vector has the density `tPdf`. -/
theorem tVector_density {S : Matrix (Fin d) (Fin d) ℝ} (hS : S.PosDef) {ν : ℝ} (hν : 0 < ν) :
    Spec.tVector S ν = volume.withDensity fun x => ENNReal.ofReal (tPdf S ν x) := by
  have := chi_prob hν
  have hm : Measurable (fun p : (Fin d → ℝ) × ℝ => tScale ν p.2 • p.1) := measurable_scale (measurable_tScale ν)
  have hgm : Measurable (gammaPDF (ν / 2) (1 / 2)) := (measurable_gammaPDFReal _ _).ennreal_ofReal
  set k : ℝ → (Fin d → ℝ) → ℝ := fun w x => (w / ν) ^ ((d : ℝ) / 2) * Real.exp (-(w * ((x ⬝ᵥ S⁻¹ *ᵥ x) / ν) / 2)) /
        ((2 * Real.pi) ^ ((d : ℝ) / 2) * √S.det) with hk
  have hkm : Measurable fun p : ℝ × (Fin d → ℝ) => ENNReal.ofReal (k p.1 p.2) := by
    have hq : Measurable fun p : ℝ × (Fin d → ℝ) => p.2 ⬝ᵥ S⁻¹ *ᵥ p.2 := (measurable_quad S).comp measurable_snd
    refine Measurable.ennreal_ofReal ?_
    refine Measurable.div_const (Measurable.mul ((measurable_fst.div_const ν).pow_const _) ?_) _
    exact ((measurable_fst.mul (hq.div_const ν)).div_const 2).neg.exp
  ext s hs
  rw [withDensity_apply _ hs, tVector_eq S hν, scaleMix, Measure.map_apply hm hs, Measure.prod_apply_symm (hm hs)]
  have h1 : ∀ᵐ w ∂(gammaMeasure (ν / 2) (1 / 2)),
      gauss S ((fun x => (x, w)) ⁻¹' ((fun p : (Fin d → ℝ) × ℝ => tScale ν p.2 • p.1) ⁻¹' s)) =
        ∫⁻ x in s, ENNReal.ofReal (k w x) := by
    filter_upwards [gammaMeasure_pos] with w hw
    have hc : 0 < tScale ν w := by unfold tScale; positivity
    have hpd : (tScale ν w ^ 2 • S).PosDef := hS.smul (by positivity)
    have : gauss S ((fun x => (x, w)) ⁻¹' ((fun p : (Fin d → ℝ) × ℝ => tScale ν p.2 • p.1) ⁻¹' s)) =
        (gauss S).map (fun x => tScale ν w • x) s := by
      rw [Measure.map_apply (by fun_prop) hs]; rfl
    rw [this, gauss_smul hS.posSemidef, gauss_density hpd, withDensity_apply _ hs]
    refine lintegral_congr fun x => ?_
    rw [gaussPdf_scaled hS hν hw]
  rw [lintegral_congr_ae h1, gammaMeasure]
  have hkm' : Measurable fun w => ∫⁻ x in s, ENNReal.ofReal (k w x) := hkm.lintegral_prod_right'
  rw [lintegral_withDensity_eq_lintegral_mul _ hgm hkm']
  simp only [Pi.mul_apply]
  have h2 : ∀ w, gammaPDF (ν / 2) (1 / 2) w * ∫⁻ x in s, ENNReal.ofReal (k w x) =
      ∫⁻ x in s, gammaPDF (ν / 2) (1 / 2) w * ENNReal.ofReal (k w x) := fun w =>
    (lintegral_const_mul _ (hkm.comp measurable_prodMk_left)).symm
  simp_rw [h2]
  rw [lintegral_lintegral_swap ((hgm.comp measurable_fst).mul hkm).aemeasurable]
  refine lintegral_congr fun x => ?_
  have hq := quad_nonneg hS x
  have h3 : ∀ᵐ w : ℝ, gammaPDF (ν / 2) (1 / 2) w * ENNReal.ofReal (k w x) =
      ENNReal.ofReal (tPdf S ν x) * gammaPDF (ν / 2 + d / 2) ((1 + (x ⬝ᵥ S⁻¹ *ᵥ x) / ν) / 2) w := by
    filter_upwards [Measure.ae_ne volume (0 : ℝ)] with w hw
    rcases lt_or_gt_of_ne hw with h | h
    · rw [gammaPDF_of_neg h, gammaPDF_of_neg h, zero_mul, mul_zero]
    · rw [gammaPDF, gammaPDF, ← ENNReal.ofReal_mul (gammaPDFReal_nonneg (by positivity) (by norm_num) _),
        ← ENNReal.ofReal_mul (tPdf_pos hS hν x).le, ← mix_identity hS hν h, gaussPdf_scaled hS hν h]
  have hgm' : Measurable (gammaPDF (ν / 2 + d / 2) ((1 + (x ⬝ᵥ S⁻¹ *ᵥ x) / ν) / 2)) :=
    (measurable_gammaPDFReal _ _).ennreal_ofReal
  rw [lintegral_congr_ae h3, lintegral_const_mul _ hgm',
    lintegral_gammaPDF_eq_one (by positivity) (by positivity), mul_one]

/-- The density of the t distribution. -/
noncomputable def tPdf1 (ν x : ℝ) : ℝ :=
  Real.Gamma ((ν + 1) / 2) / (Real.Gamma (ν / 2) * √(ν * Real.pi)) * (1 + x ^ 2 / ν) ^ (-((ν + 1) / 2))

theorem tPdf1_pos {ν : ℝ} (hν : 0 < ν) (x : ℝ) : 0 < tPdf1 ν x := by
  have h1 : 0 < Real.Gamma (ν / 2) := Real.Gamma_pos_of_pos (by positivity)
  have h2 : 0 < Real.Gamma ((ν + 1) / 2) := Real.Gamma_pos_of_pos (by positivity)
  have h3 := Real.pi_pos
  unfold tPdf1
  positivity

theorem measurable_tPdf1 (ν : ℝ) : Measurable (tPdf1 ν) := by unfold tPdf1; fun_prop

theorem tPdf_one {ν : ℝ} (hν : 0 < ν) (x : Fin 1 → ℝ) :
    tPdf (1 : Matrix (Fin 1) (Fin 1) ℝ) ν x = tPdf1 ν (x 0) := by
  unfold tPdf tPdf1
  have e : x ⬝ᵥ (1 : Matrix (Fin 1) (Fin 1) ℝ)⁻¹ *ᵥ x = x 0 ^ 2 := by
    simp [sq, dotProduct]
  have hpos : (0 : ℝ) < 1 + x 0 ^ 2 / ν := by positivity
  rw [e, det_one, Real.sqrt_one, mul_one, Real.sqrt_eq_rpow, Real.rpow_neg hpos.le]
  have e2 : ν / 2 + ((1 : ℕ) : ℝ) / 2 = (ν + 1) / 2 := by push_cast; ring
  rw [e2, Nat.cast_one]
  field_simp

theorem tLine_density {ν : ℝ} (hν : 0 < ν) : Spec.tLine ν = volume.withDensity fun x => ENNReal.ofReal (tPdf1 ν x) := by
  rw [← tVector_margin (S := (1 : Matrix (Fin 1) (Fin 1) ℝ)) PosSemidef.one (fun j => one_apply_eq j) hν 0,
    tVector_density PosDef.one hν]
  have hmp := volume_preserving_funUnique (Fin 1) ℝ
  have hm : Measurable fun x => ENNReal.ofReal (tPdf1 ν x) := (measurable_tPdf1 ν).ennreal_ofReal
  ext s hs
  rw [Measure.map_apply (measurable_pi_apply 0) hs, withDensity_apply _ (measurable_pi_apply 0 hs),
    withDensity_apply _ hs, ← hmp.setLIntegral_comp_preimage hs hm]
  refine setLIntegral_congr_fun (measurable_pi_apply 0 hs) fun x _ => ?_
  rw [tPdf_one hν]
  rfl

theorem tLine_prob {ν : ℝ} (hν : 0 < ν) : IsProbabilityMeasure (Spec.tLine ν) := by
  have := chi_prob hν
  exact Measure.isProbabilityMeasure_map (by fun_prop)

/-- The distribution function of the t distribution. -/
noncomputable def tCdfR (ν x : ℝ) : ℝ := (Spec.tLine ν).real (Iic x)

theorem exists_tMargin {ν : ℝ} (hν : 0 < ν) : ∃ q, IsMargin (Spec.tLine ν) (tCdfR ν) q := by
  have := tLine_prob hν
  refine exists_isMargin (tLine_density hν) (measurable_tPdf1 ν).ennreal_ofReal fun x => ?_
  simpa using tPdf1_pos hν x

theorem studentLaw_eq (S : Matrix (Fin d) (Fin d) ℝ) {ν : ℝ} (hν : 0 < ν) :
    Spec.studentLaw S ν = cubeLaw (Spec.tVector S ν) (tCdfR ν) := by
  have := tLine_prob hν
  rw [Spec.studentLaw, cubeLaw]
  congr 1
  funext z j
  rw [cdf_eq_real]
  rfl

theorem studentLaw_uniform {S : Matrix (Fin d) (Fin d) ℝ} (hS : S.PosSemidef) (h1 : ∀ j, S j j = 1) {ν : ℝ}
    (hν : 0 < ν) : Uniform (Spec.studentLaw S ν) := by
  obtain ⟨q, hq⟩ := exists_tMargin hν
  rw [studentLaw_eq S hν]
  exact cubeLaw_uniform hq (tVector_margin hS h1 hν)

theorem studentLaw_prob (S : Matrix (Fin d) (Fin d) ℝ) {ν : ℝ} (hν : 0 < ν) :
    IsProbabilityMeasure (Spec.studentLaw S ν) := by
  obtain ⟨q, hq⟩ := exists_tMargin hν
  have := tVector_prob S hν
  rw [studentLaw_eq S hν]
  exact Measure.isProbabilityMeasure_map (measurable_pointwise hq.measurable).aemeasurable

/-- Kendall's tau of the Student copula. -/
theorem kendallTau_studentLaw {S : Matrix (Fin d) (Fin d) ℝ} (hS : S.PosSemidef) (h1 : ∀ j, S j j = 1) {ν : ℝ}
    (hν : 0 < ν) (i j : Fin d) : Spec.kendallTau (Spec.studentLaw S ν) i j = 2 / Real.pi * Real.arcsin (S i j) := by
  obtain ⟨q, hq⟩ := exists_tMargin hν
  have := tVector_prob S hν
  have := chi_prob hν
  rw [studentLaw_eq S hν, kendallTau_cubeLaw hq.mono, tVector_eq S hν,
    kendallTau_scaleMix hS h1 (measurable_tScale ν)]
  filter_upwards [gammaMeasure_pos] with w hw
  have : 0 < tScale ν w := by unfold tScale; positivity
  exact this.ne'

end Copulae
