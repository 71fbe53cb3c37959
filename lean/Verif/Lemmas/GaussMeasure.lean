import Mathlib.Probability.Distributions.Gaussian.Multivariate
import Mathlib.Analysis.Matrix.Order
import Verif.Lemmas.CopulaDensity

/-!
The centred multivariate normal law on `Fin d → ℝ`: density, margins, symmetries.
-/

namespace Copulae

open MeasureTheory ProbabilityTheory Matrix Set
open scoped ENNReal MatrixOrder

variable {d : ℕ}

/-- The centred normal law with covariance matrix `S`. -/
noncomputable def gauss (S : Matrix (Fin d) (Fin d) ℝ) : Measure (Fin d → ℝ) :=
  (multivariateGaussian 0 S).map WithLp.ofLp

instance (S : Matrix (Fin d) (Fin d) ℝ) : IsProbabilityMeasure (gauss S) :=
  Measure.isProbabilityMeasure_map (by fun_prop)

/-- The normal density. -/
noncomputable def gaussPdf (S : Matrix (Fin d) (Fin d) ℝ) (x : Fin d → ℝ) : ℝ :=
  Real.exp (-(x ⬝ᵥ S⁻¹ *ᵥ x) / 2) / √((2 * Real.pi) ^ d * S.det)

/-- `gauss S` is the law of `√S Z`. -/
theorem gauss_eq_map (S : Matrix (Fin d) (Fin d) ℝ) :
    gauss S = (Measure.pi fun _ : Fin d => gaussianReal 0 1).map (fun z => CFC.sqrt S *ᵥ z) := by
  rw [gauss, multivariateGaussian, ← map_pi_eq_stdGaussian, Measure.map_map (by fun_prop) (by fun_prop),
    Measure.map_map (by fun_prop) (by fun_prop)]
  congr 1
  funext z
  simp only [Function.comp_apply, zero_add]
  rw [Matrix.ofLp_toEuclideanCLM]

theorem gauss_margin {S : Matrix (Fin d) (Fin d) ℝ} (hS : S.PosSemidef) (j : Fin d) :
    (gauss S).map (fun x => x j) = gaussianReal 0 (S j j).toNNReal := by
  rw [gauss, Measure.map_map (measurable_pi_apply j) (by fun_prop)]
  exact (measurePreserving_eval_multivariateGaussian (μ := 0) hS (i := j)).map_eq

/-- Images of densities under an invertible matrix. -/
theorem map_mulVec_withDensity {A : Matrix (Fin d) (Fin d) ℝ} (hA : A.det ≠ 0) {g : (Fin d → ℝ) → ℝ≥0∞} :
    (volume.withDensity g).map (fun z => A *ᵥ z) =
      volume.withDensity fun x => ENNReal.ofReal |A.det⁻¹| * g (A⁻¹ *ᵥ x) := by
  have hu : IsUnit A.det := isUnit_iff_ne_zero.mpr hA
  have hinj : Function.Injective fun z : Fin d → ℝ => A *ᵥ z := fun x y hxy => by
    have := congrArg (fun v => A⁻¹ *ᵥ v) hxy
    simpa [mulVec_mulVec, nonsing_inv_mul _ hu] using this
  have hmeas : Measurable fun z : Fin d → ℝ => A *ᵥ z :=
    (Continuous.matrix_mulVec continuous_const continuous_id).measurable
  have hemb := hmeas.measurableEmbedding hinj
  have hvol : (volume : Measure (Fin d → ℝ)).map (fun z => A *ᵥ z) = ENNReal.ofReal |A.det⁻¹| • volume :=
    Real.map_matrix_volume_pi_eq_smul_volume_pi hA
  have hc : ENNReal.ofReal |A.det⁻¹| ≠ 0 := by
    rw [ne_eq, ENNReal.ofReal_eq_zero, not_le]
    exact abs_pos.mpr (inv_ne_zero hA)
  ext s hs
  rw [hemb.map_apply, withDensity_apply _ (hmeas hs), withDensity_apply _ hs]
  have e : ∀ x, g x = (fun y => g (A⁻¹ *ᵥ y)) (A *ᵥ x) := fun x => by
    simp [mulVec_mulVec, nonsing_inv_mul _ hu]
  calc ∫⁻ x in (fun z => A *ᵥ z) ⁻¹' s, g x
      = ∫⁻ x in (fun z => A *ᵥ z) ⁻¹' s, (fun y => g (A⁻¹ *ᵥ y)) (A *ᵥ x) := lintegral_congr fun x => e x
    _ = ∫⁻ y in s, g (A⁻¹ *ᵥ y) ∂(volume.map fun z => A *ᵥ z) := by
        rw [hemb.restrict_map, hemb.lintegral_map]
    _ = ∫⁻ y in s, ENNReal.ofReal |A.det⁻¹| * g (A⁻¹ *ᵥ y) := by
        rw [hvol, Measure.restrict_smul, lintegral_smul_measure, lintegral_const_mul' _ _ ENNReal.ofReal_ne_top,
          smul_eq_mul]

theorem gauss_density {S : Matrix (Fin d) (Fin d) ℝ} (hS : S.PosDef) :
    gauss S = volume.withDensity fun x => ENNReal.ofReal (gaussPdf S x) := by
  set A := CFC.sqrt S with hAdef
  have hAA : A * A = S := CFC.sqrt_mul_sqrt_self S hS.posSemidef.nonneg
  have hAt : Aᵀ = A := by
    have := (CFC.sqrt_nonneg S).isSelfAdjoint
    rw [IsSelfAdjoint, star_eq_conjTranspose, conjTranspose_eq_transpose_of_trivial] at this
    exact this
  have hdet : A.det * A.det = S.det := by rw [← det_mul, hAA]
  have hdpos : 0 < S.det := hS.det_pos
  have hA0 : A.det ≠ 0 := fun h => by rw [h] at hdet; simp at hdet; exact hdpos.ne hdet
  have hu : IsUnit A.det := isUnit_iff_ne_zero.mpr hA0
  have hsf : SigmaFinite (volume.withDensity (gaussianPDF 0 1)) := by
    rw [← gaussianReal_of_var_ne_zero 0 one_ne_zero]; infer_instance
  rw [gauss_eq_map]
  have e1 : (Measure.pi fun _ : Fin d => gaussianReal 0 1) =
      volume.withDensity fun x : Fin d → ℝ => ∏ j, gaussianPDF 0 1 (x j) := by
    simp_rw [gaussianReal_of_var_ne_zero 0 one_ne_zero]
    exact CopulaMeasure.pi_withDensity _ (measurable_gaussianPDF 0 1)
  rw [e1, map_mulVec_withDensity hA0]
  congr 1
  funext x
  simp only [gaussianPDF]
  rw [← ENNReal.ofReal_prod_of_nonneg fun j _ => gaussianPDFReal_nonneg _ _ _, ← ENNReal.ofReal_mul (abs_nonneg _)]
  congr 1
  have hq : x ⬝ᵥ S⁻¹ *ᵥ x = ∑ j, (A⁻¹ *ᵥ x) j ^ 2 := by
    have h1 : S⁻¹ = A⁻¹ * A⁻¹ := by rw [← hAA, Matrix.mul_inv_rev]
    have h2 : (A⁻¹)ᵀ = A⁻¹ := by rw [transpose_nonsing_inv, hAt]
    rw [h1, ← mulVec_mulVec, dotProduct_mulVec, ← mulVec_transpose, h2]
    simp only [dotProduct, pow_two]
  unfold gaussPdf gaussianPDFReal
  rw [hq, Finset.prod_mul_distrib, ← Real.exp_sum]
  have h3 : √((2 * Real.pi) ^ d * S.det) = √(2 * Real.pi) ^ d * |A.det| := by
    rw [Real.sqrt_mul (by positivity), ← hdet, Real.sqrt_mul_self_eq_abs]
    congr 1
    rw [← Real.sqrt_sq (by positivity : 0 ≤ √(2 * Real.pi) ^ d), ← pow_mul, mul_comm d 2, pow_mul,
      Real.sq_sqrt (by positivity)]
  rw [h3]
  simp only [NNReal.coe_one, mul_one, sub_zero, Finset.prod_const, Finset.card_univ, Fintype.card_fin]
  rw [abs_inv, ← Finset.sum_div]
  have h4 : ∑ j, -(A⁻¹ *ᵥ x) j ^ 2 = -∑ j, (A⁻¹ *ᵥ x) j ^ 2 := by rw [Finset.sum_neg_distrib]
  rw [h4, inv_pow]
  field_simp

/-- Linear images of normal vectors are normal. -/
theorem gauss_map {S : Matrix (Fin d) (Fin d) ℝ} (hS : S.PosSemidef) {k : ℕ} (A : Matrix (Fin k) (Fin d) ℝ) :
    (gauss S).map (fun x => A *ᵥ x) = gauss (A * S * Aᵀ) := by
  set L : EuclideanSpace ℝ (Fin d) →L[ℝ] EuclideanSpace ℝ (Fin k) :=
    LinearMap.toContinuousLinearMap (toEuclideanLin A) with hL
  have hLx : ∀ x, (L x).ofLp = A *ᵥ x.ofLp := fun x => rfl
  have hadj : ∀ u, (L.adjoint u).ofLp = Aᵀ *ᵥ u.ofLp := by
    intro u
    have : LinearMap.toContinuousLinearMap (toEuclideanLin Aᵀ) = L.adjoint := by
      rw [ContinuousLinearMap.eq_adjoint_iff]
      intro x y
      rw [EuclideanSpace.inner_eq_star_dotProduct, EuclideanSpace.inner_eq_star_dotProduct, hLx]
      show y.ofLp ⬝ᵥ star (Aᵀ *ᵥ x.ofLp) = (A *ᵥ y.ofLp) ⬝ᵥ star x.ofLp
      rw [star_trivial, star_trivial, dotProduct_mulVec, vecMul_transpose]
    rw [← this]
    rfl
  have hpos : (A * S * Aᵀ).PosSemidef := by
    have := hS.mul_mul_conjTranspose_same A
    rwa [conjTranspose_eq_transpose_of_trivial] at this
  have key : (multivariateGaussian 0 S).map L = multivariateGaussian 0 (A * S * Aᵀ) := by
    apply IsGaussian.ext
    · simp only [id_eq]
      rw [ContinuousLinearMap.integral_id_map IsGaussian.integrable_id, integral_id_multivariateGaussian,
        integral_id_multivariateGaussian]
      simp
    · ext u v
      rw [covarianceBilin_map IsGaussian.memLp_two_id, covarianceBilin_multivariateGaussian hS,
        covarianceBilin_multivariateGaussian hpos, hadj, hadj]
      rw [← mulVec_mulVec, ← mulVec_mulVec, mulVec_transpose A u.ofLp, dotProduct_mulVec u.ofLp A]
  have hm : Measurable fun x : Fin d → ℝ => A *ᵥ x :=
    (Continuous.matrix_mulVec continuous_const continuous_id).measurable
  rw [gauss, gauss, ← key, Measure.map_map hm (by fun_prop), Measure.map_map (by fun_prop) (by fun_prop)]
  rfl

/-- Selected coordinates. -/
theorem gauss_submatrix {S : Matrix (Fin d) (Fin d) ℝ} (hS : S.PosSemidef) {k : ℕ} (e : Fin k → Fin d) :
    (gauss S).map (fun x i => x (e i)) = gauss (S.submatrix e e) := by
  have h := gauss_map hS ((1 : Matrix (Fin d) (Fin d) ℝ).submatrix e id)
  have e1 : (fun x : Fin d → ℝ => Matrix.mulVec ((1 : Matrix (Fin d) (Fin d) ℝ).submatrix e id) x) =
      fun x i => x (e i) := by
    funext x i
    simp [Matrix.mulVec, dotProduct, Matrix.one_apply]
  have e2 : (1 : Matrix (Fin d) (Fin d) ℝ).submatrix e id * S *
      ((1 : Matrix (Fin d) (Fin d) ℝ).submatrix e id).transpose = S.submatrix e e := by
    ext i j
    simp [Matrix.mul_apply, Matrix.one_apply]
  rw [e1, e2] at h
  exact h

theorem gauss_one : gauss (1 : Matrix (Fin d) (Fin d) ℝ) = Measure.pi fun _ => gaussianReal 0 1 := by
  rw [gauss_eq_map]
  simp

end Copulae
