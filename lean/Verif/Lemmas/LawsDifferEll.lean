import Verif.Lemmas.LawsDiffer
import Verif.Lemmas.StudentRho

/-!
The laws of elliptical copulas differ from each other and from those of Archimedean copulas.
-/

namespace Copulae

open MeasureTheory ProbabilityTheory Set Filter Topology Spec CopulaMeasure Matrix

variable {d : ℕ} {S T : Matrix (Fin d) (Fin d) ℝ}

theorem posDef_off (hS : S.PosDef) (h1 : ∀ k, S k k = 1) {i j : Fin d} (hij : i ≠ j) : -1 < S i j ∧ S i j < 1 := by
  have hji : S j i = S i j := by
    have := congrFun (congrFun hS.1 i) j
    simpa only [conjTranspose_apply, star_trivial] using this
  have key : ∀ c : ℝ, 0 < 1 + 2 * c * S i j + c ^ 2 := by
    intro c
    have hx : (Pi.single i 1 + c • Pi.single j 1 : Fin d → ℝ) ≠ 0 := by
      intro h
      have := congrFun h i
      simp [hij] at this
    have := hS.dotProduct_mulVec_pos hx
    simp only [star_trivial, mulVec_add, mulVec_smul, add_dotProduct, dotProduct_add, smul_dotProduct, dotProduct_smul,
      single_one_dotProduct, mulVec_single_one, smul_eq_mul] at this
    simp only [Matrix.col_apply, h1, hji] at this
    linarith
  constructor
  · have := key 1
    linarith
  · have := key (-1)
    linarith

theorem corr_ext (hS : S.PosDef) (hT : T.PosDef) (hs : ∀ k, S k k = 1) (ht : ∀ k, T k k = 1)
    (h : ∀ i j, 2 / Real.pi * Real.arcsin (S i j) = 2 / Real.pi * Real.arcsin (T i j)) : S = T := by
  ext i j
  have hpi : (2 : ℝ) / Real.pi ≠ 0 := div_ne_zero two_ne_zero Real.pi_ne_zero
  have := mul_left_cancel₀ hpi (h i j)
  obtain ⟨a, b⟩ := corr_mem hS.posSemidef (hs i) (hs j)
  obtain ⟨a', b'⟩ := corr_mem hT.posSemidef (ht i) (ht j)
  exact Real.injOn_arcsin ⟨a, b⟩ ⟨a', b'⟩ this

theorem gauss_laws_differ (hS : S.PosDef) (hT : T.PosDef) (hs : ∀ k, S k k = 1) (ht : ∀ k, T k k = 1) (hne : S ≠ T) :
    gaussLaw S ≠ gaussLaw T := fun h => hne (corr_ext hS hT hs ht fun i j => by
  rw [← kendallTau_gaussLaw hS.posSemidef hs, ← kendallTau_gaussLaw hT.posSemidef ht, h])

theorem gammaPDFReal_integrable {a r : ℝ} (ha : 0 < a) (hr : 0 < r) : Integrable (gammaPDFReal a r) ∧ ∫ w, gammaPDFReal a r w = 1 := by
  have hm := (measurable_gammaPDFReal a r).aestronglyMeasurable (μ := MeasureTheory.volume)
  have h0 : 0 ≤ᵐ[MeasureTheory.volume] gammaPDFReal a r := ae_of_all _ fun w => gammaPDFReal_nonneg ha hr w
  have h1 := lintegral_gammaPDF_eq_one ha hr
  unfold gammaPDF at h1
  refine ⟨⟨hm, ?_⟩, ?_⟩
  · rw [hasFiniteIntegral_iff_ofReal h0, h1]
    exact ENNReal.one_lt_top
  · rw [integral_eq_lintegral_of_nonneg_ae h0 hm, h1, ENNReal.toReal_one]

theorem gammaMeasure_integral {a r : ℝ} (ha : 0 < a) (hr : 0 < r) (f : ℝ → ℝ) :
    ∫ w, f w ∂(gammaMeasure a r) = ∫ w, gammaPDFReal a r w * f w := by
  rw [gammaMeasure, integral_withDensity_eq_integral_toReal_smul (f := gammaPDF a r) (measurable_gammaPDFReal a r).ennreal_ofReal
    (ae_of_all _ fun w => ENNReal.ofReal_lt_top)]
  refine integral_congr_ae (ae_of_all _ fun w => ?_)
  simp only [gammaPDF, smul_eq_mul]
  rw [ENNReal.toReal_ofReal (gammaPDFReal_nonneg ha hr w)]

/-- The tail of the t distribution, measured in units that grow with the degrees of freedom, becomes lighter. -/
theorem chi_tail_lt {c m n : ℝ} (hc : 0 < c) (hm : 0 < m) (hmn : m < n) :
    ∫ w, normCdf (-(c * √w)) ∂(chi n) < ∫ w, normCdf (-(c * √w)) ∂(chi m) := by
  have ha : 0 < m / 2 := by linarith
  have hb : 0 < n / 2 := by linarith
  have hr : (0 : ℝ) < 1 / 2 := by norm_num
  set a := m / 2 with hadef
  set b := n / 2 with hbdef
  have hab : 0 < b - a := by linarith
  set f : ℝ → ℝ := fun w => normCdf (-(c * √w)) with hf
  have hfm : Measurable f := normMargin.measurable.comp (by fun_prop)
  have hfb : ∀ w, ‖f w‖ ≤ 1 := fun w => by
    rw [Real.norm_eq_abs, abs_of_pos (normMargin.mem _).1]
    exact (normMargin.mem _).2.le
  have hanti : ∀ {v w : ℝ}, 0 ≤ v → v < w → f w < f v := fun hv hvw =>
    normMargin.mono (neg_lt_neg (mul_lt_mul_of_pos_left (Real.sqrt_lt_sqrt hv hvw) hc))
  obtain ⟨ia, ea⟩ := gammaPDFReal_integrable ha hr
  obtain ⟨ib, eb⟩ := gammaPDFReal_integrable hb hr
  have iaf : Integrable fun w => gammaPDFReal a (1 / 2) w * f w :=
    ia.mul_bdd (c := 1) hfm.aestronglyMeasurable (ae_of_all _ hfb)
  have ibf : Integrable fun w => gammaPDFReal b (1 / 2) w * f w :=
    ib.mul_bdd (c := 1) hfm.aestronglyMeasurable (ae_of_all _ hfb)
  unfold chi
  rw [gammaMeasure_integral ha hr, gammaMeasure_integral hb hr]
  have hGa := Real.Gamma_pos_of_pos ha
  have hGb := Real.Gamma_pos_of_pos hb
  set K : ℝ := (1 / 2) ^ (b - a) * Real.Gamma a / Real.Gamma b with hK
  have hK0 : 0 < K := by positivity
  have hratio : ∀ w : ℝ, 0 < w → gammaPDFReal b (1 / 2) w = gammaPDFReal a (1 / 2) w * (K * w ^ (b - a)) := by
    intro w hw
    rw [gammaPDFReal, if_pos hw.le, gammaPDFReal, if_pos hw.le, hK, show b - 1 = (a - 1) + (b - a) by ring, Real.rpow_add hw,
      show ((1 : ℝ) / 2) ^ b = (1 / 2) ^ a * (1 / 2) ^ (b - a) by rw [← Real.rpow_add (by norm_num)]; congr 1; ring]
    field_simp
  have hpa : ∀ w : ℝ, 0 < w → 0 < gammaPDFReal a (1 / 2) w := fun w hw => gammaPDFReal_pos ha hr hw
  set w₀ : ℝ := K⁻¹ ^ (1 / (b - a)) with hw₀
  have hw₀0 : 0 < w₀ := by positivity
  have hKw : K * w₀ ^ (b - a) = 1 := by
    rw [hw₀, ← Real.rpow_mul (by positivity), one_div_mul_cancel hab.ne', Real.rpow_one, mul_inv_cancel₀ hK0.ne']
  have hpos : ∀ w : ℝ, 0 < w → w ≠ w₀ → 0 < (f w₀ - f w) * (gammaPDFReal b (1 / 2) w - gammaPDFReal a (1 / 2) w) := by
    intro w hw hne
    have e : gammaPDFReal b (1 / 2) w - gammaPDFReal a (1 / 2) w = gammaPDFReal a (1 / 2) w * (K * w ^ (b - a) - K * w₀ ^ (b - a)) := by
      rw [hratio w hw, hKw]; ring
    rw [e]
    rcases lt_or_gt_of_ne hne with h | h
    · have h1 := hanti hw.le h
      have h2 : K * w ^ (b - a) < K * w₀ ^ (b - a) := mul_lt_mul_of_pos_left (Real.rpow_lt_rpow hw.le h hab) hK0
      exact mul_pos_of_neg_of_neg (by linarith) (mul_neg_of_pos_of_neg (hpa w hw) (by linarith))
    · have h1 := hanti hw₀0.le h
      have h2 : K * w₀ ^ (b - a) < K * w ^ (b - a) := mul_lt_mul_of_pos_left (Real.rpow_lt_rpow hw₀0.le h hab) hK0
      exact mul_pos (by linarith) (mul_pos (hpa w hw) (by linarith))
  have hint : Integrable fun w => (f w₀ - f w) * (gammaPDFReal b (1 / 2) w - gammaPDFReal a (1 / 2) w) := by
    have := ((ib.const_mul (f w₀)).sub (ia.const_mul (f w₀))).sub (ibf.sub iaf)
    refine this.congr (ae_of_all _ fun w => ?_)
    simp only [Pi.sub_apply]
    ring
  have hval : ∫ w, (f w₀ - f w) * (gammaPDFReal b (1 / 2) w - gammaPDFReal a (1 / 2) w) =
      (∫ w, gammaPDFReal a (1 / 2) w * f w) - ∫ w, gammaPDFReal b (1 / 2) w * f w := by
    have e : ∀ w, (f w₀ - f w) * (gammaPDFReal b (1 / 2) w - gammaPDFReal a (1 / 2) w) =
        (f w₀ * gammaPDFReal b (1 / 2) w - f w₀ * gammaPDFReal a (1 / 2) w) -
          (gammaPDFReal b (1 / 2) w * f w - gammaPDFReal a (1 / 2) w * f w) := fun w => by ring
    simp_rw [e]
    have i1 : Integrable fun w => f w₀ * gammaPDFReal b (1 / 2) w - f w₀ * gammaPDFReal a (1 / 2) w := (ib.const_mul _).sub (ia.const_mul _)
    have i2 : Integrable fun w => gammaPDFReal b (1 / 2) w * f w - gammaPDFReal a (1 / 2) w * f w := ibf.sub iaf
    rw [integral_sub i1 i2, integral_sub (ib.const_mul _) (ia.const_mul _), integral_sub ibf iaf, integral_const_mul, integral_const_mul, ea, eb]
    ring
  have hnn : 0 ≤ᵐ[MeasureTheory.volume] fun w => (f w₀ - f w) * (gammaPDFReal b (1 / 2) w - gammaPDFReal a (1 / 2) w) := by
    filter_upwards [Measure.ae_ne MeasureTheory.volume (0 : ℝ)] with w hw
    rcases lt_or_gt_of_ne hw with h | h
    · simp only [gammaPDFReal, if_neg (not_le.mpr h), Pi.zero_apply]
      simp
    · by_cases he : w = w₀
      · simp [he]
      · exact (hpos w h he).le
  have h0 : 0 < ∫ w, (f w₀ - f w) * (gammaPDFReal b (1 / 2) w - gammaPDFReal a (1 / 2) w) := by
    rw [integral_pos_iff_support_of_nonneg_ae hnn hint]
    refine lt_of_lt_of_le ?_ (measure_mono (s := Ioi w₀) fun w hw => ?_)
    · simp
    · exact (hpos w (hw₀0.trans hw) (ne_of_gt hw)).ne'
  rw [hval] at h0
  linarith

theorem tTail_lt {μ ν ρ : ℝ} (hμ : 0 < μ) (h : μ < ν) (h1 : -1 < ρ) (h2 : ρ < 1) : tTail ν ρ < tTail μ ρ := by
  have key : ∀ {k : ℝ}, 0 < k → tTail k ρ = 2 * ∫ w, normCdf (-(√((1 - ρ) / (1 + ρ)) * √w)) ∂(chi (k + 1)) := by
    intro k hk
    have hk' : 0 < k + 1 := by linarith
    rw [tTail, if_neg (by linarith), tCdfR_eq hk']
    congr 1
    refine integral_congr_ae ?_
    filter_upwards [(gammaMeasure_pos : ∀ᵐ w ∂(chi (k + 1)), 0 < w)] with w hw
    congr 1
    rw [mul_div_assoc, Real.sqrt_mul hk'.le, Real.sqrt_div hw.le]
    have := Real.sqrt_pos.mpr hk'
    field_simp
  rw [key hμ, key (hμ.trans h)]
  have := chi_tail_lt (c := √((1 - ρ) / (1 + ρ))) (Real.sqrt_pos.mpr (div_pos (by linarith) (by linarith))) (m := μ + 1) (n := ν + 1)
    (by linarith) (by linarith)
  linarith

theorem tTail_pos {ν ρ : ℝ} (hν : 0 < ν) (h1 : -1 < ρ) : 0 < tTail ν ρ := by
  rw [tTail, if_neg (by linarith)]
  obtain ⟨q, hq⟩ := exists_tMargin (ν := ν + 1) (by linarith)
  exact mul_pos two_pos (hq.mem _).1

theorem student_laws_differ (h2 : 2 ≤ d) (hS : S.PosDef) (hT : T.PosDef) (hs : ∀ k, S k k = 1) (ht : ∀ k, T k k = 1) {μ ν : ℝ}
    (hμ : 0 < μ) (hν : 0 < ν) (hne : ¬ (S = T ∧ μ = ν)) : studentLaw S μ ≠ studentLaw T ν := by
  intro h
  have hST : S = T := corr_ext hS hT hs ht fun i j => by
    rw [← kendallTau_studentLaw hS.posSemidef hs hμ, ← kendallTau_studentLaw hT.posSemidef ht hν, h]
  subst hST
  have hij : (⟨0, by omega⟩ : Fin d) ≠ ⟨1, by omega⟩ := by simp
  obtain ⟨a, b⟩ := posDef_off hS hs hij
  have e := low_unique (tailDep_studentLaw hS.posSemidef hs hμ ⟨0, by omega⟩ ⟨1, by omega⟩).1 (h ▸ (tailDep_studentLaw hS.posSemidef hs hν _ _).1)
  refine hne ⟨rfl, ?_⟩
  by_contra hc
  rcases lt_or_gt_of_ne hc with hc | hc
  · exact (tTail_lt hμ hc a b).ne' e
  · exact (tTail_lt hν hc a b).ne e

theorem gauss_student_differ (h2 : 2 ≤ d) (hS : S.PosDef) (hT : T.PosDef) (hs : ∀ k, S k k = 1) (ht : ∀ k, T k k = 1) {ν : ℝ}
    (hν : 0 < ν) : gaussLaw S ≠ studentLaw T ν := by
  intro h
  have hij : (⟨0, by omega⟩ : Fin d) ≠ ⟨1, by omega⟩ := by simp
  have e := low_unique (tailDep_gaussLaw hS.posSemidef hs ⟨0, by omega⟩ ⟨1, by omega⟩).1 (h ▸ (tailDep_studentLaw hT.posSemidef ht hν _ _).1)
  rw [if_neg (posDef_off hS hs hij).2.ne] at e
  exact (tTail_pos hν (posDef_off hT ht hij).1).ne e

theorem arch_student_differ {P : Measure (Fin d → ℝ)} {F : Family} {θ : ℝ} (ha : Admissible F θ d) (hP : IsLawOf P (F.copula θ))
    (hS : S.PosDef) (hs : ∀ k, S k k = 1) {ν : ℝ} (hν : 0 < ν) : P ≠ studentLaw S ν := by
  intro h
  have h2 := ha.1
  have hij : (⟨0, by omega⟩ : Fin d) ≠ ⟨1, by omega⟩ := by simp
  have hpos := tTail_pos hν (posDef_off hS hs hij).1
  obtain ⟨hl, hu⟩ := arch_tailDep ha hP hij
  obtain ⟨hl', hu'⟩ := tailDep_studentLaw hS.posSemidef hs hν ⟨0, by omega⟩ ⟨1, by omega⟩
  rw [← h] at hl' hu'
  have el := low_unique hl hl'
  have eu := up_unique hu hu'
  cases F with
  | clayton => exact hpos.ne eu
  | frank => exact hpos.ne eu
  | gumbel => exact hpos.ne el

/-! ### Gaussian against Frank copulas -/

theorem gauss_quadrant (hS : S.PosDef) (hs : ∀ k, S k k = 1) {i j : Fin d} (hij : i ≠ j) (h0 : 0 < S i j) (t : ℝ) :
    normCdf t * normCdf (√((1 - S i j) / (1 + S i j)) * t) ≤ (gauss S).real {x | x i ≤ t ∧ x j ≤ t} := by
  set ρ := S i j with hρ
  obtain ⟨hr1, hr2⟩ := posDef_off hS hs hij
  have hji : S j i = ρ := by
    have := congrFun (congrFun hS.1 i) j
    simpa only [conjTranspose_apply, star_trivial] using this
  set A : Matrix (Fin 2) (Fin 2) ℝ := !![1, 0; ρ, √(1 - ρ ^ 2)] with hA
  have hBT : S.submatrix ![i, j] ![i, j] = A * 1 * Aᵀ := by
    have hr : √(1 - ρ ^ 2) * √(1 - ρ ^ 2) = 1 - ρ ^ 2 := Real.mul_self_sqrt (by nlinarith)
    rw [mul_one]
    ext k l
    fin_cases k <;> fin_cases l <;>
      simp only [submatrix_apply, hA, Matrix.mul_apply, Fin.sum_univ_two, transpose_apply, Fin.zero_eta, Fin.mk_one,
        cons_val_zero, cons_val_one, of_apply, cons_val', hs, ← hρ, hji, cons_val_fin_one]
    · ring
    · ring
    · ring
    · linear_combination -hr
  have hm1 : Measurable fun x : Fin 2 → ℝ => A *ᵥ x := (Continuous.matrix_mulVec continuous_const continuous_id).measurable
  have hms : MeasurableSet {y : Fin 2 → ℝ | y 0 ≤ t ∧ y 1 ≤ t} :=
    (measurableSet_le (measurable_pi_apply 0) measurable_const).inter (measurableSet_le (measurable_pi_apply 1) measurable_const)
  have hm2 : Measurable fun (x : Fin d → ℝ) (k : Fin 2) => x (![i, j] k) :=
    measurable_pi_lambda _ fun k => measurable_pi_apply (![i, j] k)
  have hpair : (gauss S).real {x | x i ≤ t ∧ x j ≤ t} = (gauss (S.submatrix ![i, j] ![i, j])).real {y | y 0 ≤ t ∧ y 1 ≤ t} := by
    rw [← gauss_submatrix hS.posSemidef ![i, j], map_measureReal_apply hm2 hms]
    rfl
  set k := √((1 - ρ) / (1 + ρ)) with hk
  have hprod : (Measure.pi fun _ : Fin 2 => gaussianReal 0 1).real (univ.pi ![Iic t, Iic (k * t)]) = normCdf t * normCdf (k * t) := by
    rw [measureReal_def, Measure.pi_pi, Fin.prod_univ_two, ENNReal.toReal_mul, normMargin.cdf, normMargin.cdf]
    rfl
  rw [hpair, hBT, ← gauss_map PosSemidef.one, map_measureReal_apply hm1 hms, gauss_one, ← hprod]
  refine measureReal_mono fun x hx => ?_
  have hx0 : x 0 ≤ t := hx 0 (mem_univ _)
  have hx1 : x 1 ≤ k * t := hx 1 (mem_univ _)
  have e0 : (A *ᵥ x) 0 = x 0 := by simp [hA, mulVec, dotProduct, Fin.sum_univ_two]
  have e1 : (A *ᵥ x) 1 = ρ * x 0 + √(1 - ρ ^ 2) * x 1 := by simp [hA, mulVec, dotProduct, Fin.sum_univ_two]
  have hsk : √(1 - ρ ^ 2) * k = 1 - ρ := by
    rw [hk, ← Real.sqrt_mul (by nlinarith), show (1 - ρ ^ 2) * ((1 - ρ) / (1 + ρ)) = (1 - ρ) ^ 2 by
      have : 1 + ρ ≠ 0 := by linarith
      field_simp
      ring, Real.sqrt_sq (by linarith)]
  simp only [mem_preimage, mem_ofPred_eq, e0, e1]
  refine ⟨hx0, ?_⟩
  calc ρ * x 0 + √(1 - ρ ^ 2) * x 1 ≤ ρ * t + √(1 - ρ ^ 2) * (k * t) :=
        add_le_add (mul_le_mul_of_nonneg_left hx0 h0.le) (mul_le_mul_of_nonneg_left hx1 (Real.sqrt_nonneg _))
    _ = t := by rw [← mul_assoc, hsk]; ring

theorem frank_diag_small {θ : ℝ} (h : 0 < θ) : ∃ K u₀ : ℝ, 0 < K ∧ 0 < u₀ ∧ ∀ u, 0 < u → u < u₀ → Spec.frank θ ![u, u] ≤ K * u ^ 2 := by
  have hq : 0 < 1 - Real.exp (-θ) := by
    have : Real.exp (-θ) < 1 := Real.exp_lt_one_iff.mpr (by linarith)
    linarith
  set q := 1 - Real.exp (-θ) with hqdef
  refine ⟨2 * θ / q, √(q / 2) / θ, by positivity, by positivity, fun u h0 h1 => ?_⟩
  rw [frank_diag_spec]
  have e : (Real.exp (-θ * u) - 1) ^ 2 / (Real.exp (-θ) - 1) = -((1 - Real.exp (-θ * u)) ^ 2 / q) := by
    rw [show Real.exp (-θ) - 1 = -q by rw [hqdef]; ring, div_neg]
    ring
  rw [e]
  set y := (1 - Real.exp (-θ * u)) ^ 2 / q with hy
  have hb : 1 - Real.exp (-θ * u) ≤ θ * u := by
    have := Real.add_one_le_exp (-θ * u)
    linarith
  have hb0 : 0 ≤ 1 - Real.exp (-θ * u) := by
    have : Real.exp (-θ * u) ≤ 1 := Real.exp_le_one_iff.mpr (by nlinarith)
    linarith
  have hy1 : y ≤ θ ^ 2 * u ^ 2 / q := by
    rw [hy]
    gcongr
    nlinarith
  have hyh : y ≤ 1 / 2 := by
    refine hy1.trans ?_
    rw [div_le_iff₀ hq]
    have h3 : θ * u < √(q / 2) := by rwa [lt_div_iff₀ h, mul_comm] at h1
    have h4 : (θ * u) ^ 2 ≤ √(q / 2) ^ 2 := by gcongr
    rw [Real.sq_sqrt (by positivity)] at h4
    linarith [mul_pow θ u 2]
  have hy0 : 0 ≤ y := by positivity
  have hl := Real.one_sub_inv_le_log_of_pos (x := 1 + -y) (by linarith)
  have hl2 : -(2 * y) ≤ 1 - (1 + -y)⁻¹ := by
    have hp : 0 < 1 + -y := by linarith
    rw [← sub_nonneg, show 1 - (1 + -y)⁻¹ - -(2 * y) = (y * (1 - 2 * y)) / (1 + -y) by field_simp; ring]
    exact div_nonneg (mul_nonneg hy0 (by linarith)) hp.le
  calc -1 / θ * Real.log (1 + -y) = 1 / θ * -Real.log (1 + -y) := by ring
    _ ≤ 1 / θ * (2 * (θ ^ 2 * u ^ 2 / q)) := by
        refine mul_le_mul_of_nonneg_left ?_ (by positivity)
        linarith
    _ = 2 * θ / q * u ^ 2 := by field_simp

theorem normCdf_lighter {k t : ℝ} (h0 : 0 < k) (h1 : k < 1) (ht : t ≤ 0) :
    normCdf t ≤ k⁻¹ * Real.exp (-((1 - k ^ 2) * t ^ 2 / 2)) * normCdf (k * t) := by
  have hk2 : k ^ 2 < 1 := by nlinarith
  have h := normal_tail (v := k ^ 2) (by positivity) hk2 (x := k * t) (by nlinarith)
  rw [Real.sqrt_sq h0.le] at h
  have e1 : (1 / k ^ 2 - 1) * (k * t) ^ 2 = (1 - k ^ 2) * t ^ 2 := by field_simp
  rw [e1, ← normMargin.cdf] at h
  refine le_trans (le_of_eq ?_) h
  have hmap : gaussianReal 0 (k ^ 2).toNNReal = (gaussianReal 0 1).map (fun x => k * x) := by
    rw [gaussianReal_map_const_mul, mul_zero, mul_one]
    congr 1
    exact Real.toNNReal_of_nonneg (sq_nonneg k)
  rw [hmap, map_measureReal_apply (by fun_prop) measurableSet_Iic, normMargin.cdf]
  congr 1
  ext x
  simp only [mem_Iic, mem_preimage]
  exact (mul_le_mul_iff_right₀ h0).symm

theorem frank_gauss_differ {P : Measure (Fin d → ℝ)} {θ : ℝ} (h : 0 < θ) (ha : Admissible .frank θ d)
    (hP : IsLawOf P (Family.copula .frank θ)) (hS : S.PosDef) (hs : ∀ k, S k k = 1) : P ≠ gaussLaw S := by
  intro he
  have h2 := ha.1
  set i : Fin d := ⟨0, by omega⟩
  set j : Fin d := ⟨1, by omega⟩
  have hij : i ≠ j := by simp [i, j]
  have ht := arch_tau_eq ha hP hij
  rw [he, kendallTau_gaussLaw hS.posSemidef hs] at ht
  have hτ : 0 < frankTauR θ := (frankTauR_bounds h).1
  obtain ⟨hr1, hr2⟩ := posDef_off hS hs hij
  have hρ : 0 < S i j := by
    have : 0 < Real.arcsin (S i j) := by
      have hpi : 0 < 2 / Real.pi := div_pos two_pos Real.pi_pos
      simp only [archTau] at ht
      rw [← ht] at hτ
      exact (mul_pos_iff_of_pos_left hpi).mp hτ
    exact Real.arcsin_pos.mp this
  set k := √((1 - S i j) / (1 + S i j)) with hk
  have hk0 : 0 < k := Real.sqrt_pos.mpr (div_pos (by linarith) (by linarith))
  have hk1 : k < 1 := by
    rw [hk, Real.sqrt_lt' one_pos, one_pow, div_lt_one (by linarith)]
    linarith
  obtain ⟨K, u₀, hK, hu₀, hsmall⟩ := frank_diag_small h
  have hlim : Tendsto normCdf atBot (𝓝 0) := by
    have := tendsto_cdf_atBot (gaussianReal 0 1)
    refine this.congr fun x => ?_
    rw [cdf_eq_real, normMargin.cdf]
  have hexp : Tendsto (fun t : ℝ => K * (k⁻¹ * Real.exp (-((1 - k ^ 2) * t ^ 2 / 2)))) atBot (𝓝 (K * (k⁻¹ * 0))) := by
    refine ((Real.tendsto_exp_atBot.comp ?_).const_mul _).const_mul _
    have hc : 0 < (1 - k ^ 2) / 2 := by nlinarith
    have h3 : Tendsto (fun t : ℝ => (1 - k ^ 2) / 2 * t ^ 2) atBot atTop :=
      Tendsto.const_mul_atTop hc ((tendsto_pow_atTop two_ne_zero).comp tendsto_abs_atBot_atTop |>.congr fun t => by simp)
    refine (tendsto_neg_atTop_atBot.comp h3).congr fun t => ?_
    simp only [Function.comp_apply]
    ring
  rw [mul_zero, mul_zero] at hexp
  obtain ⟨t, ⟨ht1, ht2⟩, ht3⟩ := (((hlim.eventually (gt_mem_nhds hu₀)).and (hexp.eventually (gt_mem_nhds one_pos))).and
    (eventually_le_atBot 0)).exists
  obtain ⟨hm0, hm1⟩ := normMargin.mem t
  have hmk := (normMargin.mem (k * t)).1
  have hd := arch_diag ha hP hij hm0 hm1.le hm0 hm1.le
  have hms : MeasurableSet {x : Fin d → ℝ | x i ≤ normCdf t ∧ x j ≤ normCdf t} :=
    (measurableSet_le (measurable_pi_apply i) measurable_const).inter (measurableSet_le (measurable_pi_apply j) measurable_const)
  have hg : (gaussLaw S).real {x | x i ≤ normCdf t ∧ x j ≤ normCdf t} = (gauss S).real {x | x i ≤ t ∧ x j ≤ t} := by
    rw [gaussLaw_eq, cubeLaw, map_measureReal_apply (measurable_pointwise normMargin.measurable) hms]
    congr 1
    ext x
    simp only [mem_preimage, mem_ofPred_eq, normMargin.mono.le_iff_le]
  rw [he, hg] at hd
  have h5 := gauss_quadrant hS hs hij hρ t
  rw [hd, ← hk] at h5
  have h6 := hsmall _ hm0 ht1
  have h7 := normCdf_lighter hk0 hk1 ht3
  have h8 : normCdf (k * t) ≤ K * normCdf t := by
    have : normCdf t * normCdf (k * t) ≤ normCdf t * (K * normCdf t) := by
      refine h5.trans (h6.trans (le_of_eq ?_))
      ring
    exact le_of_mul_le_mul_left this hm0
  have h9 : normCdf (k * t) < normCdf (k * t) := by
    calc normCdf (k * t) ≤ K * normCdf t := h8
      _ ≤ K * (k⁻¹ * Real.exp (-((1 - k ^ 2) * t ^ 2 / 2)) * normCdf (k * t)) := mul_le_mul_of_nonneg_left h7 hK.le
      _ = K * (k⁻¹ * Real.exp (-((1 - k ^ 2) * t ^ 2 / 2))) * normCdf (k * t) := by ring
      _ < 1 * normCdf (k * t) := mul_lt_mul_of_pos_right ht2 hmk
      _ = normCdf (k * t) := one_mul _
  exact lt_irrefl _ h9

/-! ### Gaussian against Clayton and Gumbel copulas -/

theorem asymmetry_zero {P : Measure (Fin d → ℝ)} (h : reflected P = P) (w : Fin d → ℝ) : asymmetry P w = 0 := by
  rw [asymmetry, h, sub_self]

theorem arch_gauss_differ {P : Measure (Fin d → ℝ)} {F : Family} {θ : ℝ} (ha : Admissible F θ d) (hP : IsLawOf P (F.copula θ))
    (hc : F = .clayton → θ ≠ -1) (hf : F = .frank → 0 < θ) (hS : S.PosDef) (hs : ∀ k, S k k = 1) (hne : ¬ (F = .gumbel ∧ θ = 1 ∧ S = 1)) :
    P ≠ gaussLaw S := by
  cases F with
  | frank => exact frank_gauss_differ (hf rfl) ha hP hS hs
  | clayton =>
    rintro rfl
    rcases lt_or_gt_of_ne ha.2.1 with h | h
    · have hd : d = 2 := by
        by_contra hd
        exact absurd (ha.2.2.2 hd) (by linarith)
      subst hd
      have := clayton_neg_asymmetric (lt_of_le_of_ne ha.2.2.1 (hc rfl).symm) h hP
      simp [asymmetry_zero (gaussLaw_reflected hS.posSemidef)] at this
    · have := clayton_asymmetric h ha.1 hP
      simp [asymmetry_zero (gaussLaw_reflected hS.posSemidef)] at this
  | gumbel =>
    rintro rfl
    have h1 : 1 ≤ θ := ha.2
    rcases h1.eq_or_lt with rfl | h
    · refine hne ⟨rfl, rfl, corr_ext hS PosDef.one hs (fun k => one_apply_eq k) fun i j => ?_⟩
      by_cases hij : i = j
      · rw [hij, hs, one_apply_eq]
      · rw [← kendallTau_gaussLaw hS.posSemidef hs, arch_tau_eq ha hP hij, one_apply_ne hij]
        simp [archTau]
    · have := gumbel_asymmetric h ha.1 hP
      simp [asymmetry_zero (gaussLaw_reflected hS.posSemidef)] at this

/-- The Gumbel copula with parameter 1 is the independence copula. -/
theorem gumbel_one_prod {u : Fin d → ℝ} (h : ∀ j, 0 < u j) : Spec.gumbel 1 u = ∏ j, u j := by
  rw [Spec.gumbel, div_one, Real.rpow_one]
  simp only [Real.rpow_one, Finset.sum_neg_distrib, neg_neg]
  rw [Real.exp_sum]
  exact Finset.prod_congr rfl fun j _ => Real.exp_log (h j)

theorem indep_gumbel {P : Measure (Fin d → ℝ)} (h : IsLawOf P fun u : Fin d → ℝ => ∏ j, u j) : IsLawOf P (Family.copula .gumbel 1) :=
  ⟨h.prob, h.mem, fun b hb => (h.dist b hb).trans (gumbel_one_prod fun j => (hb j).1).symm⟩

end Copulae
