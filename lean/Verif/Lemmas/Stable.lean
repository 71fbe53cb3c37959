import Mathlib.Probability.Distributions.Exponential
import Mathlib.Probability.Moments.ComplexMGF
import Mathlib.MeasureTheory.Measure.CharacteristicFunction.Basic
import Verif.Lemmas.Kanter
import Verif.Lemmas.StudentMeasure

/-!
The positive stable law of Kanter's formula has Laplace transform `exp (-s ^ α)`.

With an independent standard exponential variate `e`, the variable `(e / x) ^ α` has the moments `k!`; the standard
exponential law is the only one with these moments.
-/

namespace Copulae

open MeasureTheory ProbabilityTheory Set Real Filter Topology
open scoped ENNReal

/-- Moments of the standard exponential law. -/
theorem exp_moment {a : ℝ} (ha : 0 ≤ a) :
    ∫⁻ x, ENNReal.ofReal (x ^ a) ∂(expMeasure 1) = ENNReal.ofReal (Real.Gamma (1 + a)) := by
  have hm : Measurable (gammaPDF 1 1) := (measurable_gammaPDFReal 1 1).ennreal_ofReal
  have hg : 0 < Real.Gamma (1 + a) := Real.Gamma_pos_of_pos (by linarith)
  rw [expMeasure, gammaMeasure, lintegral_withDensity_eq_lintegral_mul _ hm (by fun_prop)]
  have e : ∀ x, x ≠ 0 → (gammaPDF 1 1 * fun x => ENNReal.ofReal (x ^ a)) x
      = ENNReal.ofReal (Real.Gamma (1 + a)) * gammaPDF (1 + a) 1 x := by
    intro x hx
    simp only [Pi.mul_apply, gammaPDF, gammaPDFReal]
    by_cases h : 0 ≤ x
    · have hx' : 0 < x := lt_of_le_of_ne h (Ne.symm hx)
      rw [if_pos h, if_pos h, ← ENNReal.ofReal_mul (by positivity), ← ENNReal.ofReal_mul hg.le]
      congr 1
      rw [Real.Gamma_one, Real.one_rpow, Real.one_rpow, sub_self, Real.rpow_zero,
        show 1 + a - 1 = a by ring]
      field_simp
    · rw [if_neg h, if_neg h]
      simp
  have : ∫⁻ x, (gammaPDF 1 1 * fun x => ENNReal.ofReal (x ^ a)) x
      = ∫⁻ x, ENNReal.ofReal (Real.Gamma (1 + a)) * gammaPDF (1 + a) 1 x := by
    refine lintegral_congr_ae ?_
    filter_upwards [Measure.ae_ne volume (0 : ℝ)] with x hx
    exact e x hx
  have hm' : Measurable (gammaPDF (1 + a) 1) := (measurable_gammaPDFReal (1 + a) 1).ennreal_ofReal
  rw [this, lintegral_const_mul _ hm',
    lintegral_gammaPDF_eq_one (by linarith) one_pos, mul_one]

theorem exp_pos_ae : ∀ᵐ x ∂(expMeasure 1), 0 < x := gammaMeasure_pos

theorem exp_tail {y : ℝ} (hy : 0 ≤ y) : expMeasure 1 (Ioi y) = ENNReal.ofReal (Real.exp (-y)) := by
  have := isProbabilityMeasure_expMeasure one_pos
  have h := cdf_expMeasure_eq one_pos y
  rw [if_pos hy, one_mul, cdf_eq_real] at h
  rw [← compl_Iic, prob_compl_eq_one_sub measurableSet_Iic, ← ENNReal.ofReal_one,
    ← ENNReal.ofReal_toReal (measure_ne_top _ (Iic y)), ← ENNReal.ofReal_sub _ ENNReal.toReal_nonneg]
  congr 1
  rw [Measure.real] at h
  rw [h]
  ring

section
variable {μ : Measure ℝ} (hpos : ∀ᵐ x ∂μ, 0 ≤ x)
  (hm : ∀ k : ℕ, ∫⁻ x, ENNReal.ofReal (x ^ k) ∂μ = ENNReal.ofReal k.factorial)

include hpos hm

theorem mgf_of_factorial {t : ℝ} (h0 : 0 ≤ t) (h1 : t < 1) :
    Integrable (fun x => Real.exp (t * x)) μ ∧ mgf id μ t = (1 - t)⁻¹ := by
  have hl : ∫⁻ x, ENNReal.ofReal (Real.exp (t * x)) ∂μ = ENNReal.ofReal (1 - t)⁻¹ := by
    have e : ∀ᵐ x ∂μ, ENNReal.ofReal (Real.exp (t * x))
        = ∑' k : ℕ, ENNReal.ofReal (t ^ k / k.factorial) * ENNReal.ofReal (x ^ k) := by
      filter_upwards [hpos] with x hx
      have hs := NormedSpace.expSeries_div_hasSum_exp (t * x)
      rw [← Real.exp_eq_exp_ℝ] at hs
      have h3 : ∀ k : ℕ, ENNReal.ofReal (t ^ k / k.factorial) * ENNReal.ofReal (x ^ k)
          = ENNReal.ofReal ((t * x) ^ k / k.factorial) := fun k => by
        rw [← ENNReal.ofReal_mul (by positivity)]
        congr 1
        rw [mul_pow]
        ring
      simp only [h3]
      rw [← ENNReal.ofReal_tsum_of_nonneg (fun k => by positivity) hs.summable, hs.tsum_eq]
    rw [lintegral_congr_ae e, lintegral_tsum (fun k => by fun_prop)]
    have h4 : ∀ k : ℕ, ∫⁻ x, ENNReal.ofReal (t ^ k / k.factorial) * ENNReal.ofReal (x ^ k) ∂μ
        = ENNReal.ofReal (t ^ k) := fun k => by
      rw [lintegral_const_mul _ (by fun_prop), hm, ← ENNReal.ofReal_mul (by positivity)]
      congr 1
      field_simp
    simp only [h4]
    rw [← ENNReal.ofReal_tsum_of_nonneg (fun k => by positivity) (summable_geometric_of_lt_one h0 h1),
      tsum_geometric_of_lt_one h0 h1]
  have hi : Integrable (fun x => Real.exp (t * x)) μ := by
    refine ⟨by fun_prop, ?_⟩
    rw [hasFiniteIntegral_iff_ofReal (Eventually.of_forall fun x => (Real.exp_pos _).le), hl]
    exact ENNReal.ofReal_lt_top
  refine ⟨hi, ?_⟩
  have h5 := ofReal_integral_eq_lintegral_ofReal hi (Eventually.of_forall fun x => (Real.exp_pos _).le)
  rw [hl] at h5
  have := (ENNReal.ofReal_eq_ofReal_iff (integral_nonneg fun x => (Real.exp_pos _).le)
    (inv_nonneg.mpr (by linarith))).mp h5
  exact this

theorem strip_of_factorial [IsProbabilityMeasure μ] : Iio (1 : ℝ) ⊆ interior (integrableExpSet id μ) := by
  refine interior_maximal (fun t ht => ?_) isOpen_Iio
  rcases le_total 0 t with h | h
  · exact (mgf_of_factorial hpos hm h ht).1
  · refine Integrable.mono' (integrable_const (1 : ℝ)) (by fun_prop) ?_
    filter_upwards [hpos] with x hx
    rw [Real.norm_eq_abs, abs_of_pos (Real.exp_pos _)]
    exact Real.exp_le_one_iff.mpr (mul_nonpos_of_nonpos_of_nonneg h hx)

end

/-- Laws on the positive half-line with moments `k!` are equal. -/
theorem eq_of_factorial {μ ν : Measure ℝ} [IsProbabilityMeasure μ] [IsProbabilityMeasure ν]
    (hpos : ∀ᵐ x ∂μ, 0 ≤ x) (hpos' : ∀ᵐ x ∂ν, 0 ≤ x)
    (hm : ∀ k : ℕ, ∫⁻ x, ENNReal.ofReal (x ^ k) ∂μ = ENNReal.ofReal k.factorial)
    (hm' : ∀ k : ℕ, ∫⁻ x, ENNReal.ofReal (x ^ k) ∂ν = ENNReal.ofReal k.factorial) : μ = ν := by
  have hstrip : {z : ℂ | z.re < 1} = Complex.reLm ⁻¹' Iio (1 : ℝ) := rfl
  have hX : AnalyticOnNhd ℂ (complexMGF id μ) {z | z.re < 1} :=
    fun z hz => analyticAt_complexMGF (strip_of_factorial hpos hm hz)
  have hY : AnalyticOnNhd ℂ (complexMGF id ν) {z | z.re < 1} :=
    fun z hz => analyticAt_complexMGF (strip_of_factorial hpos' hm' hz)
  have heq : EqOn (complexMGF id μ) (complexMGF id ν) {z | z.re < 1} := by
    refine AnalyticOnNhd.eqOn_of_preconnected_of_frequently_eq hX hY
      (((convex_Iio (1 : ℝ)).linear_preimage Complex.reLm).isPreconnected)
      (z₀ := ((1 / 2 : ℝ) : ℂ)) (by simp; norm_num) ?_
    have h_real : ∃ᶠ (x : ℝ) in 𝓝[≠] (1 / 2 : ℝ), complexMGF id μ x = complexMGF id ν x := by
      refine Eventually.frequently ?_
      have : ∀ᶠ x in 𝓝 (1 / 2 : ℝ), x ∈ Ioo (0 : ℝ) 1 := Ioo_mem_nhds (by norm_num) (by norm_num)
      filter_upwards [nhdsWithin_le_nhds this] with x hx
      rw [complexMGF_ofReal, complexMGF_ofReal, (mgf_of_factorial hpos hm hx.1.le hx.2).2,
        (mgf_of_factorial hpos' hm' hx.1.le hx.2).2]
    rw [frequently_iff_seq_forall] at h_real ⊢
    obtain ⟨xs, hx_tendsto, hx_eq⟩ := h_real
    refine ⟨fun n ↦ xs n, ?_, fun n ↦ ?_⟩
    · rw [tendsto_nhdsWithin_iff] at hx_tendsto ⊢
      constructor
      · rw [tendsto_ofReal_iff]
        exact hx_tendsto.1
      · refine hx_tendsto.2.mono fun n hn h => hn ?_
        exact Complex.ofReal_injective h
    · exact hx_eq n
  refine Measure.ext_of_charFun ?_
  funext t
  rw [← complexMGF_id_mul_I, ← complexMGF_id_mul_I]
  exact heq (by simp)

/-- Kanter's formula; `v` is uniform on (0, 1), `w` standard exponential. -/
noncomputable def kanter (α v w : ℝ) : ℝ :=
  sin (α * (π * v)) * sin (π * v) ^ (-1 / α) * (sin ((1 - α) * (π * v)) / w) ^ ((1 - α) / α)

theorem measurable_kanter (α : ℝ) : Measurable fun p : ℝ × ℝ => kanter α p.1 p.2 := by
  unfold kanter
  fun_prop

/-- The randomness of one frailty. -/
noncomputable def frailSpace : Measure (ℝ × ℝ) := (volume.restrict (Ioo (0 : ℝ) 1)).prod (expMeasure 1)

instance : IsProbabilityMeasure (volume.restrict (Ioo (0 : ℝ) 1)) :=
  ⟨by rw [Measure.restrict_apply_univ, Real.volume_Ioo]; simp⟩

instance : IsProbabilityMeasure (expMeasure 1) := isProbabilityMeasure_expMeasure one_pos

instance : IsProbabilityMeasure frailSpace := by unfold frailSpace; infer_instance

/-- The law of Kanter's variate. -/
noncomputable def stableLaw (α : ℝ) : Measure ℝ := frailSpace.map fun p => kanter α p.1 p.2

instance (α : ℝ) : IsProbabilityMeasure (stableLaw α) :=
  Measure.isProbabilityMeasure_map (measurable_kanter α).aemeasurable

theorem frailSpace_ae : ∀ᵐ p ∂frailSpace, p.1 ∈ Ioo (0 : ℝ) 1 ∧ 0 < p.2 := by
  have h1 : ∀ᵐ v ∂(volume.restrict (Ioo (0 : ℝ) 1)), v ∈ Ioo (0 : ℝ) 1 := ae_restrict_mem measurableSet_Ioo
  unfold frailSpace
  exact (Measure.quasiMeasurePreserving_fst.ae h1).and (Measure.quasiMeasurePreserving_snd.ae exp_pos_ae)

section
variable {α : ℝ} (h0 : 0 < α) (h1 : α < 1)

include h0 h1

theorem kanter_pos {v w : ℝ} (hv : v ∈ Ioo (0 : ℝ) 1) (hw : 0 < w) : 0 < kanter α v w := by
  have hu : 0 < π * v := mul_pos pi_pos hv.1
  have hu1 : π * v < π := by nlinarith [pi_pos, hv.2]
  obtain ⟨a, b⟩ := kSin_pos h0 h1 hu hu1.le
  have := sin_pos_of_pos_of_lt_pi hu hu1
  unfold kanter
  positivity

theorem stableLaw_pos : ∀ᵐ x ∂(stableLaw α), 0 < x := by
  unfold stableLaw
  rw [ae_map_iff (measurable_kanter α).aemeasurable measurableSet_Ioi]
  filter_upwards [frailSpace_ae] with p hp
  exact kanter_pos h0 h1 hp.1 hp.2

theorem kanter_pow {v w : ℝ} (hv : v ∈ Ioo (0 : ℝ) 1) (hw : 0 < w) (k : ℕ) :
    kanter α v w ^ (-(α * k)) = kSig α (π * v) ^ k * kRho α (π * v) ^ (-(α * k)) * w ^ ((1 - α) * k) := by
  have hu : 0 < π * v := mul_pos pi_pos hv.1
  have hu1 : π * v < π := by nlinarith [pi_pos, hv.2]
  obtain ⟨a, b⟩ := kSin_pos h0 h1 hu hu1.le
  have hs := sin_pos_of_pos_of_lt_pi hu hu1
  rw [kInt_eq h0 h1 hu hu1.le k, kanter, mul_rpow (by positivity) (by positivity),
    mul_rpow a.le (by positivity), ← rpow_mul hs.le, ← rpow_mul (by positivity), div_rpow b.le hw.le,
    show -1 / α * -(α * k) = k by field_simp, rpow_natCast,
    show (1 - α) / α * -(α * k) = -((1 - α) * k) by field_simp, rpow_neg a.le, rpow_neg b.le, rpow_neg hw.le]
  have p1 := rpow_pos_of_pos a (α * k)
  have p2 := rpow_pos_of_pos hw ((1 - α) * k)
  have p3 := rpow_pos_of_pos b ((1 - α) * k)
  field_simp

/-- Negative moments of Kanter's variate. -/
theorem stable_moment (k : ℕ) :
    ∫⁻ x, ENNReal.ofReal (x ^ (-(α * k))) ∂(stableLaw α)
      = ENNReal.ofReal (k.factorial * (Gamma (1 + α * k))⁻¹) := by
  have hf : Measurable fun x : ℝ => ENNReal.ofReal (x ^ (-(α * k))) := by fun_prop
  unfold stableLaw
  rw [lintegral_map hf (measurable_kanter α)]
  have hg : Measurable fun v : ℝ => ENNReal.ofReal (kSig α (π * v) ^ k * kRho α (π * v) ^ (-(α * k))) := by
    have hr : Measurable (kRho α) := by
      unfold kRho
      have := continuous_sinc.measurable
      fun_prop
    unfold kSig
    fun_prop
  have hw : Measurable fun w : ℝ => ENNReal.ofReal (w ^ ((1 - α) * k)) := by fun_prop
  have e : ∀ᵐ p ∂frailSpace, ENNReal.ofReal (kanter α p.1 p.2 ^ (-(α * k)))
      = ENNReal.ofReal (kSig α (π * p.1) ^ k * kRho α (π * p.1) ^ (-(α * k)))
        * ENNReal.ofReal (p.2 ^ ((1 - α) * k)) := by
    filter_upwards [frailSpace_ae] with p hp
    rw [kanter_pow h0 h1 hp.1 hp.2, ENNReal.ofReal_mul]
    exact kInt_nonneg h0 h1 (mul_pos pi_pos hp.1.1) (by nlinarith [pi_pos, hp.1.2]) k
  rw [lintegral_congr_ae e]
  unfold frailSpace
  rw [lintegral_prod_mul hg.aemeasurable hw.aemeasurable,
    exp_moment (mul_nonneg (by linarith) (Nat.cast_nonneg k))]
  have hI : ∫⁻ v in Ioo (0 : ℝ) 1, ENNReal.ofReal (kSig α (π * v) ^ k * kRho α (π * v) ^ (-(α * k)))
      = ENNReal.ofReal (k.factorial * ((Gamma (1 + α * k))⁻¹ * (Gamma (1 + (1 - α) * k))⁻¹)) := by
    have hint : IntervalIntegrable (fun u => kSig α u ^ k * kRho α u ^ (-(α * k))) volume 0 π :=
      (intervalIntegrable_iff_integrableOn_Ioc_of_le pi_pos.le).mpr (kInt_integrable h0 h1 k)
    have hint' : IntervalIntegrable (fun v => kSig α (π * v) ^ k * kRho α (π * v) ^ (-(α * k))) volume 0 1 := by
      have := hint.comp_mul_left (c := π)
      simpa [pi_ne_zero] using this
    rw [intervalIntegrable_iff_integrableOn_Ioc_of_le zero_le_one] at hint'
    rw [setLIntegral_congr Ioo_ae_eq_Ioc, ← ofReal_integral_eq_lintegral_ofReal hint']
    · congr 1
      rw [← intervalIntegral.integral_of_le zero_le_one,
        intervalIntegral.integral_comp_mul_left (fun u => kSig α u ^ k * kRho α u ^ (-(α * k))) pi_ne_zero,
        mul_zero, mul_one, kInt_value h0 h1 k, smul_eq_mul]
      have := pi_ne_zero
      field_simp
    · rw [EventuallyLE, ae_restrict_iff' measurableSet_Ioc]
      filter_upwards [Measure.ae_ne volume (1 : ℝ)] with v hv1 hv
      exact kInt_nonneg h0 h1 (mul_pos pi_pos hv.1)
        (by nlinarith [pi_pos, lt_of_le_of_ne hv.2 hv1]) k
  rw [hI, ← ENNReal.ofReal_mul]
  · congr 1
    have : 0 < Gamma (1 + (1 - α) * k) := by
      refine Gamma_pos_of_pos ?_
      have := mul_nonneg (by linarith : (0 : ℝ) ≤ 1 - α) (Nat.cast_nonneg (α := ℝ) k)
      linarith
    rw [mul_assoc, mul_assoc, inv_mul_cancel₀ this.ne', mul_one]
  · have p1 : 0 < Gamma (1 + (1 - α) * k) := by
      refine Gamma_pos_of_pos ?_
      have := mul_nonneg (by linarith : (0 : ℝ) ≤ 1 - α) (Nat.cast_nonneg (α := ℝ) k)
      linarith
    have p2 : 0 < Gamma (1 + α * k) := Gamma_pos_of_pos (by positivity)
    positivity

/-- `(e / x) ^ α` is standard exponential. -/
theorem ratio_law : ((stableLaw α).prod (expMeasure 1)).map (fun p => (p.2 / p.1) ^ α) = expMeasure 1 := by
  have hT : Measurable fun p : ℝ × ℝ => (p.2 / p.1) ^ α := by fun_prop
  have hae : ∀ᵐ p ∂((stableLaw α).prod (expMeasure 1)), 0 < p.1 ∧ 0 < p.2 :=
    (Measure.quasiMeasurePreserving_fst.ae (stableLaw_pos h0 h1)).and
      (Measure.quasiMeasurePreserving_snd.ae exp_pos_ae)
  have : IsProbabilityMeasure (((stableLaw α).prod (expMeasure 1)).map (fun p => (p.2 / p.1) ^ α)) :=
    Measure.isProbabilityMeasure_map hT.aemeasurable
  refine eq_of_factorial ?_ ?_ ?_ ?_
  · rw [ae_map_iff hT.aemeasurable measurableSet_Ici]
    filter_upwards [hae] with p hp
    have := hp.1
    have := hp.2
    positivity
  · exact exp_pos_ae.mono fun x hx => hx.le
  · intro k
    have hk : Measurable fun x : ℝ => ENNReal.ofReal (x ^ k) := by fun_prop
    rw [lintegral_map hk hT]
    have e : ∀ᵐ p ∂((stableLaw α).prod (expMeasure 1)), ENNReal.ofReal (((p.2 / p.1) ^ α) ^ k)
        = ENNReal.ofReal (p.1 ^ (-(α * k))) * ENNReal.ofReal (p.2 ^ (α * k)) := by
      filter_upwards [hae] with p hp
      rw [← ENNReal.ofReal_mul (rpow_nonneg hp.1.le _), ← rpow_natCast, ← rpow_mul (div_nonneg hp.2.le hp.1.le),
        div_rpow hp.2.le hp.1.le, rpow_neg hp.1.le]
      congr 1
      ring
    have m1 : Measurable fun x : ℝ => ENNReal.ofReal (x ^ (-(α * k))) := by fun_prop
    have m2 : Measurable fun x : ℝ => ENNReal.ofReal (x ^ (α * k)) := by fun_prop
    rw [lintegral_congr_ae e, lintegral_prod_mul m1.aemeasurable m2.aemeasurable, stable_moment h0 h1,
      exp_moment (by positivity)]
    have p2 : 0 < Gamma (1 + α * k) := Gamma_pos_of_pos (by positivity)
    rw [← ENNReal.ofReal_mul (by positivity)]
    congr 1
    field_simp
  · intro k
    have := exp_moment (Nat.cast_nonneg (α := ℝ) k)
    simp only [rpow_natCast] at this
    rw [this, add_comm, Real.Gamma_nat_eq_factorial]

/-- The Laplace transform of Kanter's variate. -/
theorem stable_laplace {s : ℝ} (hs : 0 ≤ s) :
    ∫⁻ x, ENNReal.ofReal (Real.exp (-(x * s))) ∂(stableLaw α) = ENNReal.ofReal (Real.exp (-(s ^ α))) := by
  have hT : Measurable fun p : ℝ × ℝ => (p.2 / p.1) ^ α := by fun_prop
  have hset : MeasurableSet {p : ℝ × ℝ | p.1 * s < p.2} := measurableSet_lt (by fun_prop) (by fun_prop)
  have hA : ((stableLaw α).prod (expMeasure 1)) {p | p.1 * s < p.2}
      = ∫⁻ x, ENNReal.ofReal (Real.exp (-(x * s))) ∂(stableLaw α) := by
    rw [Measure.prod_apply hset]
    refine lintegral_congr_ae ?_
    filter_upwards [stableLaw_pos h0 h1] with x hx
    have : Prod.mk x ⁻¹' {p : ℝ × ℝ | p.1 * s < p.2} = Ioi (x * s) := rfl
    rw [this, exp_tail (mul_nonneg hx.le hs)]
  have hB := congrArg (fun m : Measure ℝ => m (Ioi (s ^ α))) (ratio_law h0 h1)
  rw [Measure.map_apply hT measurableSet_Ioi] at hB
  rw [← hA, ← exp_tail (rpow_nonneg hs α), ← hB]
  refine measure_congr ?_
  have hae : ∀ᵐ p ∂((stableLaw α).prod (expMeasure 1)), 0 < p.1 ∧ 0 < p.2 :=
    (Measure.quasiMeasurePreserving_fst.ae (stableLaw_pos h0 h1)).and
      (Measure.quasiMeasurePreserving_snd.ae exp_pos_ae)
  filter_upwards [hae] with p hp
  refine propext ?_
  change p.1 * s < p.2 ↔ s ^ α < (p.2 / p.1) ^ α
  rw [rpow_lt_rpow_iff hs (div_nonneg hp.2.le hp.1.le) h0, lt_div_iff₀ hp.1, mul_comm]

end

end Copulae
