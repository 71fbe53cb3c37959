import Mathlib.MeasureTheory.Integral.Pi
import Mathlib.MeasureTheory.Function.L2Space
import Mathlib.Probability.Moments.Variance
import Verif.Spec.Sampling
import Verif.Spec.IsCopula

/-!
Likelihood ratios of independent observations: by Markov's inequality for the square root of the ratio, the likelihood of a wrong law is
as large as that of the true one with a probability that vanishes exponentially fast.
-/

namespace Copulae

open MeasureTheory ProbabilityTheory Set Spec

variable {X : Type} [MeasurableSpace X]

/-- Products of a function over independent observations are small with high probability. -/
theorem iid_prod_tail {P : Measure X} [IsProbabilityMeasure P] {h : X → ℝ} (h0 : ∀ x, 0 ≤ h x) (hi : Integrable h P) (n : ℕ) {t : ℝ}
    (ht : 0 < t) : iid n P {x | t ≤ ∏ i, h (x i)} ≤ ENNReal.ofReal ((∫ x, h x ∂P) ^ n / t) := by
  have : IsProbabilityMeasure (iid n P) := by unfold iid; infer_instance
  have hint : Integrable (fun x : Fin n → X => ∏ i, h (x i)) (iid n P) := Integrable.fintype_prod (f := fun _ => h) fun _ => hi
  have hm := mul_meas_ge_le_integral_of_nonneg (μ := iid n P) (ae_of_all _ fun x => Finset.prod_nonneg fun i _ => h0 (x i)) hint t
  have he : ∫ x, ∏ i, h (x i) ∂(iid n P) = (∫ x, h x ∂P) ^ n := by
    have := integral_fintype_prod_eq_pow (ι := Fin n) h (μ := P)
    rw [Fintype.card_fin] at this
    exact this
  rw [he] at hm
  rw [← ofReal_measureReal]
  refine ENNReal.ofReal_le_ofReal ?_
  rw [le_div_iff₀ ht, mul_comm]
  exact hm

/-- The law has the density `g` with respect to `ν`. -/
structure DensityOf (ν P : Measure X) (g : X → ℝ) : Prop where
  meas : AEMeasurable g ν
  nonneg : ∀ᵐ x ∂ν, 0 ≤ g x
  eq : P = ν.withDensity fun x => ENNReal.ofReal (g x)

variable {ν P P' : Measure X} {g g' : X → ℝ}

theorem DensityOf.ac (h : DensityOf ν P g) : P ≪ ν := h.eq ▸ withDensity_absolutelyContinuous _ _

theorem DensityOf.pos (h : DensityOf ν P g) : ∀ᵐ x ∂P, 0 < g x := by
  rw [h.eq, ae_withDensity_iff' h.meas.ennreal_ofReal]
  exact ae_of_all _ fun x hx => ENNReal.ofReal_pos.mp (pos_iff_ne_zero.mpr hx)

theorem DensityOf.lintegral (h : DensityOf ν P g) {f : X → ENNReal} (hf : AEMeasurable f ν) :
    ∫⁻ x, f x ∂P = ∫⁻ x, ENNReal.ofReal (g x) * f x ∂ν := by
  rw [h.eq, lintegral_withDensity_eq_lintegral_mul₀ h.meas.ennreal_ofReal hf]
  rfl

/-- The square root of the ratio of the densities. -/
noncomputable def rootRatio (g g' : X → ℝ) (x : X) : ℝ := √(g' x / g x)

omit [MeasurableSpace X] in
theorem rootRatio_nonneg (g g' : X → ℝ) (x : X) : 0 ≤ rootRatio g g' x := Real.sqrt_nonneg _

theorem rootRatio_meas (h : DensityOf ν P g) (h' : DensityOf ν P' g') : AEMeasurable (rootRatio g g') ν :=
  (h'.meas.div h.meas).sqrt

theorem rootRatio_sq_le (h : DensityOf ν P g) (h' : DensityOf ν P' g') [IsProbabilityMeasure P'] :
    ∫⁻ x, ENNReal.ofReal (rootRatio g g' x ^ 2) ∂P ≤ 1 := by
  rw [h.lintegral ((rootRatio_meas h h').pow_const 2).ennreal_ofReal, ← measure_univ (μ := P'), h'.eq, withDensity_apply _ MeasurableSet.univ,
    Measure.restrict_univ]
  refine lintegral_mono_ae ?_
  filter_upwards [h.nonneg, h'.nonneg] with x hx hx'
  rw [rootRatio, Real.sq_sqrt (div_nonneg hx' hx), ← ENNReal.ofReal_mul hx]
  refine ENNReal.ofReal_le_ofReal ?_
  rcases eq_or_ne (g x) 0 with h0 | h0
  · rw [h0, zero_mul]; exact hx'
  · rw [mul_div_cancel₀ _ h0]

theorem rootRatio_memLp (h : DensityOf ν P g) (h' : DensityOf ν P' g') [IsProbabilityMeasure P'] : MemLp (rootRatio g g') 2 P := by
  have hm : AEStronglyMeasurable (rootRatio g g') P := ((rootRatio_meas h h').mono_ac h.ac).aestronglyMeasurable
  rw [memLp_two_iff_integrable_sq hm]
  refine ⟨hm.pow 2, ?_⟩
  rw [hasFiniteIntegral_iff_ofReal (ae_of_all _ fun x => sq_nonneg _)]
  exact (rootRatio_sq_le h h').trans_lt ENNReal.one_lt_top

/-- Different laws have an affinity below one. -/
theorem affinity_lt_one (h : DensityOf ν P g) (h' : DensityOf ν P' g') [IsProbabilityMeasure P] [IsProbabilityMeasure P'] (hne : P ≠ P') :
    ∫ x, rootRatio g g' x ∂P < 1 := by
  by_contra hn
  push Not at hn
  have hL := rootRatio_memLp h h'
  have hi : Integrable (rootRatio g g') P := hL.integrable one_le_two
  have hi2 : Integrable (fun x => rootRatio g g' x ^ 2) P := hL.integrable_sq
  have hsq : ∫ x, rootRatio g g' x ^ 2 ∂P ≤ 1 := by
    rw [integral_eq_lintegral_of_nonneg_ae (ae_of_all _ fun x => sq_nonneg _) hi2.aestronglyMeasurable]
    exact ENNReal.toReal_le_of_le_ofReal zero_le_one (by simpa using rootRatio_sq_le h h')
  have he : ∫ x, (rootRatio g g' x - 1) ^ 2 ∂P = ∫ x, rootRatio g g' x ^ 2 ∂P - 2 * ∫ x, rootRatio g g' x ∂P + 1 := by
    have : (fun x => (rootRatio g g' x - 1) ^ 2) = fun x => rootRatio g g' x ^ 2 - 2 * rootRatio g g' x + 1 := by
      funext x; ring
    have hsub : Integrable (fun x => rootRatio g g' x ^ 2 - 2 * rootRatio g g' x) P := hi2.sub (hi.const_mul 2)
    rw [this, integral_add hsub (integrable_const _), integral_sub hi2 (hi.const_mul 2), integral_const_mul]
    simp
  have hz : ∫ x, (rootRatio g g' x - 1) ^ 2 ∂P = 0 := le_antisymm (by rw [he]; linarith) (integral_nonneg fun x => sq_nonneg _)
  have hint : Integrable (fun x => (rootRatio g g' x - 1) ^ 2) P := (hL.sub (memLp_const 1)).integrable_sq
  have hae := (integral_eq_zero_iff_of_nonneg (fun x => sq_nonneg _) hint).mp hz
  have heq : ∀ᵐ x ∂P, g' x = g x := by
    filter_upwards [hae, h.pos, h.ac.ae_le h'.nonneg] with x hx hp hp'
    have h1 : rootRatio g g' x = 1 := by
      have := pow_eq_zero_iff (n := 2) two_ne_zero |>.mp hx
      linarith
    rw [rootRatio, Real.sqrt_eq_one, div_eq_one_iff_eq hp.ne'] at h1
    exact h1
  apply hne
  refine Measure.eq_of_le_of_isProbabilityMeasure ?_
  refine Measure.le_iff.mpr fun s hs => ?_
  have hz : ∀ᵐ x ∂ν, 0 < g x → g' x = g x := by
    have := (ae_withDensity_iff' (p := fun x => g' x = g x) h.meas.ennreal_ofReal).mp (h.eq ▸ heq)
    filter_upwards [this] with x hx hp
    exact hx (ENNReal.ofReal_pos.mpr hp).ne'
  rw [h.eq, h'.eq, withDensity_apply _ hs, withDensity_apply _ hs]
  refine lintegral_mono_ae (ae_restrict_of_ae ?_)
  filter_upwards [hz, h'.nonneg] with x hx hx'
  rcases lt_or_ge 0 (g x) with hp | hp
  · rw [hx hp]
  · rw [ENNReal.ofReal_of_nonpos hp]; exact zero_le

/-- With a high probability the likelihood ratio is exponentially large. -/
theorem likelihood_ratio (h : DensityOf ν P g) (h' : DensityOf ν P' g') [IsProbabilityMeasure P] [IsProbabilityMeasure P'] (hne : P ≠ P') :
    ∃ r κ : ℝ, 0 < r ∧ r < 1 ∧ 0 < κ ∧ ∀ n : ℕ, iid n P {x | ∏ i, rootRatio g g' (x i) ≥ Real.exp (-(κ * n / 2))} ≤ ENNReal.ofReal (r ^ n) := by
  set ρ := ∫ x, rootRatio g g' x ∂P with hρ
  have h1 : ρ < 1 := affinity_lt_one h h' hne
  have h0 : 0 ≤ ρ := integral_nonneg (rootRatio_nonneg g g')
  set r := (1 + ρ) / 2 with hr
  have hr1 : r < 1 := by linarith
  have hr0 : 0 < r := by linarith
  set q := (1 + r) / 2 with hq
  have hq0 : 0 < q := by linarith
  have hq1 : q < 1 := by linarith
  refine ⟨q, 2 * Real.log (q / r), hq0, hq1, mul_pos two_pos (Real.log_pos ((one_lt_div hr0).mpr (by linarith))), fun n => ?_⟩
  refine (iid_prod_tail (rootRatio_nonneg g g') ((rootRatio_memLp h h').integrable one_le_two) n (Real.exp_pos _)).trans
    (ENNReal.ofReal_le_ofReal ?_)
  have e : Real.exp (-(2 * Real.log (q / r) * n / 2)) = (r / q) ^ n := by
    rw [show -(2 * Real.log (q / r) * n / 2) = (n : ℝ) * Real.log (r / q) by
      rw [Real.log_div hr0.ne' hq0.ne', Real.log_div hq0.ne' hr0.ne']; ring, mul_comm, Real.exp_mul, Real.exp_log (div_pos hr0 hq0),
      Real.rpow_natCast]
  rw [e, div_le_iff₀ (pow_pos (div_pos hr0 hq0) n), ← mul_pow, mul_div_cancel₀ _ hq0.ne']
  exact pow_le_pow_left₀ h0 (by linarith) n

end Copulae
