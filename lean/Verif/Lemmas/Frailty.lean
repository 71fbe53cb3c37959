import Mathlib.Probability.Distributions.Gamma
import Mathlib.MeasureTheory.Constructions.Pi
import Verif.Lemmas.Sampler

/-!
Frailty sampling (Marshall and Olkin): with a frailty whose Laplace transform is the generator, the
coordinates `ψ (-log r / frailty)` are distributed as the Archimedean copula.
-/

namespace Copulae

open MeasureTheory Set ProbabilityTheory

theorem frailty_distribution {d : ℕ} (μ : Measure ℝ) [SFinite μ] (hpos : ∀ᵐ x ∂μ, 0 < x)
    {ψ : ℝ → ℝ} (hL : ∀ s, 0 ≤ s → ∫⁻ x, ENNReal.ofReal (Real.exp (-(x * s))) ∂μ = ENNReal.ofReal (ψ s))
    {U : ℝ → ℝ} (hUm : Measurable U) {b φ : Fin d → ℝ} (hφ : ∀ j, 0 ≤ φ j)
    (hU : ∀ j t, 0 < t → (U t ≤ b j ↔ φ j ≤ t)) :
    (μ.prod (volume : Measure (Fin d → ℝ)))
      {p | (∀ j, p.2 j ∈ Ioo (0 : ℝ) 1) ∧ ∀ j, U (-Real.log (p.2 j) / p.1) ≤ b j}
      = ENNReal.ofReal (ψ (∑ j, φ j)) := by
  set S := {p : ℝ × (Fin d → ℝ) |
    (∀ j, p.2 j ∈ Ioo (0 : ℝ) 1) ∧ ∀ j, U (-Real.log (p.2 j) / p.1) ≤ b j} with hSdef
  have hS : MeasurableSet S := by
    have e : S = ⋂ j, {p : ℝ × (Fin d → ℝ) | p.2 j ∈ Ioo (0 : ℝ) 1 ∧
        U (-Real.log (p.2 j) / p.1) ≤ b j} := by
      ext p
      simp only [hSdef, mem_ofPred_eq, mem_iInter]
      exact forall_and.symm
    rw [e]
    refine MeasurableSet.iInter fun j => ?_
    have m1 : Measurable fun p : ℝ × (Fin d → ℝ) => p.2 j := by fun_prop
    have m2 : Measurable fun p : ℝ × (Fin d → ℝ) => U (-Real.log (p.2 j) / p.1) := by fun_prop
    exact (m1 measurableSet_Ioo).inter (m2 measurableSet_Iic)
  rw [Measure.prod_apply hS, ← hL _ (Finset.sum_nonneg fun j _ => hφ j)]
  refine lintegral_congr_ae ?_
  filter_upwards [hpos] with x hx
  have e : Prod.mk x ⁻¹' S =
      Set.pi univ fun j => {w | w ∈ Ioo (0 : ℝ) 1 ∧ U (-Real.log w / x) ≤ b j} := by
    ext r
    simp only [hSdef, mem_preimage, mem_ofPred_eq, mem_pi, mem_univ, true_imp_iff]
    exact forall_and.symm
  rw [e, volume_pi_pi]
  have : ∀ j, volume {w | w ∈ Ioo (0 : ℝ) 1 ∧ U (-Real.log w / x) ≤ b j}
      = ENNReal.ofReal (Real.exp (-(x * φ j))) := by
    intro j
    refine volume_section_le (Real.exp_le_one_iff.mpr ?_) _ fun w hw => ?_
    · have := mul_nonneg hx.le (hφ j)
      linarith
    · have hl := Real.log_neg hw.1 hw.2
      rw [hU j _ (div_pos (by linarith) hx), le_div_iff₀ hx, ← Real.log_le_iff_le_exp hw.1]
      constructor <;> intro h <;> linarith
  simp only [this]
  rw [← ENNReal.ofReal_prod_of_nonneg fun j _ => (Real.exp_pos _).le, ← Real.exp_sum,
    Finset.sum_neg_distrib, Finset.mul_sum]

theorem measurable_gammaPDF' (a r : ℝ) : Measurable (gammaPDF a r) :=
  (measurable_gammaPDFReal a r).ennreal_ofReal

/-- Laplace transform of the standard gamma distribution. -/
theorem gamma_laplace {a s : ℝ} (ha : 0 < a) (hs : 0 ≤ s) :
    ∫⁻ x, ENNReal.ofReal (Real.exp (-(x * s))) ∂(gammaMeasure a 1)
      = ENNReal.ofReal ((1 + s) ^ (-a)) := by
  have h1 : 0 < 1 + s := by linarith
  rw [gammaMeasure, lintegral_withDensity_eq_lintegral_mul _ (measurable_gammaPDF' _ _) (by fun_prop)]
  have : ∀ x, (gammaPDF a 1 * fun x => ENNReal.ofReal (Real.exp (-(x * s)))) x
      = ENNReal.ofReal ((1 + s) ^ (-a)) * gammaPDF a (1 + s) x := by
    intro x
    simp only [Pi.mul_apply, gammaPDF, gammaPDFReal]
    by_cases hx : 0 ≤ x
    · rw [if_pos hx, if_pos hx, ← ENNReal.ofReal_mul' (Real.exp_pos _).le, ← ENNReal.ofReal_mul
        (Real.rpow_nonneg h1.le _)]
      congr 1
      rw [Real.one_rpow, one_mul, Real.rpow_neg h1.le, show -((1 + s) * x) = -x + -(x * s) by ring,
        Real.exp_add]
      have := Real.rpow_pos_of_pos h1 a
      field_simp
    · rw [if_neg hx, if_neg hx]
      simp
  simp only [this]
  rw [lintegral_const_mul _ (measurable_gammaPDF' _ _), lintegral_gammaPDF_eq_one ha h1, mul_one]

theorem gamma_pos {a : ℝ} : ∀ᵐ x ∂(gammaMeasure a 1), 0 < x := by
  rw [ae_iff, gammaMeasure, withDensity_apply]
  · have e : {x : ℝ | ¬ 0 < x} = Iic 0 := by ext x; simp
    rw [e, setLIntegral_congr Iio_ae_eq_Iic.symm]
    refine setLIntegral_eq_zero measurableSet_Iio fun x hx => ?_
    rw [gammaPDF, gammaPDFReal, if_neg (not_le.mpr hx)]
    simp
  · have e : {x : ℝ | ¬ 0 < x} = Iic 0 := by ext x; simp
    rw [e]
    exact measurableSet_Iic

end Copulae
