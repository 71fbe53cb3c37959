import Mathlib.Probability.Distributions.Cauchy
import Verif.Lemmas.StableOneLaw
import Verif.Props.StablePdfOne

/-!
C131: with index one, `skew_stable.rvs` draws from the stable law with the given skewness. It does not: the variates
follow the Cauchy law whatever the skewness.
-/

namespace Copulae

open MeasureTheory Set ProbabilityTheory Real

theorem tanpi2_one : tanpi2 1 = .fin tanHalfPi := by
  rw [tanpi2, if_pos (by rw [one_mul, cos_pi_div_two])]

/-- The formula for the variates, at index one. -/
theorem stableZ_one (β : ℝ) {v w : ℝ} (hv : v ∈ Ioo (0 : ℝ) 1) (hw : 0 < w) :
    stableZ 1 β v w = .fin (tan (π * (v - 0.5))) := by
  have hp := pi_pos
  have hθ : π * (v - 0.5) ∈ Ioo (-(π / 2)) (π / 2) := ⟨by nlinarith [hv.1], by nlinarith [hv.2]⟩
  have hcos := cos_pos_of_mem_Ioo hθ
  obtain ⟨b, hb⟩ : ∃ b, b = β * tanHalfPi := ⟨_, rfl⟩
  have hlt := arctan_lt_pi_div_two b
  have hgt := neg_pi_div_two_lt_arctan b
  have ht0 : Fl.pyMin (Fl.pyMax (.fin (-(π / 2))) (.fin (arctan b))) (.fin (π / 2)) = .fin (arctan b) := by
    rw [Fl.pyMax, if_pos (by rw [Fl.fin_lt_fin]; exact hgt), Fl.pyMin, Fl.fin_lt_fin, if_neg (not_lt.mpr hlt.le)]
  have hc1 : 0 < 1 + b * b := by nlinarith [mul_self_nonneg b]
  have hz : ((1 : ℝ) - 1) / 1 = 0 := by norm_num
  have hpow : ∀ a : ℝ, Fl.fin a ^ Fl.fin 0 = .fin 1 := fun a => if_pos rfl
  unfold stableZ
  simp only [tanpi2_one, Fl.fin_mul_fin, ← hb, arctan_fin, Fl.fin_div_fin' _ one_ne_zero, div_one, ht0, Fl.fin_add_fin,
    Fl.cos, Fl.sin, Fl.fin_sub_fin, Fl.fin_div_fin' _ hw.ne', sub_self, hpow, Fl.pow_pos hcos, Fl.pow_pos hc1, one_mul,
    mul_one]
  congr 1
  have hs : √(1 + b ^ 2) ≠ 0 := (sqrt_pos.mpr (by positivity)).ne'
  rw [rpow_neg_one, show 1 + b * b = 1 + b ^ 2 by ring, ← sqrt_eq_rpow, sin_add, sin_arctan, cos_arctan,
    tan_eq_sin_div_cos]
  field_simp
  ring

/-- The tangent of a uniform angle, scaled and shifted, has the Cauchy law. -/
theorem tan_law {γ : ℝ} (hγ : 0 < γ) (d : ℝ) :
    frailSpace.map (fun p => tan (π * (p.1 - 0.5)) * γ + d) = cauchyMeasure d γ.toNNReal := by
  have hp := pi_pos
  have hg0 : γ.toNNReal ≠ 0 := by
    have := Real.toNNReal_pos.mpr hγ
    exact this.ne'
  have htan : Measurable tan := by
    rw [show tan = fun x => sin x / cos x from funext tan_eq_sin_div_cos]
    fun_prop
  have hm : Measurable fun p : ℝ × ℝ => tan (π * (p.1 - 0.5)) * γ + d := by fun_prop
  rw [cauchyMeasure_of_scale_ne_zero _ hg0]
  ext A hA
  have hg : Measurable (A.indicator (fun _ => (1 : ENNReal))) := measurable_const.indicator hA
  have hgm : Measurable fun p : ℝ × ℝ => A.indicator (fun _ => (1 : ENNReal)) (tan (π * (p.1 - 0.5)) * γ + d) :=
    hg.comp hm
  have e1 : ∫⁻ p, A.indicator (fun _ => (1 : ENNReal)) (tan (π * (p.1 - 0.5)) * γ + d) ∂frailSpace =
      frailSpace ((fun p : ℝ × ℝ => tan (π * (p.1 - 0.5)) * γ + d) ⁻¹' A) := by
    rw [← lintegral_indicator_one (hm hA)]
    rfl
  have := isProbabilityMeasure_expMeasure one_pos
  rw [Measure.map_apply hm hA, withDensity_apply _ hA, ← e1, frailSpace, lintegral_prod _ hgm.aemeasurable]
  simp only [lintegral_const, measure_univ, mul_one]
  rw [lintegral_angle (fun θ => A.indicator (fun _ => (1 : ENNReal)) (tan θ * γ + d))]
  have key := lintegral_image_eq_lintegral_abs_deriv_mul (s := univ) (f := fun x => arctan ((x - d) / γ))
    (f' := fun x => 1 / (1 + ((x - d) / γ) ^ 2) * (1 / γ)) MeasurableSet.univ
    (fun x _ => ((((hasDerivAt_id x).sub_const d).div_const γ).arctan).hasDerivWithinAt)
    (fun x _ y _ e => by
      have : (x - d) / γ = (y - d) / γ := arctan_injective e
      field_simp at this
      linarith)
    (fun θ => A.indicator (fun _ => (1 : ENNReal)) (tan θ * γ + d))
  have himg : (fun x : ℝ => arctan ((x - d) / γ)) '' univ = Ioo (-(π / 2)) (π / 2) := by
    ext θ
    constructor
    · rintro ⟨x, -, rfl⟩
      exact ⟨neg_pi_div_two_lt_arctan _, arctan_lt_pi_div_two _⟩
    · intro hθ
      refine ⟨tan θ * γ + d, mem_univ _, ?_⟩
      simp only []
      rw [add_sub_cancel_right, mul_div_cancel_right₀ _ hγ.ne', arctan_tan hθ.1 hθ.2]
  rw [himg, setLIntegral_univ] at key
  rw [key, ← lintegral_const_mul' _ _ ENNReal.ofReal_ne_top, ← lintegral_indicator hA]
  refine lintegral_congr fun x => ?_
  rw [tan_arctan, div_mul_cancel₀ _ hγ.ne', sub_add_cancel, ← mul_assoc, ← ENNReal.ofReal_mul (by positivity)]
  by_cases hx : x ∈ A
  · rw [indicator_of_mem hx, indicator_of_mem hx, mul_one, cauchyPDF, cauchyPDFReal, Real.coe_toNNReal _ hγ.le]
    congr 1
    rw [abs_of_pos (by positivity)]
    have : (x - d) ^ 2 + γ ^ 2 ≠ 0 := by positivity
    field_simp
    ring
  · rw [indicator_of_notMem hx, indicator_of_notMem hx, mul_zero]

/-- **C131** What `rvs` draws with index one: finite numbers that follow the Cauchy law, for every skewness. Missing: the
skewness (`stable_rvs_one_violation`). -/
theorem stable_rvs_one_partial {β γ δ : ℝ} (hβ : |β| ≤ 1) (hc : 1 / 10 ^ 8 < |β|) (hγ : 0 < γ) {pm : ℤ}
    (hpm : pm = 0 ∨ pm = 1) (mode : ℝ → ℝ → Except PyErr Fl) :
    ∃ X : ℝ × ℝ → ℝ, Measurable X ∧
      frailSpace.map X = cauchyMeasure (Spec.stableLocOne β γ δ pm) γ.toNNReal ∧
      ∀ (n : ℕ) (ca v w : Fin n → ℝ), (∀ i, v i ∈ Ioo (0 : ℝ) 1) → (∀ i, 0 < w i) →
        stableRvs mode 1 β (.fin γ) (.fin δ) pm ca v w = .ok fun i => .fin (X (v i, w i)) := by
  have htan : Measurable tan := by
    rw [show tan = fun x => sin x / cos x from funext tan_eq_sin_div_cos]
    fun_prop
  refine ⟨fun p => tan (π * (p.1 - 0.5)) * γ + Spec.stableLocOne β γ δ pm, by fun_prop, tan_law hγ _,
    fun n ca v w hv hw => ?_⟩
  unfold stableRvs
  rw [stableCheck_ok (by norm_num) (by norm_num) hβ (by simpa using hγ.le) (by omega), stableParam_one hγ hpm]
  simp only [bind, Except.bind, pure, Except.pure]
  rw [if_neg (fun h => by linarith [h.2])]
  refine congrArg Except.ok (funext fun i => ?_)
  rw [stableZ_one β (hv i) (hw i)]
  rfl

example (mode : ℝ → ℝ → Except PyErr Fl) := stable_rvs_one_partial (β := 1 / 2) (γ := 2) (δ := 3) (by norm_num [abs_le])
  (by norm_num [abs_of_pos]) (by norm_num) (pm := 1) (.inr rfl) mode

/-! ## The skewed law is another one -/

/-- The variates of the law with skewness one are hardly ever below minus four. -/
theorem stableVOne_big {θ : ℝ} (hθ : θ ∈ Ioo (-(π / 2)) (π / 2)) {x : ℝ} (hx : x ≤ -4) :
    90 < Spec.stableVOne 1 x θ := by
  have hp := pi_pos
  have hp3 := pi_gt_d2
  have hp4 := pi_lt_d2
  norm_num at hp3 hp4
  obtain ⟨y, hy⟩ : ∃ y, y = π / 2 + θ := ⟨_, rfl⟩
  have hy0 : 0 < y := by linarith [hθ.1]
  have hy1 : y < π := by linarith [hθ.2]
  have hth : θ = y - π / 2 := by linarith
  have hs : 0 < sin y := sin_pos_of_pos_of_lt_pi hy0 hy1
  have hcos : cos θ = sin y := by rw [hth, cos_sub_pi_div_two]
  have hsin : sin θ = -cos y := by rw [hth, sin_sub_pi_div_two]
  have h1 : 1 ≤ y / sin y := by rw [one_le_div hs]; exact (sin_lt hy0).le
  have h2 : y * cos y ≤ sin y := by
    rcases lt_or_ge y (π / 2) with h | h
    · have hc : 0 < cos y := cos_pos_of_mem_Ioo ⟨by linarith, h⟩
      have := lt_tan hy0 h
      rw [tan_eq_sin_div_cos, lt_div_iff₀ hc] at this
      exact this.le
    · have hc : cos y ≤ 0 := cos_nonpos_of_pi_div_two_le_of_le h (by linarith)
      nlinarith
  have h3 : -1 ≤ y / 1 * tan θ := by
    rw [tan_eq_sin_div_cos, hcos, hsin, div_one, ← mul_div_assoc, le_div_iff₀ hs]
    linarith
  have h4 : 5 ≤ y / 1 * tan θ - π * x / (2 * 1) := by nlinarith
  have h5 : 143 ≤ exp (y / 1 * tan θ - π * x / (2 * 1)) := by
    refine le_trans ?_ (exp_le_exp.mpr h4)
    have e : exp 5 = exp 1 ^ 5 := by rw [← exp_nat_mul]; norm_num
    rw [e]
    have := exp_one_gt_d9
    calc (143 : ℝ) ≤ 2.7182818283 ^ 5 := by norm_num
      _ ≤ _ := pow_le_pow_left₀ (by norm_num) this.le 5
  have h6 : 63 / 100 < 2 / π := by rw [lt_div_iff₀ hp]; linarith
  rw [Spec.stableVOne, one_mul, ← hy, hcos]
  calc (90 : ℝ) < 63 / 100 * 1 * 143 := by norm_num
    _ ≤ _ := mul_le_mul (mul_le_mul h6.le h1 zero_le_one (by positivity)) h5 (by norm_num) (by positivity)

/-- **C131 violated** With index one and skewness one the law of the variates of `rvs` is not the stable law. -/
theorem stable_rvs_one_violation (mode : ℝ → ℝ → Except PyErr Fl) :
    ∃ X : ℝ × ℝ → ℝ, Measurable X ∧
      frailSpace.map X ≠ volume.withDensity (fun x => ENNReal.ofReal (Spec.stableDensityOne 1 x)) ∧
      ∀ (n : ℕ) (ca v w : Fin n → ℝ), (∀ i, v i ∈ Ioo (0 : ℝ) 1) → (∀ i, 0 < w i) →
        stableRvs mode 1 1 (.fin 1) (.fin 0) 0 ca v w = .ok fun i => .fin (X (v i, w i)) := by
  obtain ⟨X, hX, hl, hr⟩ := stable_rvs_one_partial (β := 1) (γ := 1) (δ := 0) (pm := 0) (by norm_num) (by norm_num)
    one_pos (Or.inl rfl) mode
  refine ⟨X, hX, ?_, hr⟩
  have hp := pi_pos
  have hloc : Spec.stableLocOne 1 1 0 0 = 0 := by simp [Spec.stableLocOne]
  rw [hl, hloc, ← tan_law one_pos 0, ← cmsOne_law one_ne_zero (by norm_num)]
  intro h
  have htan : Measurable tan := by
    rw [show tan = fun x => sin x / cos x from funext tan_eq_sin_div_cos]
    fun_prop
  have hm : Measurable fun p : ℝ × ℝ => tan (π * (p.1 - 0.5)) * 1 + 0 := by fun_prop
  have hm2 : Measurable fun p : ℝ × ℝ => cmsOne 1 (π * (p.1 - 0.5)) p.2 :=
    measurable_cmsOne.comp (f := fun p : ℝ × ℝ => (π * (p.1 - 0.5), p.2)) (by fun_prop)
  have hA := congrArg (fun μ => μ (Iic (-4 : ℝ))) h
  rw [Measure.map_apply hm measurableSet_Iic, Measure.map_apply hm2 measurableSet_Iic] at hA
  have := isProbabilityMeasure_expMeasure one_pos
  have lo : ENNReal.ofReal (1 / 20) ≤
      frailSpace ((fun p : ℝ × ℝ => tan (π * (p.1 - 0.5)) * 1 + 0) ⁻¹' Iic (-4)) := by
    have hsub : Ioo (0 : ℝ) (1 / 20) ×ˢ (univ : Set ℝ) ⊆ (fun p : ℝ × ℝ => tan (π * (p.1 - 0.5)) * 1 + 0) ⁻¹' Iic (-4) := by
      rintro ⟨v, w⟩ ⟨hv, -⟩
      have hv0 : 0 < v := hv.1
      have hv1 : v < 1 / 20 := hv.2
      simp only [mem_preimage, mem_Iic, mul_one, add_zero]
      have e : π * (v - 0.5) = -(π / 2 - π * v) := by ring
      have hx0 : 0 < π * v := by positivity
      have hx1 : π * v < 16 / 100 := by
        have := pi_lt_d2
        norm_num at this
        nlinarith
      rw [e, tan_neg, tan_pi_div_two_sub, tan_eq_sin_div_cos, inv_div, neg_le_neg_iff,
        le_div_iff₀ (sin_pos_of_pos_of_lt_pi hx0 (by nlinarith))]
      have h1 := sin_le hx0.le
      have h2 := one_sub_sq_div_two_le_cos (x := π * v)
      nlinarith
    refine le_trans (le_of_eq ?_) (measure_mono hsub)
    rw [frailSpace, Measure.prod_prod, measure_univ, mul_one, Measure.restrict_apply measurableSet_Ioo,
      Ioo_inter_Ioo, max_self, min_eq_left (by norm_num), Real.volume_Ioo, sub_zero]
  have hi : frailSpace ((fun p : ℝ × ℝ => cmsOne 1 (π * (p.1 - 0.5)) p.2) ⁻¹' Iic (-4)) ≤
      ENNReal.ofReal (exp (-90)) := by
    have hsub : frailSpace ((fun p : ℝ × ℝ => cmsOne 1 (π * (p.1 - 0.5)) p.2) ⁻¹' Iic (-4)) ≤
        frailSpace (univ ×ˢ Ioi (90 : ℝ)) := by
      refine measure_mono_ae ?_
      filter_upwards [frailSpace_ae] with p hp' hle
      have hv := hp'.1
      have hw : 0 < p.2 := hp'.2
      have hθ : π * (p.1 - 0.5) ∈ Ioo (-(π / 2)) (π / 2) := ⟨by nlinarith [hv.1], by nlinarith [hv.2]⟩
      have := stableVOne_big hθ hle
      rw [stableVOne_inv one_ne_zero (by norm_num) hθ hw] at this
      exact ⟨mem_univ _, this⟩
    refine hsub.trans (le_of_eq ?_)
    rw [frailSpace, Measure.prod_prod, exp_tail (by norm_num)]
    simp
  rw [hA] at lo
  have hfin := lo.trans hi
  rw [ENNReal.ofReal_le_ofReal_iff (exp_pos _).le, exp_neg, ← one_div] at hfin
  have : (91 : ℝ) ≤ exp 90 := by linarith [add_one_le_exp (90 : ℝ)]
  have := one_div_le_one_div_of_le (by norm_num) this
  norm_num at this hfin
  linarith

end Copulae
