import Mathlib.Analysis.SpecialFunctions.ImproperIntegrals
import Verif.Lemmas.ArchTau
import Verif.Lemmas.CubeLaw
import Verif.Lemmas.Frailty
import Verif.Lemmas.Stable
import Verif.Lemmas.PdfGumbelRow
import Verif.Props.GumbelRandom

/-!
Kendall's tau of the Gumbel copula, computed from its frailty representation.
-/

namespace Copulae

open MeasureTheory Set Filter Topology ProbabilityTheory
open scoped ENNReal

theorem lintegral_unit_rpow {a : ℝ} (ha : 0 ≤ a) :
    ∫⁻ x in Ioo (0 : ℝ) 1, ENNReal.ofReal (x ^ a) = ENNReal.ofReal (1 / (a + 1)) := by
  have hi : IntegrableOn (fun x : ℝ => x ^ a) (Ioo 0 1) := by
    have := intervalIntegral.intervalIntegrable_rpow' (a := 0) (b := 1) (r := a) (by linarith)
    rw [intervalIntegrable_iff_integrableOn_Ioo_of_le zero_le_one] at this
    exact this
  have hnn : 0 ≤ᵐ[volume.restrict (Ioo (0 : ℝ) 1)] fun x : ℝ => x ^ a :=
    (ae_restrict_iff' measurableSet_Ioo).mpr (Eventually.of_forall fun x hx => Real.rpow_nonneg hx.1.le _)
  rw [← ofReal_integral_eq_lintegral_ofReal hi hnn, integral_unit, integral_rpow (Or.inl (by linarith)),
    Real.one_rpow, Real.zero_rpow (by linarith), sub_zero]

theorem lintegral_linear_exp {c : ℝ} (hc : 0 < c) :
    ∫⁻ s in Ioi (0 : ℝ), ENNReal.ofReal (s * Real.exp (-(c * s))) = ENNReal.ofReal (1 / c ^ 2) := by
  have h := lintegral_gammaPDF_eq_one (a := 2) (r := c) two_pos hc
  have e : ∀ x, gammaPDF 2 c x = (Ioi (0 : ℝ)).indicator
      (fun s => ENNReal.ofReal (c ^ 2) * ENNReal.ofReal (s * Real.exp (-(c * s)))) x := by
    intro x
    by_cases hx : 0 < x
    · rw [indicator_of_mem (mem_Ioi.mpr hx), gammaPDF_of_nonneg hx.le, ← ENNReal.ofReal_mul (by positivity)]
      congr 1
      rw [show (2 : ℝ) - 1 = 1 by norm_num, Real.rpow_one, Real.Gamma_two, Real.rpow_two]
      ring
    · rw [indicator_of_notMem (by simpa using hx)]
      rcases (not_lt.mp hx).eq_or_lt with rfl | h0
      · rw [gammaPDF_of_nonneg le_rfl]
        norm_num
      · exact gammaPDF_of_neg h0
  simp only [e] at h
  rw [lintegral_indicator measurableSet_Ioi, lintegral_const_mul _ (by fun_prop)] at h
  have h0 : ENNReal.ofReal (c ^ 2) ≠ 0 := by
    rw [Ne, ENNReal.ofReal_eq_zero]
    have : 0 < c ^ 2 := by positivity
    linarith
  rw [one_div, ENNReal.ofReal_inv_of_pos (by positivity)]
  exact ENNReal.eq_inv_of_mul_eq_one_left (by rw [mul_comm]; exact h)

/-- The mean of the copula at the point sampled from its frailty representation. -/
theorem frailty_mean (μ : Measure ℝ) [IsProbabilityMeasure μ] (hpos : ∀ᵐ x ∂μ, 0 < x)
    {ψ : ℕ → ℝ → ℝ} (h0 : ∀ s, 0 ≤ s → ∫⁻ x, ENNReal.ofReal (Real.exp (-(x * s))) ∂μ = ENNReal.ofReal (ψ 0 s))
    (hψ : ∀ s, 0 ≤ s → 0 ≤ ψ 0 s) (hψd : ∀ k s, 0 < s → HasDerivAt (ψ k) (ψ (k + 1) s) s) :
    ∫⁻ p, ENNReal.ofReal (ψ 0 (∑ j, -Real.log (p.2 j) / p.1))
      ∂(μ.prod ((volume : Measure (Fin 2 → ℝ)).restrict (openCube 2))) =
    ∫⁻ s in Ioi (0 : ℝ), ENNReal.ofReal (s * ψ 2 s * ψ 0 s) := by
  have hψm : ∀ᵐ p ∂(μ.prod ((volume : Measure (Fin 2 → ℝ)).restrict (openCube 2))),
      ENNReal.ofReal (ψ 0 (∑ j, -Real.log (p.2 j) / p.1)) =
        ∫⁻ v', ∏ j, ENNReal.ofReal (p.2 j ^ (v' / p.1)) ∂μ := by
    have a1 : ∀ᵐ p ∂(μ.prod ((volume : Measure (Fin 2 → ℝ)).restrict (openCube 2))), 0 < p.1 :=
      Measure.quasiMeasurePreserving_fst.ae hpos
    have a2 : ∀ᵐ p ∂(μ.prod ((volume : Measure (Fin 2 → ℝ)).restrict (openCube 2))), p.2 ∈ openCube 2 :=
      Measure.quasiMeasurePreserving_snd.ae (ae_restrict_mem (measurableSet_openCube 2))
    filter_upwards [a1, a2] with p hp hr
    rw [← h0 _ (Finset.sum_nonneg fun j _ => div_nonneg (by linarith [Real.log_neg (hr j).1 (hr j).2]) hp.le)]
    refine lintegral_congr fun v' => ?_
    rw [← ENNReal.ofReal_prod_of_nonneg fun j _ => Real.rpow_nonneg (hr j).1.le _]
    congr 1
    simp only [Real.rpow_def_of_pos (hr _).1]
    rw [← Real.exp_sum, Finset.mul_sum, ← Finset.sum_neg_distrib]
    congr 1
    refine Finset.sum_congr rfl fun j _ => ?_
    ring
  rw [lintegral_congr_ae hψm, lintegral_prod _ (by
    refine Measurable.aemeasurable ?_
    refine Measurable.lintegral_prod_right' (f := fun q : (ℝ × (Fin 2 → ℝ)) × ℝ =>
      ∏ j, ENNReal.ofReal (q.1.2 j ^ (q.2 / q.1.1))) ?_
    fun_prop)]
  have step1 : ∀ᵐ v ∂μ, ∫⁻ r in openCube 2, ∫⁻ v', ∏ j, ENNReal.ofReal (r j ^ (v' / v)) ∂μ =
      ∫⁻ v', (∫⁻ s in Ioi (0 : ℝ), ENNReal.ofReal (s * (v ^ 2 * Real.exp (-(v * s)))) *
        ENNReal.ofReal (Real.exp (-(v' * s)))) ∂μ := by
    filter_upwards [hpos] with v hv
    rw [lintegral_lintegral_swap (by
      refine Measurable.aemeasurable ?_
      fun_prop)]
    refine lintegral_congr_ae ?_
    filter_upwards [hpos] with v' hv'
    have hm : ∀ _ : Fin 2, Measurable fun x : ℝ => ENNReal.ofReal (x ^ (v' / v)) := fun _ => by fun_prop
    rw [openCube_eq, volume_pi, Measure.restrict_pi_pi, CopulaMeasure.lintegral_pi_prod _ hm,
      lintegral_unit_rpow (by positivity), Finset.prod_const, Finset.card_univ, Fintype.card_fin]
    have e : ∀ s ∈ Ioi (0 : ℝ), ENNReal.ofReal (s * (v ^ 2 * Real.exp (-(v * s)))) *
        ENNReal.ofReal (Real.exp (-(v' * s))) =
        ENNReal.ofReal (v ^ 2) * ENNReal.ofReal (s * Real.exp (-((v + v') * s))) := by
      intro s hs
      have hs' : 0 < s := hs
      rw [← ENNReal.ofReal_mul (by positivity), ← ENNReal.ofReal_mul (by positivity)]
      congr 1
      rw [show -((v + v') * s) = -(v * s) + -(v' * s) by ring, Real.exp_add]
      ring
    rw [setLIntegral_congr_fun measurableSet_Ioi e, lintegral_const_mul _ (by fun_prop),
      lintegral_linear_exp (by positivity), ← ENNReal.ofReal_mul (by positivity), ← ENNReal.ofReal_pow (by positivity)]
    congr 1
    field_simp
    ring
  rw [lintegral_congr_ae step1]
  have step2 : ∀ v, ∫⁻ v', (∫⁻ s in Ioi (0 : ℝ), ENNReal.ofReal (s * (v ^ 2 * Real.exp (-(v * s)))) *
        ENNReal.ofReal (Real.exp (-(v' * s)))) ∂μ =
      ∫⁻ s in Ioi (0 : ℝ), ENNReal.ofReal (s * (v ^ 2 * Real.exp (-(v * s)))) * ENNReal.ofReal (ψ 0 s) := by
    intro v
    rw [lintegral_lintegral_swap (by
      refine Measurable.aemeasurable ?_
      fun_prop)]
    refine setLIntegral_congr_fun measurableSet_Ioi fun s hs => ?_
    have hs' : 0 < s := hs
    change ∫⁻ v', ENNReal.ofReal (s * (v ^ 2 * Real.exp (-(v * s)))) * ENNReal.ofReal (Real.exp (-(v' * s))) ∂μ = _
    rw [lintegral_const_mul _ (by fun_prop), h0 s hs'.le]
  simp only [step2]
  have hψc : AEMeasurable (fun s => ENNReal.ofReal (ψ 0 s)) (volume.restrict (Ioi (0 : ℝ))) := by
    refine AEMeasurable.ennreal_ofReal ?_
    refine ContinuousOn.aemeasurable ?_ measurableSet_Ioi
    exact fun s hs => (hψd 0 s hs).continuousAt.continuousWithinAt
  have hjoint : AEMeasurable (Function.uncurry fun v s : ℝ =>
      ENNReal.ofReal (s * (v ^ 2 * Real.exp (-(v * s)))) * ENNReal.ofReal (ψ 0 s))
      (μ.prod (volume.restrict (Ioi (0 : ℝ)))) := by
    have m1 : Measurable fun p : ℝ × ℝ => ENNReal.ofReal (p.2 * (p.1 ^ 2 * Real.exp (-(p.1 * p.2)))) := by fun_prop
    exact m1.aemeasurable.mul (hψc.comp_quasiMeasurePreserving Measure.quasiMeasurePreserving_snd)
  rw [lintegral_lintegral_swap hjoint]
  refine setLIntegral_congr_fun measurableSet_Ioi fun s hs => ?_
  have hs' : 0 < s := hs
  change ∫⁻ v, ENNReal.ofReal (s * (v ^ 2 * Real.exp (-(v * s)))) * ENNReal.ofReal (ψ 0 s) ∂μ = _
  obtain ⟨k1, k2⟩ := laplace_lintegral μ hpos (fun s hs => h0 s (le_of_lt hs)) (fun s hs => hψ s (le_of_lt hs))
    hψd 2 hs'
  have e : (fun v => ENNReal.ofReal (s * (v ^ 2 * Real.exp (-(v * s))))) =
      fun v => ENNReal.ofReal s * ENNReal.ofReal (v ^ 2 * Real.exp (-(v * s))) := by
    funext v
    rw [ENNReal.ofReal_mul hs'.le]
  rw [lintegral_mul_const _ (by fun_prop), e, lintegral_const_mul _ (by fun_prop), k2,
    ← ENNReal.ofReal_mul hs'.le, ← ENNReal.ofReal_mul (by positivity)]
  congr 1
  ring

/-! ### Gumbel -/

theorem exists_gumbel_frailty {θ : ℝ} (h : 1 ≤ θ) : ∃ μ : Measure ℝ, IsProbabilityMeasure μ ∧ (∀ᵐ x ∂μ, 0 < x) ∧
    ∀ s, 0 ≤ s → ∫⁻ x, ENNReal.ofReal (Real.exp (-(x * s))) ∂μ = ENNReal.ofReal (gumbelPsiR θ s) := by
  rcases h.eq_or_lt with rfl | hlt
  · refine ⟨Measure.dirac 1, inferInstance, ?_, fun s hs => ?_⟩
    · rw [ae_dirac_iff measurableSet_Ioi]
      exact one_pos
    · rw [lintegral_dirac' _ (by fun_prop), gumbelPsiR, one_mul, div_one, Real.rpow_one]
  · have h0 : 0 < 1 / θ := by positivity
    have h1 : 1 / θ < 1 := by rw [div_lt_one (by linarith)]; exact hlt
    exact ⟨stableLaw (1 / θ), inferInstance, stableLaw_pos h0 h1, fun s hs => stable_laplace h0 h1 hs⟩

/-- The bivariate Gumbel copula. -/
noncomputable def gumbelC2 (θ u v : ℝ) : ℝ := gumbelPsiR θ (gumbelPhi θ u + gumbelPhi θ v)

theorem gumbelPsiR_phi {θ b : ℝ} (hθ : 0 < θ) (hb : 0 < b) (hb1 : b ≤ 1) : gumbelPsiR θ (gumbelPhi θ b) = b := by
  have hl : 0 ≤ -Real.log b := by linarith [Real.log_nonpos hb.le hb1]
  rw [gumbelPsiR, gumbelPhi, ← Real.rpow_mul hl, mul_one_div_cancel hθ.ne', Real.rpow_one, neg_neg, Real.exp_log hb]

theorem gumbelPhi_psi {θ t : ℝ} (hθ : 0 < θ) (ht : 0 ≤ t) : gumbelPhi θ (gumbelPsiR θ t) = t := by
  rw [gumbelPsiR, gumbelPhi, Real.log_exp, neg_neg, ← Real.rpow_mul ht, one_div_mul_cancel hθ.ne', Real.rpow_one]

theorem gumbelPhi_one {θ : ℝ} (hθ : 0 < θ) : gumbelPhi θ 1 = 0 := by
  rw [gumbelPhi, Real.log_one, neg_zero, Real.zero_rpow hθ.ne']

theorem gumbelC2_margin {θ a : ℝ} (hθ : 0 < θ) (ha : 0 < a) (ha1 : a ≤ 1) : gumbelC2 θ a 1 = a ∧ gumbelC2 θ 1 a = a := by
  constructor
  · rw [gumbelC2, gumbelPhi_one hθ, add_zero, gumbelPsiR_phi hθ ha ha1]
  · rw [gumbelC2, gumbelPhi_one hθ, zero_add, gumbelPsiR_phi hθ ha ha1]

theorem gumbelPsiK_two (α : ℝ) {s : ℝ} (hs : 0 < s) :
    gumbelPsiK α 2 s = (α * (1 - α) * s ^ (α - 2) + α ^ 2 * (s ^ (α - 1)) ^ 2) * Real.exp (-s ^ α) := by
  have hd1 : ∀ s : ℝ, 0 < s → HasDerivAt (fun s : ℝ => Real.exp (-s ^ α)) (-(α * s ^ (α - 1)) * Real.exp (-s ^ α)) s := by
    intro s hs
    refine ((Real.hasDerivAt_rpow_const (p := α) (Or.inl hs.ne')).neg.exp).congr_deriv ?_
    simp only [Pi.neg_apply]
    ring
  have h1 : ∀ s : ℝ, 0 < s → gumbelPsiK α 1 s = -(α * s ^ (α - 1)) * Real.exp (-s ^ α) := by
    intro s hs
    have := gumbelPsiK_hasDerivAt α 0 hs
    rw [show gumbelPsiK α 0 = fun s => Real.exp (-s ^ α) from funext fun s => gumbelPsiK_zero α s] at this
    exact this.unique (hd1 s hs)
  have h2 := gumbelPsiK_hasDerivAt α 1 hs
  have h3 : HasDerivAt (gumbelPsiK α 1) ((α * (1 - α) * s ^ (α - 2) + α ^ 2 * (s ^ (α - 1)) ^ 2) * Real.exp (-s ^ α)) s := by
    have h4 := ((Real.hasDerivAt_rpow_const (p := α - 1) (Or.inl hs.ne')).const_mul α).neg.mul (hd1 s hs)
    refine HasDerivAt.congr_of_eventuallyEq (h4.congr_deriv ?_) ?_
    · simp only [Pi.neg_apply]
      rw [show α - 1 - 1 = α - 2 by ring]
      ring
    · filter_upwards [Ioi_mem_nhds hs] with t ht
      exact h1 t ht
  exact h2.unique h3

/-- The integral that gives tau. -/
theorem gumbel_integral {α : ℝ} (h0 : 0 < α) (h1 : α ≤ 1) :
    ∫⁻ s in Ioi (0 : ℝ), ENNReal.ofReal (s * gumbelPsiK α 2 s * gumbelPsiK α 0 s) = ENNReal.ofReal (1 / 2 - α / 4) := by
  set G : ℝ → ℝ := fun s => Real.exp (-2 * s ^ α) * (-(α / 2) * s ^ α - 1 / 2 + α / 4) with hG
  have hd : ∀ s ∈ Ioi (0 : ℝ), HasDerivAt G (s * gumbelPsiK α 2 s * gumbelPsiK α 0 s) s := by
    intro s hs
    have hs' : 0 < s := hs
    have hx := Real.hasDerivAt_rpow_const (p := α) (Or.inl hs'.ne')
    have h2 := ((hx.const_mul (-2)).exp).mul ((hx.const_mul (-(α / 2))).sub_const (1 / 2) |>.add_const (α / 4))
    refine h2.congr_deriv ?_
    rw [gumbelPsiK_two α hs', gumbelPsiK_zero]
    have e1 : s ^ (α - 1) = s ^ α / s := by rw [Real.rpow_sub hs', Real.rpow_one]
    have e2 : s ^ (α - 2) = s ^ α / s ^ 2 := by rw [Real.rpow_sub hs', Real.rpow_two]
    have e3 : Real.exp (-2 * s ^ α) = Real.exp (-s ^ α) * Real.exp (-s ^ α) := by
      rw [← Real.exp_add]; congr 1; ring
    rw [e1, e2, e3]
    field_simp
    ring
  have hnn : ∀ s ∈ Ioi (0 : ℝ), 0 ≤ s * gumbelPsiK α 2 s * gumbelPsiK α 0 s := by
    intro s hs
    have hs' : 0 < s := hs
    rw [gumbelPsiK_two α hs', gumbelPsiK_zero]
    have : 0 ≤ 1 - α := by linarith
    positivity
  have hc : ContinuousWithinAt G (Ici 0) 0 := by
    have : ContinuousAt (fun s : ℝ => s ^ α) 0 := Real.continuousAt_rpow_const 0 α (Or.inr h0.le)
    refine ContinuousAt.continuousWithinAt ?_
    refine ContinuousAt.mul ?_ ?_
    · exact Real.continuous_exp.continuousAt.comp (this.const_mul (-2))
    · exact ((this.const_mul _).sub continuousAt_const).add continuousAt_const
  have hlim : Tendsto G atTop (𝓝 0) := by
    have ht : Tendsto (fun s : ℝ => 2 * s ^ α) atTop atTop := (tendsto_rpow_atTop h0).const_mul_atTop two_pos
    have p1 := (Real.tendsto_pow_mul_exp_neg_atTop_nhds_zero 1).comp ht
    have p0 := Real.tendsto_exp_neg_atTop_nhds_zero.comp ht
    have := (p1.const_mul (-(α / 4))).add (p0.const_mul (-(1 / 2) + α / 4))
    rw [mul_zero, mul_zero, add_zero] at this
    refine this.congr fun s => ?_
    simp only [Function.comp, hG, pow_one]
    rw [show -2 * s ^ α = -(2 * s ^ α) by ring]
    ring
  have hi := integrableOn_Ioi_deriv_of_nonneg hc hd hnn hlim
  have hv := integral_Ioi_of_hasDerivAt_of_nonneg hc hd hnn hlim
  rw [← ofReal_integral_eq_lintegral_ofReal hi ((ae_restrict_iff' measurableSet_Ioi).mpr (Eventually.of_forall hnn)), hv]
  congr 1
  simp only [hG]
  rw [Real.zero_rpow h0.ne']
  norm_num
  ring

/-- The law of the Gumbel sampler in dimension `d`. -/
theorem gumbel_frailty_law {θ : ℝ} (h : 1 ≤ θ) {d : ℕ} (μ : Measure ℝ) [IsProbabilityMeasure μ] (hpos : ∀ᵐ x ∂μ, 0 < x)
    (hL : ∀ s, 0 ≤ s → ∫⁻ x, ENNReal.ofReal (Real.exp (-(x * s))) ∂μ = ENNReal.ofReal (gumbelPsiR θ s)) :
    Spec.IsLawOf (((μ.prod (volume : Measure (Fin d → ℝ))).restrict {p | p.2 ∈ openCube d}).map
      fun p j => gumbelPsiR θ (-Real.log (p.2 j) / p.1)) fun x => gumbelPsiR θ (∑ j, gumbelPhi θ (x j)) := by
  have hθ : 0 < θ := by linarith
  have hUm : Measurable (gumbelPsiR θ) := by
    unfold gumbelPsiR
    fun_prop
  have hE : MeasurableSet {p : ℝ × (Fin d → ℝ) | p.2 ∈ openCube d} := measurable_snd (measurableSet_openCube d)
  have hψ1 : ∀ t, 0 < t → 0 < gumbelPsiR θ t ∧ gumbelPsiR θ t < 1 := fun t ht =>
    ⟨Real.exp_pos _, Real.exp_lt_one_iff.mpr (by have := Real.rpow_pos_of_pos ht (1 / θ); linarith)⟩
  refine isLawOf_map _ hE (by fun_prop) ?_ ?_ (fun b _ => (Real.exp_pos _).le) fun b hb => ?_
  · have a1 : ∀ᵐ p ∂(μ.prod (volume : Measure (Fin d → ℝ))), 0 < p.1 :=
      Measure.quasiMeasurePreserving_fst.ae hpos
    filter_upwards [a1] with p hp hr j
    exact hψ1 _ (div_pos (by linarith [Real.log_neg (hr j).1 (hr j).2]) hp)
  · simp only [gumbelPhi_one hθ, Finset.sum_const_zero]
    rw [gumbelPsiR, Real.zero_rpow (by positivity), neg_zero, Real.exp_zero]
  · have hφ : ∀ j, 0 ≤ gumbelPhi θ (b j) := fun j => by
      unfold gumbelPhi
      exact Real.rpow_nonneg (by linarith [Real.log_nonpos (hb j).1.le (hb j).2]) _
    exact frailty_distribution μ hpos hL hUm hφ fun j t ht => gumbelPsiR_le_iff hθ ht (hb j).1 (hb j).2

theorem gumbel_pair_mean {Q : Measure (ℝ × ℝ)} {θ : ℝ} (h : 1 ≤ θ) (hQ : PairLaw Q (gumbelC2 θ)) :
    ∫ p, gumbelC2 θ p.1 p.2 ∂Q = 1 / 2 - 1 / θ / 4 := by
  have hθ : 0 < θ := by linarith
  obtain ⟨μ, hμ, hpos, hL⟩ := exists_gumbel_frailty h
  have hlaw := gumbel_frailty_law h (d := 2) μ hpos hL
  have hpair := pairLaw_of_law hlaw (i := 0) (j := 1) (by norm_num)
  have hC : ∀ a b, gumbelPsiR θ (∑ k : Fin 2, gumbelPhi θ (pairPoint 0 1 a b k)) = gumbelC2 θ a b := by
    intro a b
    have e0 : pairPoint (0 : Fin 2) 1 a b 0 = a := by simp [pairPoint]
    have e1 : pairPoint (0 : Fin 2) 1 a b 1 = b := by simp [pairPoint]
    rw [Fin.sum_univ_two, e0, e1, gumbelC2]
  have hpair' := hpair.congr (C' := gumbelC2 θ) fun a b _ _ _ _ => hC a b
  have hQe := hQ.ext hpair'
  have hUm : Measurable (gumbelPsiR θ) := by
    unfold gumbelPsiR
    fun_prop
  have hφm : Measurable (gumbelPhi θ) := by
    unfold gumbelPhi
    fun_prop
  have hCm : Measurable fun p : ℝ × ℝ => gumbelC2 θ p.1 p.2 := by
    unfold gumbelC2
    fun_prop
  have hT : Measurable fun (p : ℝ × (Fin 2 → ℝ)) (j : Fin 2) => gumbelPsiR θ (-Real.log (p.2 j) / p.1) := by fun_prop
  have hpr : Measurable fun x : Fin 2 → ℝ => (x 0, x 1) := by fun_prop
  have hnn : ∀ p : ℝ × ℝ, 0 ≤ gumbelC2 θ p.1 p.2 := fun p => by
    rw [gumbelC2, gumbelPsiR]
    exact (Real.exp_pos _).le
  have hm1 : Measurable fun p : ℝ × ℝ => ENNReal.ofReal (gumbelC2 θ p.1 p.2) := hCm.ennreal_ofReal
  have hm2 : Measurable fun x : Fin 2 → ℝ => ENNReal.ofReal (gumbelC2 θ (x 0) (x 1)) := by fun_prop
  rw [hQe, integral_eq_lintegral_of_nonneg_ae (Eventually.of_forall hnn) hCm.aestronglyMeasurable,
    lintegral_map hm1 hpr, lintegral_map hm2 hT]
  have hset : {p : ℝ × (Fin 2 → ℝ) | p.2 ∈ openCube 2} = univ ×ˢ openCube 2 := by ext p; simp
  rw [hset, ← Measure.prod_restrict, Measure.restrict_univ]
  have key := frailty_mean μ hpos (ψ := gumbelPsiK (1 / θ)) (fun s hs => by rw [hL s hs, gumbelPsiK_zero]; rfl)
    (fun s _ => by rw [gumbelPsiK_zero]; exact (Real.exp_pos _).le) fun k s hs => gumbelPsiK_hasDerivAt (1 / θ) k hs
  rw [gumbel_integral (by positivity) (by rw [div_le_one hθ]; exact h)] at key
  have e : ∫⁻ p, ENNReal.ofReal (gumbelC2 θ (gumbelPsiR θ (-Real.log (p.2 0) / p.1)) (gumbelPsiR θ (-Real.log (p.2 1) / p.1)))
      ∂(μ.prod ((volume : Measure (Fin 2 → ℝ)).restrict (openCube 2))) = ENNReal.ofReal (1 / 2 - 1 / θ / 4) := by
    rw [← key]
    refine lintegral_congr_ae ?_
    have a1 : ∀ᵐ p ∂(μ.prod ((volume : Measure (Fin 2 → ℝ)).restrict (openCube 2))), 0 < p.1 :=
      Measure.quasiMeasurePreserving_fst.ae hpos
    have a2 : ∀ᵐ p ∂(μ.prod ((volume : Measure (Fin 2 → ℝ)).restrict (openCube 2))), p.2 ∈ openCube 2 :=
      Measure.quasiMeasurePreserving_snd.ae (ae_restrict_mem (measurableSet_openCube 2))
    filter_upwards [a1, a2] with p hp hr
    have hn : ∀ j, 0 ≤ -Real.log (p.2 j) / p.1 := fun j =>
      div_nonneg (by linarith [Real.log_neg (hr j).1 (hr j).2]) hp.le
    rw [gumbelC2, gumbelPhi_psi hθ (hn 0), gumbelPhi_psi hθ (hn 1), Fin.sum_univ_two, gumbelPsiK_zero, gumbelPsiR]
  have h1 : 1 / θ ≤ 1 := by rw [div_le_one hθ]; exact h
  rw [e, ENNReal.toReal_ofReal (by linarith)]

theorem gumbel_pair_tau {Q : Measure (ℝ × ℝ)} {θ : ℝ} (h : 1 ≤ θ) (hQ : PairLaw Q (gumbelC2 θ)) :
    pairTau Q = 1 - 1 / θ := by
  have hθ : 0 < θ := by linarith
  rw [hQ.tau (fun a ha ha1 => (gumbelC2_margin hθ ha ha1).1) (fun a ha ha1 => (gumbelC2_margin hθ ha ha1).2),
    gumbel_pair_mean h hQ]
  ring

end Copulae
