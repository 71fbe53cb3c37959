import Mathlib.MeasureTheory.Integral.IntegralEqImproper
import Mathlib.Analysis.SpecialFunctions.Integrals.Basic
import Verif.Lemmas.TailDep
import Verif.Lemmas.StudentRho

/-!
Tail dependence of the Student copula.
-/

namespace Copulae

open MeasureTheory ProbabilityTheory Set CopulaMeasure Filter Topology

variable {d : ℕ}

/-! ### The chi-square law near zero -/

/-- The distribution function of the chi-square law behaves like `chiC ν * w ^ (ν / 2)`. -/
noncomputable def chiC (ν : ℝ) : ℝ := (1 / 2) ^ (ν / 2) / Real.Gamma (ν / 2) / (ν / 2)

theorem chiC_pos {ν : ℝ} (hν : 0 < ν) : 0 < chiC ν := by
  have : 0 < Real.Gamma (ν / 2) := Real.Gamma_pos_of_pos (by positivity)
  unfold chiC; positivity

theorem chi_Iic {ν : ℝ} (hν : 0 < ν) (w : ℝ) :
    (chi ν).real (Iic w) = ∫ x in Ioc 0 w, (1 / 2) ^ (ν / 2) / Real.Gamma (ν / 2) * x ^ (ν / 2 - 1) * Real.exp (-(1 / 2 * x)) := by
  have : IsProbabilityMeasure (chi ν) := chi_prob hν
  have h := cdf_gammaMeasure_eq_integral (half_pos hν) (by norm_num : (0 : ℝ) < 1 / 2) w
  rw [← chi, cdf_eq_real] at h
  rw [h]
  have hz : ∀ x ∈ Iic w \ Ioc 0 w, x ≠ 0 → gammaPDFReal (ν / 2) (1 / 2) x = 0 := by
    intro x hx hx0
    have : x < 0 := by
      rcases lt_trichotomy x 0 with h | h | h
      · exact h
      · exact absurd h hx0
      · exact absurd ⟨h, hx.1⟩ hx.2
    simp [gammaPDFReal, not_le.mpr this]
  have hae : ∀ᵐ x : ℝ, x ≠ 0 := by
    exact (measure_eq_zero_iff_ae_notMem.mp (measure_singleton (0 : ℝ))).mono fun y hy => hy
  have hsub : ∫ x in Iic w, gammaPDFReal (ν / 2) (1 / 2) x = ∫ x in Ioc 0 w, gammaPDFReal (ν / 2) (1 / 2) x :=
    setIntegral_eq_of_subset_of_ae_sdiff_eq_zero measurableSet_Iic.nullMeasurableSet
      Ioc_subset_Iic_self (by filter_upwards [hae] with x hx hx' using hz x hx' hx)
  rw [hsub]
  refine setIntegral_congr_fun measurableSet_Ioc fun x hx => ?_
  simp only [gammaPDFReal, if_pos hx.1.le]

theorem chi_bounds {ν : ℝ} (hν : 0 < ν) {w : ℝ} (hw : 0 ≤ w) :
    (chi ν).real (Iic w) ≤ chiC ν * w ^ (ν / 2) ∧ chiC ν * w ^ (ν / 2) * Real.exp (-(w / 2)) ≤ (chi ν).real (Iic w) := by
  have hG : 0 < Real.Gamma (ν / 2) := Real.Gamma_pos_of_pos (by positivity)
  set c := (1 / 2 : ℝ) ^ (ν / 2) / Real.Gamma (ν / 2) with hc
  have hc0 : 0 < c := by positivity
  have hint : ∫ x in Ioc 0 w, c * x ^ (ν / 2 - 1) = chiC ν * w ^ (ν / 2) := by
    rw [integral_const_mul, ← intervalIntegral.integral_of_le hw, integral_rpow (Or.inl (by linarith)), sub_add_cancel,
      Real.zero_rpow (by positivity), sub_zero, chiC]
    ring
  have hi : IntegrableOn (fun x : ℝ => c * x ^ (ν / 2 - 1)) (Ioc 0 w) := by
    have := (intervalIntegral.intervalIntegrable_rpow' (a := 0) (b := w) (r := ν / 2 - 1) (by linarith)).const_mul c
    exact (intervalIntegrable_iff_integrableOn_Ioc_of_le hw).mp this
  have hi2 : IntegrableOn (fun x : ℝ => c * x ^ (ν / 2 - 1) * Real.exp (-(1 / 2 * x))) (Ioc 0 w) := by
    refine Integrable.mono' hi (by fun_prop) ?_
    filter_upwards [ae_restrict_mem measurableSet_Ioc] with x hx
    have h0 : 0 ≤ c * x ^ (ν / 2 - 1) := mul_nonneg hc0.le (Real.rpow_nonneg hx.1.le _)
    rw [Real.norm_eq_abs, abs_of_nonneg (mul_nonneg h0 (Real.exp_nonneg _))]
    exact mul_le_of_le_one_right h0 (Real.exp_le_one_iff.mpr (by linarith [hx.1]))
  rw [chi_Iic hν w, ← hint]
  constructor
  · refine setIntegral_mono_on hi2 hi measurableSet_Ioc fun x hx => ?_
    have h0 : 0 ≤ c * x ^ (ν / 2 - 1) := mul_nonneg hc0.le (Real.rpow_nonneg hx.1.le _)
    exact mul_le_of_le_one_right h0 (Real.exp_le_one_iff.mpr (by linarith [hx.1]))
  · rw [← integral_mul_const]
    refine setIntegral_mono_on (hi.mul_const _) hi2 measurableSet_Ioc fun x hx => ?_
    have h0 : 0 ≤ c * x ^ (ν / 2 - 1) := mul_nonneg hc0.le (Real.rpow_nonneg hx.1.le _)
    refine mul_le_mul_of_nonneg_left (Real.exp_le_exp.mpr ?_) h0
    linarith [hx.2]

/-! ### Moments of the minimum -/

/-- Positive part of the smaller of the two coordinates. -/
noncomputable def posMin (i j : Fin d) (z : Fin d → ℝ) : ℝ := max (min (z i) (z j)) 0

theorem measurable_posMin (i j : Fin d) : Measurable (posMin i j) := by
  unfold posMin
  exact ((measurable_pi_apply i).min (measurable_pi_apply j)).max measurable_const

theorem posMin_nonneg (i j : Fin d) (z : Fin d → ℝ) : 0 ≤ posMin i j z := le_max_right _ _

theorem integrable_posPow {ν : ℝ} (hν : 0 < ν) : Integrable (fun x : ℝ => |x| ^ ν) (gaussianReal 0 1) := by
  have h := (memLp_id_gaussianReal' (μ := 0) (v := 1) (ENNReal.ofReal ν) ENNReal.ofReal_ne_top).integrable_norm_rpow
    (by simpa using hν) ENNReal.ofReal_ne_top
  rw [ENNReal.toReal_ofReal hν.le] at h
  exact h

theorem integrable_posMin {S : Matrix (Fin d) (Fin d) ℝ} (hS : S.PosSemidef) (h1 : ∀ k, S k k = 1) {ν : ℝ} (hν : 0 < ν)
    (i j : Fin d) : Integrable (fun z => posMin i j z ^ ν) (gauss S) := by
  have hg := gauss_margin hS i
  rw [h1, Real.toNNReal_one] at hg
  have h : Integrable (fun z : Fin d → ℝ => |z i| ^ ν) (gauss S) := by
    have := integrable_posPow hν
    rw [← hg] at this
    exact this.comp_measurable (measurable_pi_apply i)
  refine h.mono' ((measurable_posMin i j).pow_const ν).aestronglyMeasurable (Eventually.of_forall fun z => ?_)
  have h0 := posMin_nonneg i j z
  rw [Real.norm_eq_abs, abs_of_nonneg (Real.rpow_nonneg h0 _)]
  refine Real.rpow_le_rpow h0 ?_ hν.le
  unfold posMin
  exact max_le ((min_le_left _ _).trans (le_abs_self _)) (abs_nonneg _)

/-- Probabilities of the lower corner of a t vector. -/
theorem tVector_corner {S : Matrix (Fin d) (Fin d) ℝ} (hS : S.PosSemidef) {ν : ℝ} (hν : 0 < ν) (i j : Fin d) {t : ℝ}
    (ht : 0 < t) : (Spec.tVector S ν).real {x | x i ≤ -t ∧ x j ≤ -t} =
      ∫ z, (chi ν).real (Iic (ν * posMin i j z ^ 2 / t ^ 2)) ∂(gauss S) := by
  have : IsProbabilityMeasure (chi ν) := chi_prob hν
  have hm : Measurable (fun p : (Fin d → ℝ) × ℝ => tScale ν p.2 • p.1) := measurable_scale (measurable_tScale ν)
  have hpair : MeasurableSet {x : Fin d → ℝ | x i ≤ -t ∧ x j ≤ -t} :=
    (measurableSet_le (measurable_pi_apply i) measurable_const).inter
      (measurableSet_le (measurable_pi_apply j) measurable_const)
  have hneg : ∫ z, (chi ν).real (Iic (ν * posMin i j z ^ 2 / t ^ 2)) ∂(gauss S) =
      ∫ z, (chi ν).real (Iic (ν * posMin i j (-z) ^ 2 / t ^ 2)) ∂(gauss S) := by
    conv_lhs => rw [← gauss_neg hS]
    rw [integral_map measurable_neg.aemeasurable]
    have hmono : Measurable fun w : ℝ => (chi ν).real (Iic w) :=
      (show Monotone fun w : ℝ => (chi ν).real (Iic w) from fun a b hab => measureReal_mono (Iic_subset_Iic.mpr hab)).measurable
    have hm2 : Measurable fun z : Fin d → ℝ => ν * posMin i j z ^ 2 / t ^ 2 :=
      (((measurable_posMin i j).pow_const 2).const_mul ν).div_const _
    exact (hmono.comp hm2).aestronglyMeasurable
  have hs := hm hpair
  rw [hneg, tVector_eq S hν, scaleMix, map_measureReal_apply hm hpair, measureReal_def, ← chi, Measure.prod_apply hs,
    ← integral_toReal (measurable_measure_prodMk_left hs).aemeasurable
      (Eventually.of_forall fun x => measure_lt_top _ _)]
  refine integral_congr_ae (Eventually.of_forall fun z => ?_)
  refine measureReal_congr (μ := chi ν) ?_
  filter_upwards [(gammaMeasure_pos : ∀ᵐ w ∂(chi ν), 0 < w)] with w hw
  have hr : 0 < √(w / ν) := by positivity
  refine propext ?_
  change (tScale ν w * z i ≤ -t ∧ tScale ν w * z j ≤ -t) ↔ w ≤ ν * posMin i j (-z) ^ 2 / t ^ 2
  have e1 : ∀ y : ℝ, tScale ν w * y ≤ -t ↔ t * √(w / ν) ≤ -y := by
    intro y
    rw [tScale, inv_mul_le_iff₀ hr]
    constructor <;> intro h <;> linarith
  rw [e1, e1, ← le_min_iff]
  have hpos : 0 < t * √(w / ν) := by positivity
  have e2 : t * √(w / ν) ≤ min (-z i) (-z j) ↔ t * √(w / ν) ≤ posMin i j (-z) := by
    unfold posMin
    simp only [Pi.neg_apply]
    constructor
    · intro h; exact h.trans (le_max_left _ _)
    · intro h
      rcases le_max_iff.mp h with h | h
      · exact h
      · linarith
  rw [e2, ← sq_le_sq₀ hpos.le (posMin_nonneg _ _ _), mul_pow, Real.sq_sqrt (by positivity), le_div_iff₀ (by positivity)]
  constructor
  · intro h
    have := mul_le_mul_of_nonneg_left h hν.le
    have e : ν * (t ^ 2 * (w / ν)) = w * t ^ 2 := by field_simp
    linarith
  · intro h
    have e : t ^ 2 * (w / ν) = w * t ^ 2 / ν := by ring
    rw [e, div_le_iff₀ hν]
    linarith

theorem tVector_corner_lim {S : Matrix (Fin d) (Fin d) ℝ} (hS : S.PosSemidef) (h1 : ∀ k, S k k = 1) {ν : ℝ} (hν : 0 < ν)
    (i j : Fin d) : Tendsto (fun t : ℝ => t ^ ν * (Spec.tVector S ν).real {x | x i ≤ -t ∧ x j ≤ -t}) atTop
      (𝓝 (chiC ν * ν ^ (ν / 2) * ∫ z, posMin i j z ^ ν ∂(gauss S))) := by
  have hc := chiC_pos hν
  have hmono : Measurable fun w : ℝ => (chi ν).real (Iic w) := by
    have : IsProbabilityMeasure (chi ν) := chi_prob hν
    exact (show Monotone fun w : ℝ => (chi ν).real (Iic w) from fun a b hab => measureReal_mono (Iic_subset_Iic.mpr hab)).measurable
  have hpow : ∀ t : ℝ, 0 < t → ∀ m : ℝ, 0 ≤ m → t ^ ν * (chiC ν * (ν * m ^ 2 / t ^ 2) ^ (ν / 2)) =
      chiC ν * ν ^ (ν / 2) * m ^ ν := by
    intro t ht m hm
    have a1 : (m ^ 2 : ℝ) ^ (ν / 2) = m ^ ν := by
      rw [← Real.rpow_natCast, ← Real.rpow_mul hm]; congr 1; push_cast; ring
    have a2 : (t ^ 2 : ℝ) ^ (ν / 2) = t ^ ν := by
      rw [← Real.rpow_natCast, ← Real.rpow_mul ht.le]; congr 1; push_cast; ring
    have ht' : 0 < t ^ ν := Real.rpow_pos_of_pos ht ν
    rw [Real.div_rpow (by positivity) (by positivity), Real.mul_rpow hν.le (by positivity), a1, a2]
    field_simp
  have heq : ∀ᶠ t : ℝ in atTop, ∫ z, t ^ ν * (chi ν).real (Iic (ν * posMin i j z ^ 2 / t ^ 2)) ∂(gauss S) =
      t ^ ν * (Spec.tVector S ν).real {x | x i ≤ -t ∧ x j ≤ -t} := by
    filter_upwards [eventually_gt_atTop (0 : ℝ)] with t ht
    rw [tVector_corner hS hν i j ht, integral_const_mul]
  refine Tendsto.congr' heq ?_
  rw [← integral_const_mul]
  refine tendsto_integral_filter_of_dominated_convergence (fun z => chiC ν * ν ^ (ν / 2) * posMin i j z ^ ν) ?_ ?_
    ((integrable_posMin hS h1 hν i j).const_mul _) ?_
  · refine Eventually.of_forall fun t => ?_
    have hm2 : Measurable fun z : Fin d → ℝ => ν * posMin i j z ^ 2 / t ^ 2 :=
      (((measurable_posMin i j).pow_const 2).const_mul ν).div_const _
    exact ((hmono.comp hm2).const_mul _).aestronglyMeasurable
  · filter_upwards [eventually_gt_atTop (0 : ℝ)] with t ht
    refine Eventually.of_forall fun z => ?_
    have h0 := posMin_nonneg i j z
    have ht' : 0 < t ^ ν := Real.rpow_pos_of_pos ht ν
    rw [Real.norm_eq_abs, abs_of_nonneg (mul_nonneg ht'.le measureReal_nonneg), ← hpow t ht _ h0]
    exact mul_le_mul_of_nonneg_left (chi_bounds hν (by positivity)).1 ht'.le
  · refine Eventually.of_forall fun z => ?_
    have h0 := posMin_nonneg i j z
    have hlow : Tendsto (fun t : ℝ => chiC ν * ν ^ (ν / 2) * posMin i j z ^ ν *
        Real.exp (-(ν * posMin i j z ^ 2 / t ^ 2 / 2))) atTop (𝓝 (chiC ν * ν ^ (ν / 2) * posMin i j z ^ ν)) := by
      have hz : Tendsto (fun t : ℝ => -(ν * posMin i j z ^ 2 / t ^ 2 / 2)) atTop (𝓝 0) := by
        have hsq : Tendsto (fun t : ℝ => t ^ 2) atTop atTop := tendsto_pow_atTop two_ne_zero
        have := ((tendsto_const_nhds (x := ν * posMin i j z ^ 2)).div_atTop hsq).div_const 2
        simpa using this.neg
      have := (Real.continuous_exp.tendsto 0).comp hz
      rw [Real.exp_zero] at this
      simpa using this.const_mul (chiC ν * ν ^ (ν / 2) * posMin i j z ^ ν)
    refine tendsto_of_tendsto_of_tendsto_of_le_of_le' hlow tendsto_const_nhds ?_ ?_
    · filter_upwards [eventually_gt_atTop (0 : ℝ)] with t ht
      have ht' : 0 < t ^ ν := Real.rpow_pos_of_pos ht ν
      rw [← hpow t ht _ h0, mul_assoc]
      exact mul_le_mul_of_nonneg_left (chi_bounds hν (by positivity)).2 ht'.le
    · filter_upwards [eventually_gt_atTop (0 : ℝ)] with t ht
      have ht' : 0 < t ^ ν := Real.rpow_pos_of_pos ht ν
      rw [← hpow t ht _ h0]
      exact mul_le_mul_of_nonneg_left (chi_bounds hν (by positivity)).1 ht'.le

/-! ### The mean of the minimum -/

/-- Two coordinates as combinations of independent normal variables. -/
theorem gauss_pair {S : Matrix (Fin d) (Fin d) ℝ} (hS : S.PosSemidef) (h1 : ∀ k, S k k = 1) (i j : Fin d) :
    (gauss S).map (fun x => (x i, x j)) = ((gaussianReal 0 1).prod (gaussianReal 0 1)).map
      (fun p => (p.1, S i j * p.1 + √(1 - S i j ^ 2) * p.2)) := by
  have hji : S j i = S i j := by
    have := congrFun (congrFun hS.1 i) j
    simpa only [Matrix.conjTranspose_apply, star_trivial] using this
  obtain ⟨hr1, hr2⟩ := corr_mem hS (h1 i) (h1 j)
  have hsq : √(1 - S i j ^ 2) * √(1 - S i j ^ 2) = 1 - S i j ^ 2 := Real.mul_self_sqrt (by nlinarith)
  set A : Matrix (Fin 2) (Fin 2) ℝ := !![1, 0; S i j, √(1 - S i j ^ 2)] with hA
  have hAA : A * 1 * A.transpose = S.submatrix ![i, j] ![i, j] := by
    ext a b
    fin_cases a <;> fin_cases b <;>
      simp [hA, Matrix.mul_apply, Fin.sum_univ_two, h1, hji, hsq]
    ring
  have h := gauss_map (Matrix.PosSemidef.one (n := Fin 2) (R := ℝ)) A
  rw [hAA, ← gauss_submatrix hS, gauss_one] at h
  have hm2 : Measurable fun x : Fin 2 → ℝ => (x 0, x 1) := by fun_prop
  have h2 := congrArg (Measure.map fun x : Fin 2 → ℝ => (x 0, x 1)) h
  rw [Measure.map_map hm2 (by fun_prop), Measure.map_map hm2 (by fun_prop)] at h2
  have hmp := (measurePreserving_finTwoArrow_vec (gaussianReal 0 1) (gaussianReal 0 1)).map_eq
  rw [← hmp, Measure.map_map (by fun_prop) (MeasurableEquiv.measurable _)]
  have e1 : (fun x : Fin 2 → ℝ => (x 0, x 1)) ∘ (fun (x : Fin d → ℝ) k => x (![i, j] k)) = fun x => (x i, x j) := by
    funext x; simp
  have e2 : (fun x : Fin 2 → ℝ => (x 0, x 1)) ∘ (fun x => A.mulVec x) =
      (fun p : ℝ × ℝ => (p.1, S i j * p.1 + √(1 - S i j ^ 2) * p.2)) ∘ MeasurableEquiv.finTwoArrow := by
    funext x
    simp [hA, dotProduct, Fin.sum_univ_two, MeasurableEquiv.finTwoArrow, MeasurableEquiv.piFinTwo]
  rw [e1, e2] at h2
  rw [← h2]
  congr 2
  funext k
  fin_cases k <;> rfl

/-- `E[X ^ ν; 0 < X < Y]` for two coordinates with correlation in `(-1, 1)`. -/
theorem integral_half {S : Matrix (Fin d) (Fin d) ℝ} (hS : S.PosSemidef) (h1 : ∀ k, S k k = 1) {ν : ℝ} (hν : 0 < ν)
    {i j : Fin d} (hr1 : -1 < S i j) (hr2 : S i j < 1) :
    ∫ z, (if z i < z j then max (z i) 0 ^ ν else 0) ∂(gauss S) =
      ∫ x, max x 0 ^ ν * normCdf (-(√((1 - S i j) / (1 + S i j)) * x)) ∂(gaussianReal 0 1) := by
  set ρ := S i j with hρ
  set a := √((1 - ρ) / (1 + ρ)) with ha
  have hf : Measurable fun p : ℝ × ℝ => if p.1 < p.2 then max p.1 0 ^ ν else 0 :=
    Measurable.ite (measurableSet_lt measurable_fst measurable_snd)
      ((measurable_fst.max measurable_const).pow_const ν) measurable_const
  have hmi : Measurable fun x : Fin d → ℝ => (x i, x j) := by fun_prop
  have hmp : Measurable fun p : ℝ × ℝ => (p.1, ρ * p.1 + √(1 - ρ ^ 2) * p.2) := by fun_prop
  have e1 : ∫ z, (if z i < z j then max (z i) 0 ^ ν else 0) ∂(gauss S) =
      ∫ p : ℝ × ℝ, (if p.1 < p.2 then max p.1 0 ^ ν else 0) ∂((gauss S).map fun x => (x i, x j)) := by
    rw [integral_map hmi.aemeasurable hf.aestronglyMeasurable]
  rw [e1, gauss_pair hS h1, integral_map hmp.aemeasurable hf.aestronglyMeasurable]
  have hs : 0 < √(1 - ρ ^ 2) := Real.sqrt_pos.mpr (by nlinarith)
  have hsa : √(1 - ρ ^ 2) * a = 1 - ρ := by
    rw [ha, ← Real.sqrt_mul (by nlinarith), show (1 - ρ ^ 2) * ((1 - ρ) / (1 + ρ)) = (1 - ρ) ^ 2 by
      have : (1 + ρ) ≠ 0 := by linarith
      field_simp; ring]
    exact Real.sqrt_sq (by linarith)
  have e2 : ∀ p : ℝ × ℝ, (if p.1 < ρ * p.1 + √(1 - ρ ^ 2) * p.2 then max p.1 0 ^ ν else 0) =
      max p.1 0 ^ ν * (Ioi (a * p.1)).indicator (fun _ => (1 : ℝ)) p.2 := by
    intro p
    have : p.1 < ρ * p.1 + √(1 - ρ ^ 2) * p.2 ↔ a * p.1 < p.2 := by
      rw [← mul_lt_mul_iff_right₀ hs (b := a * p.1), ← mul_assoc, hsa]
      constructor <;> intro h <;> linarith
    by_cases h : a * p.1 < p.2
    · rw [if_pos (this.mpr h), indicator_of_mem (by exact h), mul_one]
    · rw [if_neg (fun h' => h (this.mp h')), indicator_of_notMem (by exact h), mul_zero]
  simp_rw [e2]
  have hmind : Measurable fun p : ℝ × ℝ => (Ioi (a * p.1)).indicator (fun _ => (1 : ℝ)) p.2 := by
    have : (fun p : ℝ × ℝ => (Ioi (a * p.1)).indicator (fun _ => (1 : ℝ)) p.2) =
        {p : ℝ × ℝ | a * p.1 < p.2}.indicator fun _ => (1 : ℝ) := by
      funext p; rfl
    rw [this]
    exact measurable_const.indicator (measurableSet_lt (by fun_prop) (by fun_prop))
  have hint : Integrable (fun p : ℝ × ℝ => max p.1 0 ^ ν * (Ioi (a * p.1)).indicator (fun _ => (1 : ℝ)) p.2)
      ((gaussianReal 0 1).prod (gaussianReal 0 1)) := by
    have hb : Integrable (fun p : ℝ × ℝ => |p.1| ^ ν) ((gaussianReal 0 1).prod (gaussianReal 0 1)) :=
      (integrable_posPow hν).comp_fst _
    have hmm : Measurable fun p : ℝ × ℝ => max p.1 0 ^ ν := (measurable_fst.max measurable_const).pow_const ν
    refine hb.mono' (hmm.mul hmind).aestronglyMeasurable (Eventually.of_forall fun p => ?_)
    have h0 : 0 ≤ max p.1 0 := le_max_right _ _
    rw [norm_mul, Real.norm_eq_abs, abs_of_nonneg (Real.rpow_nonneg h0 _)]
    have hle : max p.1 0 ^ ν ≤ |p.1| ^ ν :=
      Real.rpow_le_rpow h0 (max_le (le_abs_self _) (abs_nonneg _)) hν.le
    have hi : ‖(Ioi (a * p.1)).indicator (fun _ => (1 : ℝ)) p.2‖ ≤ 1 := by
      by_cases h : p.2 ∈ Ioi (a * p.1) <;> simp [h]
    calc _ ≤ max p.1 0 ^ ν * 1 := mul_le_mul_of_nonneg_left hi (Real.rpow_nonneg h0 _)
      _ ≤ _ := by rw [mul_one]; exact hle
  rw [integral_prod _ hint]
  refine integral_congr_ae (Eventually.of_forall fun x => ?_)
  simp only
  rw [integral_const_mul, integral_indicator_const _ measurableSet_Ioi, smul_eq_mul, mul_one]
  congr 1
  have hsym : (gaussianReal 0 1).map (fun x => -x) = gaussianReal 0 1 := by
    have := gaussianReal_map_neg (μ := 0) (v := 1)
    rw [this]; simp
  have hatom : NullSingletonClass (gaussianReal 0 1) := nullSingletonClass_gaussianReal one_ne_zero
  rw [normCdf]
  conv_rhs => rw [← hsym]
  rw [map_measureReal_apply measurable_neg measurableSet_Iic, measureReal_congr Ioi_ae_eq_Ici]
  congr 1
  ext y; simp

theorem integral_posMin {S : Matrix (Fin d) (Fin d) ℝ} (hS : S.PosSemidef) (h1 : ∀ k, S k k = 1) {ν : ℝ} (hν : 0 < ν)
    {i j : Fin d} (hr1 : -1 < S i j) (hr2 : S i j < 1) :
    ∫ z, posMin i j z ^ ν ∂(gauss S) =
      2 * ∫ x, max x 0 ^ ν * normCdf (-(√((1 - S i j) / (1 + S i j)) * x)) ∂(gaussianReal 0 1) := by
  have hji : S j i = S i j := by
    have := congrFun (congrFun hS.1 i) j
    simpa only [Matrix.conjTranspose_apply, star_trivial] using this
  have ha := integral_half hS h1 hν hr1 hr2
  have hb := integral_half hS h1 hν (i := j) (j := i) (by rw [hji]; exact hr1) (by rw [hji]; exact hr2)
  rw [hji] at hb
  have hcomb := gauss_comb hS i j 1 (-1)
  have hv : ((1 : ℝ) ^ 2 * S i i + 2 * 1 * (-1) * S i j + (-1) ^ 2 * S j j).toNNReal ≠ 0 := by
    rw [h1, h1]
    simp only [ne_eq, Real.toNNReal_eq_zero, not_le]
    linarith
  have hmf : Measurable fun x : Fin d → ℝ => 1 * x i + -1 * x j := by fun_prop
  have hne : ∀ᵐ z ∂(gauss S), z i ≠ z j := by
    have hatom : NullSingletonClass (gaussianReal 0 ((1 : ℝ) ^ 2 * S i i + 2 * 1 * (-1) * S i j + (-1) ^ 2 * S j j).toNNReal) :=
      nullSingletonClass_gaussianReal hv
    have : ∀ᵐ y ∂((gauss S).map fun x => 1 * x i + -1 * x j), y ≠ 0 := by
      rw [hcomb]
      exact (measure_eq_zero_iff_ae_notMem.mp (measure_singleton 0)).mono fun y hy => hy
    filter_upwards [ae_of_ae_map hmf.aemeasurable this] with z hz h
    exact hz (by rw [h]; ring)
  have hi : ∀ i j : Fin d, Integrable (fun z : Fin d → ℝ => if z i < z j then max (z i) 0 ^ ν else 0) (gauss S) := by
    intro i j
    have hg := gauss_margin hS i
    rw [h1, Real.toNNReal_one] at hg
    have h : Integrable (fun z : Fin d → ℝ => |z i| ^ ν) (gauss S) := by
      have := integrable_posPow hν
      rw [← hg] at this
      exact this.comp_measurable (measurable_pi_apply i)
    have hm : Measurable fun z : Fin d → ℝ => if z i < z j then max (z i) 0 ^ ν else 0 :=
      Measurable.ite (measurableSet_lt (measurable_pi_apply i) (measurable_pi_apply j))
        (((measurable_pi_apply i).max measurable_const).pow_const ν) measurable_const
    refine h.mono' hm.aestronglyMeasurable (Eventually.of_forall fun z => ?_)
    have h0 : 0 ≤ max (z i) 0 := le_max_right _ _
    split_ifs with hlt
    · rw [Real.norm_eq_abs, abs_of_nonneg (Real.rpow_nonneg h0 _)]
      exact Real.rpow_le_rpow h0 (max_le (le_abs_self _) (abs_nonneg _)) hν.le
    · simpa using Real.rpow_nonneg (abs_nonneg (z i)) ν
  have hsplit : ∫ z, posMin i j z ^ ν ∂(gauss S) =
      ∫ z, ((if z i < z j then max (z i) 0 ^ ν else 0) + (if z j < z i then max (z j) 0 ^ ν else 0)) ∂(gauss S) := by
    refine integral_congr_ae ?_
    filter_upwards [hne] with z hz
    rcases lt_or_gt_of_ne hz with h | h
    · simp [posMin, h, h.le, not_lt.mpr h.le]
    · simp [posMin, h, h.le, not_lt.mpr h.le]
  rw [hsplit, integral_add (hi i j) (hi j i), ha, hb]
  ring

/-! ### The t distribution with one more degree of freedom -/

/-- Integrals of a function of the root of a chi-square variable. -/
theorem integral_chi_sqrt {ν : ℝ} (hν : 0 < ν) (h : ℝ → ℝ) :
    ∫ w, h (√w) ∂(chi (ν + 1)) = (1 / 2) ^ ((ν + 1) / 2) / Real.Gamma ((ν + 1) / 2) * 2 *
      ∫ x in Ioi 0, x ^ ν * Real.exp (-x ^ 2 / 2) * h x := by
  have e1 : ∫ w, h (√w) ∂(chi (ν + 1)) = ∫ w, gammaPDFReal ((ν + 1) / 2) (1 / 2) w * h (√w) := by
    have hgm : Measurable (gammaPDF ((ν + 1) / 2) (1 / 2)) := (measurable_gammaPDFReal _ _).ennreal_ofReal
    rw [chi, gammaMeasure, integral_withDensity_eq_integral_toReal_smul hgm (Eventually.of_forall fun x => ENNReal.ofReal_lt_top)]
    refine integral_congr_ae (Eventually.of_forall fun w => ?_)
    simp only [gammaPDF, smul_eq_mul]
    rw [ENNReal.toReal_ofReal (gammaPDFReal_nonneg (by linarith) (by norm_num) w)]
  have hae : ∀ᵐ x : ℝ, x ≠ 0 := by
    exact (measure_eq_zero_iff_ae_notMem.mp (measure_singleton (0 : ℝ))).mono fun y hy => hy
  have e2 : ∫ w, gammaPDFReal ((ν + 1) / 2) (1 / 2) w * h (√w) =
      ∫ w in Ioi 0, (1 / 2) ^ ((ν + 1) / 2) / Real.Gamma ((ν + 1) / 2) * w ^ ((ν + 1) / 2 - 1) *
        Real.exp (-(1 / 2 * w)) * h (√w) := by
    rw [← integral_indicator measurableSet_Ioi]
    refine integral_congr_ae ?_
    filter_upwards [hae] with w hw
    rcases lt_or_gt_of_ne hw with hlt | hgt
    · rw [indicator_of_notMem (by simpa using hlt.le), gammaPDFReal, if_neg (not_le.mpr hlt), zero_mul]
    · rw [indicator_of_mem (by exact hgt), gammaPDFReal, if_pos hgt.le]
  rw [e1, e2, ← integral_comp_rpow_Ioi_of_pos (two_pos), ← integral_const_mul]
  refine setIntegral_congr_fun measurableSet_Ioi fun x hx => ?_
  have hx' : 0 < x := hx
  simp only [smul_eq_mul]
  have a0 : x ^ (2 : ℝ) = x ^ 2 := by rw [← Real.rpow_natCast]; norm_num
  have a1 : √(x ^ (2 : ℝ)) = x := by rw [a0, Real.sqrt_sq hx'.le]
  have a2 : (x ^ (2 : ℝ)) ^ ((ν + 1) / 2 - 1) = x ^ (ν - 1) := by
    rw [← Real.rpow_mul hx'.le]; congr 1; ring
  have a3 : x ^ ((2 : ℝ) - 1) * x ^ (ν - 1) = x ^ ν := by
    rw [← Real.rpow_add hx']; congr 1; ring
  rw [a1, a2, ← a3, a0]
  have a4 : -(1 / 2 * x ^ 2) = -x ^ 2 / 2 := by ring
  rw [a4]
  ring

theorem integral_normal_pos {ν : ℝ} (hν : 0 < ν) (h : ℝ → ℝ) :
    ∫ x, max x 0 ^ ν * h x ∂(gaussianReal 0 1) = (√(2 * Real.pi))⁻¹ *
      ∫ x in Ioi 0, x ^ ν * Real.exp (-x ^ 2 / 2) * h x := by
  rw [integral_gaussianReal_eq_integral_smul one_ne_zero, ← integral_const_mul, ← integral_indicator measurableSet_Ioi]
  refine integral_congr_ae (Eventually.of_forall fun x => ?_)
  simp only [smul_eq_mul]
  rcases le_or_gt x 0 with hx | hx
  · rw [indicator_of_notMem (by simpa using hx), max_eq_right hx, Real.zero_rpow hν.ne']
    ring
  · rw [indicator_of_mem (by exact hx), max_eq_left hx.le, gaussianPDFReal]
    simp only [NNReal.coe_one, mul_one, sub_zero]
    ring

/-- The probability of the t distribution with one more degree of freedom. -/
theorem tCdf_moment {ν : ℝ} (hν : 0 < ν) (a : ℝ) :
    ∫ x, max x 0 ^ ν * normCdf (-(a * x)) ∂(gaussianReal 0 1) =
      (∫ x, max x 0 ^ ν ∂(gaussianReal 0 1)) * tCdfR (ν + 1) (-(√(ν + 1) * a)) := by
  have hp : 0 < ν + 1 := by linarith
  have : IsProbabilityMeasure (chi (ν + 1)) := chi_prob hp
  have hone := integral_chi_sqrt hν (fun _ => 1)
  simp only [integral_const, probReal_univ, smul_eq_mul, mul_one] at hone
  have hn1 := integral_normal_pos hν (fun _ => 1)
  simp only [mul_one] at hn1
  have ht : tCdfR (ν + 1) (-(√(ν + 1) * a)) = ∫ w, normCdf (-(a * √w)) ∂(chi (ν + 1)) := by
    rw [tCdfR_eq hp]
    refine integral_congr_ae (Eventually.of_forall fun w => ?_)
    simp only
    congr 1
    have hs : 0 < √(ν + 1) := Real.sqrt_pos.mpr hp
    rw [Real.sqrt_div' _ hp.le]
    field_simp
  rw [ht, integral_chi_sqrt hν (fun x => normCdf (-(a * x))), integral_normal_pos hν, hn1]
  linear_combination ((√(2 * Real.pi))⁻¹ * ∫ x in Ioi 0, x ^ ν * Real.exp (-x ^ 2 / 2) * normCdf (-(a * x))) * hone

theorem moment_pos {ν : ℝ} (hν : 0 < ν) : 0 < ∫ x, max x 0 ^ ν ∂(gaussianReal 0 1) := by
  have hp : 0 < ν + 1 := by linarith
  have : IsProbabilityMeasure (chi (ν + 1)) := chi_prob hp
  have hone := integral_chi_sqrt hν (fun _ => 1)
  simp only [integral_const, probReal_univ, smul_eq_mul, mul_one] at hone
  have hn1 := integral_normal_pos hν (fun _ => 1)
  simp only [mul_one] at hn1
  rw [hn1]
  have hG : 0 < Real.Gamma ((ν + 1) / 2) := Real.Gamma_pos_of_pos (by positivity)
  have hc : 0 < (1 / 2 : ℝ) ^ ((ν + 1) / 2) / Real.Gamma ((ν + 1) / 2) * 2 := by positivity
  have hpi := Real.pi_pos
  refine mul_pos (by positivity) ?_
  by_contra hle
  rw [not_lt] at hle
  nlinarith

/-! ### The coefficient -/

/-- The coefficient of tail dependence of a t copula. -/
noncomputable def tTail (ν ρ : ℝ) : ℝ :=
  if ρ = -1 then 0 else 2 * tCdfR (ν + 1) (-√((ν + 1) * (1 - ρ) / (1 + ρ)))

theorem tCdfR_zero {ν : ℝ} (hν : 0 < ν) : tCdfR ν 0 = 1 / 2 := by
  have : IsProbabilityMeasure (chi ν) := chi_prob hν
  have h0 : normCdf 0 = 1 / 2 := by
    have hatom : NullSingletonClass (gaussianReal 0 1) := nullSingletonClass_gaussianReal one_ne_zero
    have hsym : (gaussianReal 0 1).map (fun x => -x) = gaussianReal 0 1 := by
      have := gaussianReal_map_neg (μ := 0) (v := 1)
      rw [this]; simp
    have h2 : (gaussianReal 0 1).real (Iic 0) = (gaussianReal 0 1).real (Ioi 0) := by
      conv_lhs => rw [← hsym]
      rw [map_measureReal_apply measurable_neg measurableSet_Iic, measureReal_congr Ioi_ae_eq_Ici]
      congr 1
      ext y; simp
    have h3 : (gaussianReal 0 1).real (Ioi 0) = 1 - (gaussianReal 0 1).real (Iic 0) := by
      rw [← compl_Iic, probReal_compl_eq_one_sub measurableSet_Iic]
    rw [normCdf]
    linarith
  rw [tCdfR_eq hν]
  simp [h0]

theorem posMin_ratio {S : Matrix (Fin d) (Fin d) ℝ} (hS : S.PosSemidef) (h1 : ∀ k, S k k = 1) {ν : ℝ} (hν : 0 < ν)
    (i j : Fin d) : (∫ z, posMin i j z ^ ν ∂(gauss S)) = (∫ x, max x 0 ^ ν ∂(gaussianReal 0 1)) * tTail ν (S i j) := by
  obtain ⟨hr1, hr2⟩ := corr_mem hS (h1 i) (h1 j)
  have hg := gauss_margin hS i
  rw [h1, Real.toNNReal_one] at hg
  have hmx : Measurable fun x : ℝ => max x 0 ^ ν := (measurable_id.max measurable_const).pow_const ν
  rcases hr1.eq_or_lt with hm | hm
  · have hz := gauss_comb hS i j 1 1
    have e0 : (1 : ℝ) ^ 2 * S i i + 2 * 1 * 1 * S i j + 1 ^ 2 * S j j = 0 := by rw [h1, h1, ← hm]; ring
    rw [e0, Real.toNNReal_zero, gaussianReal_zero_var] at hz
    have hmf : Measurable fun x : Fin d → ℝ => 1 * x i + 1 * x j := by fun_prop
    have hae : ∀ᵐ x ∂(gauss S), 1 * x i + 1 * x j = 0 := by
      have : ∀ᵐ y ∂((gauss S).map fun x => 1 * x i + 1 * x j), y = 0 := by
        rw [hz, ae_dirac_eq]; exact rfl
      exact ae_of_ae_map hmf.aemeasurable this
    rw [tTail, if_pos hm.symm, mul_zero]
    refine integral_eq_zero_of_ae ?_
    filter_upwards [hae] with z hz
    have : posMin i j z = 0 := by
      unfold posMin
      rw [max_eq_right]
      rcases le_total (z i) 0 with h | h
      · exact (min_le_left _ _).trans h
      · exact (min_le_right _ _).trans (by linarith)
    rw [this, Real.zero_rpow hν.ne']; rfl
  · rw [tTail, if_neg hm.ne']
    rcases hr2.eq_or_lt with hp | hp
    · have hz := gauss_comb hS i j 1 (-1)
      have e0 : (1 : ℝ) ^ 2 * S i i + 2 * 1 * (-1) * S i j + (-1) ^ 2 * S j j = 0 := by rw [h1, h1, hp]; ring
      rw [e0, Real.toNNReal_zero, gaussianReal_zero_var] at hz
      have hmf : Measurable fun x : Fin d → ℝ => 1 * x i + -1 * x j := by fun_prop
      have hae : ∀ᵐ x ∂(gauss S), 1 * x i + -1 * x j = 0 := by
        have : ∀ᵐ y ∂((gauss S).map fun x => 1 * x i + -1 * x j), y = 0 := by
          rw [hz, ae_dirac_eq]; exact rfl
        exact ae_of_ae_map hmf.aemeasurable this
      rw [hp, sub_self, mul_zero, zero_div, Real.sqrt_zero, neg_zero, tCdfR_zero (by linarith), ← hg,
        integral_map (measurable_pi_apply i).aemeasurable hmx.aestronglyMeasurable]
      rw [mul_one_div_cancel two_ne_zero, mul_one]
      refine integral_congr_ae ?_
      filter_upwards [hae] with z hz
      have : z j = z i := by linarith
      simp [posMin, this]
    · rw [integral_posMin hS h1 hν hm hp, tCdf_moment hν]
      have e : √(ν + 1) * √((1 - S i j) / (1 + S i j)) = √((ν + 1) * (1 - S i j) / (1 + S i j)) := by
        rw [← Real.sqrt_mul (by linarith), mul_div_assoc]
      rw [e]
      ring

/-- Tail dependence of the Student copula. -/
theorem tailDep_studentLaw {S : Matrix (Fin d) (Fin d) ℝ} (hS : S.PosSemidef) (h1 : ∀ k, S k k = 1) {ν : ℝ} (hν : 0 < ν)
    (i j : Fin d) : Spec.LowerTailDep (Spec.studentLaw S ν) i j (tTail ν (S i j)) ∧
      Spec.UpperTailDep (Spec.studentLaw S ν) i j (tTail ν (S i j)) := by
  obtain ⟨q, hq⟩ := exists_tMargin hν
  have := chi_prob hν
  have hprob := tLine_prob hν
  have hden := tLine_density hν
  have hac : Spec.tLine ν ≪ volume := by rw [hden]; exact withDensity_absolutelyContinuous _ _
  have hatom : NullSingletonClass (Spec.tLine ν) := ⟨fun x => hac (measure_singleton x)⟩
  have hm : Measurable (fun p : (Fin d → ℝ) × ℝ => tScale ν p.2 • p.1) := measurable_scale (measurable_tScale ν)
  have hsym : (Spec.tVector S ν).map (fun x => -x) = Spec.tVector S ν := by
    rw [tVector_eq S hν, scaleMix, Measure.map_map measurable_neg hm]
    conv_rhs => rw [← gauss_neg hS, ← Measure.map_id (μ := gammaMeasure (ν / 2) (1 / 2))]
    rw [Measure.map_prod_map _ _ measurable_neg measurable_id, Measure.map_map hm (by fun_prop)]
    congr 1
    funext p k
    simp
  rw [studentLaw_eq S hν]
  refine tailDep_cubeLaw hq hsym (tVector_margin hS h1 hν) ?_
  have hnum := tVector_corner_lim hS h1 hν i j
  have hden2 := tVector_corner_lim hS h1 hν i i
  rw [posMin_ratio hS h1 hν] at hnum hden2
  have hii : tTail ν (S i i) = 1 := by
    rw [h1, tTail, if_neg (by norm_num), sub_self, mul_zero, zero_div, Real.sqrt_zero, neg_zero, tCdfR_zero (by linarith)]
    norm_num
  rw [hii, mul_one] at hden2
  have hK : 0 < chiC ν * ν ^ (ν / 2) * ∫ x, max x 0 ^ ν ∂(gaussianReal 0 1) := by
    have := chiC_pos hν
    have := moment_pos hν
    positivity
  have hdiv := hnum.div hden2 hK.ne'
  have e : chiC ν * ν ^ (ν / 2) * ((∫ x, max x 0 ^ ν ∂(gaussianReal 0 1)) * tTail ν (S i j)) /
      (chiC ν * ν ^ (ν / 2) * ∫ x, max x 0 ^ ν ∂(gaussianReal 0 1)) = tTail ν (S i j) := by
    rw [← mul_assoc, mul_div_cancel_left₀ _ hK.ne']
  rw [e] at hdiv
  refine (hdiv.comp tendsto_neg_atBot_atTop).congr' ?_
  filter_upwards [eventually_lt_atBot (0 : ℝ)] with t ht
  have ht' : 0 < (-t) ^ ν := Real.rpow_pos_of_pos (by linarith) ν
  simp only [Function.comp, Pi.div_apply, neg_neg, and_self]
  rw [mul_div_mul_left _ _ ht'.ne', ← tVector_margin hS h1 hν i,
    map_measureReal_apply (measurable_pi_apply i) measurableSet_Iic]
  rfl

end Copulae
