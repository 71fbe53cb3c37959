import Mathlib.Analysis.SpecialFunctions.Integrals.Basic
import Verif.Lemmas.PairLaw
import Verif.Lemmas.Debye

/-!
Kendall's tau and Spearman's rho of the bivariate Clayton and Frank copulas, computed from the conditional
samplers.
-/

namespace Copulae

open MeasureTheory Set

theorem PairLaw.congr {Q : Measure (ℝ × ℝ)} {C C' : ℝ → ℝ → ℝ} (h : PairLaw Q C)
    (he : ∀ a b, 0 < a → a ≤ 1 → 0 < b → b ≤ 1 → C a b = C' a b) : PairLaw Q C' :=
  ⟨h.prob, h.mem, fun a b ha ha1 hb hb1 => (h.dist a b ha ha1 hb hb1).trans (he a b ha ha1 hb hb1)⟩

instance : IsProbabilityMeasure (volume.restrict (Ioo (0 : ℝ) 1)) := ⟨by simp⟩

instance : IsProbabilityMeasure unitSquare := by
  unfold unitSquare
  infer_instance

theorem unitSquare_ae : ∀ᵐ p ∂unitSquare, p.1 ∈ Ioo (0 : ℝ) 1 ∧ p.2 ∈ Ioo (0 : ℝ) 1 := by
  rw [unitSquare_eq]
  exact ae_restrict_mem (measurableSet_Ioo.prod measurableSet_Ioo)

theorem integral_unit (f : ℝ → ℝ) : ∫ x in Ioo (0 : ℝ) 1, f x = ∫ x in (0 : ℝ)..1, f x := by
  rw [intervalIntegral.integral_of_le zero_le_one, integral_Ioc_eq_integral_Ioo]

theorem integral_unitSquare {f : ℝ × ℝ → ℝ} (hf : Integrable f unitSquare) :
    ∫ p, f p ∂unitSquare = ∫ u in Ioo (0 : ℝ) 1, ∫ w in Ioo (0 : ℝ) 1, f (u, w) := by
  unfold unitSquare at hf ⊢
  exact integral_prod f hf

/-! ### Clayton -/

/-- The bivariate Clayton copula. -/
noncomputable def claytonC2 (θ u v : ℝ) : ℝ := (max (u ^ (-θ) + v ^ (-θ) - 1) 0) ^ (-1 / θ)

theorem clayton_pairLaw {θ : ℝ} (h1 : -1 < θ) (h0 : θ ≠ 0) :
    PairLaw (unitSquare.map fun p => (p.1, claytonV θ p)) (claytonC2 θ) := by
  refine pairLaw_sampler (claytonV_measurable θ) (fun u hu w hw => claytonV_mem h1 h0 hu hw)
    (fun a b _ _ _ _ => Real.rpow_nonneg (le_max_right _ _) _) fun a b ha ha1 hb hb1 => ?_
  exact clayton_pair_distribution h1 h0 ha ha1 hb hb1

theorem claytonC2_margin {θ : ℝ} (h0 : θ ≠ 0) {a : ℝ} (ha : 0 < a) : claytonC2 θ a 1 = a ∧ claytonC2 θ 1 a = a := by
  have e : a ^ (-θ) ⊔ 0 = a ^ (-θ) := max_eq_left (Real.rpow_nonneg ha.le _)
  have k : (a ^ (-θ)) ^ (-1 / θ) = a := by
    rw [← Real.rpow_mul ha.le, show -θ * (-1 / θ) = 1 by field_simp, Real.rpow_one]
  constructor
  · rw [claytonC2, Real.one_rpow, add_sub_cancel_right, e, k]
  · rw [claytonC2, Real.one_rpow, add_sub_cancel_left, e, k]

theorem clayton_pair_tau {Q : Measure (ℝ × ℝ)} {θ : ℝ} (h1 : -1 < θ) (h0 : θ ≠ 0) (hQ : PairLaw Q (claytonC2 θ)) :
    pairTau Q = θ / (θ + 2) := by
  rw [hQ.tau (fun a ha _ => (claytonC2_margin h0 ha).1) (fun a ha _ => (claytonC2_margin h0 ha).2),
    hQ.ext (clayton_pairLaw h1 h0)]
  have hT : Measurable fun p : ℝ × ℝ => (p.1, claytonV θ p) := measurable_fst.prodMk (claytonV_measurable θ)
  have hm : AEStronglyMeasurable (fun p : ℝ × ℝ => claytonC2 θ p.1 p.2)
      (unitSquare.map fun p => (p.1, claytonV θ p)) := by
    refine Measurable.aestronglyMeasurable ?_
    unfold claytonC2
    fun_prop
  rw [integral_map hT.aemeasurable hm]
  have e : ∀ᵐ p ∂unitSquare, claytonC2 θ p.1 (claytonV θ p) = p.1 * p.2 ^ (1 / (θ + 1)) := by
    filter_upwards [unitSquare_ae] with p hp
    have hr := claytonV_rpow (θ := θ) h0 hp.1 hp.2
    have hu : 0 < p.1 ^ (-θ) := Real.rpow_pos_of_pos hp.1.1 _
    have hw : 0 < p.2 ^ (-θ / (θ + 1)) := Real.rpow_pos_of_pos hp.2.1 _
    rw [claytonC2, hr, max_eq_left (by positivity), Real.mul_rpow hu.le hw.le, ← Real.rpow_mul hp.1.1.le,
      ← Real.rpow_mul hp.2.1.le, show -θ * (-1 / θ) = 1 by field_simp, Real.rpow_one,
      show -θ / (θ + 1) * (-1 / θ) = 1 / (θ + 1) by
        have : θ + 1 ≠ 0 := by linarith
        field_simp]
  rw [integral_congr_ae e]
  have h2 : ∫ p, p.1 * p.2 ^ (1 / (θ + 1)) ∂unitSquare = 1 / 2 * ((θ + 1) / (θ + 2)) := by
    unfold unitSquare
    rw [integral_prod_mul (fun x : ℝ => x) fun y : ℝ => y ^ (1 / (θ + 1)), integral_unit, integral_unit, integral_id,
      integral_rpow (Or.inl (by have : 0 < 1 / (θ + 1) := by apply one_div_pos.mpr; linarith
                                linarith))]
    have h3 : θ + 1 ≠ 0 := by linarith
    have h4 : θ + 2 ≠ 0 := by linarith
    have h5 : 1 / (θ + 1) + 1 = (θ + 2) / (θ + 1) := by field_simp; ring
    rw [h5, Real.one_rpow, Real.zero_rpow (div_ne_zero h4 h3)]
    field_simp
    norm_num
  rw [h2]
  have h4 : θ + 2 ≠ 0 := by linarith
  field_simp
  ring

/-! ### Frank -/

theorem frankC2_margin {θ : ℝ} (hθ : θ ≠ 0) (a : ℝ) : frankC2 θ a 1 = a ∧ frankC2 θ 1 a = a := by
  have hK : Real.exp (-θ) - 1 ≠ 0 := by
    rw [sub_ne_zero, Ne, Real.exp_eq_one_iff]
    simpa using hθ
  constructor
  · rw [frankC2, mul_one, mul_div_cancel_right₀ _ hK, add_sub_cancel, Real.log_exp]
    field_simp
  · rw [frankC2, mul_one, mul_comm (Real.exp (-θ) - 1), mul_div_cancel_right₀ _ hK, add_sub_cancel, Real.log_exp]
    field_simp

theorem frank_pairLaw {θ : ℝ} (hθ : θ ≠ 0) :
    PairLaw (unitSquare.map fun p => (p.1, frankPairR θ p)) (frankC2 θ) := by
  have hd : ∀ a b : ℝ, 0 < a → a ≤ 1 → 0 < b → b ≤ 1 → 0 ≤ frankC2 θ a b := by
    intro a b ha ha1 hb hb1
    have hanti : frankC2 θ 0 b ≤ frankC2 θ a b := by
      have hmono : MonotoneOn (fun t => frankC2 θ t b) (Icc 0 1) := by
        refine monotoneOn_of_deriv_nonneg (convex_Icc 0 1) ?_ ?_ ?_
        · intro t ht
          exact (frankC2_hasDerivAt hθ ht.1 ht.2 hb.le hb1).continuousAt.continuousWithinAt
        · intro t ht
          rw [interior_Icc] at ht
          exact (frankC2_hasDerivAt hθ ht.1.le ht.2.le hb.le hb1).differentiableAt.differentiableWithinAt
        · intro t ht
          rw [interior_Icc] at ht
          rw [(frankC2_hasDerivAt hθ ht.1.le ht.2.le hb.le hb1).deriv]
          exact (frankD_mem hθ ht hb.le hb1).1
      exact hmono ⟨le_rfl, zero_le_one⟩ ⟨ha.le, ha1⟩ ha.le
    have h0 : frankC2 θ 0 b = 0 := by simp [frankC2]
    linarith
  exact pairLaw_sampler (frankPairR_measurable θ) (fun u hu w hw => frankPairR_mem hθ hu hw) hd
    fun a b ha ha1 hb hb1 => frank_pair_distribution hθ ha.le ha1 hb.le hb1

theorem integral_log_line {a b : ℝ} (hab : a ≠ b) :
    ∫ t in (0 : ℝ)..1, Real.log (a + t * (b - a)) = (b * Real.log b - a * Real.log a) / (b - a) - 1 := by
  have hne : b - a ≠ 0 := sub_ne_zero.mpr hab.symm
  have e : (fun t : ℝ => Real.log (a + t * (b - a))) = fun t => Real.log ((b - a) * t + a) := by
    funext t; congr 1; ring
  rw [e, intervalIntegral.integral_comp_mul_add (fun x => Real.log x) hne, integral_log, smul_eq_mul]
  rw [mul_zero, zero_add, mul_one, sub_add_cancel]
  field_simp
  ring

/-- The value of the conditional distribution function. -/
noncomputable def frankQ (θ w : ℝ) : ℝ := if θ > 0 then 1 - w else w

theorem frankQ_mem {θ w : ℝ} (hw : w ∈ Ioo (0 : ℝ) 1) : frankQ θ w ∈ Ioo (0 : ℝ) 1 := by
  unfold frankQ
  split
  · exact ⟨by linarith [hw.2], by linarith [hw.1]⟩
  · exact hw

theorem integral_frankQ (θ : ℝ) (f : ℝ → ℝ) : ∫ w in (0 : ℝ)..1, f (frankQ θ w) = ∫ t in (0 : ℝ)..1, f t := by
  unfold frankQ
  by_cases h : θ > 0
  · simp only [if_pos h]
    rw [intervalIntegral.integral_comp_sub_left f 1]
    norm_num
  · simp only [if_neg h]

theorem frank_solve {θ u b q : ℝ} (hθ : θ ≠ 0) (hu : u ∈ Ioo (0 : ℝ) 1) (hb : b ∈ Ioo (0 : ℝ) 1)
    (hq : q ∈ Ioo (0 : ℝ) 1) (h : frankD θ b u = q) :
    frankC2 θ u b = 1 / θ * Real.log (1 + q * (Real.exp (θ * u) - 1)) ∧
    b = -1 / θ * (Real.log (Real.exp (-θ * u) + q * (Real.exp (-θ) - Real.exp (-θ * u))) -
      Real.log (Real.exp (-θ * u) + q * (1 - Real.exp (-θ * u)))) := by
  have hK : Real.exp (-θ) - 1 ≠ 0 := by
    rw [sub_ne_zero, Ne, Real.exp_eq_one_iff]
    simpa using hθ
  have hden := frank_den hθ hu.1.le hu.2.le hb.1.le hb.2.le
  have hp := Real.exp_pos (-θ * u)
  have hg := Real.exp_pos (-θ)
  have hB := Real.exp_pos (-θ * b)
  have hinv : Real.exp (θ * u) = (Real.exp (-θ * u))⁻¹ := by rw [← Real.exp_neg]; congr 1; ring
  set p := Real.exp (-θ * u) with hpdef
  set g := Real.exp (-θ) with hgdef
  set B := Real.exp (-θ * b) with hBdef
  have hx1 : 0 < p + q * (1 - p) := by nlinarith [hq.1, hq.2]
  have hx2 : 0 < p + q * (g - p) := by nlinarith [hq.1, hq.2]
  have hden' : g - 1 + (p - 1) * (B - 1) ≠ 0 := by
    intro hc
    have : 1 + (p - 1) * (B - 1) / (g - 1) = 0 := by
      field_simp
      linarith
    linarith
  have hD : p * (B - 1) = q * (g - 1 + (p - 1) * (B - 1)) := by
    have := h
    unfold frankD at this
    rw [div_eq_iff hden'] at this
    exact this
  have hBv : B = (p + q * (g - p)) / (p + q * (1 - p)) := by
    rw [eq_div_iff hx1.ne']
    linear_combination hD
  have hCv : 1 + (p - 1) * (B - 1) / (g - 1) = p / (p + q * (1 - p)) := by
    rw [hBv]
    field_simp
    ring
  constructor
  · rw [frankC2, hCv, Real.log_div hp.ne' hx1.ne', hinv]
    have e : 1 + q * (p⁻¹ - 1) = (p + q * (1 - p)) / p := by field_simp
    rw [e, Real.log_div hx1.ne' hp.ne']
    ring
  · rw [← Real.log_div hx2.ne' hx1.ne', ← hBv, hBdef, Real.log_exp]
    field_simp

theorem frank_exp_ne {θ u : ℝ} (hθ : θ ≠ 0) (hu : u ≠ 0) : Real.exp (θ * u) ≠ 1 := by
  rw [Ne, Real.exp_eq_one_iff]
  exact mul_ne_zero hθ hu

/-- The mean of the copula given the first coordinate. -/
theorem frank_cond_C {θ u : ℝ} (hθ : θ ≠ 0) (hu : u ∈ Ioo (0 : ℝ) 1) :
    ∫ w in Ioo (0 : ℝ) 1, frankC2 θ u (frankPairR θ (u, w)) = u + (boseG (θ * u) - 1) / θ := by
  have e : ∀ w ∈ Ioo (0 : ℝ) 1, frankC2 θ u (frankPairR θ (u, w)) =
      (fun t => 1 / θ * Real.log (1 + t * (Real.exp (θ * u) - 1))) (frankQ θ w) := fun w hw =>
    (frank_solve hθ hu (frankPairR_mem hθ hu hw) (frankQ_mem hw) (frankD_pair hθ hu hw)).1
  rw [setIntegral_congr_fun measurableSet_Ioo e, integral_unit,
    integral_frankQ θ fun t => 1 / θ * Real.log (1 + t * (Real.exp (θ * u) - 1)),
    intervalIntegral.integral_const_mul, integral_log_line (frank_exp_ne hθ hu.1.ne').symm,
    Real.log_one, Real.log_exp, boseG_ne (mul_ne_zero hθ hu.1.ne')]
  have hne : Real.exp (θ * u) - 1 ≠ 0 := sub_ne_zero.mpr (frank_exp_ne hθ hu.1.ne')
  field_simp
  ring

/-- The mean of the second coordinate given the first. -/
theorem frank_cond_V {θ u : ℝ} (hθ : θ ≠ 0) (hu : u ∈ Ioo (0 : ℝ) 1) :
    ∫ w in Ioo (0 : ℝ) 1, frankPairR θ (u, w) = u + (boseG (θ * u) - boseG (θ * (1 - u))) / θ := by
  have hu1 : 1 - u ≠ 0 := by linarith [hu.2]
  have hp := Real.exp_pos (-θ * u)
  have hg := Real.exp_pos (-θ)
  have hp1 : Real.exp (-θ * u) ≠ 1 := frank_exp_ne (neg_ne_zero.mpr hθ) hu.1.ne'
  have hpg : Real.exp (-θ * u) ≠ Real.exp (-θ) := by
    rw [Ne, Real.exp_eq_exp]
    intro h
    have : θ * (1 - u) = 0 := by linarith
    exact (mul_ne_zero hθ hu1) this
  have e : ∀ w ∈ Ioo (0 : ℝ) 1, frankPairR θ (u, w) =
      (fun t => -1 / θ * (Real.log (Real.exp (-θ * u) + t * (Real.exp (-θ) - Real.exp (-θ * u))) -
      Real.log (Real.exp (-θ * u) + t * (1 - Real.exp (-θ * u))))) (frankQ θ w) := fun w hw =>
    (frank_solve hθ hu (frankPairR_mem hθ hu hw) (frankQ_mem hw) (frankD_pair hθ hu hw)).2
  have hi : ∀ a b : ℝ, 0 < a → 0 < b →
      IntervalIntegrable (fun t => Real.log (a + t * (b - a))) volume 0 1 := by
    intro a b ha hb
    refine ContinuousOn.intervalIntegrable ?_
    refine ContinuousOn.log (by fun_prop) fun t ht => ?_
    rw [uIcc_of_le zero_le_one] at ht
    have : 0 < a + t * (b - a) := by
      rcases ht.1.eq_or_lt with rfl | h
      · simpa using ha
      · nlinarith [ht.2]
    exact this.ne'
  rw [setIntegral_congr_fun measurableSet_Ioo e, integral_unit,
    integral_frankQ θ fun t => -1 / θ * (Real.log (Real.exp (-θ * u) + t * (Real.exp (-θ) - Real.exp (-θ * u))) -
      Real.log (Real.exp (-θ * u) + t * (1 - Real.exp (-θ * u)))),
    intervalIntegral.integral_const_mul, intervalIntegral.integral_sub (hi _ _ hp hg) (hi _ _ hp one_pos),
    integral_log_line hpg, integral_log_line hp1, Real.log_one, Real.log_exp, Real.log_exp,
    boseG_ne (mul_ne_zero hθ hu.1.ne'), boseG_ne (mul_ne_zero hθ hu1)]
  have e1 : Real.exp (θ * u) = (Real.exp (-θ * u))⁻¹ := by rw [← Real.exp_neg]; congr 1; ring
  have e2 : Real.exp (θ * (1 - u)) = Real.exp (-θ * u) / Real.exp (-θ) := by
    rw [← Real.exp_sub]; congr 1; ring
  rw [e1, e2]
  set p := Real.exp (-θ * u)
  set g := Real.exp (-θ)
  have h1 : g - p ≠ 0 := sub_ne_zero.mpr hpg.symm
  have h2 : 1 - p ≠ 0 := sub_ne_zero.mpr hp1.symm
  have h3 : p⁻¹ - 1 = (1 - p) / p := by field_simp
  have h4 : p / g - 1 = -(g - p) / g := by field_simp; ring
  rw [h3, h4]
  field_simp
  ring

theorem frankC2_le {θ u b : ℝ} (hθ : θ ≠ 0) (hu : u ∈ Ioo (0 : ℝ) 1) (hb : b ∈ Ioo (0 : ℝ) 1) :
    |frankC2 θ u b| ≤ 1 := by
  have h := frank_pairLaw hθ
  have := h.prob
  rw [← h.dist u b hu.1 hu.2.le hb.1 hb.2.le, abs_of_nonneg measureReal_nonneg]
  exact measureReal_le_one

theorem frank_pair_tau {Q : Measure (ℝ × ℝ)} {θ : ℝ} (h0 : θ ≠ 0) (hQ : PairLaw Q (frankC2 θ)) :
    pairTau Q = 1 + 4 * (Spec.debye1 θ - 1) / θ := by
  rw [hQ.tau (fun a _ _ => (frankC2_margin h0 a).1) (fun a _ _ => (frankC2_margin h0 a).2),
    hQ.ext (frank_pairLaw h0)]
  have hT : Measurable fun p : ℝ × ℝ => (p.1, frankPairR θ p) := measurable_fst.prodMk (frankPairR_measurable θ)
  have hmC : Measurable (fun p : ℝ × ℝ => frankC2 θ p.1 p.2) := by
    unfold frankC2
    fun_prop
  have hm : AEStronglyMeasurable (fun p : ℝ × ℝ => frankC2 θ p.1 p.2)
      (unitSquare.map fun p => (p.1, frankPairR θ p)) := hmC.aestronglyMeasurable
  rw [integral_map hT.aemeasurable hm]
  have hi : Integrable (fun p : ℝ × ℝ => frankC2 θ p.1 (frankPairR θ p)) unitSquare := by
    refine Integrable.of_bound (C := 1) (hmC.comp hT).aestronglyMeasurable ?_
    filter_upwards [unitSquare_ae] with p hp
    exact frankC2_le h0 hp.1 (frankPairR_mem h0 hp.1 hp.2)
  rw [integral_unitSquare hi, setIntegral_congr_fun measurableSet_Ioo fun u hu => frank_cond_C h0 hu, integral_unit]
  have hc : Continuous fun u => boseG (θ * u) := boseG_continuous.comp (by fun_prop)
  have c1 : Continuous fun u : ℝ => u := continuous_id
  have c2 : Continuous fun u : ℝ => (boseG (θ * u) - 1) / θ := by fun_prop
  have c3 : Continuous fun _ : ℝ => (1 : ℝ) := continuous_const
  rw [intervalIntegral.integral_add (c1.intervalIntegrable 0 1) (c2.intervalIntegrable 0 1),
    intervalIntegral.integral_div, intervalIntegral.integral_sub (hc.intervalIntegrable 0 1)
    (c3.intervalIntegrable 0 1),
    ← debye1_unit h0]
  simp
  field_simp
  ring

theorem frank_pair_rho {Q : Measure (ℝ × ℝ)} {θ : ℝ} (h0 : θ ≠ 0) (hQ : PairLaw Q (frankC2 θ)) :
    12 * ∫ p, p.1 * p.2 ∂Q - 3 = 1 + 12 / θ * (Spec.debye2 θ - Spec.debye1 θ) := by
  rw [hQ.ext (frank_pairLaw h0)]
  have hT : Measurable fun p : ℝ × ℝ => (p.1, frankPairR θ p) := measurable_fst.prodMk (frankPairR_measurable θ)
  have hmC : Measurable (fun p : ℝ × ℝ => p.1 * p.2) := by fun_prop
  have hm : AEStronglyMeasurable (fun p : ℝ × ℝ => p.1 * p.2)
      (unitSquare.map fun p => (p.1, frankPairR θ p)) := hmC.aestronglyMeasurable
  rw [integral_map hT.aemeasurable hm]
  have hi : Integrable (fun p : ℝ × ℝ => p.1 * frankPairR θ p) unitSquare := by
    refine Integrable.of_bound (C := 1) (hmC.comp hT).aestronglyMeasurable ?_
    filter_upwards [unitSquare_ae] with p hp
    have := frankPairR_mem h0 hp.1 hp.2
    rw [Real.norm_eq_abs, abs_of_nonneg (mul_nonneg hp.1.1.le this.1.le)]
    exact mul_le_one₀ hp.1.2.le this.1.le this.2.le
  have e : ∀ u ∈ Ioo (0 : ℝ) 1, ∫ w in Ioo (0 : ℝ) 1, u * frankPairR θ (u, w) =
      u * (u + (boseG (θ * u) - boseG (θ * (1 - u))) / θ) := fun u hu => by
    rw [integral_const_mul, frank_cond_V h0 hu]
  rw [integral_unitSquare hi, setIntegral_congr_fun measurableSet_Ioo e, integral_unit]
  have hc1 : Continuous fun u => boseG (θ * u) := boseG_continuous.comp (by fun_prop)
  have hc2 : Continuous fun u => boseG (θ * (1 - u)) := boseG_continuous.comp (by fun_prop)
  have e2 : (fun u => u * (u + (boseG (θ * u) - boseG (θ * (1 - u))) / θ)) =
      fun u => u ^ 2 + (1 / (2 * θ) * (2 * u * boseG (θ * u)) - 1 / θ * (u * boseG (θ * (1 - u)))) := by
    funext u
    field_simp
  have c1 : Continuous fun u : ℝ => u ^ 2 := by fun_prop
  have c2 : Continuous fun u : ℝ => 1 / (2 * θ) * (2 * u * boseG (θ * u)) := by fun_prop
  have c3 : Continuous fun u : ℝ => 1 / θ * (u * boseG (θ * (1 - u))) := by fun_prop
  have c23 : Continuous fun u : ℝ => 1 / (2 * θ) * (2 * u * boseG (θ * u)) - 1 / θ * (u * boseG (θ * (1 - u))) := by
    fun_prop
  have hflip : ∫ u in (0 : ℝ)..1, u * boseG (θ * (1 - u)) = Spec.debye1 θ - Spec.debye2 θ / 2 := by
    have := intervalIntegral.integral_comp_sub_left (a := 0) (b := 1) (fun u => (1 - u) * boseG (θ * u)) 1
    simp only [sub_sub_cancel, sub_self, sub_zero] at this
    rw [this, debye1_unit h0, debye2_unit h0]
    have e3 : (fun u => (1 - u) * boseG (θ * u)) = fun u => boseG (θ * u) - 1 / 2 * (2 * u * boseG (θ * u)) := by
      funext u; ring
    have c4 : Continuous fun u : ℝ => 1 / 2 * (2 * u * boseG (θ * u)) := by fun_prop
    rw [e3, intervalIntegral.integral_sub (hc1.intervalIntegrable 0 1) (c4.intervalIntegrable 0 1),
      intervalIntegral.integral_const_mul]
    ring
  rw [e2, intervalIntegral.integral_add (c1.intervalIntegrable 0 1) (c23.intervalIntegrable 0 1),
    intervalIntegral.integral_sub (c2.intervalIntegrable 0 1) (c3.intervalIntegrable 0 1),
    intervalIntegral.integral_const_mul, intervalIntegral.integral_const_mul, ← debye2_unit h0, hflip, integral_pow]
  field_simp
  ring

end Copulae
