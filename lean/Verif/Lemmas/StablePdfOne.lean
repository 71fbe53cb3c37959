import Verif.Lemmas.StableOneLaw
import Verif.Lemmas.StablePdfMain
import Verif.Model.StablePdfOne

/-!
The integral `aux_f2` computes is close to the one in the density.
-/

namespace Copulae

open MeasureTheory Set Real Topology

/-- The angle, in units of `π / 2`, up to which the code takes the function in the exponent to be zero. -/
noncomputable def oneCut : ℝ := -1 + 1 / 10 ^ 10

theorem oneG1_isclose {u : ℝ} (hu : -1 ≤ u) :
    |(|u + 1|) - 0| ≤ 1 / 10 ^ 10 + 1 / 10 ^ 5 * |(0 : ℝ)| ↔ u ≤ oneCut := by
  rw [sub_zero, abs_abs, abs_of_nonneg (by linarith), abs_zero, mul_zero, add_zero, oneCut]
  constructor <;> intro h <;> linarith

/-- The values `g1` takes. -/
noncomputable def oneReal (β x u : ℝ) : ℝ :=
  if u ≤ oneCut then 0
  else if u = 1 then (1 + β) * exp (-(π * x / (2 * β)) + (π / (2 * β) + π / 2) * tanHalfPi) / cosHalfPi
  else Spec.stableVOne β x (u * (π / 2))

section
variable {β : ℝ} (h0 : β ≠ 0) (hβ : |β| ≤ 1)

theorem one_angle {u : ℝ} (h1 : -1 < u) (h2 : u < 1) : u * (π / 2) ∈ Ioo (-(π / 2)) (π / 2) := by
  have := pi_pos
  exact ⟨by nlinarith, by nlinarith⟩

include h0 hβ in
theorem oneG1_eq (x : ℝ) {u : ℝ} (hu : u ∈ Icc (-1) (1 : ℝ)) :
    oneG1 β (.fin (-(π * x / (2 * β)))) u = .fin (oneReal β x u) ∧ 0 ≤ oneReal β x u := by
  have hp := pi_pos
  unfold oneG1 oneReal
  by_cases hc : u ≤ oneCut
  · rw [if_pos ((oneG1_isclose hu.1).mpr hc), if_pos hc]
    exact ⟨rfl, le_rfl⟩
  · rw [if_neg (fun h => hc ((oneG1_isclose hu.1).mp h)), if_neg hc]
    have hu1 : -1 < u := by
      rw [oneCut] at hc
      linarith
    by_cases h1 : u = 1
    · have hb := (abs_le.mp hβ).1
      rw [if_pos h1, h1]
      constructor
      · have hcos : cos (1 * π / 2) = 0 := by rw [one_mul, cos_pi_div_two]
        simp only [tanpi2, cospi2Rounded, if_pos hcos, Fl.fin_mul_fin, Fl.fin_add_fin, Fl.exp]
        rw [Fl.fin_div_fin' _ (by unfold cosHalfPi; norm_num)]
        congr 2
        congr 1
        · field_simp
        · congr 1
          field_simp
      · have : 0 < cosHalfPi := by unfold cosHalfPi; norm_num
        have : 0 ≤ 1 + β := by linarith
        positivity
    · have hu2 : u < 1 := lt_of_le_of_ne hu.2 h1
      have hθ := one_angle hu1 hu2
      have hcos := cos_pos_of_mem_Ioo hθ
      have e : u * π / 2 = u * (π / 2) := by ring
      rw [if_neg h1]
      refine ⟨?_, (stableVOne_pos hβ hθ x).le⟩
      simp only [tanpi2, cospi2Rounded, e, if_neg hcos.ne', Fl.fin_mul_fin, Fl.fin_add_fin, Fl.exp]
      rw [Fl.fin_div_fin' _ hcos.ne', Spec.stableVOne]
      congr 1
      rw [show π * (1 / (2 * β)) + u * (π / 2) = (π / 2 + β * (u * (π / 2))) / β by field_simp,
        show (π / 2 + β * (u * (π / 2))) / β / (π * (1 / (2 * β))) = 2 / π * (π / 2 + β * (u * (π / 2))) by field_simp,
        show -(π * x / (2 * β)) + (π / 2 + β * (u * (π / 2))) / β * tan (u * (π / 2)) =
          (π / 2 + β * (u * (π / 2))) / β * tan (u * (π / 2)) - π * x / (2 * β) by ring]
      ring

/-- The values `g2` takes. -/
noncomputable def oneInt (β x u : ℝ) : ℝ :=
  if largeExpPow < oneReal β x u then 0 else oneReal β x u * exp (-oneReal β x u)

include h0 hβ in
theorem oneG2_eq (x : ℝ) {u : ℝ} (hu : u ∈ Icc (-1) (1 : ℝ)) :
    oneG2 β (.fin (-(π * x / (2 * β)))) u = .fin (oneInt β x u) := by
  rw [oneG2, (oneG1_eq h0 hβ x hu).1, xexp, oneInt]
  simp only [Fl.fin_lt_fin]
  split_ifs <;> rfl

theorem measurable_oneReal (x : ℝ) : Measurable (oneReal β x) := by
  unfold oneReal
  refine Measurable.ite measurableSet_Iic measurable_const (Measurable.ite (measurableSet_singleton 1) measurable_const ?_)
  exact measurable_stableVOne.comp (f := fun u : ℝ => (u * (π / 2), x)) (by fun_prop)

theorem measurable_oneInt (x : ℝ) : Measurable (oneInt β x) := by
  have h := measurable_oneReal (β := β) x
  unfold oneInt
  exact Measurable.ite (measurableSet_lt measurable_const h) measurable_const (h.mul (measurable_exp.comp h.neg))

include h0 hβ in
theorem oneInt_bounds (x : ℝ) {u : ℝ} (hu : u ∈ Icc (-1) (1 : ℝ)) : 0 ≤ oneInt β x u ∧ oneInt β x u ≤ 1 := by
  have h := (oneG1_eq h0 hβ x hu).2
  unfold oneInt
  split_ifs
  · exact ⟨le_rfl, zero_le_one⟩
  · exact ⟨by positivity, mul_exp_neg_le _⟩

include h0 hβ in
theorem oneInt_integrable (x : ℝ) {a b : ℝ} (ha : a ∈ Icc (-1) (1 : ℝ)) (hb : b ∈ Icc (-1) (1 : ℝ)) :
    IntervalIntegrable (oneInt β x) volume a b := by
  rw [intervalIntegrable_iff]
  refine Measure.integrableOn_of_bounded (M := 1) (by simp [uIoc]) (measurable_oneInt x).aestronglyMeasurable ?_
  refine (ae_restrict_iff' measurableSet_uIoc).mpr (Filter.Eventually.of_forall fun u hu => ?_)
  have hu : u ∈ Icc (-1) (1 : ℝ) := uIcc_subset_Icc ha hb (uIoc_subset_uIcc hu)
  have := oneInt_bounds h0 hβ x hu
  rw [norm_of_nonneg this.1]
  exact this.2

omit h0 hβ in
theorem mul_exp_neg_le_two {v : ℝ} (hv : 0 ≤ v) : v * exp (-v) ≤ 1 / 2 := by
  rw [exp_neg, ← div_eq_mul_inv, div_le_iff₀ (exp_pos v)]
  nlinarith [quadratic_le_exp_of_nonneg hv, sq_nonneg (v - 1)]

/-- The integrand of the density in units of `π / 2`. -/
noncomputable def oneExact (β x u : ℝ) : ℝ :=
  Spec.stableVOne β x (u * (π / 2)) * exp (-Spec.stableVOne β x (u * (π / 2)))

theorem oneExact_integral (x : ℝ) :
    ∫ u in (-1 : ℝ)..1, oneExact β x u =
      2 / π * ∫ θ in (-(π / 2))..(π / 2), Spec.stableVOne β x θ * exp (-Spec.stableVOne β x θ) := by
  have := intervalIntegral.integral_comp_mul_right (a := -1) (b := 1) (c := π / 2)
    (fun θ => Spec.stableVOne β x θ * exp (-Spec.stableVOne β x θ)) (by positivity)
  unfold oneExact
  rw [this, smul_eq_mul, neg_one_mul, one_mul]
  congr 1
  field_simp

include hβ in
theorem oneExact_bounds (x : ℝ) {u : ℝ} (h1 : -1 < u) (h2 : u < 1) : 0 < oneExact β x u ∧ oneExact β x u ≤ 1 / 2 := by
  have := stableVOne_pos hβ (one_angle h1 h2) x
  unfold oneExact
  exact ⟨by positivity, mul_exp_neg_le_two this.le⟩

include hβ in
theorem oneExact_integrable (x : ℝ) : IntervalIntegrable (oneExact β x) volume (-1) 1 := by
  have hm : Measurable fun u : ℝ => Spec.stableVOne β x (u * (π / 2)) :=
    measurable_stableVOne.comp (f := fun u : ℝ => (u * (π / 2), x)) (by fun_prop)
  rw [intervalIntegrable_iff_integrableOn_Ioo_of_le (by norm_num)]
  refine Measure.integrableOn_of_bounded (M := 1 / 2) (by simp)
    (hm.mul (measurable_exp.comp hm.neg)).aestronglyMeasurable ?_
  refine (ae_restrict_iff' measurableSet_Ioo).mpr (Filter.Eventually.of_forall fun u hu => ?_)
  have := oneExact_bounds hβ x hu.1 hu.2
  unfold oneExact at this ⊢
  rw [norm_of_nonneg this.1.le]
  exact this.2

include h0 hβ in
/-- The integral over the grid and the one in the density. -/
theorem oneInt_close (x : ℝ) :
    |(∫ u in (-1 : ℝ)..1, oneInt β x u) - ∫ u in (-1 : ℝ)..1, oneExact β x u| ≤ 1 / 2 / 10 ^ 10 + 2 / 10 ^ 100 := by
  have hc : oneCut ∈ Icc (-1) (1 : ℝ) := by unfold oneCut; constructor <;> norm_num
  have hm1 : (-1 : ℝ) ∈ Icc (-1) (1 : ℝ) := by constructor <;> norm_num
  have hm2 : (1 : ℝ) ∈ Icc (-1) (1 : ℝ) := by constructor <;> norm_num
  have hi : ∀ a ∈ Icc (-1) (1 : ℝ), ∀ b ∈ Icc (-1) (1 : ℝ),
      IntervalIntegrable (fun u => oneInt β x u - oneExact β x u) volume a b := fun a ha b hb =>
    (oneInt_integrable h0 hβ x ha hb).sub ((oneExact_integrable hβ x).mono_set (by
      rw [uIcc_of_le (show (-1 : ℝ) ≤ 1 by norm_num)]
      exact uIcc_subset_Icc ha hb))
  rw [← intervalIntegral.integral_sub (oneInt_integrable h0 hβ x hm1 hm2) (oneExact_integrable hβ x),
    ← intervalIntegral.integral_add_adjacent_intervals (hi _ hm1 _ hc) (hi _ hc _ hm2)]
  have b1 : ‖∫ u in (-1 : ℝ)..oneCut, (oneInt β x u - oneExact β x u)‖ ≤ 1 / 2 * |oneCut - -1| := by
    refine intervalIntegral.norm_integral_le_of_norm_le_const fun u hu => ?_
    rw [uIoc_of_le hc.1] at hu
    have hu1 : u < 1 := lt_of_le_of_lt hu.2 (by unfold oneCut; norm_num)
    have := oneExact_bounds hβ x hu.1 hu1
    have e : oneInt β x u = 0 := by
      have : oneReal β x u = 0 := by rw [oneReal, if_pos hu.2]
      rw [oneInt, this]
      simp
    rw [e, zero_sub, norm_neg, norm_of_nonneg this.1.le]
    exact this.2
  have b2 : ‖∫ u in oneCut..1, (oneInt β x u - oneExact β x u)‖ ≤ 1 / 10 ^ 100 * |1 - oneCut| := by
    refine intervalIntegral.norm_integral_le_of_norm_le_const_ae ?_
    filter_upwards [Measure.ae_ne volume (1 : ℝ)] with u hne hu
    rw [uIoc_of_le hc.2] at hu
    have hu1 : u < 1 := lt_of_le_of_ne hu.2 hne
    have hb := oneExact_bounds hβ x (lt_of_le_of_lt hc.1 hu.1) hu1
    have e : oneReal β x u = Spec.stableVOne β x (u * (π / 2)) := by
      rw [oneReal, if_neg (not_le.mpr hu.1), if_neg hne]
    rw [oneInt, e]
    split_ifs with hl
    · rw [zero_sub, norm_neg, norm_of_nonneg hb.1.le]
      exact xexp_tail hl
    · rw [← oneExact, sub_self, norm_zero]
      positivity
  have c1 : |oneCut - -1| = 1 / 10 ^ 10 := by
    unfold oneCut
    rw [abs_of_nonneg] <;> norm_num
  have c2 : |1 - oneCut| ≤ 2 := by
    rw [abs_of_nonneg (by linarith [hc.2])]
    linarith [hc.1]
  rw [c1] at b1
  have b2' := b2.trans (mul_le_mul_of_nonneg_left c2 (by positivity))
  refine (abs_add_le _ _).trans ?_
  rw [Real.norm_eq_abs] at b1 b2'
  calc _ ≤ _ := add_le_add b1 b2'
    _ = _ := by ring

include h0 hβ in
/-- The number `aux_f2` computes. -/
theorem one_close (x : ℝ) :
    |π / 2 * (1 / (2 * |β|)) * (∫ u in (-1 : ℝ)..1, oneInt β x u) - Spec.stableDensityOne β x| ≤
      1 / (2 * |β|) / 10 ^ 10 := by
  have hp := pi_pos
  have hp4 := pi_lt_d2
  have hb := abs_pos.mpr h0
  have hc := oneInt_close h0 hβ x
  have e : Spec.stableDensityOne β x = π / 2 * (1 / (2 * |β|)) * ∫ u in (-1 : ℝ)..1, oneExact β x u := by
    rw [oneExact_integral, Spec.stableDensityOne]
    field_simp
  rw [e, ← mul_sub, abs_mul, abs_of_pos (by positivity)]
  have h1 : π / 2 * (1 / 2 / 10 ^ 10 + 2 / 10 ^ 100) ≤ 1 / 10 ^ 10 := by
    have : (1 : ℝ) / 2 / 10 ^ 10 + 2 / 10 ^ 100 ≤ 6 / 10 ^ 11 := by norm_num
    norm_num at hp4
    nlinarith
  calc _ ≤ π / 2 * (1 / (2 * |β|)) * (1 / 2 / 10 ^ 10 + 2 / 10 ^ 100) :=
        mul_le_mul_of_nonneg_left hc (by positivity)
    _ = 1 / (2 * |β|) * (π / 2 * (1 / 2 / 10 ^ 10 + 2 / 10 ^ 100)) := by ring
    _ ≤ 1 / (2 * |β|) * (1 / 10 ^ 10) := mul_le_mul_of_nonneg_left h1 (by positivity)
    _ = _ := by ring

end

end Copulae
