import Mathlib.MeasureTheory.Function.JacobianOneDim
import Verif.Lemmas.Stable
import Verif.Spec.Stable

/-!
The law of the variates of Chambers, Mallows and Stuck has the density of Nolan's integral: for a fixed angle the
variate is a power of the exponential one.
-/

namespace Copulae

open MeasureTheory Set ProbabilityTheory Real

/-- The variate, without the shift, for the angle `θ` and the exponential variate `w`. -/
noncomputable def cms (α t θ w : ℝ) : ℝ :=
  cos (α * t) ^ (-1 / α) * sin (α * (θ + t)) * cos θ ^ (-1 / α) *
    (cos (θ - α * (θ + t)) / w) ^ ((1 - α) / α)

/-- What the angle has to fulfil. -/
structure AngleOk (α t : ℝ) : Prop where
  pos : 0 < α
  ne : α ≠ 1
  le : t ∈ Icc (-(π / 2)) (π / 2)
  cosT : 0 < cos (α * t)
  cosD : ∀ θ ∈ Ioo (-(π / 2)) (π / 2), 0 < cos (α * (θ + t) - θ)
  small : ∀ θ ∈ Ioo (-(π / 2)) (π / 2), α * (θ + t) ∈ Ioo (-π) π

theorem AngleOk.neg {α t : ℝ} (h : AngleOk α t) : AngleOk α (-t) where
  pos := h.pos
  ne := h.ne
  le := ⟨by linarith [h.le.2], by linarith [h.le.1]⟩
  cosT := by rw [mul_neg, cos_neg]; exact h.cosT
  cosD θ hθ := by
    have := h.cosD (-θ) ⟨by linarith [hθ.2], by linarith [hθ.1]⟩
    rw [← cos_neg]
    convert this using 2
    ring
  small θ hθ := by
    have := h.small (-θ) ⟨by linarith [hθ.2], by linarith [hθ.1]⟩
    have e : α * (θ + -t) = -(α * (-θ + t)) := by ring
    rw [e]
    exact ⟨by linarith [this.2], by linarith [this.1]⟩

theorem lintegral_exp (f : ℝ → ENNReal) (hf : Measurable f) :
    ∫⁻ w, f w ∂(expMeasure 1) = ∫⁻ w in Ioi (0 : ℝ), ENNReal.ofReal (exp (-w)) * f w := by
  have hm : Measurable (gammaPDF 1 1) := (measurable_gammaPDFReal 1 1).ennreal_ofReal
  rw [expMeasure, gammaMeasure, lintegral_withDensity_eq_lintegral_mul _ hm hf,
    ← lintegral_indicator measurableSet_Ioi]
  refine lintegral_congr_ae ?_
  filter_upwards [Measure.ae_ne volume (0 : ℝ)] with w hw
  by_cases h : 0 < w
  · rw [indicator_of_mem (show w ∈ Ioi (0 : ℝ) from h), Pi.mul_apply, gammaPDF, gammaPDFReal, if_pos h.le]
    simp
  · have h' : ¬ (0 ≤ w) := fun h' => h (lt_of_le_of_ne h' (Ne.symm hw))
    rw [indicator_of_notMem (show w ∉ Ioi (0 : ℝ) from h), Pi.mul_apply, gammaPDF, gammaPDFReal, if_neg h']
    simp

section
variable {α t : ℝ} (h : AngleOk α t)
include h

theorem AngleOk.sin_pos {θ : ℝ} (h1 : -t < θ) (h2 : θ < π / 2) : 0 < sin (α * (θ + t)) :=
  sin_pos_of_pos_of_lt_pi (mul_pos h.pos (by linarith)) (h.small θ ⟨by linarith [h.le.2], h2⟩).2

/-- The exponential variate as a function of the angle and of the value. -/
theorem stableV_eq {θ y : ℝ} (h1 : -t < θ) (h2 : θ < π / 2) (hy : 0 < y) :
    Spec.stableV α t y θ =
      (y / (cos (α * t) ^ (-1 / α) * sin (α * (θ + t)) * cos θ ^ (-1 / α) *
        cos (α * (θ + t) - θ) ^ ((1 - α) / α))) ^ (α / (α - 1)) := by
  have hθ : θ ∈ Ioo (-(π / 2)) (π / 2) := ⟨by linarith [h.le.2], h2⟩
  have hs := h.sin_pos h1 h2
  have hd := h.cosD θ hθ
  have hc := h.cosT
  have hth := cos_pos_of_mem_Ioo hθ
  have ha := h.pos
  have ha1 : α - 1 ≠ 0 := sub_ne_zero.mpr h.ne
  have e1 : cos (α * t) * cos θ * (y / sin (α * (θ + t))) ^ α =
      (y / (cos (α * t) ^ (-1 / α) * sin (α * (θ + t)) * cos θ ^ (-1 / α))) ^ α := by
    rw [div_rpow hy.le hs.le, div_rpow hy.le (by positivity), mul_rpow (by positivity) (by positivity),
      mul_rpow (by positivity) hs.le, ← rpow_mul hc.le, ← rpow_mul hth.le, div_mul_cancel₀ _ ha.ne', rpow_neg_one,
      rpow_neg_one]
    field_simp
  have e2 : cos (α * (θ + t) - θ) = (cos (α * (θ + t) - θ) ^ ((1 - α) / α)) ^ (-(α / (α - 1))) := by
    rw [← rpow_mul hd.le, show (1 - α) / α * -(α / (α - 1)) = 1 by
      rw [mul_neg, div_mul_div_comm, mul_comm (1 - α) α, mul_div_mul_left _ _ ha.ne', ← neg_div, neg_sub, div_self ha1],
      rpow_one]
  rw [Spec.stableV, e1, ← rpow_mul (by positivity), mul_one_div]
  conv_lhs => rw [e2]
  rw [rpow_neg (by positivity), ← inv_rpow (by positivity), ← mul_rpow (by positivity) (by positivity)]
  congr 1
  field_simp

/-- For a fixed angle on the positive side: the law of the variate. -/
theorem cms_fixed {θ : ℝ} (h1 : -t < θ) (h2 : θ < π / 2) (g : ℝ → ENNReal) (hg : Measurable g) :
    ∫⁻ w, g (cms α t θ w) ∂(expMeasure 1) =
      ∫⁻ y in Ioi (0 : ℝ), ENNReal.ofReal (α / (|α - 1| * y) *
        (Spec.stableV α t y θ * exp (-Spec.stableV α t y θ))) * g y := by
  have hθ : θ ∈ Ioo (-(π / 2)) (π / 2) := ⟨by linarith [h.le.2], h2⟩
  have hs := h.sin_pos h1 h2
  have hd := h.cosD θ hθ
  have hc := h.cosT
  have hth := cos_pos_of_mem_Ioo hθ
  have ha := h.pos
  have ha1 : α - 1 ≠ 0 := sub_ne_zero.mpr h.ne
  obtain ⟨b, hb⟩ : ∃ b, b = cos (α * t) ^ (-1 / α) * sin (α * (θ + t)) * cos θ ^ (-1 / α) *
        cos (α * (θ + t) - θ) ^ ((1 - α) / α) := ⟨_, rfl⟩
  have hb0 : 0 < b := by rw [hb]; positivity
  have hV : ∀ y, 0 < y → Spec.stableV α t y θ = (y / b) ^ (α / (α - 1)) := fun y hy => by
    rw [stableV_eq h h1 h2 hy, hb]
  have hX : ∀ w, 0 < w → cms α t θ w = b * w ^ ((α - 1) / α) := fun w hw => by
    rw [cms, show θ - α * (θ + t) = -(α * (θ + t) - θ) by ring, cos_neg, div_rpow hd.le hw.le, hb,
      show (α - 1) / α = -((1 - α) / α) by ring, rpow_neg hw.le]
    ring
  have hinv : ∀ y, 0 < y → cms α t θ ((y / b) ^ (α / (α - 1))) = y := fun y hy => by
    have hyb : 0 < y / b := div_pos hy hb0
    rw [hX _ (rpow_pos_of_pos hyb _), ← rpow_mul hyb.le, div_mul_div_cancel₀ ha1, div_self ha.ne', rpow_one]
    field_simp
  have hXm : Measurable fun w => g (cms α t θ w) := hg.comp (by unfold cms; fun_prop)
  rw [lintegral_exp _ hXm]
  have himg : (fun y : ℝ => (y / b) ^ (α / (α - 1))) '' Ioi 0 = Ioi 0 := by
    ext w
    constructor
    · rintro ⟨y, hy, rfl⟩
      exact rpow_pos_of_pos (div_pos hy hb0) _
    · intro hw
      have hw : 0 < w := hw
      refine ⟨b * w ^ ((α - 1) / α), mul_pos hb0 (rpow_pos_of_pos hw _), ?_⟩
      simp only []
      rw [mul_div_cancel_left₀ _ hb0.ne', ← rpow_mul hw.le, div_mul_div_cancel₀ ha.ne', div_self ha1, rpow_one]
  have hinj : InjOn (fun y : ℝ => (y / b) ^ (α / (α - 1))) (Ioi 0) := fun x hx y hy e => by
    simp only [] at e
    rw [← hinv x hx, e, hinv y hy]
  have hder : ∀ y ∈ Ioi (0 : ℝ), HasDerivWithinAt (fun y : ℝ => (y / b) ^ (α / (α - 1)))
      (1 / b * (α / (α - 1)) * (y / b) ^ (α / (α - 1) - 1)) (Ioi 0) y := fun y hy => by
    have hyb : 0 < y / b := div_pos hy hb0
    exact (((hasDerivAt_id y).div_const b).rpow_const (Or.inl hyb.ne')).hasDerivWithinAt
  have key := lintegral_image_eq_lintegral_abs_deriv_mul measurableSet_Ioi hder hinj
    (fun w => ENNReal.ofReal (exp (-w)) * g (cms α t θ w))
  rw [himg] at key
  rw [key]
  refine setLIntegral_congr_fun measurableSet_Ioi fun y hy => ?_
  have hy : 0 < y := hy
  have hyb : 0 < y / b := div_pos hy hb0
  rw [hinv y hy, hV y hy, ← mul_assoc, ← ENNReal.ofReal_mul (abs_nonneg _), ← mul_assoc]
  congr 3
  rw [abs_mul, abs_mul, abs_of_pos (one_div_pos.mpr hb0), abs_div, abs_of_pos ha,
    abs_of_pos (rpow_pos_of_pos hyb _), rpow_sub_one hyb.ne']
  field_simp

omit h in
theorem measurable_stableV : Measurable fun p : ℝ × ℝ => Spec.stableV α t p.2 p.1 := by
  unfold Spec.stableV
  fun_prop

theorem stableV_pos {θ y : ℝ} (h1 : -t < θ) (h2 : θ < π / 2) (hy : 0 < y) : 0 < Spec.stableV α t y θ := by
  have hθ : θ ∈ Ioo (-(π / 2)) (π / 2) := ⟨by linarith [h.le.2], h2⟩
  have hs := h.sin_pos h1 h2
  have hd := h.cosD θ hθ
  have hc := h.cosT
  have hth := cos_pos_of_mem_Ioo hθ
  unfold Spec.stableV
  positivity

omit h in
/-- The integrand is bounded by one. -/
theorem mul_exp_neg_le (v : ℝ) : v * exp (-v) ≤ 1 := by
  rw [exp_neg, ← div_eq_mul_inv, div_le_one (exp_pos v)]
  linarith [add_one_le_exp v]

omit h in
theorem measurable_stableV' (y : ℝ) : Measurable fun θ => Spec.stableV α t y θ := by
  unfold Spec.stableV
  fun_prop

theorem stable_integrable {y : ℝ} (hy : 0 < y) :
    IntervalIntegrable (fun θ => Spec.stableV α t y θ * exp (-Spec.stableV α t y θ)) volume (-t) (π / 2) := by
  have hm := measurable_stableV' (α := α) (t := t) y
  rw [intervalIntegrable_iff_integrableOn_Ioo_of_le (by linarith [h.le.1])]
  refine Measure.integrableOn_of_bounded (M := 1) (by simp) (hm.mul (measurable_exp.comp hm.neg)).aestronglyMeasurable ?_
  refine (ae_restrict_iff' measurableSet_Ioo).mpr (Filter.Eventually.of_forall fun θ hθ => ?_)
  have hV := stableV_pos h hθ.1 hθ.2 hy
  rw [norm_of_nonneg (by positivity)]
  exact mul_exp_neg_le _

theorem stableHalf_lintegral {y : ℝ} (hy : 0 < y) :
    ENNReal.ofReal (1 / π) * ∫⁻ θ in Ioo (-t) (π / 2), ENNReal.ofReal (α / (|α - 1| * y) *
        (Spec.stableV α t y θ * exp (-Spec.stableV α t y θ))) = ENNReal.ofReal (Spec.stableHalf α t y) := by
  have ha := h.pos
  have ha1 : 0 < |α - 1| := abs_pos.mpr (sub_ne_zero.mpr h.ne)
  have hi := (intervalIntegrable_iff_integrableOn_Ioo_of_le (by linarith [h.le.1])).mp (stable_integrable h hy)
  rw [← ofReal_integral_eq_lintegral_ofReal (hi.const_mul _), ← ENNReal.ofReal_mul (by positivity), integral_const_mul,
    Spec.stableHalf, intervalIntegral.integral_of_le (by linarith [h.le.1]), integral_Ioc_eq_integral_Ioo]
  · congr 1
    field_simp
  · refine (ae_restrict_iff' measurableSet_Ioo).mpr (Filter.Eventually.of_forall fun θ hθ => ?_)
    have hV := stableV_pos h hθ.1 hθ.2 hy
    simp only [Pi.zero_apply]
    positivity

/-- The positive side. -/
theorem cms_positive (g : ℝ → ENNReal) (hg : Measurable g) :
    ENNReal.ofReal (1 / π) * ∫⁻ θ in Ioo (-t) (π / 2), ∫⁻ w, g (cms α t θ w) ∂(expMeasure 1) =
      ∫⁻ y in Ioi (0 : ℝ), ENNReal.ofReal (Spec.stableHalf α t y) * g y := by
  have hV := measurable_stableV (α := α) (t := t)
  have e : ∫⁻ θ in Ioo (-t) (π / 2), ∫⁻ w, g (cms α t θ w) ∂(expMeasure 1) =
      ∫⁻ θ in Ioo (-t) (π / 2), ∫⁻ y in Ioi (0 : ℝ), ENNReal.ofReal (α / (|α - 1| * y) *
        (Spec.stableV α t y θ * exp (-Spec.stableV α t y θ))) * g y :=
    setLIntegral_congr_fun measurableSet_Ioo fun θ hθ => cms_fixed h hθ.1 hθ.2 g hg
  rw [e, lintegral_lintegral_swap, ← lintegral_const_mul']
  · refine setLIntegral_congr_fun measurableSet_Ioi fun y hy => ?_
    have hm := measurable_stableV' (α := α) (t := t) y
    have hm' : Measurable fun θ => ENNReal.ofReal (α / (|α - 1| * y) *
        (Spec.stableV α t y θ * exp (-Spec.stableV α t y θ))) :=
      ((hm.mul (measurable_exp.comp hm.neg)).const_mul _).ennreal_ofReal
    rw [lintegral_mul_const _ hm', ← mul_assoc, stableHalf_lintegral h hy]
  · exact ENNReal.ofReal_ne_top
  · refine Measurable.aemeasurable ?_
    have hg2 : Measurable fun p : ℝ × ℝ => g p.2 := hg.comp measurable_snd
    have hy : Measurable fun p : ℝ × ℝ => α / (|α - 1| * p.2) := by fun_prop
    exact (hy.mul (hV.mul (measurable_exp.comp hV.neg))).ennreal_ofReal.mul hg2

omit h in
theorem cms_reflect (θ w : ℝ) : cms α t θ w = -cms α (-t) (-θ) w := by
  rw [cms, cms, cos_neg, show α * (-θ + -t) = -(α * (θ + t)) by ring, sin_neg,
    show -θ - -(α * (θ + t)) = -(θ - α * (θ + t)) by ring, cos_neg, mul_neg α t, cos_neg]
  ring

theorem cms_negative (g : ℝ → ENNReal) (hg : Measurable g) :
    ENNReal.ofReal (1 / π) * ∫⁻ θ in Ioo (-(π / 2)) (-t), ∫⁻ w, g (cms α t θ w) ∂(expMeasure 1) =
      ∫⁻ y in Iio (0 : ℝ), ENNReal.ofReal (Spec.stableHalf α (-t) (-y)) * g y := by
  have hn : Measurable fun y => g (-y) := hg.comp measurable_neg
  have := cms_positive h.neg (fun y => g (-y)) hn
  rw [neg_neg] at this
  have e1 : ∫⁻ θ in Ioo (-(π / 2)) (-t), ∫⁻ w, g (cms α t θ w) ∂(expMeasure 1) =
      ∫⁻ θ in Ioo t (π / 2), ∫⁻ w, g (-cms α (-t) θ w) ∂(expMeasure 1) := by
    have := lintegral_image_eq_lintegral_abs_deriv_mul (s := Ioo t (π / 2)) (f := fun x => -x) (f' := fun _ => -1)
      measurableSet_Ioo (fun x _ => (hasDerivAt_neg x).hasDerivWithinAt) neg_injective.injOn
      (fun θ => ∫⁻ w, g (cms α t θ w) ∂(expMeasure 1))
    rw [image_neg_eq_neg, neg_Ioo] at this
    rw [this]
    refine lintegral_congr fun θ => ?_
    simp only [abs_neg, abs_one, ENNReal.ofReal_one, one_mul, cms_reflect (-θ), neg_neg]
  have e2 : ∫⁻ y in Iio (0 : ℝ), ENNReal.ofReal (Spec.stableHalf α (-t) (-y)) * g y =
      ∫⁻ y in Ioi (0 : ℝ), ENNReal.ofReal (Spec.stableHalf α (-t) y) * g (-y) := by
    have := lintegral_image_eq_lintegral_abs_deriv_mul (s := Ioi (0 : ℝ)) (f := fun x => -x) (f' := fun _ => -1)
      measurableSet_Ioi (fun x _ => (hasDerivAt_neg x).hasDerivWithinAt) neg_injective.injOn
      (fun y => ENNReal.ofReal (Spec.stableHalf α (-t) (-y)) * g y)
    rw [image_neg_eq_neg, neg_Ioi, neg_zero] at this
    rw [this]
    refine lintegral_congr fun θ => ?_
    simp only [abs_neg, abs_one, ENNReal.ofReal_one, one_mul, neg_neg]
  rw [e1, e2, this]

/-- The law of the variate, without the shift. -/
theorem cms_law (g : ℝ → ENNReal) (hg : Measurable g) :
    ∫⁻ p, g (cms α t (π * (p.1 - 0.5)) p.2) ∂frailSpace =
      ∫⁻ y, ENNReal.ofReal (if 0 < y then Spec.stableHalf α t y
        else if y < 0 then Spec.stableHalf α (-t) (-y) else 0) * g y := by
  have hm : Measurable fun p : ℝ × ℝ => cms α t (π * (p.1 - 0.5)) p.2 := by unfold cms; fun_prop
  have hgm : Measurable fun p : ℝ × ℝ => g (cms α t (π * (p.1 - 0.5)) p.2) := hg.comp hm
  rw [frailSpace, lintegral_prod _ hgm.aemeasurable]
  have e1 : ∫⁻ v in Ioo (0 : ℝ) 1, ∫⁻ w, g (cms α t (π * (v - 0.5)) w) ∂(expMeasure 1) =
      ENNReal.ofReal (1 / π) * ∫⁻ θ in Ioo (-(π / 2)) (π / 2), ∫⁻ w, g (cms α t θ w) ∂(expMeasure 1) := by
    have := lintegral_image_eq_lintegral_abs_deriv_mul (s := Ioo (0 : ℝ) 1) (f := fun v => π * (v - 0.5))
      (f' := fun _ => π) measurableSet_Ioo
      (fun x _ => by simpa using (((hasDerivAt_id x).sub_const 0.5).const_mul π).hasDerivWithinAt)
      (fun x _ y _ e => by simpa [pi_ne_zero] using e)
      (fun θ => ∫⁻ w, g (cms α t θ w) ∂(expMeasure 1))
    have hi : (fun v : ℝ => π * (v - 0.5)) '' Ioo 0 1 = Ioo (-(π / 2)) (π / 2) := by
      ext θ
      constructor
      · rintro ⟨v, hv, rfl⟩
        have := pi_pos
        constructor <;> simp only [] <;> nlinarith [hv.1, hv.2]
      · intro hθ
        refine ⟨θ / π + 0.5, ⟨?_, ?_⟩, ?_⟩
        · have := (lt_div_iff₀ pi_pos).mpr (show (-(1 / 2)) * π < θ by linarith [hθ.1])
          linarith
        · have := (div_lt_iff₀ pi_pos).mpr (show θ < (1 / 2) * π by linarith [hθ.2])
          linarith
        · simp only [add_sub_cancel_right]
          field_simp
    rw [hi, lintegral_const_mul' _ _ ENNReal.ofReal_ne_top, abs_of_pos pi_pos] at this
    rw [this, ← mul_assoc, ← ENNReal.ofReal_mul (by positivity), one_div_mul_cancel pi_ne_zero, ENNReal.ofReal_one,
      one_mul]
  have e2 : ∫⁻ θ in Ioo (-(π / 2)) (π / 2), ∫⁻ w, g (cms α t θ w) ∂(expMeasure 1) =
      (∫⁻ θ in Ioo (-(π / 2)) (-t), ∫⁻ w, g (cms α t θ w) ∂(expMeasure 1)) +
      ∫⁻ θ in Ioo (-t) (π / 2), ∫⁻ w, g (cms α t θ w) ∂(expMeasure 1) := by
    rw [← lintegral_union measurableSet_Ioo]
    · refine setLIntegral_congr ?_
      rw [show Ioo (-(π / 2)) (-t) ∪ Ioo (-t) (π / 2) = Ioo (-(π / 2)) (π / 2) \ {-t} by
        ext θ
        simp only [mem_union, mem_Ioo, mem_sdiff, mem_singleton_iff]
        constructor
        · rintro (hθ | hθ)
          · exact ⟨⟨hθ.1, by linarith [h.le.1]⟩, hθ.2.ne⟩
          · exact ⟨⟨by linarith [h.le.2], hθ.2⟩, hθ.1.ne'⟩
        · rintro ⟨hθ, hne⟩
          rcases lt_or_gt_of_ne hne with hl | hl
          · exact Or.inl ⟨hθ.1, hl⟩
          · exact Or.inr ⟨hl, hθ.2⟩]
      exact (sdiff_null_ae_eq_self (by simp)).symm
    · exact disjoint_left.mpr fun θ h1 h2 => absurd h1.2 (not_lt.mpr h2.1.le)
  have e3 : ∀ f : ℝ → ENNReal, ∫⁻ y, f y = (∫⁻ y in Iio (0 : ℝ), f y) + ∫⁻ y in Ioi (0 : ℝ), f y := fun f => by
    rw [← lintegral_union measurableSet_Ioi (disjoint_left.mpr fun y h1 h2 => lt_asymm (mem_Iio.mp h1) h2),
      Iio_union_Ioi, ← setLIntegral_univ]
    refine setLIntegral_congr ?_
    rw [compl_eq_univ_sdiff]
    exact (sdiff_null_ae_eq_self (by simp)).symm
  rw [e1, e2, mul_add, cms_negative h g hg, cms_positive h g hg, e3]
  congr 1
  · refine setLIntegral_congr_fun measurableSet_Iio fun y hy => ?_
    have hy : y < 0 := hy
    simp only [if_neg (not_lt.mpr hy.le), if_pos hy]
  · refine setLIntegral_congr_fun measurableSet_Ioi fun y hy => ?_
    have hy : 0 < y := hy
    simp only [if_pos hy]

end

end Copulae
