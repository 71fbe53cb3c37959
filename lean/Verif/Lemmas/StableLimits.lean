import Mathlib.Analysis.Convex.SpecificFunctions.Deriv
import Verif.Lemmas.PowExp
import Verif.Lemmas.StablePdf

/-!
The limits of the density of the stable laws at `ζ` and at infinity.
-/

namespace Copulae

open MeasureTheory Set Real Topology Filter

theorem cos_ge_min {a b x : ℝ} (ha : -π ≤ a) (hb : b ≤ π) (h1 : a ≤ x) (h2 : x ≤ b) : min (cos a) (cos b) ≤ cos x := by
  rcases le_total 0 x with h | h
  · exact (min_le_right _ _).trans (cos_le_cos_of_nonneg_of_le_pi h hb h2)
  · refine (min_le_left _ _).trans ?_
    rw [← cos_neg a, ← cos_neg x]
    exact cos_le_cos_of_nonneg_of_le_pi (by linarith) (by linarith) (by linarith)

theorem sin_ge_line {x X : ℝ} (h0 : 0 ≤ x) (h1 : x ≤ X) (hX : 0 < X) (h2 : X ≤ π) : sin X / X * x ≤ sin x := by
  have h := strictConcaveOn_sin_Icc.concaveOn.2 (show (0 : ℝ) ∈ Icc 0 π from ⟨le_rfl, pi_pos.le⟩)
    (show X ∈ Icc 0 π from ⟨hX.le, h2⟩) (show 0 ≤ 1 - x / X by rw [sub_nonneg, div_le_one hX]; exact h1)
    (show 0 ≤ x / X by positivity) (by ring)
  simp only [smul_eq_mul, sin_zero, mul_zero, zero_add, div_mul_cancel₀ _ hX.ne'] at h
  rw [div_mul_eq_mul_div, mul_comm, ← div_mul_eq_mul_div]
  exact h

section
variable {α t : ℝ} (ok : AngleOk α t) (ht : |t| < π / 2)
include ok ht

/-- The function in the exponent close to the lower end of the angles. -/
theorem stableV_scaled {y s : ℝ} (hy : 0 < y) (hs : s ∈ Ioo 0 ((π / 2 + t) / y)) :
    Spec.stableV α t y (-t + y * s) = cos (α * (y * s) - (y * s - t)) * (cos (α * t) * cos (y * s - t)) ^ (1 / (α - 1)) *
      (sin (α * (y * s)) / y) ^ (-(α / (α - 1))) := by
  have h1 : 0 < y * s := mul_pos hy hs.1
  have h2 : y * s < π / 2 + t := by
    have := (lt_div_iff₀ hy).mp hs.2
    linarith
  have hta := abs_lt.mp ht
  have h3 : -t < -t + y * s := by linarith
  have h4 : -t + y * s < π / 2 := by linarith
  have hsn := ok.sin_pos h3 h4
  have hc : 0 < cos (-t + y * s) := cos_pos_of_mem_Ioo ⟨by linarith, h4⟩
  rw [stableV_factor ok hy h3 h4]
  rw [show -t + y * s + t = y * s by ring, show -t + y * s = y * s - t by ring] at *
  rw [mul_rpow (mul_pos ok.cosT hc).le (rpow_pos_of_pos hy _).le, ← rpow_mul hy.le, div_rpow hsn.le hy.le,
    rpow_neg hy.le (α / (α - 1)), show α * (1 / (α - 1)) = α / (α - 1) by ring]
  have := (rpow_pos_of_pos hy (α / (α - 1))).ne'
  field_simp

theorem stable_sin_ge (h1 : α < 1) {φ : ℝ} (h : φ ∈ Ioo 0 (π / 2 + t)) :
    sin (α * (π / 2 + t)) / (α * (π / 2 + t)) * (α * φ) ≤ sin (α * φ) := by
  have hta := abs_lt.mp ht
  have ha := ok.pos
  exact sin_ge_line (mul_pos ha h.1).le (mul_le_mul_of_nonneg_left h.2.le ha.le) (by nlinarith) (by nlinarith)

/-- An upper bound for an index above one. -/
theorem stableV_scaled_le (h1 : 1 < α) {y s : ℝ} (hy : 0 < y) (hs : s ∈ Ioo 0 ((π / 2 + t) / y)) :
    Spec.stableV α t y (-t + y * s) ≤
      max ((π / 2 + t) ^ (α / (α - 1))) ((2 * α / π) ^ (-(α / (α - 1)))) * s ^ (-(α / (α - 1))) := by
  rw [stableV_scaled ok ht hy hs]
  have hp := pi_pos
  have hta := abs_lt.mp ht
  set φ := y * s with hφ
  have hs0 := hs.1
  have h3 : 0 < φ := mul_pos hy hs.1
  have h4 : φ < π / 2 + t := by
    have := (lt_div_iff₀ hy).mp hs.2
    linarith
  set p := α / (α - 1) with hpd
  have hα1 : 0 < α - 1 := by linarith
  have hpp : 0 < p := div_pos (by linarith) hα1
  have hm : p = 1 + 1 / (α - 1) := by rw [hpd]; field_simp; ring
  have hθ : φ - t ∈ Ioo (-(π / 2)) (π / 2) := ⟨by linarith, by linarith⟩
  have hD := ok.cosD _ hθ
  have hS := ok.small _ hθ
  rw [show φ - t + t = φ by ring] at hD hS
  have hcθ := cos_pos_of_mem_Ioo hθ
  have hsn : 0 < sin (α * φ) := sin_pos_of_pos_of_lt_pi (mul_pos ok.pos h3) hS.2
  have hm0 : 0 < 1 / (α - 1) := by positivity
  have hct : (cos (α * t) * cos (φ - t)) ^ (1 / (α - 1)) ≤ cos (φ - t) ^ (1 / (α - 1)) :=
    rpow_le_rpow (mul_pos ok.cosT hcθ).le (mul_le_of_le_one_left hcθ.le (cos_le_one _)) hm0.le
  have hnn : 0 ≤ (cos (α * t) * cos (φ - t)) ^ (1 / (α - 1)) := (rpow_pos_of_pos (mul_pos ok.cosT hcθ) _).le
  rcases le_total (α * φ) (π / 2) with hc | hc
  · have e1 : 2 / π * (α * φ) ≤ sin (α * φ) := mul_le_sin (mul_pos ok.pos h3).le hc
    have e2 : (sin (α * φ) / y) ^ (-p) ≤ (2 * α / π * s) ^ (-p) := by
      refine rpow_le_rpow_of_nonpos (by positivity) ?_ (by linarith)
      rw [le_div_iff₀ hy]
      refine le_trans (le_of_eq ?_) e1
      rw [hφ]; ring
    have e3 : cos (α * φ - (φ - t)) * (cos (α * t) * cos (φ - t)) ^ (1 / (α - 1)) ≤ 1 :=
      mul_le_one₀ (cos_le_one _) hnn (hct.trans (rpow_le_one hcθ.le (cos_le_one _) hm0.le))
    calc _ ≤ 1 * (2 * α / π * s) ^ (-p) := mul_le_mul e3 e2 (by positivity) zero_le_one
      _ = (2 * α / π) ^ (-p) * s ^ (-p) := by rw [one_mul, mul_rpow (by positivity) hs0.le]
      _ ≤ _ := mul_le_mul_of_nonneg_right (le_max_right _ _) (by positivity)
  · have hDlt : α * φ - (φ - t) < π / 2 := by
      by_contra hcon
      push Not at hcon
      have : cos (α * φ - (φ - t)) ≤ 0 := cos_nonpos_of_pi_div_two_le_of_le hcon (by linarith [hS.2, hθ.1])
      linarith
    have e1 : cos (φ - t) ≤ sin (α * φ) := by
      rw [← cos_sub_pi_div_two]
      exact cos_le_cos_of_nonneg_of_le_pi (by linarith) (by linarith) (by linarith)
    have e2 : cos (α * φ - (φ - t)) ≤ sin (α * φ) := by
      rw [← cos_sub_pi_div_two]
      exact cos_le_cos_of_nonneg_of_le_pi (by linarith) (by linarith) (by linarith)
    have e3 : cos (α * φ - (φ - t)) * (cos (α * t) * cos (φ - t)) ^ (1 / (α - 1)) ≤ sin (α * φ) ^ p := by
      rw [hm, rpow_add hsn, rpow_one]
      exact mul_le_mul e2 (hct.trans (rpow_le_rpow hcθ.le e1 hm0.le)) hnn hsn.le
    have hys : y ≤ (π / 2 + t) / s := by rw [le_div_iff₀ hs0]; exact h4.le
    calc _ ≤ sin (α * φ) ^ p * (sin (α * φ) / y) ^ (-p) := mul_le_mul_of_nonneg_right e3 (by positivity)
      _ = y ^ p := by
        rw [div_rpow hsn.le hy.le, rpow_neg hsn.le, rpow_neg hy.le]
        have := (rpow_pos_of_pos hsn p).ne'
        have := (rpow_pos_of_pos hy p).ne'
        field_simp
      _ ≤ ((π / 2 + t) / s) ^ p := rpow_le_rpow hy.le hys hpp.le
      _ = (π / 2 + t) ^ p * s ^ (-p) := by rw [div_rpow (by linarith) hs0.le, rpow_neg hs0.le, div_eq_mul_inv]
      _ ≤ _ := mul_le_mul_of_nonneg_right (le_max_left _ _) (by positivity)

/-- A lower bound for an index below one. -/
theorem stableV_scaled_ge (h1 : α < 1) {y s : ℝ} (hy : 0 < y) (hs : s ∈ Ioo 0 ((π / 2 + t) / y)) :
    min (sin (α * (π / 2 + t))) (cos t) * (sin (α * (π / 2 + t)) / (π / 2 + t)) ^ (-(α / (α - 1))) *
      s ^ (-(α / (α - 1))) ≤ Spec.stableV α t y (-t + y * s) := by
  rw [stableV_scaled ok ht hy hs]
  have hp := pi_pos
  have hta := abs_lt.mp ht
  have ha := ok.pos
  have hs0 := hs.1
  have h3 : 0 < y * s := mul_pos hy hs.1
  have h4 : y * s < π / 2 + t := by
    have := (lt_div_iff₀ hy).mp hs.2
    linarith
  have hsg := stable_sin_ge ok ht h1 ⟨h3, h4⟩
  set φ := y * s with hφ
  set e := -(α / (α - 1)) with hed
  have hα1 : α - 1 < 0 := by linarith
  have hee : 0 < e := by rw [hed, neg_pos]; exact div_neg_of_pos_of_neg ha hα1
  have hθ : φ - t ∈ Ioo (-(π / 2)) (π / 2) := ⟨by linarith, by linarith⟩
  have hcθ := cos_pos_of_mem_Ioo hθ
  have hσ : 0 < sin (α * (π / 2 + t)) := sin_pos_of_pos_of_lt_pi (mul_pos ha (by linarith)) (by nlinarith)
  have hct : 0 < cos t := cos_pos_of_mem_Ioo hta
  have e1 : min (sin (α * (π / 2 + t))) (cos t) ≤ cos (α * φ - (φ - t)) := by
    rw [← cos_sub_pi_div_two]
    exact cos_ge_min (by nlinarith) (by linarith) (by nlinarith) (by nlinarith)
  have e2 : 1 ≤ (cos (α * t) * cos (φ - t)) ^ (1 / (α - 1)) :=
    one_le_rpow_of_pos_of_le_one_of_nonpos (mul_pos ok.cosT hcθ)
      (mul_le_one₀ (cos_le_one _) hcθ.le (cos_le_one _)) (one_div_nonpos.mpr hα1.le)
  have e3 : (sin (α * (π / 2 + t)) / (π / 2 + t) * s) ^ e ≤ (sin (α * φ) / y) ^ e := by
    refine rpow_le_rpow (by have : 0 < π / 2 + t := by linarith
                            positivity) ?_ hee.le
    rw [le_div_iff₀ hy]
    refine le_trans (le_of_eq ?_) hsg
    have : π / 2 + t ≠ 0 := by linarith
    rw [hφ]
    field_simp
  rw [mul_assoc, ← mul_rpow (by have : 0 < π / 2 + t := by linarith
                                positivity) hs0.le]
  have hmin : 0 < min (sin (α * (π / 2 + t))) (cos t) := lt_min hσ hct
  refine mul_le_mul (e1.trans (le_mul_of_one_le_right (hmin.le.trans e1) e2)) e3 (by
    have : 0 < π / 2 + t := by linarith
    positivity) ?_
  exact mul_nonneg (hmin.le.trans e1) (zero_le_one.trans e2)

theorem stableV_scaled_tendsto {s : ℝ} (hs : 0 < s) :
    Tendsto (fun y => Spec.stableV α t y (-t + y * s)) (𝓝[>] 0)
      (𝓝 (cos t * (cos (α * t) * cos t) ^ (1 / (α - 1)) * α ^ (-(α / (α - 1))) * s ^ (-(α / (α - 1))))) := by
  have hta := abs_lt.mp ht
  have hct : 0 < cos t := cos_pos_of_mem_Ioo hta
  have h0 : ∀ᶠ y in 𝓝[>] (0 : ℝ), s ∈ Ioo 0 ((π / 2 + t) / y) := by
    have : ∀ᶠ y in 𝓝[>] (0 : ℝ), y < (π / 2 + t) / s :=
      (gt_mem_nhds (div_pos (by linarith) hs)).filter_mono nhdsWithin_le_nhds
    filter_upwards [this, self_mem_nhdsWithin] with y hy hy0
    refine ⟨hs, ?_⟩
    rw [lt_div_iff₀ hy0]
    have := (lt_div_iff₀ hs).mp hy
    linarith
  refine Tendsto.congr' (f₁ := fun y => cos (α * (y * s) - (y * s - t)) * (cos (α * t) * cos (y * s - t)) ^ (1 / (α - 1)) *
      (sin (α * (y * s)) / y) ^ (-(α / (α - 1)))) ?_ ?_
  · filter_upwards [h0, self_mem_nhdsWithin] with y hy hy0
    exact (stableV_scaled ok ht hy0 hy).symm
  · have hA : Tendsto (fun y : ℝ => cos (α * (y * s) - (y * s - t))) (𝓝[>] 0) (𝓝 (cos t)) := by
      have : ContinuousAt (fun y : ℝ => cos (α * (y * s) - (y * s - t))) 0 := by fun_prop
      have := this.tendsto.mono_left (nhdsWithin_le_nhds (s := Ioi 0))
      simpa using this
    have hB : Tendsto (fun y : ℝ => (cos (α * t) * cos (y * s - t)) ^ (1 / (α - 1))) (𝓝[>] 0)
        (𝓝 ((cos (α * t) * cos t) ^ (1 / (α - 1)))) := by
      have h1 : ContinuousAt (fun y : ℝ => cos (α * t) * cos (y * s - t)) 0 := by fun_prop
      have h2 := h1.tendsto.mono_left (nhdsWithin_le_nhds (s := Ioi 0))
      rw [zero_mul, zero_sub, cos_neg] at h2
      exact h2.rpow_const (Or.inl (mul_pos ok.cosT hct).ne')
    have hC : Tendsto (fun y : ℝ => sin (α * (y * s)) / y) (𝓝[>] 0) (𝓝 (α * s)) := by
      have h1 : HasDerivAt (fun y : ℝ => sin (α * (y * s))) (α * s) 0 := by
        have : HasDerivAt (fun y : ℝ => α * (y * s)) (α * s) 0 := by
          simpa using ((hasDerivAt_id (0 : ℝ)).mul_const s).const_mul α
        simpa using this.sin
      have h2 := (hasDerivAt_iff_tendsto_slope.mp h1).mono_left
        (nhdsWithin_mono 0 (fun y (hy : 0 < y) => hy.ne') : 𝓝[>] (0 : ℝ) ≤ 𝓝[≠] 0)
      refine h2.congr fun y => ?_
      simp [slope_def_field]
    have hD := hC.rpow_const (p := -(α / (α - 1))) (Or.inl (mul_pos ok.pos hs).ne')
    rw [mul_rpow ok.pos.le hs.le] at hD
    have := (hA.mul hB).mul hD
    simpa only [mul_assoc] using this

/-- The density at `ζ`. -/
theorem stableHalf_zero : Tendsto (Spec.stableHalf α t) (𝓝[>] 0)
    (𝓝 (Gamma (1 + 1 / α) * cos t * cos (α * t) ^ (1 / α) / π)) := by
  have hp := pi_pos
  have hta := abs_lt.mp ht
  have ha := ok.pos
  have hct : 0 < cos t := cos_pos_of_mem_Ioo hta
  have hα1 : α - 1 ≠ 0 := sub_ne_zero.mpr ok.ne
  set e := -(α / (α - 1)) with hed
  have he0 : e ≠ 0 := by rw [hed]; exact neg_ne_zero.mpr (div_ne_zero ha.ne' hα1)
  have he : 0 < e ∨ e < -1 := by
    rcases lt_or_gt_of_ne ok.ne with h | h
    · left
      rw [hed, neg_pos]
      exact div_neg_of_pos_of_neg ha (by linarith)
    · right
      have : 0 < α - 1 := by linarith
      rw [hed, neg_lt_neg_iff, lt_div_iff₀ this]
      linarith
  set c := cos t * (cos (α * t) * cos t) ^ (1 / (α - 1)) * α ^ e with hcd
  have hc : 0 < c := by have := ok.cosT; positivity
  have hL : Tendsto (fun y : ℝ => (π / 2 + t) / y) (𝓝[>] 0) atTop := by
    simp only [div_eq_mul_inv]
    exact tendsto_inv_nhdsGT_zero.const_mul_atTop (by linarith)
  have key : Tendsto (fun y => ∫ s in (0)..((π / 2 + t) / y),
      Spec.stableV α t y (-t + y * s) * exp (-Spec.stableV α t y (-t + y * s))) (𝓝[>] 0)
      (𝓝 (|1 / e| * c ^ (-(1 / e)) * Gamma (1 + 1 / e))) := by
    rcases lt_or_gt_of_ne ok.ne with h | h
    · have hσ : 0 < sin (α * (π / 2 + t)) := sin_pos_of_pos_of_lt_pi (mul_pos ha (by linarith)) (by nlinarith)
      have hk : 0 < min (sin (α * (π / 2 + t))) (cos t) * (sin (α * (π / 2 + t)) / (π / 2 + t)) ^ e :=
        mul_pos (lt_min hσ hct) (rpow_pos_of_pos (div_pos hσ (by linarith)) _)
      refine powExp_tendsto (W := fun y s => Spec.stableV α t y (-t + y * s)) hc hk he hL
        (fun y => (measurable_stableV' y).comp (by fun_prop)) (fun _ => ?_) (fun hcon => ?_)
        (fun s hs => stableV_scaled_tendsto ok ht hs)
      · filter_upwards [self_mem_nhdsWithin] with y hy s hs
        exact stableV_scaled_ge ok ht h hy hs
      · exfalso
        have : 0 < e := by
          rw [hed, neg_pos]
          exact div_neg_of_pos_of_neg ha (by linarith)
        linarith
    · have hk : 0 < max ((π / 2 + t) ^ (α / (α - 1))) ((2 * α / π) ^ e) :=
        lt_max_of_lt_left (rpow_pos_of_pos (by linarith) _)
      refine powExp_tendsto (W := fun y s => Spec.stableV α t y (-t + y * s)) hc hk he hL
        (fun y => (measurable_stableV' y).comp (by fun_prop)) (fun hcon => ?_) (fun _ => ?_)
        (fun s hs => stableV_scaled_tendsto ok ht hs)
      · exfalso
        have : 0 < α / (α - 1) := div_pos ha (by linarith)
        rw [hed] at hcon
        linarith
      · filter_upwards [self_mem_nhdsWithin] with y hy s hs
        have hys := (lt_div_iff₀ hy).mp hs.2
        refine ⟨(stableV_pos ok ?_ ?_ hy).le, stableV_scaled_le ok ht h hy hs⟩
        · linarith [mul_pos (show 0 < y from hy) hs.1]
        · linarith
  have hval : α / (π * |α - 1|) * (|1 / e| * c ^ (-(1 / e)) * Gamma (1 + 1 / e)) =
      Gamma (1 + 1 / α) * cos t * cos (α * t) ^ (1 / α) / π := by
    have e1 : 1 / e = 1 / α - 1 := by rw [hed]; field_simp; ring
    have e2 : |1 / e| = |α - 1| / α := by
      rw [e1, ← abs_of_pos ha, ← abs_div, abs_of_pos ha, ← abs_neg]
      congr 1
      field_simp
      ring
    have e3 : c ^ (-(1 / e)) = cos t * cos (α * t) ^ (1 / α) / α := by
      have h1 := ok.cosT
      rw [hcd, mul_rpow (by positivity) (by positivity), mul_rpow (by positivity) (by positivity),
        ← rpow_mul ha.le, ← rpow_mul (by positivity), show e * -(1 / e) = -1 by field_simp,
        show 1 / (α - 1) * -(1 / e) = 1 / α by rw [hed]; field_simp,
        mul_rpow h1.le hct.le, rpow_neg_one, mul_comm (cos (α * t) ^ (1 / α)), ← mul_assoc, ← rpow_add hct,
        show -(1 / e) + 1 / α = 1 by rw [e1]; ring, rpow_one, ← div_eq_mul_inv]
    have e4 : Gamma (1 + 1 / α) = 1 / α * Gamma (1 / α) := by
      rw [add_comm, Gamma_add_one (by positivity)]
    have : |α - 1| ≠ 0 := abs_ne_zero.mpr hα1
    rw [e2, e3, e4, show 1 + 1 / e = 1 / α by rw [e1]; ring]
    field_simp
  rw [← hval]
  refine (key.const_mul (α / (π * |α - 1|))).congr' ?_
  filter_upwards [self_mem_nhdsWithin] with y (hy : 0 < y)
  rw [Spec.stableHalf,
    intervalIntegral.integral_comp_add_mul (fun θ => Spec.stableV α t y θ * exp (-Spec.stableV α t y θ)) hy.ne' (-t),
    mul_div_cancel₀ _ hy.ne', mul_zero, add_zero, show -t + (π / 2 + t) = π / 2 by ring, smul_eq_mul]
  have : |α - 1| ≠ 0 := abs_ne_zero.mpr hα1
  field_simp

/-- The function in the exponent close to the upper end of the angles. -/
theorem stableV_upper {y s : ℝ} (hy : 0 < y) (hs : s ∈ Ioo 0 ((π / 2 + t) * y ^ α)) :
    Spec.stableV α t y (π / 2 - y ^ (-α) * s) =
      sin (α * (π / 2 + t - y ^ (-α) * s) + y ^ (-α) * s) *
        (cos (α * t) * (sin (y ^ (-α) * s) * y ^ α)) ^ (1 / (α - 1)) *
        sin (α * (π / 2 + t - y ^ (-α) * s)) ^ (-(α / (α - 1))) := by
  have hya : 0 < y ^ α := rpow_pos_of_pos hy _
  have h0 : 0 < y ^ (-α) * s := mul_pos (rpow_pos_of_pos hy _) hs.1
  have h1 : y ^ (-α) * s < π / 2 + t := by
    rw [rpow_neg hy.le, inv_mul_lt_iff₀ hya]
    linarith [hs.2]
  have hta := abs_lt.mp ht
  rw [stableV_factor ok hy (by linarith) (by linarith), cos_pi_div_two_sub,
    show α * (π / 2 - y ^ (-α) * s + t) - (π / 2 - y ^ (-α) * s) =
      (α * (π / 2 + t - y ^ (-α) * s) + y ^ (-α) * s) - π / 2 by ring, cos_sub_pi_div_two,
    show π / 2 - y ^ (-α) * s + t = π / 2 + t - y ^ (-α) * s by ring, mul_assoc (cos (α * t))]

theorem stableV_upper_tendsto (hσ : 0 < sin (α * (π / 2 + t))) {s : ℝ} (hs : 0 < s) :
    Tendsto (fun y => Spec.stableV α t y (π / 2 - y ^ (-α) * s)) atTop
      (𝓝 ((cos (α * t) / sin (α * (π / 2 + t))) ^ (1 / (α - 1)) * s ^ (1 / (α - 1)))) := by
  have hta := abs_lt.mp ht
  have ha := ok.pos
  have hα1 : α - 1 ≠ 0 := sub_ne_zero.mpr ok.ne
  have hL : Tendsto (fun y : ℝ => (π / 2 + t) * y ^ α) atTop atTop :=
    (tendsto_rpow_atTop ha).const_mul_atTop (by linarith)
  have hu : Tendsto (fun y : ℝ => y ^ (-α) * s) atTop (𝓝 0) := by
    simpa using (tendsto_rpow_neg_atTop ha).mul_const s
  refine Tendsto.congr' (f₁ := fun y => sin (α * (π / 2 + t - y ^ (-α) * s) + y ^ (-α) * s) *
        (cos (α * t) * (sin (y ^ (-α) * s) * y ^ α)) ^ (1 / (α - 1)) *
        sin (α * (π / 2 + t - y ^ (-α) * s)) ^ (-(α / (α - 1)))) ?_ ?_
  · filter_upwards [hL.eventually_gt_atTop s, eventually_gt_atTop 0] with y hy hy0
    exact (stableV_upper ok ht hy0 ⟨hs, hy⟩).symm
  · have hA : Tendsto (fun y : ℝ => sin (α * (π / 2 + t - y ^ (-α) * s) + y ^ (-α) * s)) atTop
        (𝓝 (sin (α * (π / 2 + t)))) := by
      have : ContinuousAt (fun u : ℝ => sin (α * (π / 2 + t - u) + u)) 0 := by fun_prop
      simpa [Function.comp_def] using this.tendsto.comp hu
    have hC : Tendsto (fun y : ℝ => sin (α * (π / 2 + t - y ^ (-α) * s))) atTop (𝓝 (sin (α * (π / 2 + t)))) := by
      have : ContinuousAt (fun u : ℝ => sin (α * (π / 2 + t - u))) 0 := by fun_prop
      simpa [Function.comp_def] using this.tendsto.comp hu
    have hB : Tendsto (fun y : ℝ => sin (y ^ (-α) * s) * y ^ α) atTop (𝓝 s) := by
      have h1 : HasDerivAt (fun u : ℝ => sin (u * s)) s 0 := by
        have : HasDerivAt (fun u : ℝ => u * s) s 0 := by simpa using (hasDerivAt_id (0 : ℝ)).mul_const s
        simpa using this.sin
      have h2 : Tendsto (fun y : ℝ => y ^ (-α)) atTop (𝓝[≠] 0) := by
        refine tendsto_nhdsWithin_iff.mpr ⟨tendsto_rpow_neg_atTop ha, ?_⟩
        filter_upwards [eventually_gt_atTop 0] with y hy
        exact (rpow_pos_of_pos hy _).ne'
      refine ((hasDerivAt_iff_tendsto_slope.mp h1).comp h2).congr' ?_
      filter_upwards [eventually_gt_atTop 0] with y hy
      simp [slope_def_field, rpow_neg hy.le]
    have hB' := (hB.const_mul (cos (α * t))).rpow_const (p := 1 / (α - 1)) (Or.inl (mul_pos ok.cosT hs).ne')
    have hC' := hC.rpow_const (p := -(α / (α - 1))) (Or.inl hσ.ne')
    have h3 := (hA.mul hB').mul hC'
    convert h3 using 2
    rw [mul_rpow ok.cosT.le hs.le, div_rpow ok.cosT.le hσ.le, div_eq_mul_inv, ← rpow_neg hσ.le,
      show -(1 / (α - 1)) = 1 + -(α / (α - 1)) by field_simp; ring, rpow_add hσ, rpow_one]
    ring

/-- The density for large values. -/
theorem stableHalf_tail (hσ : 0 < sin (α * (π / 2 + t))) (hle : α * (π / 2 + t) ≤ π) :
    Tendsto (fun y => y ^ (1 + α) * Spec.stableHalf α t y) atTop
      (𝓝 (α * Gamma α / π * (sin (α * (π / 2 + t)) / cos (α * t)))) := by
  have hp := pi_pos
  have hta := abs_lt.mp ht
  have ha := ok.pos
  have hcT := ok.cosT
  have hct : 0 < cos t := cos_pos_of_mem_Ioo hta
  have hα1 : α - 1 ≠ 0 := sub_ne_zero.mpr ok.ne
  set e := 1 / (α - 1) with hed
  have he0 : e ≠ 0 := one_div_ne_zero hα1
  have he : 0 < e ∨ e < -1 := by
    rcases lt_or_gt_of_ne ok.ne with h | h
    · right
      rw [hed, div_lt_iff_of_neg (by linarith)]
      linarith
    · left
      exact one_div_pos.mpr (by linarith)
  have hc : 0 < (cos (α * t) / sin (α * (π / 2 + t))) ^ e := rpow_pos_of_pos (div_pos hcT hσ) _
  have hL : Tendsto (fun y : ℝ => (π / 2 + t) * y ^ α) atTop atTop :=
    (tendsto_rpow_atTop ha).const_mul_atTop (by linarith)
  have hφ : 0 < π / 2 + t := by linarith
  have hσ' : 0 < sin (π / 2 + t) := sin_pos_of_pos_of_lt_pi hφ (by linarith)
  -- the sine of the distance from the upper end
  have hsin : ∀ y, 0 < y → ∀ s ∈ Ioo 0 ((π / 2 + t) * y ^ α),
      0 < y ^ (-α) * s ∧ y ^ (-α) * s < π / 2 + t ∧
      cos (α * t) * (sin (π / 2 + t) / (π / 2 + t)) * s ≤ cos (α * t) * (sin (y ^ (-α) * s) * y ^ α) := by
    intro y hy s hs
    have hya : 0 < y ^ α := rpow_pos_of_pos hy _
    have h0 : 0 < y ^ (-α) * s := mul_pos (rpow_pos_of_pos hy _) hs.1
    have h1 : y ^ (-α) * s < π / 2 + t := by
      rw [rpow_neg hy.le, inv_mul_lt_iff₀ hya]
      linarith [hs.2]
    refine ⟨h0, h1, ?_⟩
    rw [mul_assoc]
    refine mul_le_mul_of_nonneg_left ?_ hcT.le
    have h2 := mul_le_mul_of_nonneg_right (sin_ge_line h0.le h1.le hφ (by linarith)) hya.le
    refine le_trans (le_of_eq ?_) h2
    rw [rpow_neg hy.le]
    field_simp
  have key : Tendsto (fun y => ∫ s in (0)..((π / 2 + t) * y ^ α),
      Spec.stableV α t y (π / 2 - y ^ (-α) * s) * exp (-Spec.stableV α t y (π / 2 - y ^ (-α) * s))) atTop
      (𝓝 (|1 / e| * ((cos (α * t) / sin (α * (π / 2 + t))) ^ e) ^ (-(1 / e)) * Gamma (1 + 1 / e))) := by
    have hpos : ∀ y, 0 < y → ∀ s ∈ Ioo 0 ((π / 2 + t) * y ^ α), 0 < sin (α * (π / 2 + t - y ^ (-α) * s)) ∧
        0 < sin (α * (π / 2 + t - y ^ (-α) * s) + y ^ (-α) * s) := fun y hy s hs => by
      obtain ⟨h0, h1, -⟩ := hsin y hy s hs
      refine ⟨sin_pos_of_pos_of_lt_pi (mul_pos ha (by linarith)) (by nlinarith), ?_⟩
      have := ok.cosD (π / 2 - y ^ (-α) * s) ⟨by linarith, by linarith⟩
      rwa [show α * (π / 2 - y ^ (-α) * s + t) - (π / 2 - y ^ (-α) * s) =
        (α * (π / 2 + t - y ^ (-α) * s) + y ^ (-α) * s) - π / 2 by ring, cos_sub_pi_div_two] at this
    have hk0 : 0 < cos (α * t) * (sin (π / 2 + t) / (π / 2 + t)) := mul_pos hcT (div_pos hσ' hφ)
    rcases lt_or_gt_of_ne ok.ne with h | h
    · refine powExp_tendsto (W := fun y s => Spec.stableV α t y (π / 2 - y ^ (-α) * s)) hc
        (rpow_pos_of_pos hk0 e) he hL
        (fun y => (measurable_stableV' y).comp (by fun_prop)) (fun hcon => ?_) (fun hneg => ?_)
        (fun s hs => stableV_upper_tendsto ok ht hσ hs)
      · exfalso
        have : e < 0 := one_div_neg.mpr (by linarith)
        linarith
      · filter_upwards [eventually_gt_atTop 0] with y hy s hs
        obtain ⟨h0, h1, h2⟩ := hsin y hy s hs
        obtain ⟨p1, p2⟩ := hpos y hy s hs
        refine ⟨(stableV_pos ok (by linarith) (by linarith) hy).le, ?_⟩
        rw [stableV_upper ok ht hy hs, ← mul_rpow hk0.le hs.1.le]
        have q1 : (cos (α * t) * (sin (y ^ (-α) * s) * y ^ α)) ^ e ≤
            (cos (α * t) * (sin (π / 2 + t) / (π / 2 + t)) * s) ^ e :=
          rpow_le_rpow_of_nonpos (mul_pos hk0 hs.1) h2 (by linarith)
        have q2 : sin (α * (π / 2 + t - y ^ (-α) * s)) ^ (-(α / (α - 1))) ≤ 1 :=
          rpow_le_one p1.le (sin_le_one _) (by
            rw [Left.nonneg_neg_iff]
            exact (div_neg_of_pos_of_neg ha (by linarith)).le)
        have q3 : 0 ≤ (cos (α * t) * (sin (y ^ (-α) * s) * y ^ α)) ^ e :=
          rpow_nonneg ((mul_pos hk0 hs.1).le.trans h2) _
        calc _ ≤ (1 * (cos (α * t) * (sin (y ^ (-α) * s) * y ^ α)) ^ e) * 1 :=
              mul_le_mul (mul_le_mul_of_nonneg_right (sin_le_one _) q3) q2 (rpow_nonneg p1.le _) (by rw [one_mul]; exact q3)
          _ ≤ _ := by rw [one_mul, mul_one]; exact q1
    · have hm : 0 < min (sin (α * (π / 2 + t))) (cos t) := lt_min hσ hct
      refine powExp_tendsto (W := fun y s => Spec.stableV α t y (π / 2 - y ^ (-α) * s)) hc
        (mul_pos hm (rpow_pos_of_pos hk0 e)) he hL
        (fun y => (measurable_stableV' y).comp (by fun_prop)) (fun hep => ?_) (fun hcon => ?_)
        (fun s hs => stableV_upper_tendsto ok ht hσ hs)
      · filter_upwards [eventually_gt_atTop 0] with y hy s hs
        obtain ⟨h0, h1, h2⟩ := hsin y hy s hs
        obtain ⟨p1, p2⟩ := hpos y hy s hs
        rw [stableV_upper ok ht hy hs, mul_assoc, ← mul_rpow hk0.le hs.1.le]
        have q0 : min (sin (α * (π / 2 + t))) (cos t) ≤ sin (α * (π / 2 + t - y ^ (-α) * s) + y ^ (-α) * s) := by
          rw [← cos_sub_pi_div_two, ← cos_sub_pi_div_two (α * (π / 2 + t - y ^ (-α) * s) + y ^ (-α) * s), min_comm]
          refine cos_ge_min (by linarith) (by linarith) ?_ ?_ <;> nlinarith
        have q1 : (cos (α * t) * (sin (π / 2 + t) / (π / 2 + t)) * s) ^ e ≤
            (cos (α * t) * (sin (y ^ (-α) * s) * y ^ α)) ^ e :=
          rpow_le_rpow (mul_pos hk0 hs.1).le h2 hep.le
        have q2 : 1 ≤ sin (α * (π / 2 + t - y ^ (-α) * s)) ^ (-(α / (α - 1))) :=
          one_le_rpow_of_pos_of_le_one_of_nonpos p1 (sin_le_one _) (by
            rw [Left.neg_nonpos_iff]
            exact (div_pos ha (by linarith)).le)
        have q3 := rpow_nonneg (mul_pos hk0 hs.1).le e
        refine (mul_le_mul q0 q1 q3 p2.le).trans (le_mul_of_one_le_right ?_ q2)
        exact mul_nonneg p2.le (q3.trans q1)
      · exfalso
        have : 0 < e := one_div_pos.mpr (by linarith)
        linarith
  have hval : α / (π * |α - 1|) * (|1 / e| * ((cos (α * t) / sin (α * (π / 2 + t))) ^ e) ^ (-(1 / e)) *
      Gamma (1 + 1 / e)) = α * Gamma α / π * (sin (α * (π / 2 + t)) / cos (α * t)) := by
    have h1 : |α - 1| ≠ 0 := abs_ne_zero.mpr hα1
    rw [← rpow_mul (div_pos hcT hσ).le, show e * -(1 / e) = -1 by field_simp, rpow_neg_one, inv_div,
      show 1 / e = α - 1 by rw [hed, one_div_one_div], show 1 + (α - 1) = α by ring]
    field_simp
  rw [← hval]
  refine (key.const_mul (α / (π * |α - 1|))).congr' ?_
  filter_upwards [eventually_gt_atTop 0] with y hy
  have hya : 0 < y ^ α := rpow_pos_of_pos hy _
  rw [Spec.stableHalf,
    intervalIntegral.integral_comp_sub_mul (fun θ => Spec.stableV α t y θ * exp (-Spec.stableV α t y θ))
      (rpow_pos_of_pos hy (-α)).ne' (π / 2),
    mul_zero, sub_zero, smul_eq_mul, rpow_neg hy.le, inv_inv, ← mul_assoc (y ^ α)⁻¹, mul_comm (y ^ α)⁻¹,
    mul_assoc (π / 2 + t), inv_mul_cancel₀ hya.ne', mul_one, show π / 2 - (π / 2 + t) = -t by ring, rpow_add hy, rpow_one]
  have h1 : |α - 1| ≠ 0 := abs_ne_zero.mpr hα1
  field_simp

end

end Copulae
