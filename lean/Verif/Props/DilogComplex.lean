import Verif.Lemmas.DilogTaylor
import Verif.Lemmas.Li2Cut

/-!
C133: `dilog_complex(r, theta)` is the dilogarithm of `r exp(i theta)`.
-/

namespace Copulae

open Complex Set

/-- The two parts returned are finite and make up a complex number at most `ε` away from `w`. -/
def Spec.CNear (p : Fl × Fl) (w : ℂ) (ε : ℝ) : Prop :=
  ∃ a b : ℝ, p = (.fin a, .fin b) ∧ ‖(⟨a, b⟩ : ℂ) - w‖ ≤ ε

theorem hypot_sq (x y : ℝ) : hypot x y ^ 2 = x ^ 2 + y ^ 2 := Real.sq_sqrt (by positivity)

theorem hypot_nonneg (x y : ℝ) : 0 ≤ hypot x y := Real.sqrt_nonneg _

theorem norm_hypot (x y : ℝ) : ‖(⟨x, y⟩ : ℂ)‖ = hypot x y := norm_pair (hypot_nonneg x y) (hypot_sq x y)

theorem dilogcFundamental_close {r x y : ℝ} (h0 : 0 < r) (h1 : r < 1) (h : r ^ 2 = x ^ 2 + y ^ 2)
    (hx : x ≤ 0.732) : Spec.CNear (dilogcFundamental r x y) (Spec.li2 ⟨x, y⟩) (5 / 10 ^ 13) := by
  unfold dilogcFundamental
  split_ifs with c1 c2
  · exact dilogcSeries3_close c1 h1 h hx
  · exact ⟨_, _, rfl, (dilogcSeries2_close c2 (not_lt.mp c1) h).trans (by norm_num)⟩
  · refine ⟨_, _, rfl, (dilogcSeries1_close h0 ?_ h).trans (by norm_num)⟩
    norm_num at c2 ⊢
    linarith

theorem dilogcUnitDisk_close {x y : ℝ} (h0 : (⟨x, y⟩ : ℂ) ≠ 0) (h1 : ‖(⟨x, y⟩ : ℂ)‖ < 1) :
    Spec.CNear (dilogcUnitDisk x y) (Spec.li2 ⟨x, y⟩) (6 / 10 ^ 13) := by
  have hz : 0 < hypot x y := by rw [← norm_hypot]; exact norm_pos_iff.mpr h0
  have hz1 : hypot x y < 1 := by rw [← norm_hypot]; exact h1
  unfold dilogcUnitDisk
  simp only
  split_ifs with hx
  · have hxlt : x < 1 := by
      have := (le_abs_self _).trans (abs_re_le_norm (⟨x, y⟩ : ℂ))
      simp only at this
      linarith
    have hsq := hypot_sq x y
    have hsq' := hypot_sq (1 - x) (-y)
    have hr0 : 0 < hypot (1 - x) (-y) := by
      refine lt_of_le_of_ne (hypot_nonneg _ _) fun e => ?_
      rw [← e] at hsq'
      nlinarith [sq_nonneg (-y), sq_nonneg (1 - x), mul_pos (sub_pos.mpr hxlt) (sub_pos.mpr hxlt)]
    have hr1 : hypot (1 - x) (-y) < 1 := by
      rw [← pow_lt_one_iff_of_nonneg (hypot_nonneg _ _) two_ne_zero, hsq']
      norm_num at hx
      nlinarith
    obtain ⟨a, b, e, hab⟩ := dilogcFundamental_close hr0 hr1 hsq' (by norm_num at hx ⊢; linarith)
    rw [e]
    refine ⟨_, _, by simp only [Fl.neg_fin, Fl.fin_add_fin, Fl.fin_sub_fin]; rfl, ?_⟩
    have hrefl := li2_reflect (z := ⟨x, y⟩) (by simp only; norm_num at hx; linarith) hxlt
    have e1 : (1 : ℂ) - ⟨x, y⟩ = ⟨1 - x, -y⟩ := by apply Complex.ext <;> simp
    rw [e1] at hrefl
    have l1 : Complex.log ⟨x, y⟩ = ⟨Real.log (hypot x y), atan2 y x⟩ := by
      apply Complex.ext
      · rw [log_re, norm_hypot]
      · rw [log_im]; rfl
    have l2 : Complex.log ⟨1 - x, -y⟩ = ⟨Real.log (hypot (1 - x) (-y)), atan2 (-y) (1 - x)⟩ := by
      apply Complex.ext
      · rw [log_re, norm_hypot]
      · rw [log_im]; rfl
    rw [l1, l2] at hrefl
    have hli : Spec.li2 ⟨x, y⟩ = (((Real.pi ^ 2 / 6 : ℝ)) : ℂ) - Spec.li2 ⟨1 - x, -y⟩ -
        ⟨Real.log (hypot x y), atan2 y x⟩ * ⟨Real.log (hypot (1 - x) (-y)), atan2 (-y) (1 - x)⟩ := by
      push_cast
      rw [← hrefl]
      ring
    rw [hli]
    have hq := cPI_sq
    have hfin : (⟨-a + cPI ^ 2 / 6 - Real.log (hypot x y) * Real.log (hypot (1 - x) (-y)) +
          atan2 y x * atan2 (-y) (1 - x),
        -b - atan2 y x * Real.log (hypot (1 - x) (-y)) - atan2 (-y) (1 - x) * Real.log (hypot x y)⟩ : ℂ) -
        ((((Real.pi ^ 2 / 6 : ℝ)) : ℂ) - Spec.li2 ⟨1 - x, -y⟩ -
        ⟨Real.log (hypot x y), atan2 y x⟩ * ⟨Real.log (hypot (1 - x) (-y)), atan2 (-y) (1 - x)⟩) =
        -((⟨a, b⟩ : ℂ) - Spec.li2 ⟨1 - x, -y⟩) + (((cPI ^ 2 - Real.pi ^ 2) / 6 : ℝ) : ℂ) := by
      apply Complex.ext
      · simp only [sub_re, add_re, neg_re, mul_re, ofReal_re]
        ring
      · simp only [sub_im, add_im, neg_im, mul_im, ofReal_im]
        ring
    rw [hfin]
    refine (norm_add_le _ _).trans ?_
    rw [norm_neg, norm_real, Real.norm_eq_abs, abs_div, abs_of_pos (by norm_num : (0 : ℝ) < 6)]
    norm_num at hab hq ⊢
    linarith
  · obtain ⟨a, b, e, hab⟩ := dilogcFundamental_close hz hz1 (hypot_sq x y) (not_lt.mp hx)
    exact ⟨a, b, e, hab.trans (by norm_num)⟩

/-- The polar form. -/
theorem polar_mk (r θ : ℝ) : (⟨r * Real.cos θ, r * Real.sin θ⟩ : ℂ) = r * exp (θ * I) := by
  apply Complex.ext
  · rw [re_ofReal_mul, exp_ofReal_mul_I_re]
  · rw [im_ofReal_mul, exp_ofReal_mul_I_im]

theorem log_neg_polar {r θ : ℝ} (hr : 0 < r) (h : |θ| < 2 * Real.pi) (h0 : θ ≠ 0) :
    Complex.log (-(r * exp (θ * I))) = ⟨Real.log r, (if θ < 0 then -1 else 1) * (|θ| - Real.pi)⟩ := by
  set φ := (if θ < 0 then (-1 : ℝ) else 1) * (|θ| - Real.pi) with hφ
  have hp := Real.pi_pos
  have hφ1 : -Real.pi < φ ∧ φ ≤ Real.pi := by
    rw [hφ]
    have := abs_pos.mpr h0
    split_ifs <;> constructor <;> linarith
  have he : -(r * exp (θ * I)) = r * exp (φ * I) := by
    rw [← mul_neg]
    congr 1
    rw [hφ]
    split_ifs with hn
    · rw [abs_of_neg hn, show ((-1 * (-θ - Real.pi) : ℝ) : ℂ) * I = θ * I + Real.pi * I by push_cast; ring,
        exp_add, exp_pi_mul_I]
      ring
    · rw [abs_of_nonneg (not_lt.mp hn), show ((1 * (θ - Real.pi) : ℝ) : ℂ) * I = θ * I - Real.pi * I by push_cast; ring,
        exp_sub, exp_pi_mul_I]
      ring
  rw [he]
  apply Complex.ext
  · rw [log_re, norm_mul, norm_exp_ofReal_mul_I, mul_one, norm_real, Real.norm_eq_abs, abs_of_pos hr]
  · rw [log_im, arg_real_mul _ hr, exp_mul_I, ← ofReal_cos, ← ofReal_sin, ofReal_cos, ofReal_sin,
      arg_cos_add_sin_mul_I hφ1]

/-- The dilogarithm changes little between the unit circle and a point next to it. -/
theorem li2_near_circle {r θ : ℝ} (hr : 0 < r) (h1 : |r * r - 1| ≤ cEPS) (hy : 10 * cEPS ≤ |r * Real.sin θ|) :
    ‖Spec.li2 (r * exp (θ * I)) - Spec.li2 (exp (θ * I))‖ ≤ 1 / 10 ^ 13 := by
  have he : cEPS ≤ 1 / 10 ^ 15 := by unfold cEPS; norm_num
  have he' : 2 / 10 ^ 16 ≤ cEPS := by unfold cEPS; norm_num
  have hr1 : |r - 1| ≤ cEPS := by
    have e : r * r - 1 = (r - 1) * (r + 1) := by ring
    rw [e, abs_mul, abs_of_pos (by linarith : 0 < r + 1)] at h1
    nlinarith [abs_nonneg (r - 1)]
  have hr2 : r ≤ 2 := by
    have := (abs_le.mp hr1).2
    norm_num at he
    linarith
  have hr3 : 1 / 2 ≤ r := by
    have := (abs_le.mp hr1).1
    norm_num at he
    linarith
  have hs : 5 * cEPS ≤ |Real.sin θ| := by
    rw [abs_mul, abs_of_pos hr] at hy
    nlinarith [abs_nonneg (Real.sin θ)]
  have hpi := Real.pi_lt_d2
  have hs0 : Real.sin θ ≠ 0 := fun h => by
    rw [h, abs_zero] at hs
    norm_num at he'
    linarith
  have hd : ∀ s ∈ Icc (1 / 2 : ℝ) 2, HasDerivWithinAt (fun s : ℝ => Spec.li2 (s * exp (θ * I)))
      (-Complex.log (1 - s * exp (θ * I)) / (s * exp (θ * I)) * exp (θ * I)) (Icc (1 / 2) 2) s := by
    intro s hs'
    have hsp : (0 : ℝ) < s := by linarith [hs'.1]
    have hne : (s * exp (θ * I) : ℂ) ≠ 0 := mul_ne_zero (by exact_mod_cast hsp.ne') (exp_ne_zero _)
    have hpl : (s * exp (θ * I) : ℂ) ∈ liPlane := liPlane_of_im (by
      rw [im_ofReal_mul, exp_ofReal_mul_I_im]
      exact mul_ne_zero hsp.ne' hs0)
    have hlin : HasDerivAt (fun s : ℝ => (s : ℂ) * exp (θ * I)) (exp (θ * I)) s := by
      simpa using (hasDerivAt_id s).ofReal_comp.mul_const (exp (θ * I))
    exact ((hasDerivAt_li2 hpl hne).comp s hlin).hasDerivWithinAt
  have hb : ∀ s ∈ Icc (1 / 2 : ℝ) 2,
      ‖-Complex.log (1 - s * exp (θ * I)) / (s * exp (θ * I)) * exp (θ * I)‖ ≤ 80 := by
    intro s hs'
    have hsp : (0 : ℝ) < s := by linarith [hs'.1]
    rw [norm_mul, norm_div, norm_neg, norm_mul, norm_exp_ofReal_mul_I, mul_one, mul_one, norm_real, Real.norm_eq_abs,
      abs_of_pos hsp, div_le_iff₀ hsp]
    have hlow : 2 * cEPS ≤ ‖1 - s * exp (θ * I)‖ := by
      refine le_trans ?_ (abs_im_le_norm _)
      rw [sub_im, one_im, im_ofReal_mul, exp_ofReal_mul_I_im, zero_sub, abs_neg, abs_mul, abs_of_pos hsp]
      nlinarith [hs'.1, abs_nonneg (Real.sin θ)]
    have hup : ‖1 - s * exp (θ * I)‖ ≤ 3 := by
      refine (norm_sub_le _ _).trans ?_
      rw [norm_mul, norm_exp_ofReal_mul_I, norm_one, norm_real, Real.norm_eq_abs, abs_of_pos hsp]
      linarith [hs'.2]
    have h36 := exp_36
    have := norm_log_le (w := 1 - s * exp (θ * I)) (K := 36) (by
      refine le_trans ?_ hlow
      rw [Real.exp_neg, inv_le_comm₀ (Real.exp_pos _) (by norm_num at he'; linarith)]
      refine le_trans ?_ h36
      rw [inv_le_comm₀ (by norm_num at he'; linarith) (by norm_num)]
      norm_num at he' ⊢
      linarith) (by linarith)
    linarith [hs'.1]
  have key := Convex.norm_image_sub_le_of_norm_hasDerivWithin_le hd hb (convex_Icc _ _)
    (x := 1) (y := r) (by norm_num) ⟨hr3, hr2⟩
  rw [ofReal_one, one_mul, Real.norm_eq_abs] at key
  norm_num at he ⊢
  linarith

theorem inv_polar {r : ℝ} (hr : r ≠ 0) (θ : ℝ) :
    (⟨r * Real.cos θ / (r * r), -(r * Real.sin θ) / (r * r)⟩ : ℂ) = (r * exp (θ * I))⁻¹ := by
  refine eq_inv_of_mul_eq_one_left ?_
  rw [← polar_mk]
  have hrr : r * r ≠ 0 := mul_ne_zero hr hr
  apply Complex.ext
  · simp only [mul_re, one_re]
    field_simp
    linear_combination Real.sin_sq_add_cos_sq θ
  · simp only [mul_im, one_im]
    field_simp
    ring

/-- Away from the real line, for angles less than a full turn. -/
theorem dilogComplex_off_axis {r θ : ℝ} (hr : 0 < r) (hθ : |θ| < 2 * Real.pi) (hy : 10 * cEPS ≤ |r * Real.sin θ|) :
    Spec.CNear (dilogComplexK r θ) (Spec.li2 (r * exp (θ * I))) (1 / 10 ^ 12 + 1 / 10 ^ 20 * |Real.log r|) := by
  have he' : 2 / 10 ^ 16 ≤ cEPS := by unfold cEPS; norm_num
  have hs0 : r * Real.sin θ ≠ 0 := fun h => by
    rw [h, abs_zero] at hy
    norm_num at he'
    linarith
  have hθ0 : θ ≠ 0 := fun h => by rw [h] at hs0; simp at hs0
  have hr2 : r * Real.cos θ * (r * Real.cos θ) + r * Real.sin θ * (r * Real.sin θ) = r * r := by
    linear_combination r * r * Real.sin_sq_add_cos_sq θ
  have hz := polar_mk r θ
  have hn : ‖(r * exp (θ * I) : ℂ)‖ = r := by
    rw [norm_mul, norm_exp_ofReal_mul_I, mul_one, norm_real, Real.norm_eq_abs, abs_of_pos hr]
  have hz0 : (r * exp (θ * I) : ℂ) ≠ 0 := by rw [← norm_pos_iff, hn]; exact hr
  have hP := cPI_near
  have hq := cPI_sq
  have hpi := Real.pi_lt_d2
  have hpi' := Real.pi_gt_d2
  have hlog : 0 ≤ 1 / 10 ^ 20 * |Real.log r| := by positivity
  unfold dilogComplexK
  simp only
  rw [if_neg (not_lt.mpr hy), hr2]
  by_cases c1 : |r * r - 1| ≤ cEPS
  on_goal 2 => by_cases c2 : r * r < 1
  · rw [if_pos c1]
    have hs : |Real.sin θ| < 2 / 10 ^ 20 → False := by
      intro h
      have hr3 : r ≤ 2 := by
        have := (abs_le.mp c1).2
        unfold cEPS at this
        norm_num at this
        nlinarith
      rw [abs_mul, abs_of_pos hr] at hy
      norm_num at h he'
      nlinarith [abs_nonneg (Real.sin θ)]
    have hc : |θ| < 2 * cPI := by
      by_contra hc
      push Not at hc
      apply hs
      have h1 : |Real.sin θ| = |Real.sin (2 * Real.pi - |θ|)| := by
        rw [Real.sin_two_pi_sub, abs_neg]
        rcases abs_choice θ with h | h <;> rw [h]
        rw [Real.sin_neg, abs_neg]
      have hd0 : 0 < 2 * Real.pi - |θ| := by linarith
      have hd1 : 2 * Real.pi - |θ| ≤ 2 / 10 ^ 20 := by
        have := (abs_le.mp hP).1
        norm_num at this ⊢
        linarith
      rw [h1]
      have := Real.sin_lt hd0
      have h3 : 0 ≤ Real.sin (2 * Real.pi - |θ|) := by
        refine Real.sin_nonneg_of_nonneg_of_le_pi hd0.le ?_
        norm_num at hd1 hpi'
        linarith
      rw [abs_of_nonneg h3]
      linarith
    obtain ⟨v, hv, hvd⟩ := clausen_accurate_partial hc
    refine ⟨_, v, by rw [hv], ?_⟩
    have hre := li2_circle_re hθ.le
    have him := li2_circle_im hθ
    have hnear := li2_near_circle hr c1 hy
    have hdiff : ‖(⟨cPI ^ 2 / 6 + θ * θ / 4 - cPI * |θ| / 2, v⟩ : ℂ) - Spec.li2 (exp (θ * I))‖ ≤ 1 / 10 ^ 17 := by
      refine (norm_le_abs_re_add_abs_im _).trans ?_
      simp only [sub_re, sub_im, hre, him]
      have e : cPI ^ 2 / 6 + θ * θ / 4 - cPI * |θ| / 2 - (Real.pi ^ 2 / 6 + θ ^ 2 / 4 - Real.pi * |θ| / 2) =
          (cPI ^ 2 - Real.pi ^ 2) / 6 - (cPI - Real.pi) * |θ| / 2 := by ring
      rw [e]
      have h3 : |(cPI - Real.pi) * |θ| / 2| ≤ 1e-20 * 8 / 2 := by
        rw [abs_div, abs_mul, abs_abs, abs_of_pos (by norm_num : (0 : ℝ) < 2)]
        gcongr
        linarith
      have h4 := abs_sub ((cPI ^ 2 - Real.pi ^ 2) / 6) ((cPI - Real.pi) * |θ| / 2)
      rw [abs_div, abs_of_pos (by norm_num : (0 : ℝ) < 6)] at h4
      norm_num at *
      linarith
    refine (norm_sub_le_norm_sub_add_norm_sub _ (Spec.li2 (exp (θ * I))) _).trans ?_
    rw [norm_sub_rev] at hnear
    generalize 1 / 10 ^ 20 * |Real.log r| = E at hlog ⊢
    norm_num at hdiff hnear ⊢
    linarith
  · rw [if_neg c1, if_pos c2]
    have h1 : ‖(⟨r * Real.cos θ, r * Real.sin θ⟩ : ℂ)‖ < 1 := by
      rw [hz, hn]
      nlinarith
    obtain ⟨a, b, e, hab⟩ := dilogcUnitDisk_close (by rw [hz]; exact hz0) h1
    rw [hz] at hab
    refine ⟨a, b, e, hab.trans ?_⟩
    generalize 1 / 10 ^ 20 * |Real.log r| = E at hlog ⊢
    norm_num
    linarith
  · rw [if_neg c1, if_neg c2]
    have hr1 : 1 < r := by
      by_contra h
      push Not at h c2 c1
      have : r * r = 1 := le_antisymm (by nlinarith) c2
      rw [this, sub_self, abs_zero] at c1
      unfold cEPS at c1
      norm_num at c1
    have hinv := inv_polar hr.ne' θ
    have hn' : ‖((r * exp (θ * I))⁻¹ : ℂ)‖ < 1 := by
      rw [norm_inv, hn]
      exact inv_lt_one_of_one_lt₀ hr1
    obtain ⟨a, b, e, hab⟩ := dilogcUnitDisk_close (x := r * Real.cos θ / (r * r)) (y := -(r * Real.sin θ) / (r * r))
      (by rw [hinv]; exact inv_ne_zero hz0) (by rw [hinv]; exact hn')
    rw [hinv] at hab
    rw [e, Fl.log_pos hr]
    set L := Real.log r with hL
    set φ := (if θ < 0 then (-1 : ℝ) else 1) * (|θ| - Real.pi) with hφ
    set ψ := (if θ < 0 then (-1 : ℝ) else 1) * (|θ| - cPI) with hψ
    refine ⟨_, _, by simp only [Fl.neg_fin, Fl.fin_mul_fin, Fl.fin_sub_fin]; rfl, ?_⟩
    have him : (r * exp (θ * I) : ℂ).im ≠ 0 := by
      rw [im_ofReal_mul, exp_ofReal_mul_I_im]
      exact hs0
    rw [li2_inv him, log_neg_polar hr hθ hθ0, ← hL, ← hφ]
    have hφψ : |φ - ψ| ≤ 1e-20 := by
      rw [hφ, hψ]
      split_ifs
      · rw [show -1 * (|θ| - Real.pi) - -1 * (|θ| - cPI) = -(cPI - Real.pi) by ring, abs_neg]
        exact hP
      · rw [show 1 * (|θ| - Real.pi) - 1 * (|θ| - cPI) = cPI - Real.pi by ring]
        exact hP
    have hφa : |φ| ≤ 4 := by
      rw [hφ, abs_le]
      have := abs_nonneg θ
      split_ifs <;> constructor <;> linarith
    have hL0 : 0 ≤ L := Real.log_nonneg hr1.le
    have hfin : (⟨-a - 0.5 * (L * L - ψ * ψ) - cPI ^ 2 / 6, -b - 0.5 * (2 * L * ψ)⟩ : ℂ) -
        (-Spec.li2 (r * exp (θ * I))⁻¹ - (⟨L, φ⟩ : ℂ) ^ 2 / 2 - ((Real.pi ^ 2 / 6 : ℝ) : ℂ)) =
        -((⟨a, b⟩ : ℂ) - Spec.li2 (r * exp (θ * I))⁻¹) +
          (⟨(ψ * ψ - φ * φ) / 2 - (cPI ^ 2 - Real.pi ^ 2) / 6, L * (φ - ψ)⟩ : ℂ) := by
      have e2 : (⟨L, φ⟩ : ℂ) ^ 2 / 2 = ⟨(L * L - φ * φ) / 2, L * φ⟩ := by
        rw [sq]
        apply Complex.ext
        · simp
        · simp
          ring
      rw [e2]
      generalize Spec.li2 (r * exp (θ * I))⁻¹ = w
      apply Complex.ext
      · simp only [sub_re, add_re, neg_re, ofReal_re]
        ring
      · simp only [sub_im, add_im, neg_im, ofReal_im]
        ring
    rw [hfin]
    refine (norm_add_le _ _).trans ?_
    rw [norm_neg]
    have h5 := norm_le_abs_re_add_abs_im
      (⟨(ψ * ψ - φ * φ) / 2 - (cPI ^ 2 - Real.pi ^ 2) / 6, L * (φ - ψ)⟩ : ℂ)
    simp only at h5
    have h6 : |L * (φ - ψ)| ≤ |L| * 1e-20 := by rw [abs_mul]; gcongr
    have h7 : |(ψ * ψ - φ * φ) / 2| ≤ 1e-20 * 9 / 2 := by
      rw [show (ψ * ψ - φ * φ) / 2 = (φ - ψ) * (-(φ + ψ)) / 2 by ring, abs_div, abs_mul, abs_neg,
        abs_of_pos (by norm_num : (0 : ℝ) < 2)]
      gcongr
      have h8 := abs_add_le φ ψ
      have h9 : |ψ| ≤ |φ| + |φ - ψ| := by
        have := abs_sub φ (φ - ψ)
        rwa [sub_sub_cancel] at this
      norm_num at hφψ
      linarith
    have h8 := abs_sub ((ψ * ψ - φ * φ) / 2) ((cPI ^ 2 - Real.pi ^ 2) / 6)
    rw [abs_div (cPI ^ 2 - Real.pi ^ 2), abs_of_pos (by norm_num : (0 : ℝ) < 6)] at h8
    norm_num at *
    linarith

/-- Next to the real line, whatever the angle, except above the cut. -/
theorem dilogComplex_strip {r θ : ℝ} (hr : 0 ≤ r) (hy : |r * Real.sin θ| < 10 * cEPS)
    (hc : r * Real.cos θ < 1 ∨ r * Real.sin θ ≤ 0) :
    Spec.CNear (dilogComplexK r θ) (Spec.li2 (r * exp (θ * I))) (2 / 10 ^ 12 + 1 / 10 ^ 20 * |Real.log r|) := by
  have he : 10 * cEPS ≤ 3 / 10 ^ 15 := by unfold cEPS; norm_num
  have hP := cPI_near
  rw [← polar_mk]
  unfold dilogComplexK
  simp only
  rw [if_pos hy]
  have hxr : r * Real.cos θ ≤ r := by nlinarith [Real.cos_le_one θ]
  set x := r * Real.cos θ with hx
  set y := r * Real.sin θ with hyd
  obtain ⟨v, hv, hvd, -⟩ := dilog_accuracy x
  have hy' : |y| ≤ 3 / 10 ^ 15 := hy.le.trans he
  rcases le_or_gt 1 x with h1 | h1
  · have hyn := hc.resolve_left (not_lt.mpr h1)
    have hb := li2_below h1 hyn hy'
    refine ⟨v, -cPI * Real.log x, by rw [hv, if_pos h1], ?_⟩
    refine (norm_sub_le_norm_sub_add_norm_sub _ (Spec.li2 x) _).trans ?_
    rw [norm_sub_rev] at hb
    have h2 : ‖(⟨v, -cPI * Real.log x⟩ : ℂ) - Spec.li2 x‖ ≤ 2e-13 + 1 / 10 ^ 20 * |Real.log r| := by
      refine (norm_le_abs_re_add_abs_im _).trans ?_
      rw [li2_ofReal, if_pos h1]
      refine add_le_add ?_ ?_
      · simpa using hvd
      · have hlog : |Real.log x| ≤ |Real.log r| := by
          rw [abs_of_nonneg (Real.log_nonneg h1), abs_of_nonneg (Real.log_nonneg (h1.trans hxr))]
          exact Real.log_le_log (by linarith) hxr
        have e : ((⟨v, -cPI * Real.log x⟩ : ℂ) - (Spec.dilog x + ((-(Real.pi * Real.log x) : ℝ) : ℂ) * I)).im =
            -((cPI - Real.pi) * Real.log x) := by
          simp
          ring
        rw [e, abs_neg, abs_mul]
        have hP' : |cPI - Real.pi| ≤ 1 / 10 ^ 20 := hP.trans (by norm_num)
        gcongr
    generalize 1 / 10 ^ 20 * |Real.log r| = E at h2 ⊢
    norm_num at h2 hb ⊢
    linarith
  · have hb := li2_close (w := ⟨x, y⟩) (z := x) (Or.inl h1) (Or.inl (by simpa using h1)) (by
      have : ((⟨x, y⟩ : ℂ) - x) = (y : ℂ) * I := by apply Complex.ext <;> simp
      rw [this, norm_mul, norm_I, mul_one, norm_real, Real.norm_eq_abs]
      exact hy')
    refine ⟨v, 0, by rw [hv, if_neg (not_le.mpr h1)], ?_⟩
    refine (norm_sub_le_norm_sub_add_norm_sub _ (Spec.li2 x) _).trans ?_
    rw [norm_sub_rev] at hb
    have h2 : ‖(⟨v, 0⟩ : ℂ) - Spec.li2 x‖ ≤ 2e-13 := by
      rw [li2_ofReal, if_neg (not_le.mpr h1), ofReal_zero, zero_mul, add_zero,
        show (⟨v, 0⟩ : ℂ) = (v : ℂ) from rfl, ← ofReal_sub, norm_real]
      exact hvd
    have hlog : 0 ≤ 1 / 10 ^ 20 * |Real.log r| := by positivity
    generalize 1 / 10 ^ 20 * |Real.log r| = E at hlog ⊢
    norm_num at h2 hb ⊢
    linarith

/-- C133, the part that holds: for every modulus and every angle less than a full turn, except for the points less than
`10 DBL_EPSILON` above the cut, the value is within 2e-12 (and 1e-20 times the logarithm of the modulus) of the
dilogarithm of `r exp(i theta)`. Missing, because violated: the points just above the cut
(`dilogComplex_above_cut_violation`) and larger angles (`dilogComplex_turn_violation`). -/
theorem dilogComplex_partial {r θ : ℝ} (hr : 0 ≤ r) (hθ : |θ| < 2 * Real.pi)
    (hc : r * Real.cos θ < 1 ∨ r * Real.sin θ ≤ 0 ∨ 10 * cEPS ≤ r * Real.sin θ) :
    Spec.CNear (dilogComplexK r θ) (Spec.li2 (r * exp (θ * I))) (2 / 10 ^ 12 + 1 / 10 ^ 20 * |Real.log r|) := by
  have he' : 2 / 10 ^ 16 ≤ cEPS := by unfold cEPS; norm_num
  rcases lt_or_ge |r * Real.sin θ| (10 * cEPS) with h | h
  · refine dilogComplex_strip hr h ?_
    rcases hc with hc | hc | hc
    · exact Or.inl hc
    · exact Or.inr hc
    · exact absurd ((le_abs_self _).trans_lt h) (not_lt.mpr hc)
  · have hr' : 0 < r := hr.lt_of_ne (fun e => by
      rw [← e, zero_mul, abs_zero] at h
      norm_num at he'
      linarith)
    obtain ⟨a, b, e, hab⟩ := dilogComplex_off_axis hr' hθ h
    refine ⟨a, b, e, hab.trans ?_⟩
    gcongr
    norm_num

/-- The hypotheses hold at `2 i`. -/
example : Spec.CNear (dilogComplexK 2 (Real.pi / 2)) (Spec.li2 (2 * I)) (3 / 10 ^ 12) := by
  have hpi := Real.pi_pos
  obtain ⟨a, b, e, h⟩ := dilogComplex_partial (r := 2) (θ := Real.pi / 2) (by norm_num)
    (by rw [abs_of_pos (by positivity)]; linarith) (Or.inl (by norm_num))
  refine ⟨a, b, e, ?_⟩
  have h1 : ((2 : ℝ) * exp ((Real.pi / 2 : ℝ) * I) : ℂ) = 2 * I := by
    rw [exp_mul_I, ← ofReal_cos, ← ofReal_sin, Real.cos_pi_div_two, Real.sin_pi_div_two]
    simp
  rw [h1] at h
  refine h.trans ?_
  have : |Real.log 2| ≤ 1 := by
    rw [abs_of_pos (Real.log_pos (by norm_num))]
    linarith [Real.log_two_lt_d9]
  norm_num
  linarith

/-- C133, violation: less than `10 DBL_EPSILON` above the cut the imaginary part returned is that of the other side,
although the dilogarithm has a positive imaginary part above the real line. -/
theorem dilogComplex_above_cut_violation {r θ : ℝ} (h1 : 1 < r * Real.cos θ) (h2 : 0 < r * Real.sin θ)
    (h3 : r * Real.sin θ < 10 * cEPS) :
    0 < (Spec.li2 (r * exp (θ * I))).im ∧
      (dilogComplexK r θ).2 = .fin (-cPI * Real.log (r * Real.cos θ)) ∧ -cPI * Real.log (r * Real.cos θ) < 0 := by
  refine ⟨?_, ?_, ?_⟩
  · rw [← polar_mk]
    exact li2_im_pos h2
  · unfold dilogComplexK
    simp only
    rw [if_pos (by rw [abs_of_pos h2]; exact h3)]
    simp [h1.le]
  · have := mul_pos cPI_pos (Real.log_pos h1)
    linarith

/-- The hypotheses hold at about `2 + 1e-16 i`: the imaginary part returned is negative. -/
example : ∃ θ : ℝ, 0 < θ ∧ (dilogComplexK 2 θ).2 = .fin (-cPI * Real.log (2 * Real.cos θ)) ∧
    0 < (Spec.li2 (2 * exp (θ * I))).im := by
  have h := dilogComplex_above_cut_violation (r := 2) (θ := 1 / 10 ^ 16)
    (by linarith [Real.one_sub_sq_div_two_le_cos (x := 1 / 10 ^ 16)])
    (mul_pos two_pos (Real.sin_pos_of_pos_of_lt_pi (by norm_num) (by linarith [Real.pi_gt_three])))
    (by
      have := Real.sin_lt (x := 1 / 10 ^ 16) (by norm_num)
      unfold cEPS
      norm_num at this ⊢
      linarith)
  exact ⟨_, by norm_num, h.2.1, by simpa using h.1⟩

/-- C133, violation: outside of the unit circle a full turn more changes the value. -/
theorem dilogComplex_turn_violation {r θ : ℝ} (hr : 1 + cEPS < r * r) (hr0 : 0 < r) (hθ : 0 ≤ θ)
    (hy : 10 * cEPS ≤ |r * Real.sin θ|) :
    (r * exp ((θ + 2 * Real.pi : ℝ) * I) : ℂ) = r * exp (θ * I) ∧
      ∃ a b : ℝ, dilogComplexK r θ = (.fin a, .fin b) ∧
        dilogComplexK r (θ + 2 * Real.pi) =
          (.fin (a + 2 * Real.pi * (θ + Real.pi - cPI)), .fin (b - 2 * Real.pi * Real.log r)) := by
  have hpi := Real.pi_pos
  have he' : 0 < cEPS := by unfold cEPS; norm_num
  have hr1 : 1 < r := by nlinarith
  constructor
  · push_cast
    rw [add_mul, exp_periodic]
  have hr2 : r * Real.cos θ * (r * Real.cos θ) + r * Real.sin θ * (r * Real.sin θ) = r * r := by
    linear_combination r * r * Real.sin_sq_add_cos_sq θ
  have hinv := inv_polar hr0.ne' θ
  obtain ⟨a, b, e, -⟩ := dilogcUnitDisk_close (x := r * Real.cos θ / (r * r)) (y := -(r * Real.sin θ) / (r * r))
    (by rw [hinv]; exact inv_ne_zero (mul_ne_zero (by exact_mod_cast hr0.ne') (exp_ne_zero _)))
    (by
      rw [hinv, norm_inv, norm_mul, norm_exp_ofReal_mul_I, mul_one, norm_real, Real.norm_eq_abs, abs_of_pos hr0]
      exact inv_lt_one_of_one_lt₀ hr1)
  have c1 : ¬|r * r - 1| ≤ cEPS := by
    rw [not_le, lt_abs]
    left
    linarith
  have c2 : ¬r * r < 1 := by linarith
  unfold dilogComplexK
  simp only [Real.cos_add_two_pi, Real.sin_add_two_pi]
  rw [if_neg (not_lt.mpr hy), if_neg (not_lt.mpr hy), hr2, if_neg c1, if_neg c2, if_neg c1, if_neg c2, e,
    Fl.log_pos hr0, if_neg (not_lt.mpr hθ), if_neg (not_lt.mpr (by linarith)), abs_of_nonneg hθ,
    abs_of_nonneg (by linarith : 0 ≤ θ + 2 * Real.pi)]
  refine ⟨_, _, by simp only [Fl.neg_fin, Fl.fin_mul_fin, Fl.fin_sub_fin]; rfl, ?_⟩
  simp only [Fl.neg_fin, Fl.fin_mul_fin, Fl.fin_sub_fin, Prod.mk.injEq, Fl.fin_inj]
  constructor <;> ring

/-- The hypotheses hold at `2 i`: the real part grows by more than 9. -/
example : ∃ a b c d : ℝ, dilogComplexK 2 (Real.pi / 2) = (.fin a, .fin b) ∧
    dilogComplexK 2 (Real.pi / 2 + 2 * Real.pi) = (.fin c, .fin d) ∧ a + 9 < c := by
  obtain ⟨-, a, b, h1, h2⟩ := dilogComplex_turn_violation (r := 2) (θ := Real.pi / 2)
    (by unfold cEPS; norm_num) (by norm_num) (by positivity) (by simp; unfold cEPS; norm_num)
  refine ⟨a, b, _, _, h1, h2, ?_⟩
  have := (abs_le.mp cPI_near).2
  have := Real.pi_gt_d2
  norm_num at *
  nlinarith

/-- C133, violation: on the unit circle an angle of a full turn or more has no imaginary part. -/
theorem dilogComplex_circle_violation {θ : ℝ} (hθ : 2 * cPI ≤ |θ|) (hy : 10 * cEPS ≤ |Real.sin θ|) :
    (dilogComplexK 1 θ).2 = .nan := by
  unfold dilogComplexK
  simp only [one_mul]
  have : Real.cos θ * Real.cos θ + Real.sin θ * Real.sin θ - 1 = 0 := by
    linear_combination Real.sin_sq_add_cos_sq θ
  rw [if_neg (not_lt.mpr hy), this, abs_zero, if_pos (by unfold cEPS; norm_num)]
  exact clausen_nan hθ

example : (dilogComplexK 1 (5 * Real.pi / 2)).2 = .nan := by
  have hp := Real.pi_gt_three
  have hc : cPI ≤ 3.15 := by norm_num [cPI]
  have hs : Real.sin (5 * Real.pi / 2) = 1 := by
    rw [show 5 * Real.pi / 2 = Real.pi / 2 + 2 * Real.pi by ring, Real.sin_add_two_pi, Real.sin_pi_div_two]
  refine dilogComplex_circle_violation ?_ ?_
  · rw [abs_of_pos (by positivity)]
    linarith
  · rw [hs]
    norm_num [cEPS]

end Copulae
