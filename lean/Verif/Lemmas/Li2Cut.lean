import Mathlib.Analysis.Complex.ExponentialBounds
import Verif.Lemmas.Li2

/-!
How little the dilogarithm changes between points that are close to each other, up to its cut.
-/

namespace Copulae

open Complex Set MeasureTheory

theorem norm_log_le {w : ℂ} {K : ℝ} (h0 : Real.exp (-K) ≤ ‖w‖) (h1 : ‖w‖ ≤ Real.exp K) :
    ‖Complex.log w‖ ≤ K + Real.pi := by
  refine (norm_le_abs_re_add_abs_im _).trans ?_
  rw [log_re, log_im]
  have hw : 0 < ‖w‖ := (Real.exp_pos _).trans_le h0
  refine add_le_add ?_ (abs_arg_le_pi _)
  rw [abs_le]
  exact ⟨(Real.le_log_iff_exp_le hw).mpr h0, (Real.log_le_iff_le_exp hw).mpr h1⟩

theorem exp_36 : (3 : ℝ) * 10 ^ 15 ≤ Real.exp 36 := by
  have := Real.exp_one_gt_d9
  calc (3 : ℝ) * 10 ^ 15 ≤ 2.7 ^ 36 := by norm_num
    _ ≤ Real.exp 1 ^ 36 := by gcongr; linarith
    _ = Real.exp 36 := by rw [← Real.exp_nat_mul]; norm_num

/-- Away from 0 the logarithm is at most 39.15 in modulus. -/
theorem norm_log_le_40 {w : ℂ} (h0 : 1 / (3 * 10 ^ 15) ≤ ‖w‖) (h1 : ‖w‖ ≤ 3) : ‖Complex.log w‖ ≤ 39.15 := by
  have h36 := exp_36
  have := norm_log_le (w := w) (K := 36) (by
    refine le_trans ?_ h0
    rw [Real.exp_neg, inv_le_comm₀ (Real.exp_pos _) (by norm_num), one_div, inv_inv]
    exact h36) (by norm_num at h36; linarith)
  linarith [Real.pi_lt_d2]

theorem li2_small {w : ℂ} (h : ‖w‖ ≤ 1 / 2) : ‖Spec.li2 w‖ ≤ 3 / 2 * ‖w‖ := by
  unfold Spec.li2
  rw [norm_neg]
  have := intervalIntegral.norm_integral_le_of_norm_le_const (a := 0) (b := 1) (C := 3 / 2 * ‖w‖)
    (f := fun t : ℝ => Complex.log (1 - t * w) / t) ?_
  · simpa using this
  · intro t ht
    rw [uIoc_of_le zero_le_one] at ht
    have htw : ‖-(t * w)‖ = t * ‖w‖ := by
      rw [norm_neg, norm_mul, norm_real, Real.norm_eq_abs, abs_of_pos ht.1]
    rw [norm_div, norm_real, Real.norm_eq_abs, abs_of_pos ht.1, div_le_iff₀ ht.1, sub_eq_add_neg]
    have := norm_log_one_add_half_le_self (z := -(t * w)) (by
      rw [htw]
      nlinarith [ht.2, ht.1, norm_nonneg w])
    rw [htw] at this
    linarith

theorem li2_left {w z : ℂ} (hw : w.re ≤ 1 / 2) (hz : z.re ≤ 1 / 2) :
    ‖Spec.li2 w - Spec.li2 z‖ ≤ 2 * ‖w - z‖ := by
  have i1 := li2_integrable (liPlane_of_re (by linarith : w.re < 1))
  have i2 := li2_integrable (liPlane_of_re (by linarith : z.re < 1))
  unfold Spec.li2
  rw [neg_sub_neg, ← intervalIntegral.integral_sub i2 i1]
  have := intervalIntegral.norm_integral_le_of_norm_le_const (a := 0) (b := 1) (C := 2 * ‖w - z‖)
    (f := fun t : ℝ => Complex.log (1 - t * z) / t - Complex.log (1 - t * w) / t) ?_
  · simpa using this
  · intro t ht
    rw [uIoc_of_le zero_le_one] at ht
    have hre : ∀ v : ℂ, v.re ≤ 1 / 2 → (1 - t * v : ℂ) ∈ {u : ℂ | 1 / 2 ≤ u.re} := by
      intro v hv
      rw [mem_ofPred_eq, sub_re, one_re, re_ofReal_mul]
      nlinarith [ht.1, ht.2]
    have hd : ∀ u ∈ {u : ℂ | 1 / 2 ≤ u.re}, HasDerivWithinAt Complex.log u⁻¹ {u : ℂ | 1 / 2 ≤ u.re} u := by
      intro u hu
      rw [mem_ofPred_eq] at hu
      exact (hasDerivAt_log (mem_slitPlane_iff.mpr (Or.inl (by linarith)))).hasDerivWithinAt
    have hb : ∀ u ∈ {u : ℂ | 1 / 2 ≤ u.re}, ‖u⁻¹‖ ≤ 2 := by
      intro u hu
      rw [mem_ofPred_eq] at hu
      rw [norm_inv, inv_le_comm₀ (by linarith [re_le_norm u]) (by norm_num)]
      linarith [re_le_norm u]
    have key := Convex.norm_image_sub_le_of_norm_hasDerivWithin_le hd hb (convex_halfSpace_re_ge _)
      (hre w hw) (hre z hz)
    rw [← sub_div, norm_div, norm_real, Real.norm_eq_abs, abs_of_pos ht.1, div_le_iff₀ ht.1]
    rw [show (1 - t * z - (1 - t * w) : ℂ) = t * (w - z) by ring, norm_mul, norm_real, Real.norm_eq_abs,
      abs_of_pos ht.1] at key
    linarith

/-- Next to 1 the dilogarithm is next to `π ^ 2 / 6`. -/
theorem li2_near_one {w : ℂ} (hw : w.re < 1 ∨ w = 1) (h : ‖w - 1‖ ≤ 8 / 10 ^ 15) :
    ‖Spec.li2 w - (Real.pi ^ 2 / 6 : ℝ)‖ ≤ 6 / 10 ^ 13 := by
  rcases hw with hw | rfl
  · have hre : |w.re - 1| ≤ 8 / 10 ^ 15 := by
      have := abs_re_le_norm (w - 1)
      simp only [sub_re, one_re] at this
      linarith
    have h0 : 0 < w.re := by
      have := (abs_le.mp hre).1
      norm_num at this
      linarith
    have hr := li2_reflect h0 hw
    have e : Spec.li2 w - (Real.pi ^ 2 / 6 : ℝ) = -(Spec.li2 (1 - w)) - Complex.log w * Complex.log (1 - w) := by
      push_cast
      linear_combination hr
    set q := ‖w - 1‖ with hq
    have hq0 : 0 < q := norm_pos_iff.mpr (fun h => by
      rw [sub_eq_zero] at h
      rw [h, one_re] at hw
      exact lt_irrefl _ hw)
    have hq' : ‖1 - w‖ = q := norm_sub_rev _ _
    have hh : q ≤ 1 / 2 := h.trans (by norm_num)
    have a1 := li2_small (w := 1 - w) (by rw [hq']; exact hh)
    have a2 := norm_log_one_add_half_le_self (z := w - 1) hh
    rw [add_sub_cancel] at a2
    have a3 : ‖Complex.log (1 - w)‖ ≤ -Real.log q + Real.pi := by
      refine norm_log_le ?_ ?_
      · rw [neg_neg, Real.exp_log hq0, hq']
      · rw [Real.exp_neg, Real.exp_log hq0, hq']
        exact hh.trans ((by norm_num : (1 / 2 : ℝ) ≤ 1).trans (one_le_inv₀ hq0 |>.mpr (by linarith)))
    -- `q (- log q)` is at most `a (1 - log a)` for `q ≤ a`
    set a : ℝ := 8 / 10 ^ 15 with ha
    have ha0 : 0 < a := by rw [ha]; norm_num
    have b1 := Real.abs_log_mul_self_lt (q / a) (by positivity) ((div_le_one ha0).mpr h)
    have b2 : -Real.log q * q ≤ a * (1 - Real.log a) := by
      rw [Real.log_div hq0.ne' ha0.ne'] at b1
      have b3 := neg_abs_le ((Real.log q - Real.log a) * (q / a))
      have b4 : (Real.log q - Real.log a) * q ≥ -a := by
        have : (Real.log q - Real.log a) * q = (Real.log q - Real.log a) * (q / a) * a := by field_simp
        rw [this]
        nlinarith
      have b5 : Real.log a ≤ 0 := Real.log_nonpos ha0.le (by rw [ha]; norm_num)
      nlinarith
    have b6 : -Real.log a ≤ 33 := by
      rw [neg_le, ha, Real.le_log_iff_exp_le (by norm_num), Real.exp_neg, inv_le_comm₀ (Real.exp_pos _) (by norm_num)]
      have := Real.exp_one_gt_d9
      calc ((8 / 10 ^ 15)⁻¹ : ℝ) ≤ 2.7 ^ 33 := by norm_num
        _ ≤ Real.exp 1 ^ 33 := by gcongr; linarith
        _ = Real.exp 33 := by rw [← Real.exp_nat_mul]; norm_num
    rw [e]
    refine (norm_sub_le _ _).trans ?_
    rw [norm_neg, norm_mul]
    have b7 : ‖Complex.log w‖ * ‖Complex.log (1 - w)‖ ≤ 3 / 2 * q * (-Real.log q + Real.pi) := by gcongr
    rw [hq'] at a1
    have hpi := Real.pi_lt_d2
    have b8 : q * Real.pi ≤ a * 3.15 := by gcongr
    have b9 : a * (1 - Real.log a) ≤ a * 34 := by gcongr; linarith
    have b10 : 3 / 2 * q * (-Real.log q + Real.pi) = 3 / 2 * (-Real.log q * q) + 3 / 2 * (q * Real.pi) := by ring
    rw [ha] at *
    norm_num at *
    linarith
  · have := li2_ofReal 1
    rw [ofReal_one] at this
    rw [this, dilog_one]
    simp
    positivity

/-- Left of the line through 1 the dilogarithm changes by at most 1.2e-12 between points closer than 3e-15. -/
theorem li2_close {w z : ℂ} (hw : w.re < 1 ∨ w = 1) (hz : z.re < 1 ∨ z = 1) (h : ‖w - z‖ ≤ 3 / 10 ^ 15) :
    ‖Spec.li2 w - Spec.li2 z‖ ≤ 12 / 10 ^ 13 := by
  have hre := (abs_re_le_norm (w - z)).trans h
  rw [sub_re] at hre
  have hre' := abs_le.mp hre
  by_cases hl : w.re ≤ 1 / 2 ∧ z.re ≤ 1 / 2
  · refine (li2_left hl.1 hl.2).trans ?_
    norm_num at h ⊢
    linarith
  by_cases h1 : ‖w - 1‖ ≤ 5 / 10 ^ 15
  · have h2 : ‖z - 1‖ ≤ 8 / 10 ^ 15 := by
      have := norm_sub_le_norm_sub_add_norm_sub z w 1
      rw [norm_sub_rev z w] at this
      norm_num at h h1 ⊢
      linarith
    have a := li2_near_one hw (h1.trans (by norm_num))
    have b := li2_near_one hz h2
    rw [norm_sub_rev] at b
    refine (norm_sub_le_norm_sub_add_norm_sub _ _ _).trans ((add_le_add a b).trans (by norm_num))
  push Not at h1
  have hw1 : w.re < 1 := hw.resolve_right (fun e => by rw [e] at h1; norm_num at h1)
  have hz1 : z.re < 1 := hz.resolve_right (fun e => by
    rw [e] at h
    norm_num at h h1
    linarith)
  have hw2 : 0.49 ≤ w.re := by
    by_contra hc
    push Not at hc
    apply hl
    norm_num at hre' hc
    constructor <;> linarith
  set S : Set ℂ := Metric.closedBall w (3 / 10 ^ 15) ∩ {u | u.re < 1} with hS
  have hconv : Convex ℝ S := (convex_closedBall _ _).inter (convex_halfSpace_re_lt _)
  by_cases hbig : 3 / 2 ≤ ‖w - 1‖
  · have hA : ∀ u ∈ S, 1 ≤ ‖1 - u‖ := by
      intro u hu
      have hu1 : ‖u - w‖ ≤ 3 / 10 ^ 15 := by simpa [dist_eq_norm] using hu.1
      have := norm_sub_le_norm_sub_add_norm_sub w u 1
      rw [norm_sub_rev w u, norm_sub_rev u 1] at this
      norm_num at hu1
      linarith
    have hd : ∀ u ∈ S, HasDerivWithinAt Spec.li2 (-Complex.log (1 - u) / u) S u := by
      intro u hu
      refine (hasDerivAt_li2 (liPlane_of_re hu.2) (fun e => ?_)).hasDerivWithinAt
      have hu1 : ‖u - w‖ ≤ 3 / 10 ^ 15 := by simpa [dist_eq_norm] using hu.1
      have := (abs_re_le_norm (u - w)).trans hu1
      rw [e, sub_re, zero_re, zero_sub, abs_neg] at this
      have := (le_abs_self _).trans this
      norm_num at hw2 this
      linarith
    have hb : ∀ u ∈ S, ‖-Complex.log (1 - u) / u‖ ≤ 80 := by
      intro u hu
      have hu1 : ‖u - w‖ ≤ 3 / 10 ^ 15 := by simpa [dist_eq_norm] using hu.1
      have h3 := hA u hu
      have hu2 : 0.4 ≤ ‖u‖ := by
        have := (abs_re_le_norm (u - w)).trans hu1
        rw [sub_re] at this
        have := (abs_le.mp this).1
        have h4 := re_le_norm u
        norm_num at hw2 this ⊢
        linarith
      have h5 : ‖1 - u‖ ≤ 1 + ‖u‖ := by simpa using norm_sub_le (1 : ℂ) u
      have h6 := norm_log_le (w := 1 - u) (K := ‖1 - u‖) (by
        refine le_trans ?_ h3
        rw [Real.exp_le_one_iff]
        linarith) (by linarith [Real.add_one_le_exp ‖1 - u‖])
      rw [norm_div, norm_neg, div_le_iff₀ (by norm_num at hu2; linarith)]
      have := Real.pi_lt_d2
      norm_num at hu2 this
      linarith
    have key := Convex.norm_image_sub_le_of_norm_hasDerivWithin_le hd hb hconv
      (x := z) (y := w) ⟨by simpa [dist_eq_norm, norm_sub_rev] using h, hz1⟩ ⟨Metric.mem_closedBall_self (by norm_num), hw1⟩
    refine key.trans ?_
    norm_num at h ⊢
    linarith
  push Not at hbig
  have hA : ∀ u ∈ S, ‖u - w‖ ≤ 3 / 10 ^ 15 ∧ 0.48 ≤ ‖u‖ ∧ 2 / 10 ^ 15 ≤ ‖1 - u‖ ∧ ‖1 - u‖ ≤ 2 := by
    intro u hu
    have hu1 : ‖u - w‖ ≤ 3 / 10 ^ 15 := by simpa [dist_eq_norm] using hu.1
    refine ⟨hu1, ?_, ?_, ?_⟩
    · have := (abs_re_le_norm (u - w)).trans hu1
      rw [sub_re] at this
      have := (abs_le.mp this).1
      have h4 := re_le_norm u
      norm_num at hw2 this ⊢
      linarith
    · have := norm_sub_le_norm_sub_add_norm_sub w u 1
      rw [norm_sub_rev w u, norm_sub_rev u 1] at this
      norm_num at hu1 h1 ⊢
      linarith
    · have := norm_sub_le_norm_sub_add_norm_sub u w 1
      rw [norm_sub_rev u 1] at this
      norm_num at hu1 hbig ⊢
      linarith
  have hd : ∀ u ∈ S, HasDerivWithinAt Spec.li2 (-Complex.log (1 - u) / u) S u := by
    intro u hu
    refine (hasDerivAt_li2 (liPlane_of_re hu.2) (fun e => ?_)).hasDerivWithinAt
    have := (hA u hu).2.1
    rw [e, norm_zero] at this
    norm_num at this
  have hb : ∀ u ∈ S, ‖-Complex.log (1 - u) / u‖ ≤ 100 := by
    intro u hu
    obtain ⟨-, h2, h3, h4⟩ := hA u hu
    rw [norm_div, norm_neg, div_le_iff₀ (by norm_num at h2; linarith)]
    have := norm_log_le_40 (w := 1 - u) (le_trans (by norm_num) h3) (by linarith)
    norm_num at this h2
    linarith
  have key := Convex.norm_image_sub_le_of_norm_hasDerivWithin_le hd hb hconv
    (x := z) (y := w) ⟨by simpa [dist_eq_norm, norm_sub_rev] using h, hz1⟩ ⟨Metric.mem_closedBall_self (by norm_num), hw1⟩
  refine key.trans ?_
  norm_num at h ⊢
  linarith

/-- On the cut the values are those of the side below. -/
theorem li2_below {x y : ℝ} (hx : 1 ≤ x) (hy : y ≤ 0) (h : |y| ≤ 3 / 10 ^ 15) :
    ‖Spec.li2 ⟨x, y⟩ - Spec.li2 x‖ ≤ 13 / 10 ^ 13 := by
  have hx0 : 0 < x := by linarith
  rcases hy.eq_or_lt with rfl | hy
  · rw [show (⟨x, 0⟩ : ℂ) = (x : ℂ) from rfl, sub_self, norm_zero]
    norm_num
  have hz0 : (⟨x, y⟩ : ℂ) ≠ 0 := fun e => hx0.ne' (congrArg re e)
  have hinv := li2_inv (z := ⟨x, y⟩) hy.ne
  have hreal : Spec.li2 x = -Spec.li2 (x⁻¹ : ℝ) - (Real.log x + Real.pi * I) ^ 2 / 2 - (Real.pi ^ 2 / 6 : ℝ) := by
    rw [li2_ofReal, li2_ofReal, if_pos hx, dilog_inv hx, one_div]
    have : (if 1 ≤ x⁻¹ then -(Real.pi * Real.log x⁻¹) else 0) = 0 := by
      split_ifs with hc
      · have : x = 1 := le_antisymm (by rwa [one_le_inv₀ hx0] at hc) hx
        rw [this]
        simp
      · rfl
    rw [this]
    have hI := I_sq
    push_cast
    linear_combination ((Real.pi ^ 2 : ℂ) / 2) * hI
  have hlog : Complex.log (-⟨x, y⟩) = Real.log x + Real.pi * I + Complex.log (1 + (y / x : ℝ) * I) := by
    have e : (-⟨x, y⟩ : ℂ) = ((-x : ℝ) : ℂ) * (1 + (y / x : ℝ) * I) := by
      apply Complex.ext
      · simp
      · simp
        field_simp
    have harg : Complex.arg (1 + (y / x : ℝ) * I) < 0 := by
      rw [arg_neg_iff]
      simp
      exact div_neg_of_neg_of_pos hy hx0
    have hne : (1 + (y / x : ℝ) * I : ℂ) ≠ 0 := fun h => by
      have := congrArg re h
      simp at this
    have hx1 : ((-x : ℝ) : ℂ) ≠ 0 := by exact_mod_cast (by linarith : -x ≠ 0)
    have harg1 : Complex.arg ((-x : ℝ) : ℂ) = Real.pi := arg_ofReal_of_neg (by linarith)
    rw [e, (log_mul_eq_add_log_iff hx1 hne).mpr ⟨by rw [harg1]; linarith [neg_pi_lt_arg (1 + (y / x : ℝ) * I), Real.pi_pos],
      by rw [harg1]; linarith⟩]
    congr 1
    apply Complex.ext
    · rw [log_re, norm_real, Real.norm_eq_abs, abs_neg, abs_of_pos hx0]
      simp
    · rw [log_im, harg1]
      simp
  set δ := Complex.log (1 + (y / x : ℝ) * I) with hδ
  have hη : ‖((y / x : ℝ) : ℂ) * I‖ = |y| / x := by
    rw [norm_mul, norm_I, mul_one, norm_real, Real.norm_eq_abs, abs_div, abs_of_pos hx0]
  have hη1 : |y| / x ≤ |y| := div_le_self (abs_nonneg _) hx
  have hδ1 : ‖δ‖ ≤ 3 / 2 * (|y| / x) := by
    rw [← hη]
    refine norm_log_one_add_half_le_self ?_
    rw [hη]
    norm_num at h
    linarith
  have hB : ‖(Real.log x + Real.pi * I : ℂ)‖ ≤ Real.log x + Real.pi := by
    refine (norm_add_le _ _).trans ?_
    rw [norm_mul, norm_I, mul_one, norm_real, norm_real, Real.norm_eq_abs, Real.norm_eq_abs,
      abs_of_nonneg (Real.log_nonneg hx), abs_of_pos Real.pi_pos]
  have hc := li2_close (w := (⟨x, y⟩ : ℂ)⁻¹) (z := ((x⁻¹ : ℝ) : ℂ)) (Or.inl (by
      rw [inv_re, normSq_mk, div_lt_one (by nlinarith)]
      have : 0 < y * y := mul_pos_of_neg_of_neg hy hy
      change x < _
      nlinarith)) (by
      rcases hx.eq_or_lt with rfl | hx
      · right; simp
      · left
        rw [ofReal_re]
        exact inv_lt_one_of_one_lt₀ hx) (by
      have e : ((⟨x, y⟩ : ℂ)⁻¹ - ((x⁻¹ : ℝ) : ℂ)) = (x - ⟨x, y⟩) * ((⟨x, y⟩ : ℂ)⁻¹ * (x : ℂ)⁻¹) := by
        have : (x : ℂ) ≠ 0 := by exact_mod_cast hx0.ne'
        push_cast
        field_simp
      have e2 : (x - ⟨x, y⟩ : ℂ) = ((-y : ℝ) : ℂ) * I := by
        apply Complex.ext <;> simp
      have hn : 1 ≤ ‖(⟨x, y⟩ : ℂ)‖ := hx.trans (re_le_norm (⟨x, y⟩ : ℂ))
      rw [e, e2, norm_mul, norm_mul, norm_mul, norm_I, norm_real, norm_inv, norm_inv, norm_real, Real.norm_eq_abs,
        Real.norm_eq_abs, abs_neg, abs_of_pos hx0]
      have h1 : ‖(⟨x, y⟩ : ℂ)‖⁻¹ ≤ 1 := inv_le_one_of_one_le₀ hn
      have h2 : x⁻¹ ≤ 1 := inv_le_one_of_one_le₀ hx
      calc |y| * 1 * (‖(⟨x, y⟩ : ℂ)‖⁻¹ * x⁻¹) ≤ |y| * 1 * (1 * 1) := by gcongr
        _ ≤ _ := by linarith)
  have e : Spec.li2 ⟨x, y⟩ - Spec.li2 x = -(Spec.li2 (⟨x, y⟩ : ℂ)⁻¹ - Spec.li2 (x⁻¹ : ℝ)) -
      δ * (2 * (Real.log x + Real.pi * I) + δ) / 2 := by
    rw [hinv, hreal, hlog]
    ring
  rw [e]
  refine (norm_sub_le _ _).trans ?_
  rw [norm_neg]
  have hfin : ‖δ * (2 * (Real.log x + Real.pi * I) + δ) / 2‖ ≤ 1 / 10 ^ 13 := by
    rw [norm_div, norm_mul, norm_ofNat]
    have h1 : ‖(2 * (Real.log x + Real.pi * I) + δ : ℂ)‖ ≤ 2 * x + 8 := by
      refine (norm_add_le _ _).trans ?_
      rw [norm_mul, norm_ofNat]
      have := Real.log_le_sub_one_of_pos hx0
      have := Real.pi_lt_d2
      norm_num at h
      linarith
    have h2 : ‖δ‖ * ‖(2 * (Real.log x + Real.pi * I) + δ : ℂ)‖ ≤ 3 / 2 * (|y| / x) * (2 * x + 8) := by gcongr
    have h3 : 3 / 2 * (|y| / x) * (2 * x + 8) = 3 * |y| + 12 * (|y| / x) := by field_simp; ring
    norm_num at h ⊢
    linarith
  norm_num at hc hfin ⊢
  linarith

/-- The imaginary part is positive above the real line. -/
theorem li2_im_pos {z : ℂ} (h : 0 < z.im) : 0 < (Spec.li2 z).im := by
  have hi := li2_integrable (liPlane_of_im h.ne')
  unfold Spec.li2
  have e := imCLM.intervalIntegral_comp_comm hi
  simp only [imCLM_apply] at e
  rw [neg_im, ← e, ← intervalIntegral.integral_neg]
  refine intervalIntegral.intervalIntegral_pos_of_pos_on ?_ ?_ zero_lt_one
  · have : IntervalIntegrable (fun t : ℝ => (Complex.log (1 - t * z) / t).im) volume 0 1 := ⟨hi.1.im, hi.2.im⟩
    exact this.neg
  · intro t ht
    rw [div_ofReal_im, log_im, neg_pos]
    refine div_neg_of_neg_of_pos ?_ ht.1
    rw [arg_neg_iff, sub_im, one_im, im_ofReal_mul, zero_sub, neg_lt_zero]
    exact mul_pos ht.1 h

end Copulae
