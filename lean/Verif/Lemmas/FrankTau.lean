import Mathlib.Analysis.SpecialFunctions.Trigonometric.DerivHyp
import Mathlib.Analysis.Calculus.Deriv.MeanValue
import Verif.Props.Debye

/-!
Kendall's tau of the Frank copula as a function of the parameter: strictly increasing, odd, onto
(-1, 1) with explicit bounds.
-/

namespace Copulae

open Set

/-- `θ³ / 4` times the derivative of tau. -/
noncomputable def frankH (t : ℝ) : ℝ := t * boseG t + t - 2 * ∫ s in (0 : ℝ)..t, boseG s

theorem frankH_hasDerivAt {t : ℝ} (h0 : t ≠ 0) :
    HasDerivAt frankH (1 - t ^ 2 * Real.exp t / (Real.exp t - 1) ^ 2) t := by
  have h4 : Real.exp t - 1 ≠ 0 := by
    rw [sub_ne_zero, Ne, Real.exp_eq_one_iff]; exact h0
  have hI : HasDerivAt (fun x => ∫ s in (0 : ℝ)..x, boseG s) (boseG t) t :=
    intervalIntegral.integral_hasDerivAt_right (boseG_continuous.intervalIntegrable 0 t)
      boseG_continuous.stronglyMeasurable.stronglyMeasurableAtFilter boseG_continuous.continuousAt
  have hg : HasDerivAt boseG (((Real.exp t - 1) - t * Real.exp t) / (Real.exp t - 1) ^ 2) t := by
    have e : boseG =ᶠ[nhds t] fun x => x / (Real.exp x - 1) := by
      filter_upwards [isOpen_ne.mem_nhds h0] with x hx
      exact boseG_ne hx
    refine HasDerivAt.congr_of_eventuallyEq ?_ e
    refine ((hasDerivAt_id t).div ((Real.hasDerivAt_exp t).sub_const 1) h4).congr_deriv ?_
    simp
  have := ((((hasDerivAt_id t).mul hg).add (hasDerivAt_id t)).sub (hI.const_mul 2))
  refine this.congr_deriv ?_
  rw [boseG_ne h0]
  simp only [id]
  field_simp
  ring

theorem sq_exp_lt {t : ℝ} (h : 0 < t) : t ^ 2 * Real.exp t < (Real.exp t - 1) ^ 2 := by
  have hs : t / 2 < Real.sinh (t / 2) := Real.self_lt_sinh_iff.mpr (by linarith)
  have he : Real.exp t - 1 = 2 * Real.sinh (t / 2) * Real.exp (t / 2) := by
    rw [Real.sinh_eq, Real.exp_neg]
    have : Real.exp t = Real.exp (t / 2) * Real.exp (t / 2) := by rw [← Real.exp_add]; congr 1; ring
    rw [this]
    have := Real.exp_pos (t / 2)
    field_simp
  have he2 : Real.exp t = Real.exp (t / 2) ^ 2 := by
    rw [sq, ← Real.exp_add]; congr 1; ring
  rw [he]
  conv_lhs => rw [he2]
  have hp := Real.exp_pos (t / 2)
  have h1 : t ^ 2 < (2 * Real.sinh (t / 2)) ^ 2 := by
    refine pow_lt_pow_left₀ (by linarith) h.le two_ne_zero
  calc t ^ 2 * Real.exp (t / 2) ^ 2 < (2 * Real.sinh (t / 2)) ^ 2 * Real.exp (t / 2) ^ 2 :=
        mul_lt_mul_of_pos_right h1 (by positivity)
    _ = _ := by ring

theorem frankH_pos {t : ℝ} (h : 0 < t) : 0 < frankH t := by
  have hc : Continuous frankH := by
    unfold frankH
    refine ((continuous_id.mul boseG_continuous).add continuous_id).sub (continuous_const.mul ?_)
    exact intervalIntegral.continuous_primitive (fun a b => boseG_continuous.intervalIntegrable a b) 0
  have hm : StrictMonoOn frankH (Ici 0) := by
    refine strictMonoOn_of_deriv_pos (convex_Ici 0) hc.continuousOn fun x hx => ?_
    rw [interior_Ici] at hx
    have hx : 0 < x := hx
    rw [(frankH_hasDerivAt hx.ne').deriv, sub_pos, div_lt_one]
    · exact sq_exp_lt hx
    · have : 0 < Real.exp x - 1 := by
        have := Real.one_lt_exp_iff.mpr hx
        linarith
      positivity
  have h0 : frankH 0 = 0 := by simp [frankH]
  rw [← h0]
  exact hm self_mem_Ici h.le h

theorem frankTauR_deriv_pos {t : ℝ} (h : 0 < t) : 0 < deriv frankTauR t := by
  rw [(frankTauR_hasDerivAt h.ne').deriv]
  refine mul_pos (by positivity) ?_
  have := frankH_pos h
  unfold frankH at this
  rw [boseG_ne h.ne'] at this
  rw [debye1_eq]
  generalize (∫ s in (0 : ℝ)..t, boseG s) = I at *
  have e : t / (Real.exp t - 1) + 1 - 2 * (1 / t * I)
      = (t * (t / (Real.exp t - 1)) + t - 2 * I) / t := by
    field_simp
  rw [e]
  exact div_pos this h

theorem frankTauR_strictMonoOn : StrictMonoOn frankTauR (Ioi 0) := by
  refine strictMonoOn_of_deriv_pos (convex_Ioi 0) (fun x hx => ?_) fun x hx => ?_
  · exact (frankTauR_hasDerivAt (ne_of_gt hx)).continuousAt.continuousWithinAt
  · rw [interior_Ioi] at hx
    exact frankTauR_deriv_pos hx

theorem frankTauR_neg {t : ℝ} (h : t ≠ 0) : frankTauR (-t) = -frankTauR t := by
  unfold frankTauR
  rw [debye1_neg h]
  field_simp
  ring

theorem boseG_lower {t : ℝ} (h : 0 < t) : 1 - t / 2 < boseG t := by
  have hm : StrictMonoOn (fun t => t - (Real.exp t - 1) * (1 - t / 2)) (Ici 0) := by
    have hd : ∀ x : ℝ, HasDerivAt (fun t => t - (Real.exp t - 1) * (1 - t / 2))
        ((1 - Real.exp x + x * Real.exp x) / 2) x := by
      intro x
      have h1 : HasDerivAt (fun t : ℝ => 1 - t / 2) (-(1 / 2)) x := by
        simpa using ((hasDerivAt_id x).div_const 2).const_sub 1
      have := (hasDerivAt_id x).sub (((Real.hasDerivAt_exp x).sub_const 1).mul h1)
      refine this.congr_deriv ?_
      ring
    refine strictMonoOn_of_deriv_pos (convex_Ici 0)
      (fun x _ => (hd x).continuousAt.continuousWithinAt) fun x hx => ?_
    rw [interior_Ici] at hx
    rw [(hd x).deriv]
    have hx : 0 < x := hx
    have h2 := Real.add_one_lt_exp (x := -x) (by linarith)
    have h3 : Real.exp x * Real.exp (-x) = 1 := by rw [← Real.exp_add]; simp
    have := Real.exp_pos x
    nlinarith
  have := hm self_mem_Ici h.le h
  simp only [Real.exp_zero, sub_self, zero_mul] at this
  have hp : 0 < Real.exp t - 1 := by
    have := Real.one_lt_exp_iff.mpr h
    linarith
  rw [boseG_ne h.ne', lt_div_iff₀ hp]
  linarith

theorem boseG_upper {t : ℝ} (h0 : 0 < t) (h1 : t ≤ 1) : boseG t ≤ 1 - t / 2 + t ^ 2 / 12 := by
  have he : 1 + t + t ^ 2 / 2 + t ^ 3 / 6 + t ^ 4 / 24 + t ^ 5 / 120 ≤ Real.exp t := by
    have := Real.sum_le_exp_of_nonneg h0.le 6
    simp only [Finset.sum_range_succ, Finset.sum_range_zero, Nat.factorial] at this
    norm_num at this
    linarith
  have hp : 0 < Real.exp t - 1 := by
    have := Real.one_lt_exp_iff.mpr h0
    linarith
  rw [boseG_ne h0.ne', div_le_iff₀ hp]
  have hq : 0 < 1 - t / 2 + t ^ 2 / 12 := by nlinarith
  calc t ≤ (1 - t / 2 + t ^ 2 / 12) * (t + t ^ 2 / 2 + t ^ 3 / 6 + t ^ 4 / 24 + t ^ 5 / 120) := by
        have h5 : 0 ≤ t ^ 5 := by positivity
        have h6 : t ^ 6 ≤ t ^ 5 := pow_le_pow_of_le_one h0.le h1 (by norm_num)
        have h7 : 0 ≤ t ^ 7 := by positivity
        nlinarith
    _ ≤ _ := mul_le_mul_of_nonneg_left (by linarith) hq.le

theorem integral_bose_le {f : ℝ → ℝ} (hf : Continuous f) {t : ℝ} (h : 0 < t)
    (hle : ∀ s, 0 < s → s ≤ t → boseG s ≤ f s) :
    ∫ s in (0 : ℝ)..t, boseG s ≤ ∫ s in (0 : ℝ)..t, f s := by
  refine intervalIntegral.integral_mono_on_of_le_Ioo h.le (boseG_continuous.intervalIntegrable 0 t)
    (hf.intervalIntegrable 0 t) fun s hs => hle s hs.1 hs.2.le

theorem integral_le_bose {f : ℝ → ℝ} (hf : Continuous f) {t : ℝ} (h : 0 < t)
    (hle : ∀ s, 0 < s → s ≤ t → f s ≤ boseG s) :
    ∫ s in (0 : ℝ)..t, f s ≤ ∫ s in (0 : ℝ)..t, boseG s := by
  refine intervalIntegral.integral_mono_on_of_le_Ioo h.le (hf.intervalIntegrable 0 t)
    (boseG_continuous.intervalIntegrable 0 t) fun s hs => hle s hs.1 hs.2.le

theorem frankTauR_eq {t : ℝ} (h : 0 < t) :
    frankTauR t = 1 + 4 * ((∫ s in (0 : ℝ)..t, boseG s) - t) / t ^ 2 := by
  unfold frankTauR
  rw [debye1_eq]
  field_simp

theorem frankTauR_nonneg {t : ℝ} (h : 0 < t) : 0 ≤ frankTauR t := by
  have hI := integral_le_bose (f := fun s => 1 - s / 2) (by fun_prop) h
    fun s hs _ => (boseG_lower hs).le
  have e : ∫ s in (0 : ℝ)..t, (1 - s / 2) = t - t ^ 2 / 4 := by
    rw [intervalIntegral.integral_sub (Continuous.intervalIntegrable (by fun_prop) 0 t)
      (Continuous.intervalIntegrable (by fun_prop) 0 t), intervalIntegral.integral_div, integral_id]
    simp
    ring
  rw [e] at hI
  rw [frankTauR_eq h]
  have : -1 ≤ 4 * ((∫ s in (0 : ℝ)..t, boseG s) - t) / t ^ 2 := by
    rw [le_div_iff₀ (by positivity)]
    linarith
  linarith

theorem frankTauR_le_one {t : ℝ} (h : 0 < t) : frankTauR t ≤ 1 := by
  have hI := integral_bose_le (f := fun _ => 1) continuous_const h fun s hs _ => by
    have := boseG_anti hs.le
    rwa [boseG_zero] at this
  rw [intervalIntegral.integral_const, sub_zero, smul_eq_mul, mul_one] at hI
  rw [frankTauR_eq h]
  have : 4 * ((∫ s in (0 : ℝ)..t, boseG s) - t) / t ^ 2 ≤ 0 :=
    div_nonpos_of_nonpos_of_nonneg (by linarith) (by positivity)
  linarith

theorem frankTauR_bounds {t : ℝ} (h : 0 < t) :
    0 < frankTauR t ∧ 1 - 4 / t < frankTauR t ∧ frankTauR t < 1 := by
  refine ⟨?_, ?_, ?_⟩
  · exact lt_of_le_of_lt (frankTauR_nonneg (by linarith : 0 < t / 2))
      (frankTauR_strictMonoOn (show 0 < t / 2 by linarith) h (by linarith))
  · unfold frankTauR
    have := debye1_pos h.ne'
    have e : 4 * (Spec.debye1 t - 1) / t = 4 * Spec.debye1 t / t - 4 / t := by ring
    have : 0 < 4 * Spec.debye1 t / t := by positivity
    linarith
  · exact lt_of_lt_of_le
      (frankTauR_strictMonoOn h (show 0 < 2 * t by linarith) (by linarith))
      (frankTauR_le_one (by linarith))

theorem frankTauR_le {t : ℝ} (h : 0 < t) (h1 : t ≤ 1) : frankTauR t ≤ t / 9 := by
  have hI := integral_bose_le (f := fun s => 1 - s / 2 + s ^ 2 / 12) (by fun_prop) h
    fun s hs hst => boseG_upper hs (by linarith)
  have e : ∫ s in (0 : ℝ)..t, (1 - s / 2 + s ^ 2 / 12) = t - t ^ 2 / 4 + t ^ 3 / 36 := by
    rw [intervalIntegral.integral_add (Continuous.intervalIntegrable (by fun_prop) 0 t)
      (Continuous.intervalIntegrable (by fun_prop) 0 t),
      intervalIntegral.integral_sub (Continuous.intervalIntegrable (by fun_prop) 0 t)
      (Continuous.intervalIntegrable (by fun_prop) 0 t), intervalIntegral.integral_div,
      intervalIntegral.integral_div, integral_id, integral_pow]
    simp
    ring
  rw [e] at hI
  rw [frankTauR_eq h]
  have : 4 * ((∫ s in (0 : ℝ)..t, boseG s) - t) / t ^ 2 ≤ -1 + t / 9 := by
    rw [div_le_iff₀ (by positivity)]
    nlinarith
  linarith

theorem boseG_lower' {t : ℝ} (h0 : 0 < t) (h1 : t ≤ 1 / 2) : 1 - t / 2 + t ^ 2 / 24 ≤ boseG t := by
  have he : Real.exp t ≤ 1 + t + t ^ 2 / 2 + t ^ 3 / 6 + t ^ 4 * (5 / 96) := by
    have := Real.exp_bound' h0.le (by linarith : t ≤ 1) (n := 4) (by norm_num)
    simp only [Finset.sum_range_succ, Finset.sum_range_zero, Nat.factorial] at this
    norm_num at this
    linarith
  have hp : 0 < Real.exp t - 1 := by
    have := Real.one_lt_exp_iff.mpr h0
    linarith
  rw [boseG_ne h0.ne', le_div_iff₀ hp]
  have hq : 0 < 1 - t / 2 + t ^ 2 / 24 := by nlinarith
  calc (1 - t / 2 + t ^ 2 / 24) * (Real.exp t - 1)
      ≤ (1 - t / 2 + t ^ 2 / 24) * (t + t ^ 2 / 2 + t ^ 3 / 6 + t ^ 4 * (5 / 96)) :=
        mul_le_mul_of_nonneg_left (by linarith) hq.le
    _ ≤ t := by
        have h3 : 0 < t ^ 3 := by positivity
        have h4 : t ^ 4 = t * t ^ 3 := by ring
        have h5 : t ^ 5 = t ^ 2 * t ^ 3 := by ring
        have h6 : t ^ 6 = t ^ 3 * t ^ 3 := by ring
        have h2 : t ^ 2 ≤ 1 / 4 := by nlinarith
        have h7 : t ^ 3 ≤ 1 / 8 := by
          calc t ^ 3 ≤ (1 / 2) ^ 3 := pow_le_pow_left₀ h0.le h1 3
            _ = 1 / 8 := by norm_num
        have : (1 - t / 2 + t ^ 2 / 24) * (t + t ^ 2 / 2 + t ^ 3 / 6 + t ^ 4 * (5 / 96))
            = t + t ^ 3 * (-(1 / 24) + t * (5 / 96 - 1 / 12 + 1 / 48)
              + t ^ 2 * (1 / 144 - 5 / 192) + t ^ 3 * (5 / 2304)) := by ring
        rw [this]
        have : t ^ 3 * (-(1 / 24) + t * (5 / 96 - 1 / 12 + 1 / 48)
              + t ^ 2 * (1 / 144 - 5 / 192) + t ^ 3 * (5 / 2304)) ≤ 0 :=
          mul_nonpos_of_nonneg_of_nonpos h3.le (by nlinarith)
        linarith

theorem frankTauR_ge {t : ℝ} (h : 0 < t) (h1 : t ≤ 1 / 2) : t / 18 ≤ frankTauR t := by
  have hI := integral_le_bose (f := fun s => 1 - s / 2 + s ^ 2 / 24) (by fun_prop) h
    fun s hs hst => boseG_lower' hs (by linarith)
  have e : ∫ s in (0 : ℝ)..t, (1 - s / 2 + s ^ 2 / 24) = t - t ^ 2 / 4 + t ^ 3 / 72 := by
    rw [intervalIntegral.integral_add (Continuous.intervalIntegrable (by fun_prop) 0 t)
      (Continuous.intervalIntegrable (by fun_prop) 0 t),
      intervalIntegral.integral_sub (Continuous.intervalIntegrable (by fun_prop) 0 t)
      (Continuous.intervalIntegrable (by fun_prop) 0 t), intervalIntegral.integral_div,
      intervalIntegral.integral_div, integral_id, integral_pow]
    simp
    ring
  rw [e] at hI
  rw [frankTauR_eq h]
  have : -1 + t / 18 ≤ 4 * ((∫ s in (0 : ℝ)..t, boseG s) - t) / t ^ 2 := by
    rw [le_div_iff₀ (by positivity)]
    nlinarith
  linarith

/-- Far from zero tau stays away from one by a multiple of `1 / θ`. -/
theorem frankTauR_gap {t : ℝ} (h : 1 ≤ t) : frankTauR t ≤ 1 - 8 / 9 / t := by
  have h0 : 0 < t := by linarith
  have h1 := frankTauR_le one_pos le_rfl
  have hm : Spec.debye1 t ≤ Spec.debye1 1 := by
    rw [debye1_unit h0.ne', debye1_unit one_ne_zero]
    refine intervalIntegral.integral_mono_on zero_le_one
      ((boseG_continuous.comp (by fun_prop)).intervalIntegrable 0 1)
      ((boseG_continuous.comp (by fun_prop)).intervalIntegrable 0 1) fun s hs => ?_
    exact boseG_anti (by nlinarith [hs.1])
  unfold frankTauR at h1 ⊢
  have e : 4 * (Spec.debye1 t - 1) / t ≤ -(8 / 9) / t :=
    div_le_div_of_nonneg_right (by linarith) h0.le
  have : -(8 / 9 : ℝ) / t = -(8 / 9 / t) := by ring
  linarith

/-- Tau is strictly increasing on the nonzero parameters. -/
theorem frankTauR_lt {a b : ℝ} (ha : a ≠ 0) (hb : b ≠ 0) (hab : a < b) : frankTauR a < frankTauR b := by
  rcases lt_or_gt_of_ne ha with h | h
  · have hna : frankTauR a = -frankTauR (-a) := by rw [frankTauR_neg ha, neg_neg]
    have h1 := (frankTauR_bounds (t := -a) (by linarith)).1
    rcases lt_or_gt_of_ne hb with h' | h'
    · have hnb : frankTauR b = -frankTauR (-b) := by rw [frankTauR_neg hb, neg_neg]
      have := frankTauR_strictMonoOn (show 0 < -b by linarith) (show 0 < -a by linarith)
        (by linarith)
      linarith
    · have h2 := (frankTauR_bounds h').1
      linarith
  · exact frankTauR_strictMonoOn h (show 0 < b by linarith) hab

end Copulae
