import Mathlib.Analysis.Complex.Exponential
import Verif.Props.DebyeAccuracy
import Verif.Props.Debye

/-!
C97: tau and rho of the Frank copula with the compiled Debye functions, for every parameter, including
those close to zero, where the code uses the first term of the expansion.
-/

namespace Copulae

open intervalIntegral

/-- Second order expansion of `t / (e^t - 1)`. -/
theorem boseG_taylor {t : ℝ} (h0 : 0 ≤ t) (h1 : t ≤ 1 / 2) :
    |boseG t - (1 - t / 2 + t ^ 2 / 12)| ≤ t ^ 3 / 10 := by
  rcases h0.eq_or_lt with rfl | hp
  · rw [boseG_zero]; norm_num
  have hb := Real.exp_bound (x := t) (by rw [abs_of_pos hp]; linarith) (n := 4) (by norm_num)
  rw [abs_of_pos hp] at hb
  simp only [Finset.sum_range_succ, Finset.sum_range_zero, Nat.factorial] at hb
  norm_num at hb
  have hexp : t ≤ Real.exp t - 1 := by linarith [Real.add_one_le_exp t]
  have hexp0 : 0 < Real.exp t - 1 := hp.trans_le hexp
  have hne := hexp0.ne'
  have e : t / (Real.exp t - 1) - (1 - t / 2 + t ^ 2 / 12) =
      (t - (1 - t / 2 + t ^ 2 / 12) * (Real.exp t - 1)) / (Real.exp t - 1) := by
    field_simp
  rw [boseG_ne hp.ne', e, abs_div, abs_of_pos hexp0, div_le_iff₀ hexp0]
  have key : |t - (1 - t / 2 + t ^ 2 / 12) * (Real.exp t - 1)| ≤ t ^ 3 / 10 * t := by
    set R := Real.exp t - (1 + t + t ^ 2 / 2 + t ^ 3 / 6) with hR
    have e2 : t - (1 - t / 2 + t ^ 2 / 12) * (Real.exp t - 1) =
        t ^ 4 / 24 - t ^ 5 / 72 - (1 - t / 2 + t ^ 2 / 12) * R := by rw [hR]; ring
    have hc : |1 - t / 2 + t ^ 2 / 12| ≤ 1 := by
      rw [abs_le]; constructor <;> nlinarith
    have hRb : |R| ≤ t ^ 4 * (5 / 96) := hb
    have h3 : |(1 - t / 2 + t ^ 2 / 12) * R| ≤ t ^ 4 * (5 / 96) := by
      rw [abs_mul]
      calc _ ≤ 1 * |R| := by gcongr
        _ ≤ _ := by linarith
    have h5 : t ^ 5 ≤ t ^ 4 * (1 / 2) := by rw [pow_succ]; gcongr
    have h4 : 0 ≤ t ^ 4 := by positivity
    have h50 : 0 ≤ t ^ 5 := by positivity
    rw [e2]
    rw [abs_le] at *
    constructor <;> nlinarith [h3.1, h3.2]
  refine key.trans ?_
  gcongr

theorem debye1_taylor {t : ℝ} (h0 : 0 < t) (h1 : t ≤ 1 / 2) :
    |Spec.debye1 t - (1 - t / 4 + t ^ 2 / 36)| ≤ t ^ 3 / 10 := by
  have hc1 : Continuous fun s : ℝ => boseG (t * s) := boseG_continuous.comp (by fun_prop)
  have hc2 : Continuous fun s : ℝ => 1 - t * s / 2 + (t * s) ^ 2 / 12 := by fun_prop
  have hd : ∀ s : ℝ, HasDerivAt (fun s : ℝ => s - t * s ^ 2 / 4 + t ^ 2 * s ^ 3 / 36)
      (1 - t * s / 2 + (t * s) ^ 2 / 12) s := by
    intro s
    have := ((hasDerivAt_id s).sub (((hasDerivAt_pow 2 s).const_mul t).div_const 4)).add
      (((hasDerivAt_pow 3 s).const_mul (t ^ 2)).div_const 36)
    refine this.congr_deriv ?_
    norm_num
    ring
  have e : (1 - t / 4 + t ^ 2 / 36) = ∫ s in (0 : ℝ)..1, (1 - t * s / 2 + (t * s) ^ 2 / 12) := by
    rw [integral_eq_sub_of_hasDerivAt (fun s _ => hd s) (hc2.intervalIntegrable _ _)]
    norm_num
  rw [debye1_unit h0.ne', e, ← integral_sub (hc1.intervalIntegrable _ _) (hc2.intervalIntegrable _ _)]
  have := norm_integral_le_of_norm_le_const (a := (0 : ℝ)) (b := 1) (C := t ^ 3 / 10)
    (f := fun s => boseG (t * s) - (1 - t * s / 2 + (t * s) ^ 2 / 12)) (fun s hs => by
      rw [Set.uIoc_of_le zero_le_one] at hs
      have hts : t * s ≤ t := by nlinarith [hs.1, hs.2]
      refine (boseG_taylor (mul_nonneg h0.le hs.1.le) (by linarith)).trans ?_
      have h00 := mul_nonneg h0.le hs.1.le
      gcongr)
  simpa using this

theorem debye2_taylor {t : ℝ} (h0 : 0 < t) (h1 : t ≤ 1 / 2) :
    |Spec.debye2 t - (1 - t / 3 + t ^ 2 / 24)| ≤ t ^ 3 / 5 := by
  have hc1 : Continuous fun s : ℝ => 2 * s * boseG (t * s) :=
    (by fun_prop : Continuous fun s : ℝ => 2 * s).mul (boseG_continuous.comp (by fun_prop))
  have hc2 : Continuous fun s : ℝ => 2 * s * (1 - t * s / 2 + (t * s) ^ 2 / 12) := by fun_prop
  have hd : ∀ s : ℝ, HasDerivAt (fun s : ℝ => s ^ 2 - t * s ^ 3 / 3 + t ^ 2 * s ^ 4 / 24)
      (2 * s * (1 - t * s / 2 + (t * s) ^ 2 / 12)) s := by
    intro s
    have := ((hasDerivAt_pow 2 s).sub (((hasDerivAt_pow 3 s).const_mul t).div_const 3)).add
      (((hasDerivAt_pow 4 s).const_mul (t ^ 2)).div_const 24)
    refine this.congr_deriv ?_
    norm_num
    ring
  have e : (1 - t / 3 + t ^ 2 / 24) = ∫ s in (0 : ℝ)..1, (2 * s * (1 - t * s / 2 + (t * s) ^ 2 / 12)) := by
    rw [integral_eq_sub_of_hasDerivAt (fun s _ => hd s) (hc2.intervalIntegrable _ _)]
    norm_num
  rw [debye2_unit h0.ne', e, ← integral_sub (hc1.intervalIntegrable _ _) (hc2.intervalIntegrable _ _)]
  have := norm_integral_le_of_norm_le_const (a := (0 : ℝ)) (b := 1) (C := t ^ 3 / 5)
    (f := fun s => 2 * s * boseG (t * s) - 2 * s * (1 - t * s / 2 + (t * s) ^ 2 / 12)) (fun s hs => by
      rw [Set.uIoc_of_le zero_le_one] at hs
      have hts : t * s ≤ t := by nlinarith [hs.1, hs.2]
      have h00 := mul_nonneg h0.le hs.1.le
      have h2 := boseG_taylor h00 (by linarith)
      have h3 : (t * s) ^ 3 / 10 ≤ t ^ 3 / 10 := by gcongr
      rw [← mul_sub, Real.norm_eq_abs, abs_mul, abs_of_nonneg (by linarith [hs.1])]
      nlinarith [hs.1, hs.2, abs_nonneg (boseG (t * s) - (1 - t * s / 2 + (t * s) ^ 2 / 12))])
  simpa using this

theorem frankTauR_near {t : ℝ} (h0 : 0 < t) (h1 : t ≤ 1 / 2) : |frankTauR t - t / 9| ≤ t ^ 2 * (2 / 5) := by
  have h := debye1_taylor h0 h1
  have e : frankTauR t - t / 9 = 4 / t * (Spec.debye1 t - (1 - t / 4 + t ^ 2 / 36)) := by
    unfold frankTauR
    field_simp
    ring
  rw [e, abs_mul, abs_of_pos (by positivity)]
  calc 4 / t * |Spec.debye1 t - (1 - t / 4 + t ^ 2 / 36)| ≤ 4 / t * (t ^ 3 / 10) := by gcongr
    _ = _ := by field_simp; norm_num

theorem frankRhoR_near {t : ℝ} (h0 : 0 < t) (h1 : t ≤ 1 / 2) : |frankRhoR t - t / 6| ≤ t ^ 2 * 4 := by
  have h := debye1_taylor h0 h1
  have h2 := debye2_taylor h0 h1
  have e : frankRhoR t - t / 6 = 12 / t * ((Spec.debye2 t - (1 - t / 3 + t ^ 2 / 24)) -
      (Spec.debye1 t - (1 - t / 4 + t ^ 2 / 36))) := by
    unfold frankRhoR
    field_simp
    ring
  rw [e, abs_mul, abs_of_pos (by positivity)]
  have h3 : |(Spec.debye2 t - (1 - t / 3 + t ^ 2 / 24)) - (Spec.debye1 t - (1 - t / 4 + t ^ 2 / 36))| ≤
      t ^ 3 * (3 / 10) := (abs_sub _ _).trans (by linarith)
  calc _ ≤ 12 / t * (t ^ 3 * (3 / 10)) := by gcongr
    _ = t ^ 2 * (18 / 5) := by field_simp; norm_num
    _ ≤ _ := by nlinarith [sq_nonneg t]

/-- The compiled functions as real functions; the value off the finite numbers is arbitrary. -/
noncomputable def compiledD1 (x : ℝ) : ℝ := match debye1K (.fin x) with | .fin v => v | _ => 0

noncomputable def compiledD2 (x : ℝ) : ℝ := match debye2K (.fin x) with | .fin v => v | _ => 0

theorem compiledD1_close {x : ℝ} (h : 0 < x) : |compiledD1 x - Spec.debye1 x| ≤ 2 / 10 ^ 18 := by
  obtain ⟨v, e, hv⟩ := debye1K_accurate h
  unfold compiledD1
  rw [e]
  exact hv

theorem compiledD2_close {x : ℝ} (h : 0 < x) : |compiledD2 x - Spec.debye2 x| ≤ 2 / 10 ^ 18 := by
  obtain ⟨v, e, hv⟩ := debye2K_accurate h
  unfold compiledD2
  rw [e]
  exact hv

theorem frankR_odd {θ : ℝ} (h : 0 < θ) : frankTauR (-θ) = -frankTauR θ ∧ frankRhoR (-θ) = -frankRhoR θ := by
  have k : 0 < θ + 1 := by linarith
  obtain ⟨r1, r2⟩ := debye_wrappers (d1 := Spec.debye1) (d2 := Spec.debye2) (fun _ _ => rfl) (fun _ _ => rfl)
    (neg_ne_zero.mpr h.ne')
  obtain ⟨s1, s2⟩ := debye_wrappers (d1 := Spec.debye1) (d2 := Spec.debye2) (fun _ _ => rfl) (fun _ _ => rfl)
    h.ne'
  rw [debye1W_neg _ (by linarith : -θ < 0)] at r1
  rw [debye2W_neg _ (by linarith : -θ < 0)] at r2
  have r1 := Fl.fin.inj r1
  have r2 := Fl.fin.inj r2
  rw [neg_neg] at *
  unfold frankTauR frankRhoR
  rw [← r1, ← r2]
  constructor
  · field_simp
    ring
  · field_simp
    ring

theorem frank_tau_pos {θ : ℝ} (h : 0 < θ) :
    ∃ v : ℝ, frankTau compiledD1 θ = .ok (.fin v) ∧ |v - frankTauR θ| ≤ 1 / 10 ^ 9 := by
  unfold frankTau iscloseZero
  rw [abs_of_pos h]
  split_ifs with hc
  · refine ⟨_, rfl, ?_⟩
    rw [abs_sub_comm]
    refine (frankTauR_near h (by norm_num at hc ⊢; linarith)).trans ?_
    have : θ ^ 2 ≤ (1 / 10 ^ 8) ^ 2 := pow_le_pow_left₀ h.le hc 2
    norm_num at this ⊢
    linarith
  · refine ⟨1 + 4 * (compiledD1 θ - 1) / θ, ?_, ?_⟩
    · unfold frankTauOf
      rw [if_neg h.ne', debye1W_pos _ h.le, Fl.fin_sub_fin, Fl.fin_mul_fin, Fl.fin_div_fin' _ h.ne',
        Fl.fin_add_fin]
    · have e : 1 + 4 * (compiledD1 θ - 1) / θ - frankTauR θ = 4 / θ * (compiledD1 θ - Spec.debye1 θ) := by
        unfold frankTauR
        field_simp
        ring
      rw [e, abs_mul, abs_of_pos (by positivity)]
      have h8 : (1 / 10 ^ 8 : ℝ) ≤ θ := (not_le.mp hc).le
      calc 4 / θ * |compiledD1 θ - Spec.debye1 θ| ≤ 4 / (1 / 10 ^ 8) * (2 / 10 ^ 18) := by
            gcongr
            exact compiledD1_close h
        _ ≤ _ := by norm_num

theorem frank_rho_pos {θ : ℝ} (h : 0 < θ) :
    ∃ v : ℝ, frankRho compiledD1 compiledD2 θ = .fin v ∧ |v - frankRhoR θ| ≤ 1 / 10 ^ 8 := by
  unfold frankRho iscloseZero
  rw [abs_of_pos h]
  split_ifs with hc
  · refine ⟨_, rfl, ?_⟩
    rw [abs_sub_comm]
    refine (frankRhoR_near h (by norm_num at hc ⊢; linarith)).trans ?_
    have : θ ^ 2 ≤ (1 / 10 ^ 8) ^ 2 := pow_le_pow_left₀ h.le hc 2
    norm_num at this ⊢
    linarith
  · refine ⟨1 + 12 / θ * (compiledD2 θ - compiledD1 θ), ?_, ?_⟩
    · rw [debye1W_pos _ h.le, debye2W_pos _ h.le, Fl.fin_sub_fin, Fl.fin_div_fin' _ h.ne', Fl.fin_mul_fin,
        Fl.fin_add_fin]
    · have e : 1 + 12 / θ * (compiledD2 θ - compiledD1 θ) - frankRhoR θ =
          12 / θ * ((compiledD2 θ - Spec.debye2 θ) - (compiledD1 θ - Spec.debye1 θ)) := by
        unfold frankRhoR
        ring
      rw [e, abs_mul, abs_of_pos (by positivity)]
      have h8 : (1 / 10 ^ 8 : ℝ) ≤ θ := (not_le.mp hc).le
      have h3 : |(compiledD2 θ - Spec.debye2 θ) - (compiledD1 θ - Spec.debye1 θ)| ≤ 4 / 10 ^ 18 :=
        (abs_sub _ _).trans (by linarith [compiledD1_close h, compiledD2_close h])
      calc _ ≤ (12 : ℝ) / (1 / 10 ^ 8) * (4 / 10 ^ 18) := by gcongr
        _ ≤ _ := by norm_num

/-- C97: for every parameter other than zero, tau of the Frank copula with the compiled Debye function is
within 1e-9 of `1 + 4 (D1(θ) - 1) / θ`, on both branches of the code and for both signs. -/
theorem frank_tau_accurate {θ : ℝ} (h : θ ≠ 0) :
    ∃ v : ℝ, frankTau compiledD1 θ = .ok (.fin v) ∧ |v - (1 + 4 * (Spec.debye1 θ - 1) / θ)| ≤ 1 / 10 ^ 9 := by
  change ∃ v : ℝ, frankTau compiledD1 θ = .ok (.fin v) ∧ |v - frankTauR θ| ≤ 1 / 10 ^ 9
  rcases lt_or_gt_of_ne h with hn | hp
  · obtain ⟨v, e, hv⟩ := frank_tau_pos (θ := -θ) (by linarith)
    have o := (frank_measures_odd compiledD1 compiledD2 (-θ)).1
    have o2 := (frankR_odd (θ := -θ) (by linarith)).1
    rw [neg_neg] at o o2
    refine ⟨-v, by rw [o, e]; rfl, ?_⟩
    rw [o2, ← abs_neg]
    convert hv using 2
    ring
  · exact frank_tau_pos hp

/-- C97: likewise rho, within 1e-8 of `1 + 12 (D2(θ) - D1(θ)) / θ`. -/
theorem frank_rho_accurate {θ : ℝ} (h : θ ≠ 0) :
    ∃ v : ℝ, frankRho compiledD1 compiledD2 θ = .fin v ∧
      |v - (1 + 12 / θ * (Spec.debye2 θ - Spec.debye1 θ))| ≤ 1 / 10 ^ 8 := by
  change ∃ v : ℝ, frankRho compiledD1 compiledD2 θ = .fin v ∧ |v - frankRhoR θ| ≤ 1 / 10 ^ 8
  rcases lt_or_gt_of_ne h with hn | hp
  · obtain ⟨v, e, hv⟩ := frank_rho_pos (θ := -θ) (by linarith)
    have o := (frank_measures_odd compiledD1 compiledD2 (-θ)).2
    have o2 := (frankR_odd (θ := -θ) (by linarith)).2
    rw [neg_neg] at o o2
    refine ⟨-v, by rw [o, e]; rfl, ?_⟩
    rw [o2, ← abs_neg]
    convert hv using 2
    ring
  · exact frank_rho_pos hp

example := frank_rho_accurate (θ := -5) (by norm_num)

/-- C97: within the branch for parameters close to zero the error is of second order. -/
theorem frank_near_zero {θ : ℝ} (h0 : 0 < θ) (h : θ ≤ 1 / 10 ^ 8) (d1 d2 : ℝ → ℝ) :
    ∃ t r : ℝ, frankTau d1 θ = .ok (.fin t) ∧ frankRho d1 d2 θ = .fin r ∧
      |t - (1 + 4 * (Spec.debye1 θ - 1) / θ)| ≤ θ ^ 2 * (2 / 5) ∧
      |r - (1 + 12 / θ * (Spec.debye2 θ - Spec.debye1 θ))| ≤ θ ^ 2 * 4 := by
  have hc : iscloseZero θ := by unfold iscloseZero; rwa [abs_of_pos h0]
  have h2 : θ ≤ 1 / 2 := h.trans (by norm_num)
  refine ⟨θ / 9, θ / 6, by rw [frankTau, if_pos hc], by rw [frankRho, if_pos hc], ?_, ?_⟩
  · rw [abs_sub_comm]; exact frankTauR_near h0 h2
  · rw [abs_sub_comm]; exact frankRhoR_near h0 h2

/-- The parameters 5 and -1e-9 lie on different branches. -/
example : (∃ v : ℝ, frankTau compiledD1 5 = .ok (.fin v) ∧
      |v - (1 + 4 * (Spec.debye1 5 - 1) / 5)| ≤ 1 / 10 ^ 9) ∧ iscloseZero (-(1 / 10 ^ 9)) ∧
    ¬ iscloseZero 5 := by
  refine ⟨frank_tau_accurate (by norm_num), ?_, ?_⟩ <;> unfold iscloseZero <;> norm_num [abs_of_pos]

end Copulae
