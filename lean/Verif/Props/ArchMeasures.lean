import Mathlib.Analysis.SpecialFunctions.Trigonometric.InverseDeriv
import Verif.Model.Measures
import Verif.Props.ArchCdf

/-!
Properties C21 (calibration), C22 (derivatives of Kendall's tau and Spearman's rho; Frank is in
`Verif.Props.Debye`), C23 (tail dependence) and C26 (derivatives of the inverse generator).
-/

namespace Copulae

open Filter Topology

/-! ### C21 -/

/-- **C21** Clayton: `tau` and `itau` are inverse to each other, and `tau` is increasing. -/
theorem clayton_tau_itau :
    (∀ θ : ℝ, -2 < θ → ∃ t, claytonTau θ = .ok t ∧ t < 1 ∧ claytonItau (.fin t) = .fin θ) ∧
    (∀ t : ℝ, t < 1 → ∃ θ, claytonItau (.fin t) = .fin θ ∧ -2 < θ ∧ claytonTau θ = .ok t) ∧
    (∀ a b : ℝ, -2 < a → a < b → ∃ s t, claytonTau a = .ok s ∧ claytonTau b = .ok t ∧ s < t) := by
  refine ⟨fun θ h => ?_, fun t h => ?_, fun a b ha hab => ?_⟩
  · have h2 : 0 < θ + 2 := by linarith
    have h3 : 1 - θ / (θ + 2) = 2 / (θ + 2) := by field_simp; ring
    refine ⟨θ / (θ + 2), by rw [claytonTau, if_neg h2.ne'], ?_, ?_⟩
    · have : 0 < 2 / (θ + 2) := by positivity
      linarith
    · rw [claytonItau, Fl.fin_mul_fin, Fl.fin_sub_fin, h3, Fl.fin_div_fin' _ (by positivity)]
      congr 1
      field_simp
  · have h2 : 0 < 1 - t := by linarith
    have h3 : 2 * t / (1 - t) + 2 = 2 / (1 - t) := by field_simp; ring
    refine ⟨2 * t / (1 - t), ?_, ?_, ?_⟩
    · rw [claytonItau, Fl.fin_mul_fin, Fl.fin_sub_fin, Fl.fin_div_fin' _ h2.ne']
    · have : 0 < 2 / (1 - t) := by positivity
      linarith
    · rw [claytonTau, h3, if_neg (by positivity)]
      congr 1
      field_simp
  · refine ⟨a / (a + 2), b / (b + 2), by rw [claytonTau, if_neg (by linarith)],
      by rw [claytonTau, if_neg (by linarith)], ?_⟩
    rw [div_lt_div_iff₀ (by linarith) (by linarith)]
    nlinarith

/-- **C21** Gumbel: the same for `theta ≥ 1`, `0 ≤ tau < 1`, for single numbers. -/
theorem gumbel_tau_itau :
    (∀ θ : ℝ, 1 ≤ θ → ∃ t, gumbelTau θ = .ok t ∧ 0 ≤ t ∧ t < 1 ∧
      gumbelItau (.scalar (.fin t)) = .ok (.scalar (.fin θ))) ∧
    (∀ t : ℝ, 0 ≤ t → t < 1 → ∃ θ, gumbelItau (.scalar (.fin t)) = .ok (.scalar (.fin θ)) ∧ 1 ≤ θ ∧
      gumbelTau θ = .ok t) ∧
    (∀ a b : ℝ, 1 ≤ a → a < b → ∃ s t, gumbelTau a = .ok s ∧ gumbelTau b = .ok t ∧ s < t) := by
  have hi : ∀ t : ℝ, 0 ≤ t → t < 1 →
      gumbelItau (.scalar (.fin t)) = .ok (.scalar (.fin (1 / (1 - t)))) := by
    intro t h0 h1
    simp only [gumbelItau, NdArg.toList]
    rw [if_neg (by simp [h0]), if_neg (by simp [h1.ne]), Fl.fin_sub_fin,
      Fl.fin_div_fin' _ (by linarith)]
  refine ⟨fun θ h => ?_, fun t h0 h1 => ?_, fun a b ha hab => ?_⟩
  · have hp : 0 < θ := by linarith
    have h1 : 1 / θ ≤ 1 := by rw [div_le_one hp]; exact h
    have h2 : 0 < 1 / θ := by positivity
    refine ⟨1 - 1 / θ, by rw [gumbelTau, if_neg hp.ne'], by linarith, by linarith, ?_⟩
    rw [hi _ (by linarith) (by linarith), sub_sub_cancel, one_div_one_div]
  · have h2 : 0 < 1 - t := by linarith
    refine ⟨1 / (1 - t), hi t h0 h1, ?_, ?_⟩
    · rw [le_div_iff₀ h2]; linarith
    · rw [gumbelTau, if_neg (by positivity), one_div_one_div, sub_sub_cancel]
  · refine ⟨1 - 1 / a, 1 - 1 / b, by rw [gumbelTau, if_neg (by linarith)],
      by rw [gumbelTau, if_neg (by linarith)], ?_⟩
    have := one_div_lt_one_div_of_lt (by linarith : 0 < a) hab
    linarith

/-- **C21** Gumbel, arrays: elementwise the same, negative entries are replaced by zero first. -/
theorem gumbel_itau_array (l : List ℝ) (hl : 2 ≤ l.length) (h1 : ∀ t ∈ l, t < 1) :
    gumbelItau (.arr (l.map Fl.fin)) = .ok (.arr (l.map fun t => .fin (1 / (1 - max t 0)))) ∧
    ∀ t ∈ l, 1 ≤ 1 / (1 - max t 0) ∧ gumbelTau (1 / (1 - max t 0)) = .ok (max t 0) := by
  constructor
  · have : gumbelItau (.arr (l.map Fl.fin)) = .ok (.arr ((l.map Fl.fin).map fun t =>
        .fin 1 / (.fin 1 - (open Classical in if t < Fl.fin 0 then .fin 0 else t)))) := by
      match l, hl with
      | a :: b :: l, _ => rfl
    rw [this, List.map_map]
    congr 2
    apply List.map_congr_left
    intro t ht
    have := h1 t ht
    simp only [Function.comp]
    split_ifs with h
    · rw [Fl.fin_lt_fin] at h
      rw [max_eq_right h.le, Fl.fin_sub_fin, Fl.fin_div_fin' _ (by norm_num)]
    · rw [Fl.fin_lt_fin, not_lt] at h
      rw [max_eq_left h, Fl.fin_sub_fin, Fl.fin_div_fin' _ (by linarith)]
  · intro t ht
    have h2 : max t 0 < 1 := max_lt (h1 t ht) one_pos
    have h3 : 0 ≤ max t 0 := le_max_right _ _
    have h4 : 0 < 1 - max t 0 := by linarith
    constructor
    · rw [le_div_iff₀ h4]; linarith
    · rw [gumbelTau, if_neg (by positivity), one_div_one_div, sub_sub_cancel]

example := gumbel_itau_array [1 / 2, -1 / 3] (by norm_num) (by norm_num)

theorem arcsin_fin {a : ℝ} (h1 : -1 ≤ a) (h2 : a ≤ 1) :
    Fl.arcsin (.fin a) = .fin (Real.arcsin a) := by
  rw [Fl.arcsin, if_pos ⟨h1, h2⟩]

/-- **C21** Gaussian and Student copulas: `itau` inverts `tau`, on correlations in [-1, 1]. -/
theorem ell_tau_itau :
    (∀ ρ : ℝ, -1 ≤ ρ → ρ ≤ 1 → ∃ t, ellTau (.fin ρ) = .fin t ∧ -1 ≤ t ∧ t ≤ 1 ∧
      ellItau (.fin t) = .fin ρ) ∧
    (∀ t : ℝ, -1 ≤ t → t ≤ 1 → ∃ ρ, ellItau (.fin t) = .fin ρ ∧ -1 ≤ ρ ∧ ρ ≤ 1 ∧
      ellTau (.fin ρ) = .fin t) ∧
    (∀ a b : ℝ, -1 ≤ a → a < b → b ≤ 1 → ∃ s t, ellTau (.fin a) = .fin s ∧ ellTau (.fin b) = .fin t ∧
      s < t) := by
  have hpi := Real.pi_pos
  have ht : ∀ ρ : ℝ, -1 ≤ ρ → ρ ≤ 1 → ellTau (.fin ρ) = .fin (2 * Real.arcsin ρ / Real.pi) := by
    intro ρ h1 h2
    rw [ellTau, arcsin_fin h1 h2, Fl.fin_mul_fin, Fl.fin_div_fin' _ hpi.ne']
  have hit : ∀ t : ℝ, ellItau (.fin t) = .fin (Real.sin (t * Real.pi / 2)) := by
    intro t
    rw [ellItau, Fl.fin_mul_fin, Fl.fin_div_fin' _ (by norm_num)]; rfl
  refine ⟨fun ρ h1 h2 => ?_, fun t h1 h2 => ?_, fun a b ha hab hb => ?_⟩
  · refine ⟨_, ht ρ h1 h2, ?_, ?_, ?_⟩
    · rw [le_div_iff₀ hpi]
      have := Real.neg_pi_div_two_le_arcsin ρ
      linarith
    · rw [div_le_one hpi]
      have := Real.arcsin_le_pi_div_two ρ
      linarith
    · rw [hit, show 2 * Real.arcsin ρ / Real.pi * Real.pi / 2 = Real.arcsin ρ by field_simp,
        Real.sin_arcsin h1 h2]
  · refine ⟨_, hit t, Real.neg_one_le_sin _, Real.sin_le_one _, ?_⟩
    rw [ht _ (Real.neg_one_le_sin _) (Real.sin_le_one _), Real.arcsin_sin]
    · congr 1; field_simp
    · nlinarith
    · nlinarith
  · refine ⟨_, _, ht a ha (by linarith), ht b (by linarith) hb, ?_⟩
    apply div_lt_div_of_pos_right _ hpi
    have := Real.strictMonoOn_arcsin ⟨ha, by linarith⟩ ⟨by linarith, hb⟩ hab
    linarith

/-- **C21** Gaussian copula: `irho` inverts `rho`. -/
theorem ell_rho_irho :
    (∀ ρ : ℝ, -1 ≤ ρ → ρ ≤ 1 → ∃ r, ellRho (.fin ρ) = .fin r ∧ -1 ≤ r ∧ r ≤ 1 ∧
      ellIrho (.fin r) = .fin ρ) ∧
    (∀ r : ℝ, -1 ≤ r → r ≤ 1 → ∃ ρ, ellIrho (.fin r) = .fin ρ ∧ -1 ≤ ρ ∧ ρ ≤ 1 ∧
      ellRho (.fin ρ) = .fin r) ∧
    (∀ a b : ℝ, -1 ≤ a → a < b → b ≤ 1 → ∃ s t, ellRho (.fin a) = .fin s ∧ ellRho (.fin b) = .fin t ∧
      s < t) := by
  have hpi := Real.pi_pos
  have ht : ∀ ρ : ℝ, -1 ≤ ρ → ρ ≤ 1 → ellRho (.fin ρ) = .fin (Real.arcsin (ρ / 2) * 6 / Real.pi) := by
    intro ρ h1 h2
    rw [ellRho, Fl.fin_div_fin' _ (by norm_num), arcsin_fin (by linarith) (by linarith),
      Fl.fin_mul_fin, Fl.fin_div_fin' _ hpi.ne']
  have hit : ∀ t : ℝ, ellIrho (.fin t) = .fin (Real.sin (t * Real.pi / 6) * 2) := by
    intro t
    rw [ellIrho, Fl.fin_mul_fin, Fl.fin_div_fin' _ (by norm_num)]; rfl
  have hasin : Real.arcsin (1 / 2) = Real.pi / 6 := by
    rw [← Real.sin_pi_div_six, Real.arcsin_sin] <;> linarith
  have hasin' : Real.arcsin (-1 / 2) = -(Real.pi / 6) := by
    rw [neg_div, Real.arcsin_neg, hasin]
  have hsin : ∀ r : ℝ, -1 ≤ r → r ≤ 1 → -1 ≤ Real.sin (r * Real.pi / 6) * 2 ∧
      Real.sin (r * Real.pi / 6) * 2 ≤ 1 := by
    intro r h1 h2
    have e1 : Real.sin (-(Real.pi / 6)) = -1 / 2 := by
      rw [Real.sin_neg, Real.sin_pi_div_six]; norm_num
    have m1 := Real.strictMonoOn_sin.monotoneOn (a := -(Real.pi / 6)) (b := r * Real.pi / 6)
      ⟨by linarith, by linarith⟩ ⟨by nlinarith, by nlinarith⟩ (by nlinarith)
    have m2 := Real.strictMonoOn_sin.monotoneOn (a := r * Real.pi / 6) (b := Real.pi / 6)
      ⟨by nlinarith, by nlinarith⟩ ⟨by linarith, by linarith⟩ (by nlinarith)
    rw [e1] at m1
    rw [Real.sin_pi_div_six] at m2
    constructor <;> linarith
  refine ⟨fun ρ h1 h2 => ?_, fun t h1 h2 => ?_, fun a b ha hab hb => ?_⟩
  · refine ⟨_, ht ρ h1 h2, ?_, ?_, ?_⟩
    · rw [le_div_iff₀ hpi]
      have := Real.monotone_arcsin (by linarith : -1 / 2 ≤ ρ / 2)
      rw [hasin'] at this
      linarith
    · rw [div_le_one hpi]
      have := Real.monotone_arcsin (by linarith : ρ / 2 ≤ 1 / 2)
      rw [hasin] at this
      linarith
    · rw [hit, show Real.arcsin (ρ / 2) * 6 / Real.pi * Real.pi / 6 = Real.arcsin (ρ / 2) by
        field_simp, Real.sin_arcsin (by linarith) (by linarith)]
      congr 1; ring
  · refine ⟨_, hit t, (hsin t h1 h2).1, (hsin t h1 h2).2, ?_⟩
    rw [ht _ (hsin t h1 h2).1 (hsin t h1 h2).2, mul_div_cancel_right₀ _ (by norm_num : (2 : ℝ) ≠ 0),
      Real.arcsin_sin]
    · congr 1; field_simp
    · nlinarith
    · nlinarith
  · refine ⟨_, _, ht a ha (by linarith), ht b (by linarith) hb, ?_⟩
    apply div_lt_div_of_pos_right _ hpi
    have := Real.strictMonoOn_arcsin (a := a / 2) (b := b / 2) ⟨by linarith, by linarith⟩
      ⟨by linarith, by linarith⟩ (by linarith)
    linarith

example : claytonTau 2 = .ok (1 / 2) ∧ claytonItau (.fin (1 / 2)) = .fin 2 := by
  constructor
  · norm_num [claytonTau]
  · rw [claytonItau, Fl.fin_mul_fin, Fl.fin_sub_fin, Fl.fin_div_fin' _ (by norm_num)]; norm_num

/-! ### C22 -/

/-- **C22** Clayton: `dtau` is the derivative of the function that `tau` computes. -/
theorem clayton_dtau {θ : ℝ} (h : -2 < θ) : ∃ f : ℝ → ℝ, (∀ x, -2 < x → claytonTau x = .ok (f x)) ∧
    ∃ v, claytonDtau (.fin θ) = .fin v ∧ HasDerivAt f v θ := by
  have h2 : θ + 2 ≠ 0 := by linarith
  refine ⟨fun x => x / (x + 2), fun x hx => by rw [claytonTau, if_neg (by linarith)],
    2 / ((θ + 2) * (θ + 2)), ?_, ?_⟩
  · rw [claytonDtau, Fl.fin_add_fin, Fl.fin_mul_fin, Fl.fin_div_fin' _ (mul_ne_zero h2 h2)]
  · have := (hasDerivAt_id θ).div ((hasDerivAt_id θ).add_const 2) h2
    refine this.congr_deriv ?_
    simp only [id]
    field_simp
    ring

example := clayton_dtau (θ := -1) (by norm_num)

/-- **C22** Gumbel. -/
theorem gumbel_dtau {θ : ℝ} (h : 1 ≤ θ) : ∃ f : ℝ → ℝ, (∀ x, 0 < x → gumbelTau x = .ok (f x)) ∧
    ∃ v, gumbelDtau θ = .ok v ∧ HasDerivAt f v θ := by
  have h2 : θ ≠ 0 := by linarith
  refine ⟨fun x => 1 - 1 / x, fun x hx => by rw [gumbelTau, if_neg hx.ne'], θ ^ (-2 : ℤ), ?_, ?_⟩
  · rw [gumbelDtau, if_neg h2]
  · have := ((hasDerivAt_inv h2).const_sub 1)
    simp only [one_div]
    refine this.congr_deriv ?_
    rw [zpow_neg, neg_neg]
    norm_cast

example := gumbel_dtau (θ := 5 / 2) (by norm_num)

/-- **C22** Gaussian and Student copulas: `dtau` and `drho`. -/
theorem ell_dtau_drho {ρ : ℝ} (h1 : -1 < ρ) (h2 : ρ < 1) :
    (∃ f : ℝ → ℝ, (∀ x, -1 ≤ x → x ≤ 1 → ellTau (.fin x) = .fin (f x)) ∧
      ∃ v, ellDtau (.fin ρ) = .fin v ∧ HasDerivAt f v ρ) ∧
    (∃ f : ℝ → ℝ, (∀ x, -1 ≤ x → x ≤ 1 → ellRho (.fin x) = .fin (f x)) ∧
      ∃ v, ellDrho (.fin ρ) = .fin v ∧ HasDerivAt f v ρ) := by
  have hpi := Real.pi_pos
  constructor
  · have h3 : 0 < 1 - ρ * ρ := by nlinarith
    have h4 : 0 < Real.sqrt (1 - ρ * ρ) := Real.sqrt_pos.mpr h3
    refine ⟨fun x => 2 * Real.arcsin x / Real.pi, fun x hx hx' => ?_,
      2 / (Real.pi * Real.sqrt (1 - ρ * ρ)), ?_, ?_⟩
    · rw [ellTau, arcsin_fin hx hx', Fl.fin_mul_fin, Fl.fin_div_fin' _ hpi.ne']
    · rw [ellDtau, Fl.fin_mul_fin, Fl.fin_sub_fin, Fl.sqrt, if_neg (by linarith), Fl.fin_mul_fin,
        Fl.fin_div_fin' _ (by positivity)]
    · refine (((Real.hasDerivAt_arcsin h1.ne' h2.ne).const_mul 2).div_const Real.pi).congr_deriv ?_
      rw [sq]
      field_simp
  · have h3 : 0 < 4 - ρ * ρ := by nlinarith
    have h4 : 0 < Real.sqrt (4 - ρ * ρ) := Real.sqrt_pos.mpr h3
    refine ⟨fun x => Real.arcsin (x / 2) * 6 / Real.pi, fun x hx hx' => ?_,
      6 / (Real.pi * Real.sqrt (4 - ρ * ρ)), ?_, ?_⟩
    · rw [ellRho, Fl.fin_div_fin' _ (by norm_num), arcsin_fin (by linarith) (by linarith),
        Fl.fin_mul_fin, Fl.fin_div_fin' _ hpi.ne']
    · rw [ellDrho, Fl.fin_mul_fin, Fl.fin_sub_fin, Fl.sqrt, if_neg (by linarith), Fl.fin_mul_fin,
        Fl.fin_div_fin' _ (by positivity)]
    · have h5 := (Real.hasDerivAt_arcsin (x := ρ / 2) (by linarith) (by linarith)).comp ρ
        ((hasDerivAt_id ρ).div_const 2)
      refine ((h5.mul_const 6).div_const Real.pi).congr_deriv ?_
      have e : Real.sqrt (1 - (ρ / 2) ^ 2) = Real.sqrt (4 - ρ * ρ) / 2 := by
        rw [show 1 - (ρ / 2) ^ 2 = (4 - ρ * ρ) / 2 ^ 2 by ring, Real.sqrt_div h3.le,
          Real.sqrt_sq (by norm_num)]
      rw [e]
      field_simp

example := ell_dtau_drho (ρ := -1 / 2) (by norm_num) (by norm_num)

/-! ### C26 -/

/-- **C26** (partial: positive parameters, see `clayton_dipsi_negative`) Clayton: `dipsi` gives
the derivatives of the function that `ipsi` computes, `log=True` the logarithm of its modulus. -/
theorem clayton_dipsi_partial {θ : ℝ} (h : 0 < θ) :
    ∃ f f' : ℝ → ℝ, ∀ u, 0 < u → u ≤ 1 → claytonIpsi θ (.fin u) = .fin (f u) ∧
      HasDerivAt f (f' u) u ∧ claytonDipsi θ 1 false (.fin u) = .ok (.fin (f' u)) ∧
      claytonDipsi θ 1 true (.fin u) = .ok (.fin (Real.log |f' u|)) ∧
      ∃ f'', HasDerivAt f' f'' u ∧ claytonDipsi θ 2 false (.fin u) = .ok (.fin f'') ∧
        claytonDipsi θ 2 true (.fin u) = .ok (.fin (Real.log |f''|)) := by
  refine ⟨fun u => u ^ (-θ) - 1, fun u => -θ * u ^ (-θ - 1), fun u hu _ => ⟨?_, ?_, ?_, ?_,
    -θ * ((-θ - 1) * u ^ (-θ - 1 - 1)), ?_, ?_, ?_⟩⟩
  · rw [claytonIpsi_fin hu, claytonPhi, sign_pos h]; simp
  · exact (Real.hasDerivAt_rpow_const (Or.inl hu.ne')).sub_const 1
  · simp only [claytonDipsi]
    norm_num
    rw [Fl.log_pos h, Fl.log_pos hu, Fl.fin_mul_fin, Fl.fin_sub_fin, Fl.exp_fin, Fl.fin_mul_fin,
      Real.exp_sub, Real.exp_log h, mul_comm (1 + θ), Real.exp_mul, Real.exp_log hu]
    rw [show -θ - 1 = -(1 + θ) by ring, Real.rpow_neg hu.le]
    congr 1
    field_simp
  · simp only [claytonDipsi]
    norm_num
    rw [Fl.log_pos h, Fl.log_pos hu, Fl.fin_mul_fin, Fl.fin_sub_fin, Fl.fin_mul_fin]
    congr 1
    rw [abs_of_pos h, abs_of_pos (Real.rpow_pos_of_pos hu _),
      Real.log_mul h.ne' (Real.rpow_pos_of_pos hu _).ne', Real.log_rpow hu]
    ring
  · exact (Real.hasDerivAt_rpow_const (Or.inl hu.ne')).const_mul _
  · simp only [claytonDipsi]
    norm_num
    rw [Fl.log_pos h, Fl.log_pos hu, Fl.log1p_pos (by linarith), Fl.fin_mul_fin, Fl.fin_add_fin,
      Fl.fin_sub_fin, Fl.exp_fin, Fl.fin_mul_fin, Real.exp_sub, Real.exp_add, Real.exp_log h,
      Real.exp_log (by linarith), mul_comm (θ + 2), Real.exp_mul, Real.exp_log hu]
    rw [show -θ - 1 - 1 = -(θ + 2) by ring, Real.rpow_neg hu.le]
    congr 1
    field_simp
    ring
  · simp only [claytonDipsi]
    norm_num
    rw [Fl.log_pos h, Fl.log_pos hu, Fl.log1p_pos (by linarith), Fl.fin_mul_fin, Fl.fin_add_fin,
      Fl.fin_sub_fin, Fl.fin_mul_fin]
    congr 1
    have hr := Real.rpow_pos_of_pos hu (-θ - 1 - 1)
    have e : |θ| * (|-θ - 1| * |u ^ (-θ - 1 - 1)|) = θ * ((1 + θ) * u ^ (-θ - 1 - 1)) := by
      rw [abs_of_pos h, abs_of_neg (by linarith : -θ - 1 < 0), abs_of_pos hr]
      ring
    rw [e, Real.log_mul h.ne' (by positivity), Real.log_mul (by linarith) hr.ne', Real.log_rpow hu]
    ring

example := clayton_dipsi_partial (θ := 2) (by norm_num)

/-- Violation of **C26**: for a negative parameter (allowed in dimension two) `dipsi` is NaN. -/
theorem clayton_dipsi_negative {θ : ℝ} (h : θ < 0) (u : Fl) (log : Bool) :
    claytonDipsi θ 1 log u = .ok .nan ∧ claytonDipsi θ 2 log u = .ok .nan := by
  constructor <;> cases log <;> simp [claytonDipsi, Fl.log_neg h]

example := clayton_dipsi_negative (θ := -1 / 2) (by norm_num) (.fin (1 / 2)) false

/-- **C26** Gumbel. -/
theorem gumbel_dipsi {θ : ℝ} (h : 1 ≤ θ) :
    ∃ f f' : ℝ → ℝ, ∀ u, 0 < u → u < 1 → gumbelIpsi θ (.fin u) = .fin (f u) ∧
      HasDerivAt f (f' u) u ∧ gumbelDipsi θ 1 false (.fin u) = .ok (.fin (f' u)) ∧
      gumbelDipsi θ 1 true (.fin u) = .ok (.fin (Real.log |f' u|)) ∧
      ∃ f'', HasDerivAt f' f'' u ∧ gumbelDipsi θ 2 false (.fin u) = .ok (.fin f'') ∧
        gumbelDipsi θ 2 true (.fin u) = .ok (.fin (Real.log |f''|)) := by
  have h0 : 0 < θ := by linarith
  have hnl : ∀ {u : ℝ}, 0 < u → u < 1 → 0 < -Real.log u := by
    intro u hu hu1; have := Real.log_neg hu hu1; linarith
  have hd : ∀ {u : ℝ}, 0 < u → HasDerivAt (fun x => -Real.log x) (-u⁻¹) u :=
    fun hu => (Real.hasDerivAt_log hu.ne').neg
  refine ⟨fun u => (-Real.log u) ^ θ, fun u => -(θ * (-Real.log u) ^ (θ - 1) / u),
    fun u hu hu1 => ⟨gumbelIpsi_fin h0 hu hu1.le, ?_, ?_, ?_,
      θ * (θ - 1 - Real.log u) * (-Real.log u) ^ (θ - 2) / u ^ (2 : ℝ), ?_, ?_, ?_⟩⟩
  · refine ((hd hu).rpow_const (p := θ) (Or.inl (hnl hu hu1).ne')).congr_deriv ?_
    field_simp
  · simp only [gumbelDipsi]
    norm_num
    rw [Fl.log_pos hu, Fl.neg_fin, Fl.pow_pos (hnl hu hu1), Fl.fin_mul_fin, Fl.fin_div_fin' _ hu.ne',
      Fl.fin_mul_fin]
    congr 1
    ring
  · simp only [gumbelDipsi]
    norm_num
    have hp := Real.rpow_pos_of_pos (hnl hu hu1) (θ - 1)
    have hv : 0 < θ * (-Real.log u) ^ (θ - 1) / u := by positivity
    rw [Fl.log_pos hu, Fl.neg_fin, Fl.pow_pos (hnl hu hu1), Fl.fin_mul_fin, Fl.fin_div_fin' _ hu.ne',
      Fl.log_pos hv, Fl.fin_mul_fin, one_mul]
  · have h1 := ((hd hu).rpow_const (p := θ - 1) (Or.inl (hnl hu hu1).ne')).const_mul θ
    have h2 := (h1.div (hasDerivAt_id u) hu.ne').neg
    refine h2.congr_deriv ?_
    have e1 : (-Real.log u) ^ (θ - 1) = (-Real.log u) ^ (θ - 2) * (-Real.log u) := by
      rw [show θ - 1 = (θ - 2) + 1 by ring, Real.rpow_add (hnl hu hu1), Real.rpow_one]
    simp only [id]
    rw [show θ - 1 - 1 = θ - 2 by ring, e1, show (2 : ℝ) = ((2 : ℕ) : ℝ) by norm_num,
      Real.rpow_natCast]
    push_cast
    field_simp
    ring
  · simp only [gumbelDipsi]
    norm_num
    have hu2 : 0 < u ^ (2 : ℝ) := Real.rpow_pos_of_pos hu _
    rw [Fl.log_pos hu, Fl.neg_fin, Fl.pow_pos (hnl hu hu1), Fl.pow_pos hu, Fl.fin_sub_fin,
      Fl.fin_mul_fin, Fl.fin_mul_fin, Fl.fin_div_fin' _ hu2.ne', Fl.fin_mul_fin, one_mul]
    norm_num
  · simp only [gumbelDipsi]
    norm_num
    have hu2 : 0 < u ^ (2 : ℝ) := Real.rpow_pos_of_pos hu _
    have hp := Real.rpow_pos_of_pos (hnl hu hu1) (θ - 2)
    have hq : 0 < θ - 1 - Real.log u := by have := hnl hu hu1; linarith
    have hv : 0 < θ * (θ - 1 - Real.log u) * (-Real.log u) ^ (θ - 2) / u ^ (2 : ℝ) := by positivity
    rw [Fl.log_pos hu, Fl.neg_fin, Fl.pow_pos (hnl hu hu1), Fl.pow_pos hu, Fl.fin_sub_fin,
      Fl.fin_mul_fin, Fl.fin_mul_fin, Fl.fin_div_fin' _ hu2.ne', Fl.log_pos hv, Fl.fin_mul_fin,
      one_mul]
    congr 2
    norm_num

example := gumbel_dipsi (θ := 5 / 2) (by norm_num)

/-- **C26** (partial: `u > 0.01`, because `ipsi` itself is wrong below) Frank, any non-zero
parameter. -/
theorem frank_dipsi_partial {θ : ℝ} (h : θ ≠ 0) :
    ∃ f f' : ℝ → ℝ, ∀ u, 1 / 100 < u → u ≤ 1 → frankIpsi θ (.fin u) = .fin (f u) ∧
      HasDerivAt f (f' u) u ∧ frankDipsi θ 1 false (.fin u) = .ok (.fin (f' u)) ∧
      frankDipsi θ 1 true (.fin u) = .ok (.fin (Real.log |f' u|)) ∧
      ∃ f'', HasDerivAt f' f'' u ∧ frankDipsi θ 2 false (.fin u) = .ok (.fin f'') ∧
        frankDipsi θ 2 true (.fin u) = .ok (.fin (Real.log |f''|)) := by
  have hne : ∀ {u : ℝ}, 0 < u → Real.exp (u * θ) - 1 ≠ 0 := by
    intro u hu he
    have : Real.exp (u * θ) = 1 := by linarith
    rw [Real.exp_eq_one_iff] at this
    exact (mul_ne_zero hu.ne' h) this
  have hpos : ∀ {u : ℝ}, 0 < u → 0 < θ / (Real.exp (u * θ) - 1) := by
    intro u hu
    rcases lt_or_gt_of_ne h with hn | hp
    · apply div_pos_of_neg_of_neg hn
      have := Real.exp_lt_one_iff.mpr (mul_neg_of_pos_of_neg hu hn)
      linarith
    · apply div_pos hp
      have := Real.one_lt_exp_iff.mpr (mul_pos hu hp)
      linarith
  have hexp : ∀ u : ℝ, HasDerivAt (fun x : ℝ => Real.exp (x * θ)) (Real.exp (u * θ) * θ) u := by
    intro u
    simpa using ((hasDerivAt_id u).mul_const θ).exp
  refine ⟨frankPhi θ, fun u => -(θ / (Real.exp (u * θ) - 1)), fun u hu hu1 => ?_⟩
  have hu0 : 0 < u := by linarith
  refine ⟨frankIpsi_fin h hu, ?_, ?_, ?_,
    θ ^ 2 * Real.exp (u * θ) / ((Real.exp (u * θ) - 1) * (Real.exp (u * θ) - 1)), ?_, ?_, ?_⟩
  · have hr := frank_ratio_pos h hu0
    have hem := exp_neg_ne h
    have h1 : HasDerivAt (fun x : ℝ => (Real.exp (-θ * x) - 1) / (Real.exp (-θ) - 1))
        (Real.exp (-θ * u) * (-θ) / (Real.exp (-θ) - 1)) u := by
      have := (((hasDerivAt_id u).const_mul (-θ)).exp.sub_const 1).div_const (Real.exp (-θ) - 1)
      simpa using this
    have h2 := (h1.log hr.ne').neg
    refine h2.congr_deriv ?_
    have e : Real.exp (-θ * u) = (Real.exp (u * θ))⁻¹ := by
      rw [← Real.exp_neg]; congr 1; ring
    have hx := hne hu0
    have hy := Real.exp_ne_zero (u * θ)
    have hz : 1 - Real.exp (u * θ) ≠ 0 := fun hz => hx (by linarith)
    rw [e]
    have e2 : (Real.exp (u * θ))⁻¹ - 1 = -((Real.exp (u * θ) - 1) / Real.exp (u * θ)) := by
      field_simp; ring
    rw [e2]
    field_simp
  · simp only [frankDipsi]
    norm_num
    rw [Fl.fin_div_fin' _ (hne hu0), Fl.fin_mul_fin]
    congr 1; ring
  · simp only [frankDipsi]
    norm_num
    rw [Fl.fin_div_fin' _ (hne hu0), Fl.log_pos (hpos hu0), Fl.fin_mul_fin, one_mul]
  · have h1 := ((hasDerivAt_const u θ).div ((hexp u).sub_const 1) (hne hu0)).neg
    refine h1.congr_deriv ?_
    field_simp
    ring
  · simp only [frankDipsi]
    norm_num
    rw [Fl.fin_div_fin' _ (mul_ne_zero (hne hu0) (hne hu0)), Fl.fin_mul_fin, one_mul]
  · simp only [frankDipsi]
    norm_num
    have hv : 0 < θ ^ 2 * Real.exp (u * θ) / ((Real.exp (u * θ) - 1) * (Real.exp (u * θ) - 1)) := by
      have := mul_self_pos.mpr (hne hu0)
      positivity
    rw [Fl.fin_div_fin' _ (mul_ne_zero (hne hu0) (hne hu0)), Fl.log_pos hv, Fl.fin_mul_fin, one_mul]

example := frank_dipsi_partial (θ := -2) (by norm_num)

/-- **C26** Other degrees are rejected. -/
theorem dipsi_reject (θ : ℝ) (degree : ℤ) (h1 : degree ≠ 1) (h2 : degree ≠ 2) (log : Bool) (u : Fl) :
    claytonDipsi θ degree log u = .error .assertionError ∧
    gumbelDipsi θ degree log u = .error .assertionError ∧
    frankDipsi θ degree log u = .error .assertionError := by
  simp [claytonDipsi, gumbelDipsi, frankDipsi, h1, h2]

example : claytonDipsi 2 1 false (.fin 1) = .ok (.fin (-2)) := by
  simp [claytonDipsi, Fl.log_pos, Real.exp_log]

end Copulae
