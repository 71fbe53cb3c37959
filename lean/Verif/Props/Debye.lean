import Verif.Model.Debye
import Verif.Lemmas.Debye

/-!
C39 (Debye wrappers, symmetry of the Frank measures) and the Frank part of C22 (its `dtau` and `drho`
are not the derivatives of `tau` and `rho`).

The compiled Debye functions are assumed to return the Debye integrals for positive arguments
(`IsDebye1`, `IsDebye2`): their Chebyshev and series approximations are not modelled here.
-/

namespace Copulae

/-- Assumption on the compiled `debye_1`. -/
def IsDebye1 (d1 : ℝ → ℝ) : Prop := ∀ x, 0 < x → d1 x = Spec.debye1 x

/-- Assumption on the compiled `debye_2`. -/
def IsDebye2 (d2 : ℝ → ℝ) : Prop := ∀ x, 0 < x → d2 x = Spec.debye2 x

example : IsDebye1 Spec.debye1 ∧ IsDebye2 Spec.debye2 := ⟨fun _ _ => rfl, fun _ _ => rfl⟩

theorem debye1W_pos (d1 : ℝ → ℝ) {x : ℝ} (h : 0 ≤ x) : debye1W d1 (.fin x) = .fin (d1 x) := by
  unfold debye1W
  rw [if_neg (by rw [Fl.fin_lt_fin]; linarith)]
  simp only [abs_of_nonneg h]

theorem debye1W_neg (d1 : ℝ → ℝ) {x : ℝ} (h : x < 0) :
    debye1W d1 (.fin x) = .fin (d1 (-x) - x / 2) := by
  unfold debye1W
  rw [if_pos (by rw [Fl.fin_lt_fin]; exact h)]
  simp only [abs_of_neg h, Fl.fin_div_fin' _ two_ne_zero, Fl.fin_sub_fin]

theorem debye2W_pos (d2 : ℝ → ℝ) {x : ℝ} (h : 0 ≤ x) : debye2W d2 (.fin x) = .fin (d2 x) := by
  unfold debye2W
  rw [if_neg (by rw [Fl.fin_lt_fin]; linarith)]
  simp only [abs_of_nonneg h]

theorem debye2W_neg (d2 : ℝ → ℝ) {x : ℝ} (h : x < 0) :
    debye2W d2 (.fin x) = .fin (d2 (-x) - 2 / 3 * x) := by
  unfold debye2W
  rw [if_pos (by rw [Fl.fin_lt_fin]; exact h)]
  simp only [abs_of_neg h, Fl.fin_mul_fin, Fl.fin_sub_fin]

/-- C39: the wrappers satisfy the reflection formulas, whatever the compiled functions return. -/
theorem debye_reflection (d1 d2 : ℝ → ℝ) {x : ℝ} (h : 0 < x) :
    debye1W d1 (.fin (-x)) = debye1W d1 (.fin x) + .fin (x / 2) ∧
    debye2W d2 (.fin (-x)) = debye2W d2 (.fin x) + .fin (2 * x / 3) := by
  rw [debye1W_neg d1 (by linarith), debye1W_pos d1 h.le, debye2W_neg d2 (by linarith),
    debye2W_pos d2 h.le, neg_neg, Fl.fin_add_fin, Fl.fin_add_fin]
  constructor <;> congr 1 <;> ring

example (d1 d2 : ℝ → ℝ) := debye_reflection d1 d2 (x := 3) (by norm_num)

/-- C39: the wrappers extend the compiled functions to the Debye integrals on all nonzero reals. -/
theorem debye_wrappers {d1 d2 : ℝ → ℝ} (h1 : IsDebye1 d1) (h2 : IsDebye2 d2) {x : ℝ} (hx : x ≠ 0) :
    debye1W d1 (.fin x) = .fin (Spec.debye1 x) ∧ debye2W d2 (.fin x) = .fin (Spec.debye2 x) := by
  rcases lt_or_gt_of_ne hx with h | h
  · rw [debye1W_neg d1 h, debye2W_neg d2 h, h1 _ (by linarith), h2 _ (by linarith), debye1_neg hx,
      debye2_neg hx]
    constructor <;> congr 1 <;> ring
  · rw [debye1W_pos d1 h.le, debye2W_pos d2 h.le, h1 x h, h2 x h]
    exact ⟨rfl, rfl⟩

example := debye_wrappers (d1 := Spec.debye1) (d2 := Spec.debye2) (fun _ _ => rfl) (fun _ _ => rfl) (x := -3) (by norm_num)

/-- C39, arguments that are not finite. -/
theorem debye_nonfinite (d1 d2 : ℝ → ℝ) :
    (debye1W d1 .pinf = .fin 0 ∧ debye1W d1 .ninf = .pinf ∧ debye1W d1 .nan = .nan) ∧
    (debye2W d2 .pinf = .fin 0 ∧ debye2W d2 .ninf = .pinf ∧ debye2W d2 .nan = .nan) := by
  have hn : ¬ ((Fl.nan : Fl) < .fin 0) := fun h => h
  have hp : ¬ ((Fl.pinf : Fl) < .fin 0) := fun h => h
  have hm : (Fl.ninf : Fl) < .fin 0 := trivial
  have e1 : (Fl.ninf : Fl) / .fin 2 = .ninf := by
    change (if (0 : ℝ) ≤ 2 then Fl.ninf else Fl.pinf) = .ninf
    rw [if_pos (by norm_num)]
  have e2 : Fl.fin (2 / 3) * (Fl.ninf : Fl) = .ninf := by
    change Fl.infSign (-(2 / 3)) = .ninf
    unfold Fl.infSign
    norm_num
  refine ⟨⟨?_, ?_, ?_⟩, ?_, ?_, ?_⟩
  · unfold debye1W; rw [if_neg hp]
  · unfold debye1W; rw [if_pos hm, e1]; rfl
  · unfold debye1W; rw [if_neg hn]
  · unfold debye2W; rw [if_neg hp]
  · unfold debye2W; rw [if_pos hm, e2]; rfl
  · unfold debye2W; rw [if_neg hn]

theorem debye1W_fin (d1 : ℝ → ℝ) (x : ℝ) : ∃ a, debye1W d1 (.fin x) = .fin a := by
  rcases lt_or_ge x 0 with h | h
  · exact ⟨_, debye1W_neg d1 h⟩
  · exact ⟨_, debye1W_pos d1 h⟩

theorem debye2W_fin (d2 : ℝ → ℝ) (x : ℝ) : ∃ a, debye2W d2 (.fin x) = .fin a := by
  rcases lt_or_ge x 0 with h | h
  · exact ⟨_, debye2W_neg d2 h⟩
  · exact ⟨_, debye2W_pos d2 h⟩

/-- C39: Kendall's tau and Spearman's rho of the Frank copula are odd functions of the parameter,
whatever the compiled Debye functions return. -/
theorem frank_measures_odd (d1 d2 : ℝ → ℝ) (θ : ℝ) :
    frankTau d1 (-θ) = (frankTau d1 θ).map (fun t => -t) ∧ frankRho d1 d2 (-θ) = -frankRho d1 d2 θ := by
  have key : ∀ θ : ℝ, 0 < θ →
      frankTau d1 (-θ) = (frankTau d1 θ).map (fun t => -t) ∧
      frankRho d1 d2 (-θ) = -frankRho d1 d2 θ := by
    intro θ h
    unfold frankTau frankRho iscloseZero
    rw [abs_neg]
    by_cases hc : |θ| ≤ 1 / 10 ^ 8
    · rw [if_pos hc, if_pos hc, if_pos hc, if_pos hc]
      simp only [Except.map, Fl.neg_fin, neg_div, and_self]
    · rw [if_neg hc, if_neg hc, if_neg hc, if_neg hc]
      obtain ⟨r1, r2⟩ := debye_reflection d1 d2 h
      unfold frankTauOf
      rw [if_neg h.ne', if_neg (neg_ne_zero.mpr h.ne'), r1, r2]
      rw [debye1W_pos d1 h.le, debye2W_pos d2 h.le]
      simp only [Except.map, Fl.fin_add_fin, Fl.fin_sub_fin, Fl.fin_mul_fin,
        Fl.fin_div_fin' _ h.ne', Fl.fin_div_fin' _ (neg_ne_zero.mpr h.ne'), Fl.neg_fin]
      constructor
      · congr 2
        field_simp
        ring
      · congr 1
        field_simp
        ring
  rcases lt_trichotomy θ 0 with h | h | h
  · obtain ⟨k1, k2⟩ := key (-θ) (by linarith)
    rw [neg_neg] at k1 k2
    rw [k1, k2]
    constructor
    · cases frankTau d1 (-θ) with
      | error e => rfl
      | ok v => cases v <;> simp [Except.map]
    · cases frankRho d1 d2 (-θ) <;> simp
  · subst h
    have hc : iscloseZero 0 := by unfold iscloseZero; norm_num
    simp [frankTau, frankRho, hc, Except.map]
  · exact key θ h

/-! ## C22 for the Frank copula -/

/-- Kendall's tau as computed, for parameters not close to zero. -/
noncomputable def frankTauR (θ : ℝ) : ℝ := 1 + 4 * (Spec.debye1 θ - 1) / θ

/-- Spearman's rho as computed, for parameters not close to zero. -/
noncomputable def frankRhoR (θ : ℝ) : ℝ := 1 + 12 / θ * (Spec.debye2 θ - Spec.debye1 θ)

theorem frank_measures_value {d1 d2 : ℝ → ℝ} (h1 : IsDebye1 d1) (h2 : IsDebye2 d2) {θ : ℝ}
    (hθ : 1 / 10 ^ 8 < |θ|) :
    frankTau d1 θ = .ok (.fin (frankTauR θ)) ∧ frankRho d1 d2 θ = .fin (frankRhoR θ) := by
  have h0 : θ ≠ 0 := by
    rintro rfl
    rw [abs_zero] at hθ
    norm_num at hθ
  obtain ⟨e1, e2⟩ := debye_wrappers h1 h2 h0
  unfold frankTau frankRho iscloseZero frankTauOf
  rw [if_neg (not_le.mpr hθ), if_neg (not_le.mpr hθ), if_neg h0, e1, e2]
  simp only [Fl.fin_add_fin, Fl.fin_sub_fin, Fl.fin_mul_fin, Fl.fin_div_fin' _ h0]
  exact ⟨rfl, rfl⟩

example := frank_measures_value (d1 := Spec.debye1) (d2 := Spec.debye2) (fun _ _ => rfl) (fun _ _ => rfl) (θ := -3)
  (by norm_num)

theorem frankTauR_hasDerivAt {θ : ℝ} (h0 : θ ≠ 0) :
    HasDerivAt frankTauR (4 / θ ^ 2 * (θ / (Real.exp θ - 1) + 1 - 2 * Spec.debye1 θ)) θ := by
  have h := ((((debye1_hasDerivAt h0).sub_const 1).const_mul 4).div (hasDerivAt_id θ) h0).const_add 1
  refine h.congr_deriv ?_
  have h4 : Real.exp θ - 1 ≠ 0 := by
    rw [sub_ne_zero, Ne, Real.exp_eq_one_iff]; exact h0
  simp only [id]
  field_simp
  ring

theorem frankRhoR_hasDerivAt {θ : ℝ} (h0 : θ ≠ 0) :
    HasDerivAt frankRhoR
      (12 / θ ^ 2 * (θ / (Real.exp θ - 1) - 3 * Spec.debye2 θ + 2 * Spec.debye1 θ)) θ := by
  have h2 : HasDerivAt (fun x : ℝ => 12 / x) (-(12 / θ ^ 2)) θ := by
    refine ((hasDerivAt_inv h0).const_mul 12).congr_deriv ?_
    field_simp
  have h := (h2.mul ((debye2_hasDerivAt h0).sub (debye1_hasDerivAt h0))).const_add 1
  refine h.congr_deriv ?_
  have h4 : Real.exp θ - 1 ≠ 0 := by
    rw [sub_ne_zero, Ne, Real.exp_eq_one_iff]; exact h0
  simp only [Pi.sub_apply]
  field_simp
  ring

/-- C22 fails for `dtau` of the Frank copula: it differs from the derivative of `tau` at every parameter
not close to zero except 1/2. -/
theorem frank_dtau_fails {d1 : ℝ → ℝ} (h1 : IsDebye1 d1) {θ : ℝ} (hθ : 1 / 10 ^ 8 < |θ|)
    (hh : θ ≠ 1 / 2) :
    ∃ v w : ℝ, frankDtau d1 (.fin θ) = .fin v ∧ HasDerivAt frankTauR w θ ∧ v ≠ w := by
  have h0 : θ ≠ 0 := by
    rintro rfl
    rw [abs_zero] at hθ
    norm_num at hθ
  have h4 : Real.exp θ - 1 ≠ 0 := by
    rw [sub_ne_zero, Ne, Real.exp_eq_one_iff]; exact h0
  refine ⟨(θ / (Real.exp θ - 1) + 1 - Spec.debye1 θ / θ) * (2 / θ * (2 / θ)), _, ?_,
    frankTauR_hasDerivAt h0, ?_⟩
  · unfold frankDtau
    rw [(debye_wrappers h1 (d2 := Spec.debye2) (fun _ _ => rfl) h0).1]
    simp only [Fl.expm1_fin, Fl.fin_div_fin' _ h4, Fl.fin_div_fin' _ h0, Fl.fin_add_fin,
      Fl.fin_sub_fin, Fl.fin_mul_fin]
  · intro h
    have hD := (debye1_pos h0).ne'
    have h5 : (θ / (Real.exp θ - 1) + 1 - Spec.debye1 θ / θ)
        = (θ / (Real.exp θ - 1) + 1 - 2 * Spec.debye1 θ) := by
      have h6 : (4 / θ ^ 2) ≠ 0 := by positivity
      refine mul_left_cancel₀ h6 ?_
      rw [← h]
      field_simp
      ring
    have h7 : Spec.debye1 θ / θ = 2 * Spec.debye1 θ := by linarith
    rw [div_eq_iff h0] at h7
    have h8 : Spec.debye1 θ * (1 - 2 * θ) = 0 := by linarith
    rcases mul_eq_zero.mp h8 with h | h
    · exact hD h
    · exact hh (by linarith)

example := frank_dtau_fails (d1 := Spec.debye1) (fun _ _ => rfl) (θ := 2) (by norm_num) (by norm_num)

/-- C22 fails for `drho` of the Frank copula at every parameter not close to zero. -/
theorem frank_drho_fails {d1 : ℝ → ℝ} (h1 : IsDebye1 d1) {θ : ℝ} (hθ : 1 / 10 ^ 8 < |θ|) :
    ∃ v w : ℝ, frankDrho d1 (.fin θ) = .fin v ∧ HasDerivAt frankRhoR w θ ∧ v ≠ w := by
  have h0 : θ ≠ 0 := by
    rintro rfl
    rw [abs_zero] at hθ
    norm_num at hθ
  have h4 : Real.exp θ - 1 ≠ 0 := by
    rw [sub_ne_zero, Ne, Real.exp_eq_one_iff]; exact h0
  refine ⟨12 * (θ / (Real.exp θ - 1) - 3 * Spec.debye1 θ + 2 * Spec.debye1 θ) / (θ * θ), _, ?_,
    frankRhoR_hasDerivAt h0, ?_⟩
  · unfold frankDrho
    rw [(debye_wrappers h1 (d2 := Spec.debye2) (fun _ _ => rfl) h0).1]
    simp only [Fl.expm1_fin, Fl.fin_div_fin' _ h4, Fl.fin_div_fin' _ (mul_ne_zero h0 h0),
      Fl.fin_add_fin, Fl.fin_sub_fin, Fl.fin_mul_fin]
  · intro h
    have h6 : (12 / θ ^ 2) ≠ 0 := by positivity
    have h5 : (θ / (Real.exp θ - 1) - 3 * Spec.debye1 θ + 2 * Spec.debye1 θ)
        = (θ / (Real.exp θ - 1) - 3 * Spec.debye2 θ + 2 * Spec.debye1 θ) := by
      refine mul_left_cancel₀ h6 ?_
      rw [← h]
      field_simp
    exact debye1_ne_debye2 h0 (by linarith)

example := frank_drho_fails (d1 := Spec.debye1) (fun _ _ => rfl) (θ := 2) (by norm_num)

end Copulae
