import Verif.Props.StablePdfLaw

/-!
C123, C125, C126: examples and violations for `skew_stable.pdf`.
-/

namespace Copulae

open MeasureTheory Set Real Topology

/-! ## The function in the exponent for the index one half -/

theorem stableV_half {t y θ : ℝ} (ok : AngleOk (1 / 2) t) (hy : 0 < y) (h1 : -t < θ) (h2 : θ < π / 2) :
    Spec.stableV (1 / 2) t y θ =
      cos ((θ + t) / 2 - θ) * sin ((θ + t) / 2) / (y * cos (t / 2) ^ 2 * cos θ ^ 2) := by
  have hs := ok.sin_pos h1 h2
  have hθ := cos_pos_of_mem_Ioo (show θ ∈ Ioo (-(π / 2)) (π / 2) from ⟨by linarith [ok.le.2], h2⟩)
  have hct := ok.cosT
  rw [Spec.stableV, show (1 : ℝ) / (1 / 2 - 1) = -2 by norm_num]
  rw [show (1 / 2 : ℝ) * (θ + t) = (θ + t) / 2 by ring] at *
  rw [show (1 / 2 : ℝ) * t = t / 2 by ring] at *
  have hq : 0 < y / sin ((θ + t) / 2) := div_pos hy hs
  rw [rpow_neg (by positivity), mul_rpow (by positivity) (by positivity), ← rpow_mul hq.le,
    show (1 / 2 : ℝ) * 2 = 1 by norm_num, rpow_one, show (2 : ℝ) = ((2 : ℕ) : ℝ) by norm_num, rpow_natCast]
  push_cast
  field_simp

theorem angleOk_zero {α : ℝ} (h0 : 0 < α) (h1 : α ≠ 1) (h2 : α ≤ 2) : AngleOk α 0 := by
  have := stable_angleOk (β := 0) h0 h1 h2 (by simp)
  simpa [Spec.stableAngle] using this

/-- The conditions hold at `x = 1` for the symmetric law of index one half. -/
theorem stablePoint_half : StablePoint (1 / 2) 0 1 := by
  have hz : Spec.stableZeta (1 / 2) 0 = 0 := by simp [Spec.stableZeta]
  have ha : Spec.stableAngle (1 / 2) 0 = 0 := by simp [Spec.stableAngle]
  have hs : sideAngle (1 / 2) 0 1 = 0 := by rw [sideAngle, ha, neg_zero, ite_self]
  have ok := angleOk_zero (α := 1 / 2) (by norm_num) (by norm_num) (by norm_num)
  have hp1 := pyPI2_lt
  have hp2 := pi_lt_pyPI2
  have hp3 := pyPI2_gt
  have hp := pi_pos
  have hpu := pi_lt_d2
  have V : ∀ θ, 0 < θ → θ < π / 2 → Spec.stableV (1 / 2) 0 1 θ = sin θ / (2 * cos θ ^ 2) := fun θ h1 h2 => by
    rw [stableV_half ok one_pos (by linarith) h2, add_zero, zero_div, cos_zero, show θ / 2 - θ = -(θ / 2) by ring,
      cos_neg]
    have := sin_two_mul (θ / 2)
    rw [show 2 * (θ / 2) = θ by ring] at this
    rw [this]
    ring
  have big : ∀ θ, π / 3 ≤ θ → θ < π / 2 → 3 / 2 < Spec.stableV (1 / 2) 0 1 θ := fun θ h1 h2 => by
    rw [V θ (by linarith) h2]
    have hc0 : 0 < cos θ := cos_pos_of_mem_Ioo ⟨by linarith, h2⟩
    have hc : cos θ ≤ 1 / 2 := by
      rw [← cos_pi_div_three]
      exact cos_le_cos_of_nonneg_of_le_pi (by positivity) (by linarith) h1
    have hsin : 0.8 < sin θ := by
      have h3 : sin (π / 3) ≤ sin θ := sin_le_sin_of_le_of_le_pi_div_two (by linarith) h2.le h1
      rw [sin_pi_div_three] at h3
      have : (1.7 : ℝ) ≤ √3 := Real.le_sqrt_of_sq_le (by norm_num)
      norm_num at *
      linarith
    rw [lt_div_iff₀ (by positivity)]
    norm_num at *
    nlinarith
  refine ⟨by rw [hz]; norm_num, fun _ => by rw [ha]; norm_num at *; linarith, ?_, fun _ n => ?_, fun _ => by rw [hz]; norm_num⟩
  · rw [UpperOk, if_neg (by norm_num), hs, hz]
    norm_num
    have := big pyPI2 (by norm_num at *; linarith) hp1
    norm_num at this
    linarith
  · rw [hs, hz, sub_zero, abs_one, add_zero]
    rcases n with _ | n
    · rw [zero_add, pow_one, V _ (by linarith) (by linarith)]
      have hle : pyPI2 - pyPI2 / 2 ≤ π / 4 := by linarith
      have hsn : sin (pyPI2 - pyPI2 / 2) ≤ √2 / 2 := by
        rw [← sin_pi_div_four]
        exact sin_le_sin_of_le_of_le_pi_div_two (by linarith) (by linarith) hle
      have hcs : √2 / 2 ≤ cos (pyPI2 - pyPI2 / 2) := by
        rw [← cos_pi_div_four]
        exact cos_le_cos_of_nonneg_of_le_pi (by linarith) (by linarith) hle
      have h2 : √2 < 1.42 := (Real.sqrt_lt' (by norm_num)).mpr (by norm_num)
      have h2' : (0 : ℝ) ≤ √2 := Real.sqrt_nonneg 2
      have h22 : √2 * √2 = 2 := Real.mul_self_sqrt (by norm_num)
      have hc2 : 1 / 2 ≤ cos (pyPI2 - pyPI2 / 2) ^ 2 := by nlinarith
      have hd : sin (pyPI2 - pyPI2 / 2) / (2 * cos (pyPI2 - pyPI2 / 2) ^ 2) ≤ 0.71 := by
        rw [div_le_iff₀ (by positivity)]
        norm_num at *
        nlinarith
      rw [abs_of_neg (by norm_num at *; linarith)]
      norm_num at *
      linarith
    · have h3 : pyPI2 / 2 ^ (n + 1 + 1) ≤ pyPI2 / 4 := by
        refine div_le_div_of_nonneg_left (by linarith) (by norm_num) ?_
        have := one_le_pow₀ (show (1 : ℝ) ≤ 2 by norm_num) (n := n)
        rw [pow_succ, pow_succ]
        linarith
      have h4 : 0 < pyPI2 / 2 ^ (n + 1 + 1) := by
        have : 0 < pyPI2 := by linarith
        positivity
      have := big (pyPI2 - pyPI2 / 2 ^ (n + 1 + 1)) (by norm_num at *; linarith) (by linarith)
      rw [abs_of_pos (by linarith)]
      norm_num at *
      linarith

/-- And for the symmetric law of index three halves. -/
theorem stablePoint_threeHalves : StablePoint (3 / 2) 0 1 := by
  have hz : Spec.stableZeta (3 / 2) 0 = 0 := by simp [Spec.stableZeta]
  have ha : Spec.stableAngle (3 / 2) 0 = 0 := by simp [Spec.stableAngle]
  have hs : sideAngle (3 / 2) 0 1 = 0 := by rw [sideAngle, ha, neg_zero, ite_self]
  have hp1 := pyPI2_lt
  have hp2 := pi_lt_pyPI2
  have hp3 := pyPI2_gt
  have hp := pi_pos
  have hcut : cutAngle = pyPI2 - 14 / 10 ^ 15 := rfl
  refine ⟨by rw [hz]; norm_num, fun h => by norm_num at h, ?_, fun h => by norm_num at h, fun h => by norm_num at h⟩
  rw [UpperOk, if_pos (by norm_num), hs, hz, sub_zero, abs_one, Spec.stableV, show (1 : ℝ) / (3 / 2 - 1) = 2 by norm_num]
  rw [mul_zero, cos_zero, one_mul, add_zero]
  have hc : cos cutAngle ≤ 1 / 10 ^ 10 := by
    rw [← sin_pi_div_two_sub]
    refine (sin_le (by norm_num at *; linarith)).trans (by norm_num at *; linarith)
  have hc0 : 0 < cos cutAngle := cos_pos_of_mem_Ioo ⟨by norm_num at *; linarith, by norm_num at *; linarith⟩
  have hsn : 1 / 2 ≤ sin (3 / 2 * cutAngle) := by
    rw [← sin_pi_sub, ← sin_pi_div_six]
    exact sin_le_sin_of_le_of_le_pi_div_two (by linarith) (by norm_num at *; linarith) (by norm_num at *; linarith)
  have h4 : (1 / sin (3 / 2 * cutAngle)) ^ (3 / 2 : ℝ) ≤ 4 := by
    have : 1 / sin (3 / 2 * cutAngle) ≤ 2 := by
      rw [div_le_iff₀ (by linarith)]
      linarith
    have h0 : 0 ≤ 1 / sin (3 / 2 * cutAngle) := by
      have : 0 < sin (3 / 2 * cutAngle) := by linarith
      positivity
    refine (rpow_le_rpow h0 this (by norm_num)).trans ?_
    refine (rpow_le_rpow_of_exponent_le (by norm_num) (show (3 / 2 : ℝ) ≤ 2 by norm_num)).trans ?_
    norm_num
  have h40 : 0 ≤ (1 / sin (3 / 2 * cutAngle)) ^ (3 / 2 : ℝ) := by
    have : 0 < sin (3 / 2 * cutAngle) := by linarith
    positivity
  have h5 : (cos cutAngle * (1 / sin (3 / 2 * cutAngle)) ^ (3 / 2 : ℝ)) ^ (2 : ℝ) < 1 := by
    refine rpow_lt_one (by positivity) ?_ (by norm_num)
    calc _ ≤ 1 / 10 ^ 10 * 4 := mul_le_mul hc h4 h40 (by positivity)
      _ < 1 := by norm_num
  have h50 : 0 ≤ (cos cutAngle * (1 / sin (3 / 2 * cutAngle)) ^ (3 / 2 : ℝ)) ^ (2 : ℝ) := by positivity
  exact lt_of_le_of_lt (mul_le_of_le_one_left h50 (cos_le_one _)) h5

/-- The theorem applied, with a scale, location and parametrisation other than the default. -/
example {brentq : PyFun → ℝ → ℝ → Except PyErr ℝ} {quad : (ℝ → Fl) → ℝ → ℝ → Fl} (hB : IsBracketing brentq)
    (hQ : IsQuad quad) (auxF2 : Fl → ℝ → Bool → Option (Except PyErr Fl)) (mode : ℝ → ℝ → Except PyErr Fl) :
    ∃ g : ℝ → ℝ, (∀ x ∈ [(5 : ℝ)], 0 < g x ∧ |g x - Spec.stableDensityAt (3 / 2) 0 2 (Spec.stableLoc (3 / 2) 0 2 3 1) x| ≤
        stableErr (3 / 2) 0 ((x - Spec.stableLoc (3 / 2) 0 2 3 1) / 2) / 2) ∧
      stablePdf brentq quad auxF2 mode ([(5 : ℝ)].map .fin) (3 / 2) 0 (.fin 2) (.fin 3) 1 false =
        some (.ok ([(5 : ℝ)].map fun x => .fin (g x))) := by
  refine stable_pdf_density_partial auxF2 mode (by norm_num) (Or.inr (by norm_num)) (by norm_num) (by norm_num)
    (by norm_num) (Or.inr rfl) hB hQ fun x hx => ?_
  rw [List.mem_singleton.mp hx]
  have : ((5 : ℝ) - Spec.stableLoc (3 / 2) 0 2 3 1) / 2 = 1 := by
    simp [Spec.stableLoc]
    norm_num
  rw [this]
  exact stablePoint_threeHalves

/-! ## The law of index one half with skewness one -/

theorem angleOk_clamped : AngleOk (1 / 2) pyPI2 := by
  have hp1 := pyPI2_lt
  have hp3 := pyPI2_gt
  have hp := pi_pos
  norm_num at hp3
  refine ⟨by norm_num, by norm_num, ⟨by linarith, hp1.le⟩, ?_, fun θ hθ => ?_, fun θ hθ => ?_⟩
  · exact cos_pos_of_mem_Ioo ⟨by linarith, by linarith⟩
  · exact cos_pos_of_mem_Ioo ⟨by linarith [hθ.1, hθ.2], by linarith [hθ.1, hθ.2]⟩
  · exact ⟨by linarith [hθ.1, hθ.2], by linarith [hθ.1, hθ.2]⟩

/-- The function in the exponent at the angle zero is almost `1 / y`. -/
theorem clamped_mid {y : ℝ} (hy : 0 < y) :
    ∃ r, 1 - 1 / 10 ^ 15 ≤ r ∧ r ≤ 1 ∧ Spec.stableV (1 / 2) pyPI2 y 0 = r / y := by
  have hp1 := pyPI2_lt
  have hp2 := pi_lt_pyPI2
  have hp3 := pyPI2_gt
  have hp := pi_pos
  norm_num at hp3
  have hc : 0 < cos (pyPI2 / 2) := cos_pos_of_mem_Ioo ⟨by linarith, by linarith⟩
  have h2 : (1.4 : ℝ) ≤ √2 := Real.le_sqrt_of_sq_le (by norm_num)
  have hs4 : |sin (pyPI2 / 2) - √2 / 2| ≤ 31 / 10 ^ 18 := by
    rw [← sin_pi_div_four]
    refine (abs_sin_sub_sin_le _ _).trans ?_
    rw [abs_le]
    norm_num at *
    constructor <;> linarith
  have hc4 : √2 / 2 ≤ cos (pyPI2 / 2) := by
    rw [← cos_pi_div_four]
    exact cos_le_cos_of_nonneg_of_le_pi (by linarith) (by linarith) (by linarith)
  have hc5 : |cos (pyPI2 / 2) - √2 / 2| ≤ 31 / 10 ^ 18 := by
    rw [← cos_pi_div_four]
    refine (abs_cos_sub_cos_le _ _).trans ?_
    rw [abs_le]
    norm_num at *
    constructor <;> linarith
  have hs5 : sin (pyPI2 / 2) ≤ √2 / 2 := by
    rw [← sin_pi_div_four]
    exact sin_le_sin_of_le_of_le_pi_div_two (by linarith) (by linarith) (by linarith)
  rw [abs_le] at hs4 hc5
  refine ⟨sin (pyPI2 / 2) / cos (pyPI2 / 2), ?_, ?_, ?_⟩
  · rw [le_div_iff₀ hc]
    norm_num at *
    nlinarith
  · rw [div_le_one hc]
    linarith
  · rw [stableV_half angleOk_clamped hy (by linarith) (by linarith), zero_add, sub_zero, cos_zero]
    field_simp

/-- At these points `aux_f1` returns zero: the two bounds of the search are opposite numbers and the code takes this
for an empty interval. -/
theorem auxF1_levy_zero (brentq : PyFun → ℝ → ℝ → Except PyErr ℝ) (quad : (ℝ → Fl) → ℝ → ℝ → Fl) {y : ℝ}
    (h1 : 1 / 100 ≤ y) (h2 : y ≤ 10 ^ 7) (h3 : 2 / 10 ^ 5 ≤ |1 / y - 1|) (log : Bool) :
    auxF1 brentq quad (.fin (y - 1)) (1 / 2) 1 log = some (.ok (zeroDensity log)) := by
  have hp1 := pyPI2_lt
  have hp2 := pi_lt_pyPI2
  have hp3 := pyPI2_gt
  have hp := pi_pos
  norm_num at hp3
  have hy : 0 < y := by linarith
  have hbt : (1 : ℝ) * Real.tan (1 / 2 * π / 2) = 1 := by
    rw [show (1 : ℝ) / 2 * π / 2 = π / 4 by ring, tan_pi_div_four, one_mul]
  have hth : min (max (-pyPI2) (Real.arctan 1 / (1 / 2))) pyPI2 = pyPI2 := by
    rw [arctan_one, show π / 4 / (1 / 2) = π / 2 by ring, max_eq_right (by linarith), min_eq_right hp1.le]
  have hsign : ((SignType.sign ((1 : ℝ) / 2 - 1) : SignType) : ℝ) = -1 := by
    rw [sign_neg (by norm_num)]
    simp
  have ok := angleOk_clamped
  have g0 : stableG1 (1 / 2) (.fin y) pyPI2 (-pyPI2) = .fin 0 := by
    rw [stableG1, if_pos]
    rw [hsign]
    norm_num
  have gp : stableG1 (1 / 2) (.fin y) pyPI2 pyPI2 = .fin (Spec.stableV (1 / 2) pyPI2 y pyPI2) := by
    refine stableG1_fin ok hy (by linarith) hp1 ?_
    rw [hsign, abs_of_pos (by linarith)]
    norm_num
    linarith
  have gm : stableG1 (1 / 2) (.fin y) pyPI2 0 = .fin (Spec.stableV (1 / 2) pyPI2 y 0) := by
    refine stableG1_fin ok hy (by linarith) (by linarith) ?_
    rw [mul_zero, sub_zero, abs_of_pos (by linarith)]
    norm_num
    linarith
  have hV : 1 < Spec.stableV (1 / 2) pyPI2 y pyPI2 := by
    have hc0 : 0 < cos pyPI2 := cos_pos_of_mem_Ioo ⟨by linarith, hp1⟩
    have hc1 : cos pyPI2 ≤ 1 / 10 ^ 10 := by
      rw [← sin_pi_div_two_sub]
      refine (sin_le (by linarith)).trans ?_
      norm_num at *
      linarith
    have hc2 : 0 < cos (pyPI2 / 2) := cos_pos_of_mem_Ioo ⟨by linarith, by linarith⟩
    have hs : 1 / 2 ≤ sin pyPI2 := by
      rw [← sin_pi_div_six]
      exact sin_le_sin_of_le_of_le_pi_div_two (by linarith) hp1.le (by norm_num at *; linarith)
    rw [stableV_half ok hy (by linarith) hp1, show (pyPI2 + pyPI2) / 2 = pyPI2 by ring, sub_self, cos_zero, one_mul,
      lt_div_iff₀ (by positivity), one_mul]
    have h5 : cos (pyPI2 / 2) ^ 2 ≤ 1 := pow_le_one₀ hc2.le (cos_le_one _)
    have h6 : cos pyPI2 ^ 2 ≤ (1 / 10 ^ 10) ^ 2 := pow_le_pow_left₀ hc0.le hc1 2
    have h7 : y * cos (pyPI2 / 2) ^ 2 * cos pyPI2 ^ 2 ≤ 10 ^ 7 * 1 * (1 / 10 ^ 10) ^ 2 := by gcongr
    norm_num at h7 hs ⊢
    linarith
  obtain ⟨r, r1, r2, hr⟩ := clamped_mid hy
  have hyi : 1 / y ≤ 100 := by
    rw [div_le_iff₀ hy]
    linarith
  have hyi' : 1 / 10 ^ 7 ≤ 1 / y := one_div_le_one_div_of_le hy h2
  have hrd : r / y = 1 / y - (1 - r) * (1 / y) := by ring
  have hrs : (1 - r) * (1 / y) ≤ 1 / 10 ^ 15 * 100 := mul_le_mul (by linarith) hyi (by positivity) (by positivity)
  have hrs0 : 0 ≤ (1 - r) * (1 / y) := mul_nonneg (by linarith) (by positivity)
  have n0 : ¬ (stableG1 (1 / 2) (.fin y) pyPI2 0).isclose 0 (1 / 10 ^ 5) (1 / 10 ^ 8) := by
    rw [gm, hr]
    intro h
    have h : |r / y - 0| ≤ 1 / 10 ^ 8 + 1 / 10 ^ 5 * |(0 : ℝ)| := h
    have := le_abs_self (r / y)
    rw [abs_zero, mul_zero, add_zero, sub_zero] at h
    norm_num at *
    linarith
  have n1 : ¬ (stableG1 (1 / 2) (.fin y) pyPI2 0).isclose 1 (1 / 10 ^ 5) (1 / 10 ^ 8) := by
    rw [gm, hr]
    intro h
    have h : |r / y - 1| ≤ 1 / 10 ^ 8 + 1 / 10 ^ 5 * |(1 : ℝ)| := h
    rw [abs_one, mul_one, abs_le] at h
    rcases le_abs.mp h3 with h4 | h4 <;> norm_num at * <;> linarith [h.1, h.2]
  have hb : stableBounds (1 / 2) (.fin y) pyPI2 = some (-pyPI2, pyPI2) := by
    have hex : ∃ n, ¬ (stableG1 (1 / 2) (.fin y) pyPI2
        (((fun ll => (ll + pyPI2) / 2)^[n] (-pyPI2) + pyPI2) / 2)).isclose 0 (1 / 10 ^ 5) (1 / 10 ^ 8) :=
      ⟨0, by simpa using n0⟩
    classical
    have hf : Nat.find hex = 0 := by
      rw [Nat.find_eq_zero]
      simpa using n0
    rw [stableBounds, if_pos (by norm_num), whileLoop, dif_pos hex, hf]
    simp only [bind, Option.bind, pure, Function.iterate_zero, id_eq, neg_add_cancel, zero_div]
    rw [if_neg n1]
  unfold auxF1
  simp only []
  rw [hbt, hth, show Fl.fin (y - 1) - Fl.fin (-1) = Fl.fin y by rw [Fl.fin_sub_fin]; congr 1; ring, Fl.abs_fin,
    abs_of_pos hy, if_neg, if_neg (by norm_num), if_neg (by simp [hy.le])]
  · unfold auxF1Main
    simp only []
    rw [g0, gp, if_neg, if_neg, if_neg, if_neg, hb]
    · simp only []
      rw [if_pos]
      refine ⟨by norm_num, ?_⟩
      rw [add_neg_cancel, sub_zero, abs_zero]
      norm_num
    · rintro (⟨h, -⟩ | ⟨-, h⟩)
      · norm_num at h
      · rw [Fl.fin_lt_fin] at h
        norm_num at h
    · rintro (⟨h, -⟩ | ⟨-, h⟩)
      · norm_num at h
      · rw [Fl.fin_lt_fin] at h
        linarith
    · rintro ⟨-, h⟩
      rw [Fl.abs_fin, Fl.pyMax] at h
      split_ifs at h with h'
      · generalize Fl.fin y / Fl.fin |y - 1| = b at h h'
        cases b with
        | fin b =>
          rw [Fl.fin_lt_fin] at h h'
          linarith
        | nan => exact h
        | pinf => exact h
        | ninf => exact h'
      · rw [Fl.fin_lt_fin] at h
        linarith
    · rintro (⟨h, -⟩ | ⟨-, h | h⟩)
      · norm_num at h
      · rw [Fl.fin_lt_fin, largeExpPow] at h
        norm_num at h
      · have h : |Spec.stableV (1 / 2) pyPI2 y pyPI2 - 0| ≤ 1 / 10 ^ 8 + 1 / 10 ^ 5 * |(0 : ℝ)| := h
        have := le_abs_self (Spec.stableV (1 / 2) pyPI2 y pyPI2)
        rw [abs_zero, mul_zero, add_zero, sub_zero] at h
        norm_num at *
        linarith
  · rintro ⟨-, h⟩
    rw [zetaTol, if_neg (by norm_num), if_pos (Or.inl (by norm_num)), Fl.abs_fin, Fl.maximum_fin, Fl.fin_add_fin,
      Fl.fin_mul_fin, Fl.fin_le_fin] at h
    have : max |y - 1| |(-1 : ℝ)| ≤ y + 1 := by
      refine max_le ?_ (by norm_num; linarith)
      rw [abs_le]
      constructor <;> linarith
    generalize max |y - 1| |(-1 : ℝ)| = M at h this
    norm_num at h
    linarith

example (brentq : PyFun → ℝ → ℝ → Except PyErr ℝ) (quad : (ℝ → Fl) → ℝ → ℝ → Fl) :=
  auxF1_levy_zero brentq quad (y := 2) (by norm_num) (by norm_num) (by norm_num [abs_of_pos, abs_of_neg]) false

theorem levy_params : Spec.stableZeta (1 / 2) 1 = -1 ∧ Spec.stableAngle (1 / 2) 1 = π / 2 := by
  have hbt : (1 : ℝ) * Real.tan (1 / 2 * π / 2) = 1 := by
    rw [show (1 : ℝ) / 2 * π / 2 = π / 4 by ring, tan_pi_div_four, one_mul]
  rw [Spec.stableZeta, Spec.stableAngle, hbt, arctan_one]
  exact ⟨rfl, by ring⟩

/-- The density is not small there. -/
theorem levy_density_ge {x : ℝ} (hx : x ∈ Icc (1 / 2 : ℝ) (3 / 2)) : 1 / 50 ≤ Spec.stableDensity (1 / 2) 1 x := by
  obtain ⟨hz, ha⟩ := levy_params
  have hp := pi_pos
  have ok : AngleOk (1 / 2) (π / 2) :=
    ha ▸ stable_angleOk (β := 1) (by norm_num) (by norm_num) (by norm_num) (by norm_num)
  rw [Spec.stableDensity, hz, ha, if_pos (by linarith [hx.1]), sub_neg_eq_add, Spec.stableHalf]
  obtain ⟨y, rfl⟩ : ∃ y, x = y - 1 := ⟨x + 1, by ring⟩
  rw [sub_add_cancel]
  have hy1 : 3 / 2 ≤ y := by linarith [hx.1]
  have hy2 : y ≤ 5 / 2 := by linarith [hx.2]
  have hy : 0 < y := by linarith
  have hI := stable_integrable ok hy
  have hsub : uIcc (-(π / 2)) 0 ⊆ uIcc (-(π / 2)) (π / 2) := by
    rw [uIcc_of_le (by linarith), uIcc_of_le (by linarith)]
    exact Icc_subset_Icc_right (by linarith)
  have hsub' : uIcc 0 (π / 2) ⊆ uIcc (-(π / 2)) (π / 2) := by
    rw [uIcc_of_le (by linarith), uIcc_of_le (by linarith)]
    exact Icc_subset_Icc_left (by linarith)
  have hI1 := hI.mono_set hsub
  have hI2 := hI.mono_set hsub'
  have hsum := intervalIntegral.integral_add_adjacent_intervals hI1 hI2
  have hb2 : 0 ≤ ∫ θ in (0 : ℝ)..(π / 2), Spec.stableV (1 / 2) (π / 2) y θ * exp (-Spec.stableV (1 / 2) (π / 2) y θ) := by
    refine intervalIntegral.integral_nonneg_of_ae_restrict (by linarith) ?_
    have hne : ∀ᵐ θ ∂volume.restrict (Icc 0 (π / 2)), θ ≠ π / 2 := ae_restrict_of_ae (Measure.ae_ne volume _)
    filter_upwards [hne, ae_restrict_mem measurableSet_Icc] with θ h1 h2
    have := stableV_pos ok (show -(π / 2) < θ by linarith [h2.1]) (lt_of_le_of_ne h2.2 h1) hy
    simp only [Pi.zero_apply]
    positivity
  have hb1 : (π / 2) * (1 / 10) ≤ ∫ θ in (-(π / 2))..0,
      Spec.stableV (1 / 2) (π / 2) y θ * exp (-Spec.stableV (1 / 2) (π / 2) y θ) := by
    have hc : ∫ _ in (-(π / 2))..(0 : ℝ), (1 / 10 : ℝ) = (π / 2) * (1 / 10) := by
      rw [intervalIntegral.integral_const, smul_eq_mul]
      ring
    rw [← hc]
    refine intervalIntegral.integral_mono_on_of_le_Ioo (by linarith) intervalIntegrable_const hI1 fun θ hθ => ?_
    have hV : Spec.stableV (1 / 2) (π / 2) y θ = 1 / (2 * y * cos ((θ + π / 2) / 2) ^ 2) := by
      rw [stableV_half ok hy hθ.1 (by linarith [hθ.2]), show π / 2 / 2 = π / 4 by ring, cos_pi_div_four]
      have e1 : cos ((θ + π / 2) / 2 - θ) = sin ((θ + π / 2) / 2) := by
        rw [← cos_pi_div_two_sub]
        congr 1
        ring
      have e2 : cos θ = 2 * sin ((θ + π / 2) / 2) * cos ((θ + π / 2) / 2) := by
        rw [← sin_two_mul, show 2 * ((θ + π / 2) / 2) = θ + π / 2 by ring, sin_add_pi_div_two]
      have hs : 0 < sin ((θ + π / 2) / 2) := sin_pos_of_pos_of_lt_pi (by linarith [hθ.1]) (by linarith [hθ.2])
      have hcc : 0 < cos ((θ + π / 2) / 2) := cos_pos_of_mem_Ioo ⟨by linarith [hθ.1], by linarith [hθ.2]⟩
      rw [e1, e2, div_pow, Real.sq_sqrt (by norm_num)]
      generalize sin ((θ + π / 2) / 2) = s at *
      generalize cos ((θ + π / 2) / 2) = c at *
      field_simp
    have hc1 : √2 / 2 ≤ cos ((θ + π / 2) / 2) := by
      rw [← cos_pi_div_four]
      exact cos_le_cos_of_nonneg_of_le_pi (by linarith [hθ.1]) (by linarith) (by linarith [hθ.2])
    have hc2 : 1 / 2 ≤ cos ((θ + π / 2) / 2) ^ 2 := by
      have := pow_le_pow_left₀ (by positivity) hc1 2
      rw [div_pow, Real.sq_sqrt (by norm_num)] at this
      norm_num at this ⊢
      linarith
    have hc3 : cos ((θ + π / 2) / 2) ^ 2 ≤ 1 := cos_sq_le_one _
    have v1 : 1 / 5 ≤ Spec.stableV (1 / 2) (π / 2) y θ := by
      rw [hV]
      exact one_div_le_one_div_of_le (by positivity) (by nlinarith)
    have v2 : Spec.stableV (1 / 2) (π / 2) y θ ≤ 2 / 3 := by
      rw [hV, div_le_iff₀ (by positivity)]
      nlinarith
    have he : 1 / 2 ≤ exp (-Spec.stableV (1 / 2) (π / 2) y θ) := by
      have h1 : exp (-(2 / 3)) ≤ exp (-Spec.stableV (1 / 2) (π / 2) y θ) := exp_le_exp.mpr (by linarith)
      refine le_trans ?_ h1
      rw [exp_neg, one_div]
      refine inv_anti₀ (exp_pos _) ?_
      have : exp (2 / 3) ≤ exp (Real.log 2) := exp_le_exp.mpr (by linarith [Real.log_two_gt_d9])
      rwa [exp_log (by norm_num)] at this
    calc (1 / 10 : ℝ) = 1 / 5 * (1 / 2) := by norm_num
      _ ≤ _ := mul_le_mul v1 he (by norm_num) (by linarith)
  have hc : (1 : ℝ) / 2 / (π * |1 / 2 - 1| * y) = 1 / (π * y) := by
    rw [show |(1 : ℝ) / 2 - 1| = 1 / 2 by norm_num]
    field_simp
  rw [hc, ← hsum]
  calc (1 / 50 : ℝ) ≤ 1 / (π * y) * (π / 2 * (1 / 10)) := by
        rw [show 1 / (π * y) * (π / 2 * (1 / 10)) = 1 / (20 * y) by field_simp; norm_num]
        exact one_div_le_one_div_of_le (by positivity) (by linarith)
    _ ≤ _ := mul_le_mul_of_nonneg_left (by linarith) (by positivity)

section
variable (brentq : PyFun → ℝ → ℝ → Except PyErr ℝ) (quad : (ℝ → Fl) → ℝ → ℝ → Fl)
  (auxF2 : Fl → ℝ → Bool → Option (Except PyErr Fl)) (mode : ℝ → ℝ → Except PyErr Fl)

/-- The call with the default scale, location and parametrisation. -/
theorem stablePdf_default (xs : List ℝ) (log : Bool) :
    stablePdf brentq quad auxF2 mode (xs.map .fin) (1 / 2) 1 (.fin 1) (.fin 0) 0 log =
      match mapRun (fun e => auxF1 brentq quad e (1 / 2) 1 log) (xs.map .fin) with
      | none => none
      | some (.error e) => some (.error e)
      | some (.ok ans) => some (.ok (stableFinish (1 / 2) 1 (.fin 1) log (xs.map .fin) ans)) := by
  unfold stablePdf
  rw [stableCheck_ok (by norm_num) (by norm_num) (by norm_num) (by simp) (by omega),
    stableParam_eq (by norm_num) (by norm_num) (by norm_num) (Or.inl rfl)]
  simp only [bind, Except.bind]
  have hmap : (xs.map Fl.fin).map (fun e => (e - .fin (Spec.stableLoc (1 / 2) 1 1 0 0)) / .fin 1) = xs.map Fl.fin := by
    rw [List.map_map]
    refine List.map_congr_left fun x _ => ?_
    simp [Spec.stableLoc, Fl.fin_div_fin' _ one_ne_zero]
  rw [hmap, stableStd, if_neg (by norm_num), if_neg (by norm_num), if_neg (by norm_num)]
  cases mapRun (fun e => auxF1 brentq quad e (1 / 2) 1 log) (xs.map Fl.fin) with
  | none => rfl
  | some r => cases r <;> rfl

theorem stablePdf_levy {x : ℝ} (hx : x ∈ Icc (1 / 2 : ℝ) (3 / 2)) :
    stablePdf brentq quad auxF2 mode [.fin x] (1 / 2) 1 (.fin 1) (.fin 0) 0 false = some (.ok [.fin 0]) := by
  have h : auxF1 brentq quad (.fin x) (1 / 2) 1 false = some (.ok (.fin 0)) := by
    have := auxF1_levy_zero brentq quad (y := x + 1) (by linarith [hx.1]) (by norm_num at *; linarith [hx.2]) (by
      have h1 : 1 / (x + 1) ≤ 1 / (3 / 2) := one_div_le_one_div_of_le (by norm_num) (by linarith [hx.1])
      rw [abs_of_neg (by norm_num at *; linarith)]
      norm_num at *
      linarith) false
    rwa [add_sub_cancel_right] at this
  have := stablePdf_default brentq quad auxF2 mode [x] false
  rw [List.map_cons, List.map_nil] at this
  rw [this]
  simp only [mapRun, h, stableFinish]
  simp

/-- **C123 fails** in general: `pdf` is zero on an interval in which `rvs` draws with a probability of at least two
percent. -/
theorem stable_pdf_violation :
    ∃ X : ℝ × ℝ → ℝ, Measurable X ∧
      (∀ (n : ℕ) (ca v w : Fin n → ℝ), (∀ i, v i ∈ Ioo (0 : ℝ) 1) → (∀ i, 0 < w i) →
        stableRvs mode (1 / 2) 1 (.fin 1) (.fin 0) 0 ca v w = .ok fun i => .fin (X (v i, w i))) ∧
      ENNReal.ofReal (1 / 50) ≤ frailSpace.map X (Icc (1 / 2) (3 / 2)) ∧
      ∀ x ∈ Icc (1 / 2 : ℝ) (3 / 2),
        stablePdf brentq quad auxF2 mode [.fin x] (1 / 2) 1 (.fin 1) (.fin 0) 0 false = some (.ok [.fin 0]) := by
  obtain ⟨X, hm, hl, hr⟩ := stable_rvs_density (α := 1 / 2) (β := 1) (γ := 1) (δ := 0) (by norm_num) (by norm_num)
    (by norm_num) (by norm_num) (Or.inl (by norm_num)) one_pos 0 (Or.inl rfl) mode
  refine ⟨X, hm, hr, ?_, fun x hx => stablePdf_levy brentq quad auxF2 mode hx⟩
  rw [hl, withDensity_apply _ measurableSet_Icc]
  have hloc : Spec.stableLoc (1 / 2) 1 1 0 0 = 0 := by simp [Spec.stableLoc]
  calc ENNReal.ofReal (1 / 50) = ∫⁻ _ in Icc (1 / 2 : ℝ) (3 / 2), ENNReal.ofReal (1 / 50) := by
        rw [setLIntegral_const, Real.volume_Icc]
        norm_num
    _ ≤ _ := by
        refine setLIntegral_mono' measurableSet_Icc fun x hx => ENNReal.ofReal_le_ofReal ?_
        rw [Spec.stableDensityAt, hloc, sub_zero, div_one, div_one]
        exact levy_density_ge hx

theorem auxF1_levy_zeta (log : Bool) : ∃ v, auxF1 brentq quad (.fin (-1)) (1 / 2) 1 log = some (.ok (.fin v)) ∧
    (log = false → 0 < v) := by
  have hp1 := pyPI2_lt
  have hp3 := pyPI2_gt
  have hp := pi_pos
  norm_num at hp3
  have hbt : (1 : ℝ) * Real.tan (1 / 2 * π / 2) = 1 := by
    rw [show (1 : ℝ) / 2 * π / 2 = π / 4 by ring, tan_pi_div_four, one_mul]
  have hth : min (max (-pyPI2) (Real.arctan 1 / (1 / 2))) pyPI2 = pyPI2 := by
    rw [arctan_one, show π / 4 / (1 / 2) = π / 2 by ring, max_eq_right (by linarith), min_eq_right hp1.le]
  have hc0 : 0 < cos pyPI2 := cos_pos_of_mem_Ioo ⟨by linarith, hp1⟩
  have hfirst : auxF1 brentq quad (.fin (-1)) (1 / 2) 1 log = some (.ok (fZeta (1 / 2) (-1) pyPI2 log)) := by
    unfold auxF1
    simp only []
    rw [hbt, hth, if_pos]
    refine ⟨trivial, ?_⟩
    rw [Fl.fin_sub_fin, sub_self, Fl.abs_fin, Fl.abs_fin, Fl.maximum_fin, Fl.fin_add_fin, Fl.fin_mul_fin, Fl.fin_le_fin,
      abs_zero]
    have := (zetaTol_le (1 / 2) 1 1).1
    positivity
  rw [hfirst]
  cases log
  · refine ⟨_, rfl, fun _ => ?_⟩
    have : 0 < Real.Gamma (1 + 1 / (1 / 2)) := Real.Gamma_pos_of_pos (by norm_num)
    positivity
  · refine ⟨Real.log (Real.Gamma (1 + 1 / (1 / 2))) + Real.log (cos pyPI2) -
      (Real.log π + Real.log (1 + (-1) ^ 2) / (2 * (1 / 2))), ?_, fun h => by cases h⟩
    rw [fZeta, if_pos rfl, Fl.log_pos hc0, Fl.fin_add_fin, Fl.fin_sub_fin]

theorem pareto_one : ∃ a, 0 < a ∧ stablePareto (.fin 1) (1 / 2) 1 false = .fin a := by
  have hp1 := pyPI2_lt
  have hp3 := pyPI2_gt
  have hp := pi_pos
  norm_num at hp3
  have hG : 0 < Real.Gamma (1 / 2) := Real.Gamma_pos_of_pos (by norm_num)
  have hs : 0 < sin (1 / 2 * pyPI2) := sin_pos_of_pos_of_lt_pi (by linarith) (by linarith)
  refine ⟨1 / 2 * (1 + 1) * (Real.Gamma (1 / 2) / π * sin (1 / 2 * pyPI2)) * 1 ^ (-(1 + 1 / 2) : ℝ), by positivity, ?_⟩
  have hn : ¬ (Fl.fin 1 < Fl.fin 0) := by rw [Fl.fin_lt_fin]; norm_num
  unfold stablePareto
  simp only []
  rw [if_neg hn, if_neg hn, if_neg (by decide), stableTail, if_neg (by norm_num), if_neg (by norm_num)]
  simp only [Bool.false_eq_true, if_false]
  rw [Fl.pow_pos one_pos, Fl.fin_mul_fin, Fl.fin_mul_fin]

/-- **C125 fails** in general: the value at `1` is zero on its own and positive next to a second entry. -/
theorem stable_pdf_array_violation :
    stablePdf brentq quad auxF2 mode [.fin 1] (1 / 2) 1 (.fin 1) (.fin 0) 0 false = some (.ok [.fin 0]) ∧
    ∃ a b, 0 < a ∧ stablePdf brentq quad auxF2 mode [.fin 1, .fin (-1)] (1 / 2) 1 (.fin 1) (.fin 0) 0 false =
      some (.ok [.fin a, .fin b]) := by
  refine ⟨stablePdf_levy brentq quad auxF2 mode (by norm_num), ?_⟩
  obtain ⟨v, hv, hv0⟩ := auxF1_levy_zeta brentq quad false
  obtain ⟨a, ha, hpa⟩ := pareto_one
  have h1 := auxF1_levy_zero brentq quad (y := 2) (by norm_num) (by norm_num) (by norm_num) false
  rw [show (2 : ℝ) - 1 = 1 by norm_num] at h1
  refine ⟨a, v, ha, ?_⟩
  have := stablePdf_default brentq quad auxF2 mode [1, -1] false
  simp only [List.map_cons, List.map_nil] at this
  rw [this]
  have hvn : Fl.fin v ≠ .fin 0 := fun h => (hv0 rfl).ne' (Fl.fin_inj.mp h)
  simp only [mapRun, h1, hv, stableFinish, zeroDensity, List.zipWith_cons_cons, List.zipWith_nil_left,
    Bool.false_eq_true, if_false]
  rw [if_pos trivial, if_neg hvn, if_pos ⟨.fin v, by simp, hvn⟩, hpa, Fl.fin_div_fin' _ one_ne_zero,
    Fl.fin_div_fin' _ one_ne_zero, div_one, div_one]

/-- **C126 fails** in general: next to the second entry the density at `1` is positive and its logarithm minus
infinity. -/
theorem stable_logpdf_violation :
    ∃ a b c, 0 < a ∧
      stablePdf brentq quad auxF2 mode [.fin 1, .fin (-1)] (1 / 2) 1 (.fin 1) (.fin 0) 0 false =
        some (.ok [.fin a, .fin b]) ∧
      stablePdf brentq quad auxF2 mode [.fin 1, .fin (-1)] (1 / 2) 1 (.fin 1) (.fin 0) 0 true =
        some (.ok [.ninf, c]) := by
  obtain ⟨a, b, ha, hab⟩ := (stable_pdf_array_violation brentq quad auxF2 mode).2
  obtain ⟨v, hv, -⟩ := auxF1_levy_zeta brentq quad true
  have h1 := auxF1_levy_zero brentq quad (y := 2) (by norm_num) (by norm_num) (by norm_num) true
  rw [show (2 : ℝ) - 1 = 1 by norm_num] at h1
  have := stablePdf_default brentq quad auxF2 mode [1, -1] true
  simp only [List.map_cons, List.map_nil] at this
  rw [this]
  simp only [mapRun, h1, hv, stableFinish, zeroDensity, List.zipWith_cons_cons, List.zipWith_nil_left, if_true]
  have hn : Fl.ninf ≠ .fin 0 := by intro h; cases h
  rw [if_neg hn, Fl.log_pos one_pos]
  exact ⟨a, b, _, ha, hab, rfl⟩

end

example := auxF1_ok (α := 3 / 2) (β := 0) (x := 1) (by norm_num) (.inr (by norm_num)) (by norm_num) (by norm_num)
  exists_bracketing.choose_spec exists_quad.choose_spec stablePoint_threeHalves

example (auxF2 : Fl → ℝ → Bool → Option (Except PyErr Fl)) (mode : ℝ → ℝ → Except PyErr Fl) :=
  stable_logpdf_partial auxF2 mode (α := 1 / 2) (β := 0) (γ := 1) (δ := 0) (by norm_num) (.inl (by norm_num)) (by norm_num) (by norm_num)
    one_pos (pm := 0) (.inl rfl) exists_bracketing.choose_spec exists_quad.choose_spec (xs := [1]) (by
      intro x hx
      rw [List.mem_singleton.mp hx]
      simpa [Spec.stableLoc] using stablePoint_half)

example (auxF2 : Fl → ℝ → Bool → Option (Except PyErr Fl)) (mode : ℝ → ℝ → Except PyErr Fl) :=
  stable_pdf_rvs auxF2 mode (α := 3 / 2) (β := 1 / 3) (γ := 2) (δ := 3) (by norm_num) (.inr (by norm_num)) (by norm_num)
    (by norm_num [abs_le]) (.inr (by norm_num [abs_of_pos])) (by norm_num) (pm := 1) (.inr rfl) exists_bracketing.choose_spec exists_quad.choose_spec

end Copulae
