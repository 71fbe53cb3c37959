import Verif.Lemmas.ClaytonLik

/-!
The log-density of the bivariate Frank copula as a criterion for its parameter.
-/

namespace Copulae

open MeasureTheory ProbabilityTheory Spec CopulaMeasure Finset

noncomputable def frankM (θ : ℝ) : ℝ := ∫ t in (0 : ℝ)..1, Real.exp (-θ * t)

noncomputable def frankE (θ a b : ℝ) : ℝ := (∫ t in (0 : ℝ)..b, Real.exp (-θ * (t + a))) + ∫ t in b..1, Real.exp (-θ * t)

/-- The logarithm of the density, for a parameter from zero upwards. -/
noncomputable def frankLL (θ : ℝ) (u : Fin 2 → ℝ) : ℝ := Real.log (frankM θ) - 2 * Real.log (frankE θ (u 0) (u 1)) - θ * (u 0 + u 1)

variable {θ θ' a a' b b' : ℝ}

theorem expShift_integrable (θ c x y : ℝ) : IntervalIntegrable (fun t : ℝ => Real.exp (-θ * (t + c))) MeasureTheory.volume x y :=
  (by fun_prop : Continuous fun t : ℝ => Real.exp (-θ * (t + c))).intervalIntegrable _ _

theorem expLin_integrable (θ x y : ℝ) : IntervalIntegrable (fun t : ℝ => Real.exp (-θ * t)) MeasureTheory.volume x y :=
  (by fun_prop : Continuous fun t : ℝ => Real.exp (-θ * t)).intervalIntegrable _ _

theorem integral_expShift (h : θ ≠ 0) (c x y : ℝ) :
    ∫ t in x..y, Real.exp (-θ * (t + c)) = (Real.exp (-θ * (x + c)) - Real.exp (-θ * (y + c))) / θ := by
  have hd : ∀ t ∈ Set.uIcc x y, HasDerivAt (fun t : ℝ => -(Real.exp (-θ * (t + c)) / θ)) (Real.exp (-θ * (t + c))) t := fun t _ => by
    have h1 : HasDerivAt (fun t : ℝ => -θ * (t + c)) (-θ * 1) t := ((hasDerivAt_id t).add_const c).const_mul (-θ)
    refine ((h1.exp.div_const θ).neg).congr_deriv ?_
    field_simp
  rw [intervalIntegral.integral_eq_sub_of_hasDerivAt hd (expShift_integrable θ c x y)]
  ring

theorem frankM_eq (h : θ ≠ 0) : frankM θ = (1 - Real.exp (-θ)) / θ := by
  have := integral_expShift h 0 0 1
  simpa [frankM] using this

theorem frankE_eq (h : θ ≠ 0) (a b : ℝ) :
    frankE θ a b = (Real.exp (-θ * a) + Real.exp (-θ * b) - Real.exp (-θ * a) * Real.exp (-θ * b) - Real.exp (-θ)) / θ := by
  have h1 := integral_expShift h a 0 b
  have h2 := integral_expShift h 0 b 1
  simp only [add_zero, mul_one, zero_add] at h1 h2
  rw [frankE, h1, h2, mul_add, Real.exp_add]
  ring

theorem frankM_zero : frankM 0 = 1 := by simp [frankM]

theorem frankE_zero (a b : ℝ) : frankE 0 a b = 1 := by simp [frankE]

theorem frankE_symm (θ a b : ℝ) : frankE θ a b = frankE θ b a := by
  by_cases h : θ = 0
  · rw [h, frankE_zero, frankE_zero]
  · rw [frankE_eq h, frankE_eq h]
    ring

/-- Comparison of the two pieces at once. -/
theorem frankE_mono {c : ℝ} (hb : 0 ≤ b) (hb1 : b ≤ 1) (h1 : ∀ t, 0 ≤ t → t ≤ b → c * Real.exp (-θ * (t + a)) ≤ Real.exp (-θ' * (t + a')))
    (h2 : ∀ t, 0 ≤ t → t ≤ 1 → c * Real.exp (-θ * t) ≤ Real.exp (-θ' * t)) : c * frankE θ a b ≤ frankE θ' a' b := by
  unfold frankE
  rw [mul_add, ← intervalIntegral.integral_const_mul, ← intervalIntegral.integral_const_mul]
  refine add_le_add ?_ ?_
  · exact intervalIntegral.integral_mono_on hb ((expShift_integrable θ a 0 b).const_mul c) (expShift_integrable θ' a' 0 b)
      fun t ht => h1 t ht.1 ht.2
  · exact intervalIntegral.integral_mono_on hb1 ((expLin_integrable θ b 1).const_mul c) (expLin_integrable θ' b 1)
      fun t ht => h2 t (hb.trans ht.1) ht.2

theorem frankM_mono {c : ℝ} (h2 : ∀ t, 0 ≤ t → t ≤ 1 → c * Real.exp (-θ * t) ≤ Real.exp (-θ' * t)) : c * frankM θ ≤ frankM θ' := by
  unfold frankM
  rw [← intervalIntegral.integral_const_mul]
  exact intervalIntegral.integral_mono_on zero_le_one ((expLin_integrable θ 0 1).const_mul c) (expLin_integrable θ' 0 1)
    fun t ht => h2 t ht.1 ht.2

theorem exp_mul_le {c x y : ℝ} (h : c + x ≤ y) : Real.exp c * Real.exp x ≤ Real.exp y := by
  rw [← Real.exp_add]
  exact Real.exp_le_exp.mpr h

theorem frankE_par (ha : 0 ≤ a) (ha1 : a ≤ 1) (hb : 0 ≤ b) (hb1 : b ≤ 1) (h : θ ≤ θ') :
    Real.exp (-(2 * (θ' - θ))) * frankE θ a b ≤ frankE θ' a b ∧ frankE θ' a b ≤ frankE θ a b := by
  have h0 : 0 ≤ θ' - θ := by linarith
  constructor
  · refine frankE_mono hb hb1 (fun t t0 t1 => exp_mul_le ?_) fun t t0 t1 => exp_mul_le ?_
    · nlinarith [mul_le_mul_of_nonneg_left (by linarith : t + a ≤ 2) h0]
    · nlinarith [mul_le_mul_of_nonneg_left (by linarith : t ≤ 2) h0]
  · have := frankE_mono (θ := θ') (θ' := θ) (a := a) (a' := a) (c := 1) hb hb1
      (fun t t0 _ => by
        rw [one_mul]
        exact Real.exp_le_exp.mpr (by nlinarith [mul_nonneg h0 (by linarith : 0 ≤ t + a)]))
      fun t t0 _ => by
        rw [one_mul]
        exact Real.exp_le_exp.mpr (by nlinarith [mul_nonneg h0 t0])
    rwa [one_mul] at this

theorem frankM_par (h : θ ≤ θ') : Real.exp (-(θ' - θ)) * frankM θ ≤ frankM θ' ∧ frankM θ' ≤ frankM θ := by
  have h0 : 0 ≤ θ' - θ := by linarith
  constructor
  · refine frankM_mono fun t t0 t1 => exp_mul_le ?_
    nlinarith [mul_le_mul_of_nonneg_left t1 h0]
  · have := frankM_mono (θ := θ') (θ' := θ) (c := 1) fun t t0 _ => by
      rw [one_mul]
      exact Real.exp_le_exp.mpr (by nlinarith [mul_nonneg h0 t0])
    rwa [one_mul] at this

theorem frankM_pos (h : 0 ≤ θ) : 0 < frankM θ := by
  have := (frankM_par h).1
  rw [frankM_zero] at this
  exact (by positivity : (0 : ℝ) < Real.exp (-(θ - 0)) * 1).trans_le this

theorem frankE_pos (h : 0 ≤ θ) (ha : 0 ≤ a) (ha1 : a ≤ 1) (hb : 0 ≤ b) (hb1 : b ≤ 1) : 0 < frankE θ a b := by
  have := (frankE_par ha ha1 hb hb1 h).1
  rw [frankE_zero] at this
  exact (by positivity : (0 : ℝ) < Real.exp (-(2 * (θ - 0))) * 1).trans_le this

theorem frankE_fst (h : 0 ≤ θ) (hb : 0 ≤ b) (hb1 : b ≤ 1) (haa : a ≤ a') :
    Real.exp (-(θ * (a' - a))) * frankE θ a b ≤ frankE θ a' b ∧ frankE θ a' b ≤ frankE θ a b := by
  have h0 : 0 ≤ θ * (a' - a) := mul_nonneg h (by linarith)
  constructor
  · exact frankE_mono hb hb1 (fun t _ _ => exp_mul_le (by nlinarith)) fun t _ _ => exp_mul_le (by linarith)
  · have := frankE_mono (θ := θ) (θ' := θ) (a := a') (a' := a) (c := 1) hb hb1
      (fun t _ _ => by
        rw [one_mul]
        exact Real.exp_le_exp.mpr (by nlinarith))
      fun t _ _ => by rw [one_mul]
    rwa [one_mul] at this

theorem abs_log_le {x y c : ℝ} (hx : 0 < x) (h1 : Real.exp (-c) * x ≤ y) (h2 : y ≤ x) : |Real.log x - Real.log y| ≤ c := by
  have hy : 0 < y := lt_of_lt_of_le (by positivity) h1
  have k1 := Real.log_le_log (by positivity) h1
  rw [Real.log_mul (Real.exp_ne_zero _) hx.ne', Real.log_exp] at k1
  have k2 := Real.log_le_log hy h2
  rw [abs_of_nonneg (by linarith)]
  linarith

theorem frankE_lip_fst (h : 0 ≤ θ) (ha : 0 ≤ a) (ha1 : a ≤ 1) (ha' : 0 ≤ a') (ha1' : a' ≤ 1) (hb : 0 ≤ b) (hb1 : b ≤ 1) :
    |Real.log (frankE θ a b) - Real.log (frankE θ a' b)| ≤ θ * |a - a'| := by
  rcases le_total a a' with hl | hl
  · obtain ⟨k1, k2⟩ := frankE_fst h hb hb1 hl
    rw [abs_sub_comm a, abs_of_nonneg (by linarith : 0 ≤ a' - a)]
    exact abs_log_le (frankE_pos h ha ha1 hb hb1) k1 k2
  · obtain ⟨k1, k2⟩ := frankE_fst h hb hb1 hl
    rw [abs_of_nonneg (by linarith : 0 ≤ a - a'), abs_sub_comm]
    exact abs_log_le (frankE_pos h ha' ha1' hb hb1) k1 k2

theorem abs_sub_le_log {x y : ℝ} (hx : 0 < x) (hx1 : x < 1) (hy : 0 < y) (hy1 : y < 1) : |x - y| ≤ |Real.log x - Real.log y| := by
  have key : ∀ {x y : ℝ}, 0 < x → 0 < y → y < 1 → x ≤ y → y - x ≤ Real.log y - Real.log x := fun {x y} hx hy hy1 hl => by
    have h1 := Real.log_le_sub_one_of_pos (div_pos hx hy)
    rw [Real.log_div hx.ne' hy.ne'] at h1
    have h2 : y - x ≤ 1 - x / y := by
      rw [show 1 - x / y = (y - x) / y by field_simp, le_div_iff₀ hy]
      nlinarith
    linarith
  rcases le_total x y with hl | hl
  · rw [abs_sub_comm, abs_of_nonneg (by linarith : 0 ≤ y - x), abs_sub_comm]
    exact (key hx hy hy1 hl).trans (le_abs_self _)
  · rw [abs_of_nonneg (by linarith : 0 ≤ x - y)]
    exact (key hy hx hx1 hl).trans (le_abs_self _)

theorem frankLL_logLip (h : 0 ≤ θ) : LogLip (3 * θ) (frankLL θ) := by
  intro u hu v hv
  have e1 := frankE_lip_fst h (hu 0).1.le (hu 0).2.le (hv 0).1.le (hv 0).2.le (hu 1).1.le (hu 1).2.le
  have e2 := frankE_lip_fst h (hu 1).1.le (hu 1).2.le (hv 1).1.le (hv 1).2.le (hv 0).1.le (hv 0).2.le
  rw [frankE_symm θ (u 1), frankE_symm θ (v 1)] at e2
  have g0 := abs_sub_le_log (hu 0).1 (hu 0).2 (hv 0).1 (hv 0).2
  have g1 := abs_sub_le_log (hu 1).1 (hu 1).2 (hv 1).1 (hv 1).2
  have m0 := mul_le_mul_of_nonneg_left g0 h
  have m1 := mul_le_mul_of_nonneg_left g1 h
  rw [Fin.sum_univ_two, frankLL, frankLL]
  have s0 : |θ * (u 0 - v 0)| = θ * |u 0 - v 0| := by rw [abs_mul, abs_of_nonneg h]
  have s1 : |θ * (u 1 - v 1)| = θ * |u 1 - v 1| := by rw [abs_mul, abs_of_nonneg h]
  have a1 := abs_le.mp e1
  have a2 := abs_le.mp e2
  have a3 := abs_le.mp s0.le
  have a4 := abs_le.mp s1.le
  rw [abs_le]
  constructor <;> linarith

theorem frankLL_zero (u : Fin 2 → ℝ) : frankLL 0 u = 0 := by simp [frankLL, frankM_zero, frankE_zero]

theorem frankLL_par {s t : ℝ} (hs : 0 ≤ s) (ht : 0 ≤ t) {u : Fin 2 → ℝ} (hu : u ∈ cube 2) : |frankLL s u - frankLL t u| ≤ 7 * |s - t| := by
  have key : ∀ {s t : ℝ}, 0 ≤ s → s ≤ t → |frankLL s u - frankLL t u| ≤ 7 * (t - s) := fun {s t} hs hl => by
    obtain ⟨k1, k2⟩ := frankM_par hl
    obtain ⟨k3, k4⟩ := frankE_par (hu 0).1.le (hu 0).2.le (hu 1).1.le (hu 1).2.le hl
    have a1 := abs_le.mp (abs_log_le (frankM_pos hs) k1 k2)
    have a2 := abs_le.mp (abs_log_le (frankE_pos hs (hu 0).1.le (hu 0).2.le (hu 1).1.le (hu 1).2.le) k3 k4)
    have hw : 0 ≤ u 0 + u 1 ∧ u 0 + u 1 ≤ 2 := ⟨by linarith [(hu 0).1, (hu 1).1], by linarith [(hu 0).2, (hu 1).2]⟩
    have m1 := mul_le_mul_of_nonneg_left hw.2 (by linarith : 0 ≤ t - s)
    have m2 := mul_nonneg (by linarith : 0 ≤ t - s) hw.1
    rw [frankLL, frankLL, abs_le]
    constructor <;> nlinarith
  rcases le_total s t with hl | hl
  · rw [abs_sub_comm s, abs_of_nonneg (by linarith : 0 ≤ t - s)]
    exact key hs hl
  · rw [abs_of_nonneg (by linarith : 0 ≤ s - t), abs_sub_comm]
    exact key ht hl

theorem measurable_frankLL (θ : ℝ) : Measurable (frankLL θ) := by
  by_cases h : θ = 0
  · rw [h, show frankLL 0 = fun _ => 0 from funext frankLL_zero]
    exact measurable_const
  · have : frankLL θ = fun u => Real.log (frankM θ) - 2 * Real.log ((Real.exp (-θ * u 0) + Real.exp (-θ * u 1) -
        Real.exp (-θ * u 0) * Real.exp (-θ * u 1) - Real.exp (-θ)) / θ) - θ * (u 0 + u 1) := funext fun u => by rw [frankLL, frankE_eq h]
    rw [this]
    fun_prop

theorem frankM_lower (h : 0 < θ) : -Real.log (frankM θ) ≤ Real.log (1 + θ) := by
  rw [← Real.log_inv]
  refine Real.log_le_log (inv_pos.mpr (frankM_pos h.le)) ?_
  have h1 : Real.exp (-θ) ≤ 1 / (1 + θ) := by
    rw [Real.exp_neg, one_div]
    exact inv_anti₀ (by linarith) (by linarith [Real.add_one_le_exp θ])
  have h2 : θ / (1 + θ) ≤ 1 - Real.exp (-θ) := by
    have : θ / (1 + θ) = 1 - 1 / (1 + θ) := by field_simp; ring
    linarith
  rw [frankM_eq h.ne', inv_div, div_le_iff₀ (by linarith [div_pos h (by linarith : 0 < 1 + θ)])]
  rw [div_le_iff₀ (by linarith)] at h2
  linarith

theorem frankE_lower (h : 0 ≤ θ) (ha : 0 ≤ a) (hb : 0 ≤ b) (hb1 : b ≤ 1) : Real.exp (-(θ * a)) * frankM θ ≤ frankE θ a b := by
  have e : frankM θ = frankE θ 0 b := by
    unfold frankM frankE
    simp only [add_zero]
    exact (intervalIntegral.integral_add_adjacent_intervals (expLin_integrable θ 0 b) (expLin_integrable θ b 1)).symm
  have := (frankE_fst h hb hb1 ha).1
  rwa [sub_zero, ← e] at this

theorem frankLL_tail (h : 1 ≤ θ) {u : Fin 2 → ℝ} (hu : u ∈ cube 2) : frankLL θ u ≤ 2 * Real.log (1 + 2 * θ) - θ * |u 0 - u 1| := by
  have h0 : 0 < θ := by linarith
  have hM := frankM_pos h0.le
  have key : ∀ {a b : ℝ}, 0 ≤ a → 0 ≤ b → b ≤ 1 → -(θ * a) + Real.log (frankM θ) ≤ Real.log (frankE θ a b) := fun {a b} ha hb hb1 => by
    have := Real.log_le_log (by positivity) (frankE_lower h0.le ha hb hb1)
    rwa [Real.log_mul (Real.exp_ne_zero _) hM.ne', Real.log_exp] at this
  have k1 := key (hu 0).1.le (hu 1).1.le (hu 1).2.le
  have k2 := key (hu 1).1.le (hu 0).1.le (hu 0).2.le
  rw [frankE_symm] at k2
  have k3 := frankM_lower h0
  have k4 : Real.log (1 + θ) ≤ Real.log (1 + 2 * θ) := Real.log_le_log (by linarith) (by linarith)
  have k5 : 0 ≤ Real.log (1 + 2 * θ) := Real.log_nonneg (by linarith)
  rw [frankLL]
  rcases abs_cases (u 0 - u 1) with ⟨e, _⟩ | ⟨e, _⟩ <;> rw [e] <;> nlinarith

/-- The density that the code computes. -/
theorem frankDensity_exp (h : 0 < θ) {u : Fin 2 → ℝ} (hu : u ∈ cube 2) : frankDensity θ u = Real.exp (frankLL θ u) := by
  have hM := frankM_pos h.le
  have hE := frankE_pos h.le (hu 0).1.le (hu 0).2.le (hu 1).1.le (hu 1).2.le
  have e1 : Real.exp (frankLL θ u) = frankM θ / frankE θ (u 0) (u 1) ^ 2 / Real.exp (θ * (u 0 + u 1)) := by
    rw [frankLL, Real.exp_sub, Real.exp_sub, Real.exp_log hM, show 2 * Real.log (frankE θ (u 0) (u 1)) =
      Real.log (frankE θ (u 0) (u 1) ^ 2) by rw [Real.log_pow]; norm_num, Real.exp_log (by positivity)]
  have hD := hE
  rw [frankE_eq h.ne'] at hD
  have hD' := (div_pos_iff_of_pos_right h).mp hD
  rw [e1, frankM_eq h.ne', frankE_eq h.ne', frankDensity_eq h.ne' fun j => (hu j).1, Fin.prod_univ_two, Fin.prod_univ_two]
  have hA : 1 < Real.exp (θ * u 0) := Real.one_lt_exp_iff.mpr (mul_pos h (hu 0).1)
  have hB : 1 < Real.exp (θ * u 1) := Real.one_lt_exp_iff.mpr (mul_pos h (hu 1).1)
  have hq : Real.exp (-θ) < 1 := Real.exp_lt_one_iff.mpr (by linarith)
  have eA : Real.exp (-θ * u 0) = (Real.exp (θ * u 0))⁻¹ := by rw [neg_mul, Real.exp_neg]
  have eB : Real.exp (-θ * u 1) = (Real.exp (θ * u 1))⁻¹ := by rw [neg_mul, Real.exp_neg]
  rw [eA, eB] at hD' ⊢
  rw [mul_add θ, Real.exp_add]
  have hs : ∀ z : ℝ, frankL 1 z = z / (1 - z) * (1 + z / (1 - z)) := fun z => by
    rw [frankL, sum_range_succ, sum_range_one]
    have s1 : s2 (1 + 1) (0 + 1) = 1 := by decide
    have s3 : s2 (1 + 1) (1 + 1) = 1 := by decide
    rw [s1, s3]
    norm_num
  rw [hs]
  generalize Real.exp (θ * u 0) = A at *
  generalize Real.exp (θ * u 1) = B at *
  generalize Real.exp (-θ) = q at *
  have hA0 : A ≠ 0 := by linarith
  have hB0 : B ≠ 0 := by linarith
  have hA1 : A - 1 ≠ 0 := by linarith
  have hB1 : B - 1 ≠ 0 := by linarith
  have hq1 : q - 1 ≠ 0 := by linarith
  have hq2 : 1 - q ≠ 0 := by linarith
  obtain ⟨D, hDe⟩ : ∃ D, D = A⁻¹ + B⁻¹ - A⁻¹ * B⁻¹ - q := ⟨_, rfl⟩
  rw [← hDe] at hD' ⊢
  obtain ⟨z, hz⟩ : ∃ z, z = (1 - q) * ((A⁻¹ - 1) / (q - 1) * ((B⁻¹ - 1) / (q - 1))) := ⟨_, rfl⟩
  rw [← hz]
  have hz' : 1 - z = D / (1 - q) := by
    rw [hz, hDe]
    field_simp
    ring
  have hz1 : z = (A - 1) * (B - 1) / (A * B * (1 - q)) := by
    rw [hz, show q - 1 = -(1 - q) by ring]
    field_simp
    ring
  have hr : z / (1 - z) * (1 + z / (1 - z)) = z / (1 - z) ^ 2 := by
    have : 1 - z ≠ 0 := by rw [hz']; exact div_ne_zero hD'.ne' hq2
    field_simp
    ring
  rw [hr, hz', hz1]
  have hD0 := hD'.ne'
  field_simp

theorem frank_densityOf (h : 0 < θ) {P : Measure (Fin 2 → ℝ)} [IsProbabilityMeasure P] (hP : IsLawOf P (Family.copula .frank θ)) :
    ∃ g, DensityOf (MeasureTheory.volume.restrict {u : Fin 2 → ℝ | ∀ j, 0 < u j ∧ u j < 1}) P g ∧
      ∀ u ∈ cube 2, g u = Real.exp (frankLL θ u) := by
  obtain ⟨g, hg, hden⟩ := frank_pdf_density_partial h (le_refl 2)
  refine ⟨g, densityOf_cube (hden P hP), fun u hu => ?_⟩
  have h1 := (hg 1 (fun _ => u) fun _ => hu).1
  have h3 := (frank_pdfComputes h (le_refl 2) 1 (fun _ => u) fun _ => hu).1
  have h4 := congrFun (Except.ok.inj (h1.symm.trans h3)) 0
  rw [← frankDensity_exp h hu]
  exact Fl.fin.inj h4

theorem frank_contrast {θ₀ : ℝ} (hθ : 0 < θ₀) {P : Measure (Fin 2 → ℝ)} [IsProbabilityMeasure P]
    (hP : IsLawOf P (Family.copula .frank θ₀)) (hU : Uniform P) : Contrast P frankLL 0 θ₀ := by
  have hae := uniform_ae' hU
  obtain ⟨g, hg, hgl⟩ := frank_densityOf hθ hP
  have hint : ∀ θ, 0 ≤ θ → Integrable (frankLL θ) P := fun θ h =>
    ((frankLL_logLip h).memLp hU (measurable_frankLL θ)).integrable one_le_two
  have hadm : ∀ {θ : ℝ}, 0 < θ → Copulae.Admissible .frank θ 2 := fun {θ} h => ⟨le_refl 2, h.ne', by linarith, fun _ => h⟩
  refine ⟨hθ.le, fun θ _ => measurable_frankLL θ, fun θ h => ⟨_, frankLL_logLip h⟩, fun b => ?_, fun θ h hne => ?_, ?_⟩
  · refine ⟨7, by norm_num, fun s t hs _ ht _ u hu => (frankLL_par hs ht hu).trans ?_⟩
    have : 1 ≤ logEnv u := by
      rw [logEnv]
      linarith [sum_nonneg fun (j : Fin 2) (_ : j ∈ univ) => sq_nonneg (Real.log (u j))]
    exact le_mul_of_one_le_right (by positivity) this
  · rcases h.eq_or_lt with rfl | h
    · refine log_mean_lt hg indep_densityOf ?_ (hint _ hθ.le) (hint 0 le_rfl) (hae.mono fun u hu => hgl u hu) (ae_of_all _ fun u => ?_)
      · have hg1 : Copulae.Admissible .gumbel 1 2 := ⟨le_refl 2, le_refl (1 : ℝ)⟩
        exact arch_laws_differ (hadm hθ) hg1 hP (indep_gumbel indep_isLaw) (by simp)
      · rw [frankLL_zero, Real.exp_zero]
    · obtain ⟨P', hP'⟩ := arch_law_exists (hadm h)
      have := hP'.prob
      obtain ⟨g', hg', hgl'⟩ := frank_densityOf h hP'
      exact log_mean_lt hg hg' (arch_laws_differ (hadm hθ) (hadm h) hP hP' fun e => hne e.2.symm) (hint _ hθ.le) (hint _ h.le)
        (hae.mono fun u hu => hgl u hu) (hae.mono fun u hu => hgl' u hu)
  · have hDL : LogLip 1 fun u : Fin 2 → ℝ => |u 0 - u 1| := by
      intro u hu v hv
      rw [Fin.sum_univ_two, one_mul]
      have g0 := abs_sub_le_log (hu 0).1 (hu 0).2 (hv 0).1 (hv 0).2
      have g1 := abs_sub_le_log (hu 1).1 (hu 1).2 (hv 1).1 (hv 1).2
      have h4 := abs_abs_sub_abs_le (u 0 - u 1) (v 0 - v 1)
      have h5 : |u 0 - u 1 - (v 0 - v 1)| ≤ |u 0 - v 0| + |u 1 - v 1| := by
        rw [show u 0 - u 1 - (v 0 - v 1) = (u 0 - v 0) - (u 1 - v 1) by ring]
        exact abs_sub _ _
      linarith
    have hDm : Measurable fun u : Fin 2 → ℝ => |u 0 - u 1| :=
      measurable_abs.comp ((measurable_pi_apply _).sub (measurable_pi_apply _))
    refine ⟨fun u => |u 0 - u 1|, fun θ => 2 * Real.log (1 + 2 * θ), 0, 1, le_rfl, zero_le_one, hDm, ⟨1, hDL⟩, ?_,
      fun κ hκ => log_small two_pos hκ, fun θ h u hu => by simpa using frankLL_tail h hu⟩
    have hDi := (hDL.memLp hU hDm).integrable one_le_two
    rw [integral_pos_iff_support_of_nonneg (fun u => abs_nonneg _) hDi]
    refine (lt_of_lt_of_eq one_pos ?_)
    symm
    rw [← prob_compl_eq_zero_iff (measurableSet_support hDm)]
    have hne := coords_ne hg (a := (0 : Fin 2)) (b := 1) (by simp)
    rw [ae_iff] at hne
    refine measure_mono_null (fun u hu => ?_) hne
    rw [Set.mem_compl_iff, Function.mem_support, not_not, abs_eq_zero, sub_eq_zero] at hu
    exact fun h => h hu

end Copulae
