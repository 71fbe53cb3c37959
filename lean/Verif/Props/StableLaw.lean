import Mathlib.Probability.Distributions.Gaussian.Real
import Verif.Lemmas.StableDensity
import Verif.Props.GumbelRandom

/-!
C122: the variates of `skew_stable.rvs` have the density of Nolan's integral formula, for every index other than one,
every skewness, scale and location.
-/

namespace Copulae

open MeasureTheory Set ProbabilityTheory Real

theorem arctan_mul_le {β T b : ℝ} (hβ : |β| ≤ 1) (hT : |T| = tan b) (h0 : -(π / 2) < b) (h1 : b < π / 2) :
    |arctan (β * T)| ≤ b := by
  have h : |β * T| ≤ tan b := by
    rw [abs_mul, ← hT]
    exact mul_le_of_le_one_left (abs_nonneg T) hβ
  have hm := arctan_strictMono.monotone
  rw [abs_le] at h ⊢
  constructor
  · have := hm h.1
    rwa [arctan_neg, arctan_tan h0 h1] at this
  · have := hm h.2
    rwa [arctan_tan h0 h1] at this

theorem stable_arctan_lt {α β : ℝ} (h0 : 0 < α) (h1 : α < 1) (hβ : |β| ≤ 1) :
    |arctan (β * tan (α * π / 2))| ≤ α * π / 2 := by
  have := pi_pos
  refine arctan_mul_le hβ (abs_of_pos ?_) (by nlinarith) (by nlinarith)
  exact tan_pos_of_pos_of_lt_pi_div_two (by positivity) (by nlinarith)

theorem stable_arctan_gt {α β : ℝ} (h1 : 1 < α) (h2 : α ≤ 2) (hβ : |β| ≤ 1) :
    |arctan (β * tan (α * π / 2))| ≤ (2 - α) * π / 2 := by
  have := pi_pos
  refine arctan_mul_le hβ ?_ (by nlinarith) (by nlinarith)
  rw [show α * π / 2 = π - (2 - α) * π / 2 by ring, tan_pi_sub, abs_neg, abs_of_nonneg]
  exact tan_nonneg_of_nonneg_of_le_pi_div_two (by nlinarith) (by nlinarith)

theorem stable_cosT (α β : ℝ) (h0 : α ≠ 0) : cos (α * Spec.stableAngle α β) =
    (1 + β * tan (α * π / 2) * (β * tan (α * π / 2))) ^ (-(1 / 2) : ℝ) := by
  rw [Spec.stableAngle, mul_div_cancel₀ _ h0, cos_arctan, rpow_neg (by nlinarith [mul_self_nonneg (β * tan (α * π / 2))]),
    sqrt_eq_rpow, one_div, sq]

/-- The angle is in order for every index other than one. -/
theorem stable_angleOk {α β : ℝ} (h0 : 0 < α) (h1 : α ≠ 1) (h2 : α ≤ 2) (hβ : |β| ≤ 1) :
    AngleOk α (Spec.stableAngle α β) := by
  have hp := pi_pos
  have hat : α * Spec.stableAngle α β = arctan (β * tan (α * π / 2)) := mul_div_cancel₀ _ h0.ne'
  have hc : 0 < cos (α * Spec.stableAngle α β) := by
    rw [hat]
    exact cos_arctan_pos _
  rcases lt_or_gt_of_ne h1 with h | h
  · have hb := abs_le.mp (stable_arctan_lt h0 h hβ)
    rw [← hat] at hb
    generalize Spec.stableAngle α β = t at *
    refine ⟨h0, h1, ⟨by nlinarith, by nlinarith⟩, hc, fun θ hθ => ?_, fun θ hθ => ?_⟩
    · exact cos_pos_of_mem_Ioo ⟨by nlinarith [hθ.1, hθ.2], by nlinarith [hθ.1, hθ.2]⟩
    · exact ⟨by nlinarith [hθ.1, hθ.2], by nlinarith [hθ.1, hθ.2]⟩
  · have hb := abs_le.mp (stable_arctan_gt h h2 hβ)
    rw [← hat] at hb
    generalize Spec.stableAngle α β = t at *
    refine ⟨h0, h1, ⟨by nlinarith, by nlinarith⟩, hc, fun θ hθ => ?_, fun θ hθ => ?_⟩
    · exact cos_pos_of_mem_Ioo ⟨by nlinarith [hθ.1, hθ.2], by nlinarith [hθ.1, hθ.2]⟩
    · exact ⟨by nlinarith [hθ.1, hθ.2], by nlinarith [hθ.1, hθ.2]⟩

theorem tanpi2_ne_one {α : ℝ} (h0 : 0 < α) (h1 : α ≠ 1) (h2 : α ≤ 2) : tanpi2 α = .fin (tan (α * π / 2)) := by
  have hp := pi_pos
  rw [tanpi2, if_neg]
  rcases lt_or_gt_of_ne h1 with h | h
  · exact (cos_pos_of_mem_Ioo ⟨by nlinarith, by nlinarith⟩).ne'
  · exact (cos_neg_of_pi_div_two_lt_of_lt (by nlinarith) (by nlinarith)).ne

theorem stableZ_cms {α β : ℝ} (h0 : 0 < α) (h1 : α ≠ 1) (h2 : α ≤ 2) (hβ : |β| ≤ 1) {v w : ℝ}
    (hv : v ∈ Ioo (0 : ℝ) 1) (hw : 0 < w) :
    stableZ α β v w =
      .fin (cms α (Spec.stableAngle α β) (π * (v - 0.5)) w + Spec.stableZeta α β) := by
  have hp := pi_pos
  have ok := stable_angleOk h0 h1 h2 hβ
  have hθ : π * (v - 0.5) ∈ Ioo (-(π / 2)) (π / 2) := ⟨by nlinarith [hv.1], by nlinarith [hv.2]⟩
  have hd := ok.cosD _ hθ
  have hcos := cos_pos_of_mem_Ioo hθ
  have hcT := stable_cosT α β h0.ne'
  have hle := ok.le
  have hang : arctan (β * tan (α * π / 2)) / α = Spec.stableAngle α β := rfl
  have hz : Spec.stableZeta α β = -(β * tan (α * π / 2)) := rfl
  rw [← cos_neg, neg_sub] at hd
  unfold stableZ
  simp only [tanpi2_ne_one h0 h1 h2, Fl.fin_mul_fin, arctan_fin, Fl.fin_div_fin' _ h0.ne', hang]
  have ht0 : Fl.pyMin (Fl.pyMax (.fin (-(π / 2))) (.fin (Spec.stableAngle α β))) (.fin (π / 2)) =
      .fin (Spec.stableAngle α β) := by
    have e1 : Fl.pyMax (.fin (-(π / 2))) (.fin (Spec.stableAngle α β)) = .fin (Spec.stableAngle α β) := by
      rw [Fl.pyMax, Fl.fin_lt_fin]
      split_ifs with h
      · rfl
      · rw [le_antisymm hle.1 (not_lt.mp h)]
    rw [e1, Fl.pyMin, Fl.fin_lt_fin, if_neg (not_lt.mpr hle.2)]
  have hc1 : 0 < 1 + β * tan (α * π / 2) * (β * tan (α * π / 2)) := by
    nlinarith [mul_self_nonneg (β * tan (α * π / 2))]
  rw [ht0]
  simp only [Fl.fin_add_fin, Fl.fin_mul_fin, Fl.fin_sub_fin, Fl.cos, Fl.sin, Fl.fin_div_fin' _ hw.ne',
    Fl.pow_pos hcos, Fl.pow_pos hc1, Fl.pow_pos (div_pos hd hw)]
  rw [cms, hcT, hz, ← rpow_mul hc1.le, show -(1 / 2) * (-1 / α) = 1 / (2 * α) by field_simp]
  rfl

/-- The location of the law in the parametrisation `pm = 0`. -/
noncomputable def Spec.stableLoc (α β γ δ : ℝ) (pm : ℤ) : ℝ :=
  if pm = 1 ∧ α ≠ 2 then δ + β * γ * tan (π * α / 2) else δ

/-- The density with scale and location. -/
noncomputable def Spec.stableDensityAt (α β γ δ x : ℝ) : ℝ := stableDensity α β ((x - δ) / γ) / γ

theorem stable_law_density {α β : ℝ} (h0 : 0 < α) (h1 : α ≠ 1) (h2 : α ≤ 2) (hβ : |β| ≤ 1) {γ : ℝ} (hγ : 0 < γ)
    (δ : ℝ) :
    frailSpace.map (fun p => (cms α (Spec.stableAngle α β) (π * (p.1 - 0.5)) p.2 + Spec.stableZeta α β) * γ + δ) =
      volume.withDensity fun x => ENNReal.ofReal (Spec.stableDensityAt α β γ δ x) := by
  have ok := stable_angleOk h0 h1 h2 hβ
  have hm : Measurable fun p : ℝ × ℝ =>
      (cms α (Spec.stableAngle α β) (π * (p.1 - 0.5)) p.2 + Spec.stableZeta α β) * γ + δ := by
    unfold cms
    fun_prop
  ext A hA
  rw [Measure.map_apply hm hA, withDensity_apply _ hA]
  have hg : Measurable fun y : ℝ => A.indicator (fun _ => (1 : ENNReal)) ((y + Spec.stableZeta α β) * γ + δ) :=
    (measurable_const.indicator hA).comp (by fun_prop)
  have key := cms_law ok _ hg
  have e1 : ∫⁻ p, A.indicator (fun _ => (1 : ENNReal))
      ((cms α (Spec.stableAngle α β) (π * (p.1 - 0.5)) p.2 + Spec.stableZeta α β) * γ + δ) ∂frailSpace =
      frailSpace ((fun p : ℝ × ℝ => (cms α (Spec.stableAngle α β) (π * (p.1 - 0.5)) p.2 +
        Spec.stableZeta α β) * γ + δ) ⁻¹' A) := by
    rw [← lintegral_indicator_one (hm hA)]
    rfl
  rw [← e1, key, ← lintegral_indicator hA]
  have sub := lintegral_image_eq_lintegral_abs_deriv_mul (s := univ)
    (f := fun x => (x - δ) / γ - Spec.stableZeta α β) (f' := fun _ => 1 / γ) MeasurableSet.univ
    (fun x _ => ((((hasDerivAt_id x).sub_const δ).div_const γ).sub_const (Spec.stableZeta α β)).hasDerivWithinAt)
    (fun x _ y _ e => by
      have : (x - δ) / γ = (y - δ) / γ := by simpa using e
      field_simp at this
      linarith)
    (fun y => ENNReal.ofReal (if 0 < y then Spec.stableHalf α (Spec.stableAngle α β) y
        else if y < 0 then Spec.stableHalf α (-Spec.stableAngle α β) (-y) else 0) *
        A.indicator (fun _ => (1 : ENNReal)) ((y + Spec.stableZeta α β) * γ + δ))
  have himg : (fun x : ℝ => (x - δ) / γ - Spec.stableZeta α β) '' univ = univ := by
    refine eq_univ_of_forall fun y => ⟨(y + Spec.stableZeta α β) * γ + δ, mem_univ _, ?_⟩
    field_simp
    ring
  rw [himg, setLIntegral_univ, setLIntegral_univ] at sub
  rw [sub]
  refine lintegral_congr fun x => ?_
  have e2 : ((x - δ) / γ - Spec.stableZeta α β + Spec.stableZeta α β) * γ + δ = x := by field_simp; ring
  rw [e2, abs_of_pos (by positivity), ← mul_assoc, ← ENNReal.ofReal_mul (by positivity)]
  by_cases hx : x ∈ A
  · rw [indicator_of_mem hx, indicator_of_mem hx, mul_one, Spec.stableDensityAt, Spec.stableDensity]
    congr 1
    simp only [sub_pos, sub_neg, neg_sub]
    field_simp
  · rw [indicator_of_notMem hx, indicator_of_notMem hx, mul_zero]

/-- C122: for every index other than one, every skewness, scale and location, and either of the parametrisations 0 and
1, `rvs` returns finite values whose law has Nolan's density. (Where both the index is within about `1e-5` of one and
the skewness within `1e-8` of zero, `rvs` draws Cauchy variates instead.) -/
theorem stable_rvs_density {α β γ δ : ℝ} (h0 : 0 < α) (h1 : α ≠ 1) (h2 : α ≤ 2) (hβ : |β| ≤ 1)
    (hc : 1 / 10 ^ 8 + 1 / 10 ^ 5 < |α - 1| ∨ 1 / 10 ^ 8 < |β|) (hγ : 0 < γ) (pm : ℤ) (hpm : pm = 0 ∨ pm = 1)
    (mode : ℝ → ℝ → Except PyErr Fl) :
    ∃ X : ℝ × ℝ → ℝ, Measurable X ∧
      frailSpace.map X =
        volume.withDensity (fun x => ENNReal.ofReal (Spec.stableDensityAt α β γ (Spec.stableLoc α β γ δ pm) x)) ∧
      ∀ (n : ℕ) (ca v w : Fin n → ℝ), (∀ i, v i ∈ Ioo (0 : ℝ) 1) → (∀ i, 0 < w i) →
        stableRvs mode α β (.fin γ) (.fin δ) pm ca v w = .ok fun i => .fin (X (v i, w i)) := by
  refine ⟨fun p => (cms α (Spec.stableAngle α β) (π * (p.1 - 0.5)) p.2 + Spec.stableZeta α β) * γ +
    Spec.stableLoc α β γ δ pm, by unfold cms; fun_prop, stable_law_density h0 h1 h2 hβ hγ _, fun n ca v w hv hw => ?_⟩
  have hpar : stableParam mode α (.fin δ) (.fin γ) β pm = .ok (.fin (Spec.stableLoc α β γ δ pm), .fin γ) := by
    rcases hpm with rfl | rfl
    · simp [stableParam, Spec.stableLoc]
    · rw [stableParam, if_pos rfl, stableOmega, Spec.stableLoc]
      by_cases ha : α = 2
      · rw [if_neg (not_not.mpr ⟨2, by rw [ha]; norm_num⟩), if_neg h1]
        simp [ha]
      · have hni : ¬ ∃ z : ℤ, (z : ℝ) = α := by
          rintro ⟨z, hz⟩
          have a : 0 < z := by exact_mod_cast hz ▸ h0
          have b : z ≤ 2 := by exact_mod_cast hz ▸ h2
          have c : z ≠ 1 := fun e => h1 (by rw [← hz, e]; norm_num)
          have d : z ≠ 2 := fun e => ha (by rw [← hz, e]; norm_num)
          omega
        rw [if_pos hni, tanpi2_ne_one h0 h1 h2, if_pos ⟨rfl, ha⟩, mul_comm π α]
        simp
  have hcheck : stableCheck α β (.fin γ) pm = .ok () := by
    unfold stableCheck
    rw [if_pos (by omega), if_pos hβ, if_pos ⟨h0, h2⟩, if_pos (by simpa using hγ.le)]
  unfold stableRvs
  rw [hcheck, hpar]
  simp only [bind, Except.bind, pure, Except.pure]
  rw [if_neg (by
    rintro ⟨a, b⟩
    rcases hc with h | h <;> linarith)]
  refine congrArg Except.ok (funext fun i => ?_)
  rw [stableZ_cms h0 h1 h2 hβ (hv i) (hw i)]
  rfl

/-- C122: parametrisation 2. If the search for the mode returns `m`, `rvs` draws from the law of scale
`γ α^(-1/α)` moved by `δ` less `m` times that scale; so if `m` is where the standard density is greatest, the density
of what is drawn is greatest at `δ`. -/
theorem stable_rvs_pm_two {α β γ δ m : ℝ} (h0 : 0 < α) (h1 : α ≠ 1) (h2 : α ≤ 2) (hβ : |β| ≤ 1)
    (hc : 1 / 10 ^ 8 + 1 / 10 ^ 5 < |α - 1| ∨ 1 / 10 ^ 8 < |β|) (hγ : 0 < γ)
    (mode : ℝ → ℝ → Except PyErr Fl) (hm : mode α β = .ok (.fin m)) :
    ∃ X : ℝ × ℝ → ℝ, ∃ f : ℝ → ℝ, Measurable X ∧
      (∀ x, f x = Spec.stableDensityAt α β (γ * α ^ (-1 / α)) (δ - γ * α ^ (-1 / α) * m) x) ∧
      frailSpace.map X = volume.withDensity (fun x => ENNReal.ofReal (f x)) ∧
      ((∀ x, Spec.stableDensity α β x ≤ Spec.stableDensity α β m) → ∀ x, f x ≤ f δ) ∧
      ∀ (n : ℕ) (ca v w : Fin n → ℝ), (∀ i, v i ∈ Ioo (0 : ℝ) 1) → (∀ i, 0 < w i) →
        stableRvs mode α β (.fin γ) (.fin δ) 2 ca v w = .ok fun i => .fin (X (v i, w i)) := by
  have hg : 0 < γ * α ^ (-1 / α) := mul_pos hγ (rpow_pos_of_pos h0 _)
  refine ⟨fun p => (cms α (Spec.stableAngle α β) (π * (p.1 - 0.5)) p.2 + Spec.stableZeta α β) * (γ * α ^ (-1 / α)) +
    (δ - γ * α ^ (-1 / α) * m), _, by unfold cms; fun_prop, fun x => rfl, stable_law_density h0 h1 h2 hβ hg _,
    fun hmax x => ?_, fun n ca v w hv hw => ?_⟩
  · simp only [Spec.stableDensityAt]
    rw [show (δ - (δ - γ * α ^ (-1 / α) * m)) / (γ * α ^ (-1 / α)) = m by field_simp; ring]
    gcongr
    exact hmax _
  have hpar : stableParam mode α (.fin δ) (.fin γ) β 2 =
      .ok (.fin (δ - γ * α ^ (-1 / α) * m), .fin (γ * α ^ (-1 / α))) := by
    unfold stableParam
    rw [if_neg (by norm_num), if_pos rfl, hm]
    simp only [bind, Except.bind, pure, Except.pure, Fl.pow_pos h0, Fl.fin_mul_fin, Fl.fin_sub_fin]
  have hcheck : stableCheck α β (.fin γ) 2 = .ok () := by
    unfold stableCheck
    rw [if_pos (by omega), if_pos hβ, if_pos ⟨h0, h2⟩, if_pos (by simpa using hγ.le)]
  unfold stableRvs
  rw [hcheck, hpar]
  simp only [bind, Except.bind, pure, Except.pure]
  rw [if_neg (by
    rintro ⟨a, b⟩
    rcases hc with h | h <;> linarith)]
  refine congrArg Except.ok (funext fun i => ?_)
  rw [stableZ_cms h0 h1 h2 hβ (hv i) (hw i)]
  rfl

example := stable_rvs_pm_two (α := 3 / 2) (β := 1 / 2) (γ := 2) (δ := 5) (m := -(1 / 4)) (by norm_num) (by norm_num)
  (by norm_num) (by norm_num [abs_of_pos]) (Or.inl (by norm_num [abs_of_pos])) (by norm_num)
  (fun _ _ => .ok (.fin (-(1 / 4)))) rfl

/-! ## The formula at index two -/

theorem stableV_two {y θ : ℝ} (h1 : 0 < θ) (h2 : θ < π / 2) : Spec.stableV 2 0 y θ = y ^ 2 / (4 * sin θ ^ 2) := by
  have hs : 0 < sin θ := sin_pos_of_pos_of_lt_pi h1 (by linarith [pi_pos])
  have hc : 0 < cos θ := cos_pos_of_mem_Ioo ⟨by linarith, h2⟩
  rw [Spec.stableV, add_zero, mul_zero, cos_zero, show (2 : ℝ) * θ - θ = θ by ring,
    show (1 : ℝ) / (2 - 1) = 1 by norm_num, rpow_one, sin_two_mul, one_mul, rpow_ofNat]
  field_simp
  ring

theorem stable_integral_two {y : ℝ} (hy : 0 < y) :
    ∫ θ in (0 : ℝ)..(π / 2), Spec.stableV 2 0 y θ * exp (-Spec.stableV 2 0 y θ) =
      y * sqrt π / 4 * exp (-(y ^ 2 / 4)) := by
  have hp := pi_pos
  have himg : (fun u : ℝ => π / 2 - arctan u) '' Ioi 0 = Ioo 0 (π / 2) := by
    ext θ
    constructor
    · rintro ⟨u, hu, rfl⟩
      have := arctan_pos.mpr hu
      have := arctan_lt_pi_div_two u
      exact ⟨by simp only []; linarith, by simp only []; linarith⟩
    · intro hθ
      refine ⟨tan (π / 2 - θ), tan_pos_of_pos_of_lt_pi_div_two (by linarith [hθ.2]) (by linarith [hθ.1]), ?_⟩
      simp only []
      rw [arctan_tan (by linarith [hθ.2]) (by linarith [hθ.1])]
      ring
  have hder : ∀ u ∈ Ioi (0 : ℝ), HasDerivWithinAt (fun u : ℝ => π / 2 - arctan u) (-(1 / (1 + u ^ 2))) (Ioi 0) u :=
    fun u _ => ((hasDerivAt_arctan u).const_sub (π / 2)).hasDerivWithinAt
  have hinj : InjOn (fun u : ℝ => π / 2 - arctan u) (Ioi 0) := fun x _ y _ e => by
    have : arctan x = arctan y := by simpa using e
    exact arctan_injective this
  have key := integral_image_eq_integral_abs_deriv_smul measurableSet_Ioi hder hinj
    (fun θ => Spec.stableV 2 0 y θ * exp (-Spec.stableV 2 0 y θ))
  rw [himg] at key
  rw [intervalIntegral.integral_of_le (by positivity), integral_Ioc_eq_integral_Ioo, key]
  have e : ∀ u ∈ Ioi (0 : ℝ), |(-(1 / (1 + u ^ 2)) : ℝ)| • (Spec.stableV 2 0 y (π / 2 - arctan u) *
      exp (-Spec.stableV 2 0 y (π / 2 - arctan u))) = y ^ 2 / 4 * exp (-(y ^ 2 / 4)) * exp (-(y ^ 2 / 4) * u ^ 2) := by
    intro u hu
    have hmem : π / 2 - arctan u ∈ Ioo 0 (π / 2) := himg ▸ mem_image_of_mem _ hu
    have hs : sin (π / 2 - arctan u) ^ 2 = 1 / (1 + u ^ 2) := by
      rw [sin_pi_div_two_sub, cos_sq_arctan]
    rw [stableV_two hmem.1 hmem.2, hs, abs_neg, abs_of_pos (by positivity), smul_eq_mul,
      show y ^ 2 / (4 * (1 / (1 + u ^ 2))) = y ^ 2 / 4 * (1 + u ^ 2) by field_simp, mul_assoc _ (exp _) (exp _), ← exp_add,
      show -(y ^ 2 / 4) + -(y ^ 2 / 4) * u ^ 2 = -(y ^ 2 / 4 * (1 + u ^ 2)) by ring]
    field_simp
  rw [setIntegral_congr_fun measurableSet_Ioi e, integral_const_mul, integral_gaussian_Ioi,
    show π / (y ^ 2 / 4) = π * (2 / y) ^ 2 by field_simp; norm_num, sqrt_mul hp.le, sqrt_sq (by positivity)]
  field_simp

/-- C122: for index two the density is that of the normal law with variance two, whatever the skewness. -/
theorem stableDensity_two (β : ℝ) {x : ℝ} (hx : x ≠ 0) : Spec.stableDensity 2 β x = gaussianPDFReal 0 2 x := by
  have hz : Spec.stableZeta 2 β = 0 := by simp [Spec.stableZeta]
  have ha : Spec.stableAngle 2 β = 0 := by simp [Spec.stableAngle]
  have half : ∀ y, 0 < y → Spec.stableHalf 2 0 y = exp (-(y ^ 2 / 4)) / (2 * sqrt π) := fun y hy => by
    rw [Spec.stableHalf, neg_zero, stable_integral_two hy]
    norm_num
    field_simp
    rw [sq_sqrt pi_pos.le]
    ring
  have hg : gaussianPDFReal 0 2 x = exp (-(x ^ 2 / 4)) / (2 * sqrt π) := by
    rw [gaussianPDFReal]
    rw [show (2 : ℝ) * π * ((2 : NNReal) : ℝ) = 2 ^ 2 * π by push_cast; ring, sqrt_mul (by norm_num),
      sqrt_sq (by norm_num)]
    push_cast
    rw [sub_zero, show -x ^ 2 / (2 * 2) = -(x ^ 2 / 4) by ring]
    field_simp
  rw [Spec.stableDensity, hz, ha, neg_zero, hg]
  rcases lt_or_gt_of_ne hx with h | h
  · rw [if_neg (not_lt.mpr h.le), if_pos h, half _ (by linarith)]
    ring_nf
  · rw [if_pos h, half _ (by linarith)]
    ring_nf

example := stableDensity_two (1 / 2) (x := -3) (by norm_num)

/-- C122: with index two, `rvs` draws normal variates with mean `δ` and variance `2 γ²`. -/
theorem stable_rvs_normal {β γ δ : ℝ} (hβ : |β| ≤ 1) (hγ : 0 < γ) (pm : ℤ) (hpm : pm = 0 ∨ pm = 1)
    (mode : ℝ → ℝ → Except PyErr Fl) :
    ∃ X : ℝ × ℝ → ℝ, Measurable X ∧ frailSpace.map X = gaussianReal δ (2 * γ.toNNReal ^ 2) ∧
      ∀ (n : ℕ) (ca v w : Fin n → ℝ), (∀ i, v i ∈ Ioo (0 : ℝ) 1) → (∀ i, 0 < w i) →
        stableRvs mode 2 β (.fin γ) (.fin δ) pm ca v w = .ok fun i => .fin (X (v i, w i)) := by
  obtain ⟨X, hm, hl, hr⟩ := stable_rvs_density (α := 2) (δ := δ) (by norm_num) (by norm_num) le_rfl hβ
    (Or.inl (by norm_num)) hγ pm hpm mode
  refine ⟨X, hm, ?_, hr⟩
  have hv : (2 * γ.toNNReal ^ 2 : NNReal) ≠ 0 := by
    have := Real.toNNReal_pos.mpr hγ
    positivity
  rw [hl, gaussianReal_of_var_ne_zero _ hv]
  refine withDensity_congr_ae ?_
  filter_upwards [Measure.ae_ne volume δ] with x hx
  have hloc : Spec.stableLoc 2 β γ δ pm = δ := by simp [Spec.stableLoc]
  rw [hloc, Spec.stableDensityAt, stableDensity_two β (div_ne_zero (sub_ne_zero.mpr hx) hγ.ne'), gaussianPDF]
  congr 1
  rw [gaussianPDFReal, gaussianPDFReal]
  push_cast
  rw [Real.coe_toNNReal _ hγ.le, show 2 * π * (2 * γ ^ 2) = 2 * π * 2 * γ ^ 2 by ring,
    sqrt_mul (by positivity) (γ ^ 2), sqrt_sq hγ.le, sub_zero, mul_inv,
    show -((x - δ) / γ) ^ 2 / (2 * 2) = -(x - δ) ^ 2 / (2 * (2 * γ ^ 2)) by field_simp]
  ring

/-- A concrete case: index 3/2, skewness -1/2. -/
example (mode : ℝ → ℝ → Except PyErr Fl) : ∃ X : ℝ × ℝ → ℝ, Measurable X ∧
    frailSpace.map X = volume.withDensity
      (fun x => ENNReal.ofReal (Spec.stableDensityAt (3 / 2) (-(1 / 2)) 2 (Spec.stableLoc (3 / 2) (-(1 / 2)) 2 5 1) x)) ∧
    ∀ (n : ℕ) (ca v w : Fin n → ℝ), (∀ i, v i ∈ Ioo (0 : ℝ) 1) → (∀ i, 0 < w i) →
      stableRvs mode (3 / 2) (-(1 / 2)) (.fin 2) (.fin 5) 1 ca v w = .ok fun i => .fin (X (v i, w i)) :=
  stable_rvs_density (by norm_num) (by norm_num) (by norm_num) (by norm_num [abs_of_pos]) (Or.inl (by norm_num [abs_of_pos]))
    (by norm_num) 1 (Or.inr rfl) mode

end Copulae
