import Verif.Lemmas.StablePdf

/-!
The root searches of `aux_f1` succeed, and the integral it computes is close to the one in the density.
-/

namespace Copulae

open MeasureTheory Set Real Topology

/-- Where the code takes the function in the exponent to be zero, for an index above one. -/
noncomputable def cutAngle : ℝ := pyPI2 - 14 / 10 ^ 15

/-- The values of the function in the exponent at the upper end are on the other side of one than those at the lower
end. -/
def UpperOk (α t y : ℝ) : Prop :=
  if 1 < α then Spec.stableV α t y cutAngle < 1 else 1 < Spec.stableV α t y pyPI2

section
variable {α t y : ℝ} (ok : AngleOk α t) (hy : 0 < y) (ht : |t| < pyPI2 - 1 / 10 ^ 8)

include ht in
theorem abs_lt_pi : |t| < π / 2 := by linarith [pyPI2_lt]

include ok ht in
/-- The angles at which the code computes the function in the exponent. -/
theorem uncut_iff {θ : ℝ} (h1 : -t ≤ θ) (h2 : θ ≤ pyPI2) :
    14 / 10 ^ 15 < |pyPI2 - SignType.sign (α - 1) * θ| ↔ ¬ (1 < α ∧ cutAngle ≤ θ) := by
  have := abs_lt.mp ht
  rcases lt_or_gt_of_ne ok.ne with h | h
  · have e : ((SignType.sign (α - 1) : SignType) : ℝ) = -1 := by rw [sign_neg (by linarith)]; simp
    rw [e, show pyPI2 - -1 * θ = pyPI2 + θ by ring, abs_of_pos (by linarith)]
    exact ⟨fun _ h' => by linarith [h'.1], fun _ => by linarith⟩
  · have e : ((SignType.sign (α - 1) : SignType) : ℝ) = 1 := by rw [sign_pos (by linarith)]; simp
    rw [e, one_mul, abs_of_nonneg (by linarith), cutAngle]
    constructor
    · intro h1 h2
      linarith [h2.2]
    · intro h1
      by_contra h2
      exact h1 ⟨h, by linarith⟩

include ok hy ht in
theorem stableG1_start' : stableG1 α (.fin y) t (-t) = if 1 < α then .pinf else .fin 0 := by
  have := abs_lt.mp ht
  refine stableG1_start ok hy (abs_lt_pi ht) ((uncut_iff ok ht le_rfl (by linarith)).mpr ?_)
  rintro ⟨-, h⟩
  rw [cutAngle] at h
  linarith

include ok hy ht in
theorem stableG1_mid {θ : ℝ} (h1 : -t < θ) (h2 : θ ≤ pyPI2) :
    stableG1 α (.fin y) t θ =
      .fin (if 1 < α ∧ cutAngle ≤ θ then 0 else Spec.stableV α t y θ) := by
  by_cases h : 1 < α ∧ cutAngle ≤ θ
  · rw [if_pos h, stableG1_cut h.1]
    have := h.2
    rw [cutAngle] at this
    rw [abs_of_nonneg (by linarith)]
    linarith
  · rw [if_neg h]
    exact stableG1_fin ok hy h1 (by linarith [pyPI2_lt]) ((uncut_iff ok ht h1.le h2).mpr h)

include ok hy ht in
theorem stableG1_nonneg {θ : ℝ} (h : θ ∈ Icc (-t) pyPI2) : NonNegFl (stableG1 α (.fin y) t θ) := by
  rcases eq_or_lt_of_le h.1 with h1 | h1
  · rw [← h1, stableG1_start' ok hy ht]
    split_ifs
    · exact Or.inl rfl
    · exact Or.inr ⟨0, rfl, le_rfl⟩
  · rw [stableG1_mid ok hy ht h1 h.2]
    refine Or.inr ⟨_, rfl, ?_⟩
    split_ifs
    · exact le_rfl
    · exact (stableV_pos ok h1 (by linarith [pyPI2_lt, h.2]) hy).le

include ok hy ht in
/-- Around every angle where the function is not one it stays on the same side of one. -/
theorem stableG1_loc (hu : UpperOk α t y) {r : ℝ} (hr : r ∈ Icc (-t) pyPI2) :
    stableG1 α (.fin y) t r = .fin 1 ∨ ∃ ε > 0,
      (∀ θ ∈ Icc (-t) pyPI2, |θ - r| < ε → stableG1 α (.fin y) t θ < .fin 1) ∨
      ∀ θ ∈ Icc (-t) pyPI2, |θ - r| < ε → .fin 1 < stableG1 α (.fin y) t θ := by
  have hta := abs_lt.mp ht
  have hcut : cutAngle = pyPI2 - 14 / 10 ^ 15 := rfl
  have hpi := pyPI2_lt
  rcases eq_or_lt_of_le hr.1 with h1 | h1
  · right
    obtain ⟨ε, hε, h⟩ := stableV_near_start ok hy (abs_lt_pi ht)
    refine ⟨min ε (1 / 10 ^ 9), lt_min hε (by norm_num), ?_⟩
    by_cases ha : 1 < α
    · right
      intro θ hθ hd
      rcases eq_or_lt_of_le hθ.1 with h2 | h2
      · rw [← h2, stableG1_start' ok hy ht, if_pos ha]
        trivial
      · rw [← h1, abs_of_pos (by linarith)] at hd
        have h3 := (h θ h2 (by linarith [min_le_left ε (1 / 10 ^ 9)])).2
        rw [if_pos ha] at h3
        rw [stableG1_mid ok hy ht h2 hθ.2, if_neg]
        · exact h3
        · rintro ⟨-, h4⟩
          have := min_le_right ε (1 / 10 ^ 9)
          norm_num at *
          linarith
    · left
      intro θ hθ hd
      rcases eq_or_lt_of_le hθ.1 with h2 | h2
      · rw [← h2, stableG1_start' ok hy ht, if_neg ha]
        exact zero_lt_one (α := ℝ)
      · rw [← h1, abs_of_pos (by linarith)] at hd
        have h3 := (h θ h2 (by linarith [min_le_left ε (1 / 10 ^ 9)])).2
        rw [if_neg ha] at h3
        rw [stableG1_mid ok hy ht h2 hθ.2, if_neg (fun h => ha h.1)]
        exact h3
  · have hc := stableV_continuousAt ok hy h1 (by linarith [hr.2])
    by_cases ha : 1 < α
    · rw [UpperOk, if_pos ha] at hu
      rcases lt_trichotomy r cutAngle with h2 | h2 | h2
      · rcases lt_trichotomy (Spec.stableV α t y r) 1 with h3 | h3 | h3
        · right
          obtain ⟨ε, hε, h⟩ := Metric.eventually_nhds_iff.mp (hc.eventually_lt continuousAt_const h3)
          refine ⟨min ε (r + t), lt_min hε (by linarith), Or.inl fun θ hθ hd => ?_⟩
          have h4 : -t < θ := by
            have := abs_lt.mp hd
            linarith [min_le_right ε (r + t)]
          rw [stableG1_mid ok hy ht h4 hθ.2]
          split_ifs
          · exact zero_lt_one (α := ℝ)
          · exact h (lt_of_lt_of_le hd (min_le_left _ _))
        · left
          rw [stableG1_mid ok hy ht h1 hr.2, if_neg (fun h => by linarith [h.2]), h3]
        · right
          obtain ⟨ε, hε, h⟩ := Metric.eventually_nhds_iff.mp (continuousAt_const.eventually_lt hc h3)
          refine ⟨min ε (min (r + t) (cutAngle - r)), lt_min hε (lt_min (by linarith) (by linarith)),
            Or.inr fun θ hθ hd => ?_⟩
          have h5 := abs_lt.mp hd
          have h4 : -t < θ := by
            linarith [(min_le_right ε (min (r + t) (cutAngle - r))).trans (min_le_left _ _)]
          rw [stableG1_mid ok hy ht h4 hθ.2, if_neg]
          · exact h (lt_of_lt_of_le hd (min_le_left _ _))
          · rintro ⟨-, h6⟩
            linarith [(min_le_right ε (min (r + t) (cutAngle - r))).trans (min_le_right _ _)]
      · right
        rw [← h2] at hu
        obtain ⟨ε, hε, h⟩ := Metric.eventually_nhds_iff.mp (hc.eventually_lt continuousAt_const hu)
        refine ⟨min ε (r + t), lt_min hε (by linarith), Or.inl fun θ hθ hd => ?_⟩
        have h4 : -t < θ := by
          have := abs_lt.mp hd
          linarith [min_le_right ε (r + t)]
        rw [stableG1_mid ok hy ht h4 hθ.2]
        split_ifs
        · exact zero_lt_one (α := ℝ)
        · exact h (lt_of_lt_of_le hd (min_le_left _ _))
      · right
        refine ⟨r - cutAngle, by linarith, Or.inl fun θ hθ hd => ?_⟩
        have h5 := abs_lt.mp hd
        rw [stableG1_mid ok hy ht (by linarith) hθ.2, if_pos ⟨ha, by linarith⟩]
        exact zero_lt_one (α := ℝ)
    · rcases lt_trichotomy (Spec.stableV α t y r) 1 with h3 | h3 | h3
      · right
        obtain ⟨ε, hε, h⟩ := Metric.eventually_nhds_iff.mp (hc.eventually_lt continuousAt_const h3)
        refine ⟨min ε (r + t), lt_min hε (by linarith), Or.inl fun θ hθ hd => ?_⟩
        have h4 : -t < θ := by
          have := abs_lt.mp hd
          linarith [min_le_right ε (r + t)]
        rw [stableG1_mid ok hy ht h4 hθ.2, if_neg (fun h => ha h.1)]
        exact h (lt_of_lt_of_le hd (min_le_left _ _))
      · left
        rw [stableG1_mid ok hy ht h1 hr.2, if_neg (fun h => ha h.1), h3]
      · right
        obtain ⟨ε, hε, h⟩ := Metric.eventually_nhds_iff.mp (continuousAt_const.eventually_lt hc h3)
        refine ⟨min ε (r + t), lt_min hε (by linarith), Or.inr fun θ hθ hd => ?_⟩
        have h4 : -t < θ := by
          have := abs_lt.mp hd
          linarith [min_le_right ε (r + t)]
        rw [stableG1_mid ok hy ht h4 hθ.2, if_neg (fun h => ha h.1)]
        exact h (lt_of_lt_of_le hd (min_le_left _ _))

include ok hy ht in
theorem stableG1_upper (hu : UpperOk α t y) :
    if 1 < α then stableG1 α (.fin y) t pyPI2 = .fin 0 else .fin 1 < stableG1 α (.fin y) t pyPI2 := by
  have hta := abs_lt.mp ht
  have hcut : cutAngle = pyPI2 - 14 / 10 ^ 15 := rfl
  rw [stableG1_mid ok hy ht (by linarith) le_rfl]
  split_ifs with h h' h'
  · rfl
  · exact absurd ⟨h, by norm_num at *; linarith⟩ h'
  · exact absurd h'.1 h
  · rw [UpperOk, if_neg h] at hu
    exact hu

include ok hy ht in
/-- The root searches on an interval that ends at the upper end succeed, if it starts at the lower end or where the
function is below one, for an index below one. -/
theorem stable_crosses (hu : UpperOk α t y) {ll : ℝ} (hll : -t ≤ ll) (hll' : ll ≤ pyPI2)
    (hs : if 1 < α then ll = -t else stableG1 α (.fin y) t ll < .fin 1) :
    CrossesOne (stableG1 α (.fin y) t) ll pyPI2 := by
  have hup := stableG1_upper ok hy ht hu
  refine ⟨hll', fun θ hθ => stableG1_nonneg ok hy ht ⟨hll.trans hθ.1, hθ.2⟩, ?_, fun r hr => ?_⟩
  · by_cases ha : 1 < α
    · rw [if_pos ha] at hs hup
      rw [hs, stableG1_start' ok hy ht, if_pos ha, hup]
      exact Or.inr ⟨trivial, zero_lt_one (α := ℝ)⟩
    · rw [if_neg ha] at hs hup
      exact Or.inl ⟨hs, hup⟩
  · rcases stableG1_loc ok hy ht hu ⟨hll.trans hr.1, hr.2⟩ with h | ⟨ε, hε, h | h⟩
    · exact Or.inl h
    · exact Or.inr ⟨ε, hε, Or.inl fun θ hθ => h θ ⟨hll.trans hθ.1, hθ.2⟩⟩
    · exact Or.inr ⟨ε, hε, Or.inr fun θ hθ => h θ ⟨hll.trans hθ.1, hθ.2⟩⟩

/-! ## The integral -/

/-- The integrand of the code. -/
noncomputable def g2Fun (α y t θ : ℝ) : ℝ :=
  if (1 < α ∧ cutAngle ≤ θ) ∨ largeExpPow < Spec.stableV α t y θ then 0
  else Spec.stableV α t y θ * exp (-Spec.stableV α t y θ)

theorem measurable_g2Fun : Measurable (g2Fun α y t) := by
  have hV := measurable_stableV' (α := α) (t := t) y
  unfold g2Fun
  refine Measurable.ite ?_ measurable_const (hV.mul (measurable_exp.comp hV.neg))
  refine MeasurableSet.union (MeasurableSet.inter (MeasurableSet.const _) measurableSet_Ici) ?_
  exact measurableSet_lt measurable_const hV

include ok hy ht in
theorem g2Real_eq {θ : ℝ} (h1 : -t < θ) (h2 : θ ≤ pyPI2) : g2Real α y t θ = g2Fun α y t θ := by
  have h3 := (stableG2_eq (stableG1_nonneg ok hy ht ⟨h1.le, h2⟩)).1
  rw [stableG2, stableG1_mid ok hy ht h1 h2] at h3
  rw [← Fl.fin_inj, ← h3, g2Fun, xexp]
  by_cases hc : 1 < α ∧ cutAngle ≤ θ
  · rw [if_pos hc, if_pos (Or.inl hc), if_neg]
    · simp
    · rw [Fl.fin_lt_fin, largeExpPow]; norm_num
  · rw [if_neg hc]
    by_cases hl : largeExpPow < Spec.stableV α t y θ
    · rw [if_pos (show Fl.fin largeExpPow < .fin _ from hl), if_pos (Or.inr hl)]
    · rw [if_neg (show ¬ Fl.fin largeExpPow < .fin _ from hl), if_neg (by tauto)]
      rfl

include ok hy in
theorem g2Fun_bounds {θ : ℝ} (h1 : -t < θ) (h2 : θ < π / 2) : 0 ≤ g2Fun α y t θ ∧ g2Fun α y t θ ≤ 1 := by
  have := stableV_pos ok h1 h2 hy
  rw [g2Fun]
  split_ifs
  · exact ⟨le_rfl, zero_le_one⟩
  · exact ⟨by positivity, mul_exp_neg_le _⟩

include ok hy ht in
theorem g2Fun_integrable : IntervalIntegrable (g2Fun α y t) volume (-t) pyPI2 := by
  have hta := abs_lt.mp ht
  rw [intervalIntegrable_iff_integrableOn_Ioc_of_le (by linarith)]
  refine Measure.integrableOn_of_bounded (M := 1) (by simp) measurable_g2Fun.aestronglyMeasurable ?_
  refine (ae_restrict_iff' measurableSet_Ioc).mpr (Filter.Eventually.of_forall fun θ hθ => ?_)
  have := g2Fun_bounds ok hy hθ.1 (by linarith [hθ.2, pyPI2_lt])
  rw [norm_of_nonneg this.1]
  exact this.2

include ok hy ht in
theorem g2Real_integrable : IntervalIntegrable (g2Real α y t) volume (-t) pyPI2 := by
  have hta := abs_lt.mp ht
  refine (g2Fun_integrable ok hy ht).congr fun θ hθ => ?_
  rw [uIoc_of_le (by linarith)] at hθ
  exact (g2Real_eq ok hy ht hθ.1 hθ.2).symm

include ok hy ht in
theorem g2Real_integral : ∫ θ in (-t)..pyPI2, g2Real α y t θ = ∫ θ in (-t)..pyPI2, g2Fun α y t θ := by
  have hta := abs_lt.mp ht
  refine intervalIntegral.integral_congr_ae (Filter.Eventually.of_forall fun θ hθ => ?_)
  rw [uIoc_of_le (by linarith)] at hθ
  exact g2Real_eq ok hy ht hθ.1 hθ.2

theorem xexp_tail {v : ℝ} (h : largeExpPow < v) : v * exp (-v) ≤ 1 / 10 ^ 100 := by
  have h1 : v * exp (-v) = v / 2 * exp (-(v / 2)) * (2 * exp (-(v / 2))) := by
    rw [show -v = -(v / 2) + -(v / 2) by ring, exp_add]
    ring
  have h2 : exp (-(v / 2)) ≤ exp (-250) := by
    rw [largeExpPow] at h
    exact exp_le_exp.mpr (by norm_num at *; linarith)
  have h3 : exp (-250 : ℝ) ≤ 1 / (2 * 10 ^ 100) := by
    rw [exp_neg, ← one_div]
    refine one_div_le_one_div_of_le (by positivity) ?_
    have : exp (250 : ℝ) = exp 1 ^ 250 := by rw [← exp_nat_mul]; norm_num
    rw [this]
    refine le_trans ?_ (pow_le_pow_left₀ (by norm_num) (show (2.7 : ℝ) ≤ exp 1 by linarith [exp_one_gt_d9]) 250)
    norm_num
  have h4 := mul_exp_neg_le (v / 2)
  have h5 : 0 < exp (-(v / 2)) := exp_pos _
  rw [h1]
  calc v / 2 * exp (-(v / 2)) * (2 * exp (-(v / 2))) ≤ 1 * (2 * (1 / (2 * 10 ^ 100))) :=
        mul_le_mul h4 (by linarith) (by positivity) zero_le_one
    _ = 1 / 10 ^ 100 := by norm_num

/-- The error bound of the integral. -/
noncomputable def integralErr (α : ℝ) : ℝ := if 1 < α then 15 / 10 ^ 15 else 7 / 10 ^ 17

include ok hy ht in
/-- The integral computed by the code is close to that of the density. -/
theorem g2Fun_close :
    |(∫ θ in (-t)..pyPI2, g2Fun α y t θ) -
      ∫ θ in (-t)..(π / 2), Spec.stableV α t y θ * exp (-Spec.stableV α t y θ)| ≤ integralErr α := by
  have hta := abs_lt.mp ht
  have hpi := pyPI2_lt
  have hpi' := pi_lt_pyPI2
  have hcut : cutAngle = pyPI2 - 14 / 10 ^ 15 := rfl
  have hI := stable_integrable ok hy
  have hG := g2Fun_integrable ok hy ht
  have sub : ∀ a ∈ Icc (-t) (π / 2), ∀ b ∈ Icc (-t) (π / 2),
      IntervalIntegrable (fun θ => Spec.stableV α t y θ * exp (-Spec.stableV α t y θ)) volume a b :=
    fun a ha b hb => hI.mono_set (by
      rw [uIcc_of_le (show -t ≤ π / 2 by linarith)]
      exact uIcc_subset_Icc ha hb)
  have subG : ∀ a ∈ Icc (-t) pyPI2, ∀ b ∈ Icc (-t) pyPI2, IntervalIntegrable (g2Fun α y t) volume a b :=
    fun a ha b hb => hG.mono_set (by
      rw [uIcc_of_le (show -t ≤ pyPI2 by linarith)]
      exact uIcc_subset_Icc ha hb)
  have m0 : -t ∈ Icc (-t) pyPI2 := ⟨le_rfl, by linarith⟩
  have m1 : cutAngle ∈ Icc (-t) pyPI2 := ⟨by norm_num at *; linarith, by norm_num at *; linarith⟩
  have m2 : pyPI2 ∈ Icc (-t) pyPI2 := ⟨by linarith, le_rfl⟩
  have up : ∀ {x}, x ∈ Icc (-t) pyPI2 → x ∈ Icc (-t) (π / 2) := fun hx => ⟨hx.1, hx.2.trans hpi.le⟩
  have m3 : π / 2 ∈ Icc (-t) (π / 2) := ⟨by linarith, le_rfl⟩
  have hV : ∀ θ, -t < θ → θ < π / 2 → 0 ≤ Spec.stableV α t y θ * exp (-Spec.stableV α t y θ) ∧
      Spec.stableV α t y θ * exp (-Spec.stableV α t y θ) ≤ 1 := fun θ h1 h2 =>
    ⟨by have := stableV_pos ok h1 h2 hy; positivity, mul_exp_neg_le _⟩
  obtain ⟨W, hW⟩ : ∃ W, W = fun θ => Spec.stableV α t y θ * exp (-Spec.stableV α t y θ) := ⟨_, rfl⟩
  have hW' : ∀ θ, Spec.stableV α t y θ * exp (-Spec.stableV α t y θ) = W θ := fun θ => by rw [hW]
  simp only [hW'] at hV sub ⊢
  have small : ∀ θ, -t < θ → θ ≤ pyPI2 → ¬ (1 < α ∧ cutAngle ≤ θ) → ‖g2Fun α y t θ - W θ‖ ≤ 1 / 10 ^ 100 := by
    intro θ h1 h2 h3
    have hVt := hV θ h1 (by linarith)
    rw [g2Fun, hW', Real.norm_eq_abs]
    by_cases hl : largeExpPow < Spec.stableV α t y θ
    · rw [if_pos (Or.inr hl), zero_sub, abs_neg, abs_of_nonneg hVt.1, ← hW']
      exact xexp_tail hl
    · rw [if_neg (by tauto), sub_self, abs_zero]
      positivity
  have p3 : ‖∫ θ in pyPI2..(π / 2), W θ‖ ≤ 1 * |π / 2 - pyPI2| := by
    refine intervalIntegral.norm_integral_le_of_norm_le_const_ae ?_
    filter_upwards [Measure.ae_ne volume (π / 2)] with θ hne hθ
    rw [uIoc_of_le hpi.le] at hθ
    have := hV θ (by linarith [hθ.1]) (lt_of_le_of_ne hθ.2 hne)
    rw [norm_of_nonneg this.1]
    exact this.2
  rw [abs_of_pos (by linarith), Real.norm_eq_abs] at p3
  have d3 := intervalIntegral.integral_add_adjacent_intervals (sub _ (up m0) _ (up m2)) (sub _ (up m2) _ m3)
  by_cases ha : 1 < α
  · rw [integralErr, if_pos ha]
    have p1 : ‖∫ θ in (-t)..cutAngle, (g2Fun α y t θ - W θ)‖ ≤ 1 / 10 ^ 100 * |cutAngle - -t| := by
      refine intervalIntegral.norm_integral_le_of_norm_le_const_ae ?_
      filter_upwards [Measure.ae_ne volume cutAngle] with θ hne hθ
      rw [uIoc_of_le m1.1] at hθ
      exact small θ hθ.1 (hθ.2.trans m1.2) fun h => hne (le_antisymm hθ.2 h.2)
    have p2 : ‖∫ θ in cutAngle..pyPI2, (g2Fun α y t θ - W θ)‖ ≤ 1 * |pyPI2 - cutAngle| := by
      refine intervalIntegral.norm_integral_le_of_norm_le_const fun θ hθ => ?_
      rw [uIoc_of_le m1.2] at hθ
      have := hV θ (by linarith [m1.1, hθ.1]) (by linarith [hθ.2])
      rw [g2Fun, if_pos (Or.inl ⟨ha, hθ.1.le⟩), zero_sub, norm_neg, norm_of_nonneg this.1]
      exact this.2
    rw [intervalIntegral.integral_sub (subG _ m0 _ m1) (sub _ (up m0) _ (up m1)), abs_of_nonneg (by linarith [m1.1]),
      Real.norm_eq_abs] at p1
    rw [intervalIntegral.integral_sub (subG _ m1 _ m2) (sub _ (up m1) _ (up m2)), abs_of_nonneg (by linarith [m1.2]),
      Real.norm_eq_abs] at p2
    rw [← d3, ← intervalIntegral.integral_add_adjacent_intervals (subG _ m0 _ m1) (subG _ m1 _ m2),
      ← intervalIntegral.integral_add_adjacent_intervals (sub _ (up m0) _ (up m1)) (sub _ (up m1) _ (up m2))]
    have b1 : 1 / 10 ^ 100 * (cutAngle - -t) ≤ 1 / 10 ^ 50 := by
      have : cutAngle - -t ≤ 4 := by
        have := pi_lt_four
        linarith [m1.2]
      calc 1 / 10 ^ 100 * (cutAngle - -t) ≤ 1 / 10 ^ 100 * 4 := by gcongr
        _ ≤ 1 / 10 ^ 50 := by norm_num
    rw [abs_le] at p1 p2 p3 ⊢
    norm_num at *
    constructor <;> linarith [p1.1, p1.2, p2.1, p2.2, p3.1, p3.2]
  · rw [integralErr, if_neg ha]
    have p1 : ‖∫ θ in (-t)..pyPI2, (g2Fun α y t θ - W θ)‖ ≤ 1 / 10 ^ 100 * |pyPI2 - -t| := by
      refine intervalIntegral.norm_integral_le_of_norm_le_const fun θ hθ => ?_
      rw [uIoc_of_le m2.1] at hθ
      exact small θ hθ.1 hθ.2 fun h => ha h.1
    rw [intervalIntegral.integral_sub (subG _ m0 _ m2) (sub _ (up m0) _ (up m2)), abs_of_nonneg (by linarith [m2.1]),
      Real.norm_eq_abs] at p1
    rw [← d3]
    have b1 : 1 / 10 ^ 100 * (pyPI2 - -t) ≤ 1 / 10 ^ 50 := by
      have : pyPI2 - -t ≤ 4 := by
        have := pi_lt_four
        linarith
      calc 1 / 10 ^ 100 * (pyPI2 - -t) ≤ 1 / 10 ^ 100 * 4 := by gcongr
        _ ≤ 1 / 10 ^ 50 := by norm_num
    rw [abs_le] at p1 p3 ⊢
    norm_num at *
    constructor <;> linarith [p1.1, p1.2, p3.1, p3.2]

include ok hy ht in
/-- It is positive. -/
theorem g2Fun_pos {θ : ℝ} (h1 : θ ∈ Icc (-t) pyPI2) (h2 : stableG1 α (.fin y) t θ = .fin 1) :
    0 < ∫ θ in (-t)..pyPI2, g2Fun α y t θ := by
  have hta := abs_lt.mp ht
  have hpi := pyPI2_lt
  have h3 : -t < θ := by
    refine lt_of_le_of_ne h1.1 fun e => ?_
    rw [← e, stableG1_start' ok hy ht] at h2
    split_ifs at h2
    · simp at h2
  rw [stableG1_mid ok hy ht h3 h1.2, Fl.fin_inj] at h2
  have h4 : ¬ (1 < α ∧ cutAngle ≤ θ) := fun h => by
    rw [if_pos h] at h2
    exact zero_ne_one h2
  rw [if_neg h4] at h2
  obtain ⟨ε, hε, h⟩ := Metric.eventually_nhds_iff.mp
    ((stableV_continuousAt ok hy h3 (by linarith [h1.2])).eventually_lt continuousAt_const
      (show Spec.stableV α t y θ < 2 by rw [h2]; norm_num))
  rw [intervalIntegral.integral_pos_iff_support_of_nonneg_ae']
  · refine ⟨by linarith, lt_of_lt_of_le ?_ (measure_mono (s := Ioo (max (-t) (θ - ε)) θ) fun x hx => ?_)⟩
    · rw [Real.volume_Ioo, ENNReal.ofReal_pos, sub_pos]
      exact max_lt h3 (by linarith)
    · have hx1 : -t < x := lt_of_le_of_lt (le_max_left _ _) hx.1
      have hx2 : θ - ε < x := lt_of_le_of_lt (le_max_right _ _) hx.1
      refine ⟨?_, hx1, by linarith [hx.2, h1.2]⟩
      have hlt := h (show dist x θ < ε by rw [Real.dist_eq, abs_sub_comm, abs_of_pos (by linarith [hx.2])]; linarith)
      have hp := stableV_pos ok hx1 (by linarith [hx.2, h1.2]) hy
      rw [Function.mem_support, g2Fun, if_neg]
      · positivity
      · rintro (h5 | h5)
        · exact h4 ⟨h5.1, by linarith [h5.2, hx.2]⟩
        · rw [largeExpPow] at h5
          norm_num at *
          linarith
  · rw [uIoc_of_le (by linarith)]
    refine (ae_restrict_iff' measurableSet_Ioc).mpr (Filter.Eventually.of_forall fun x hx => ?_)
    exact (g2Fun_bounds ok hy hx.1 (by linarith [hx.2])).1
  · exact g2Fun_integrable ok hy ht

end

end Copulae
