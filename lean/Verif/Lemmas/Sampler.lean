import Mathlib.MeasureTheory.Integral.DivergenceTheorem
import Mathlib.MeasureTheory.Measure.Prod
import Mathlib.MeasureTheory.Measure.Lebesgue.Basic
import Mathlib.Analysis.SpecialFunctions.Pow.Deriv
import Mathlib.MeasureTheory.Function.SpecialFunctions.Basic

/-!
Conditional inversion: the distribution of a pair built from two independent uniforms.
-/

namespace Copulae

open MeasureTheory Set

/-- If the section `{w | V (u, w) ≤ b}` has length `D u`, the derivative of `F`, the pair `(u, V)` has
distribution function `F` at `(a, b)`. -/
theorem pair_distribution {V : ℝ × ℝ → ℝ} (hV : Measurable V) {a b : ℝ} (ha : 0 ≤ a) (ha1 : a ≤ 1)
    {D F : ℝ → ℝ}
    (hsec : ∀ u ∈ Ioo (0 : ℝ) 1, volume {w | w ∈ Ioo (0 : ℝ) 1 ∧ V (u, w) ≤ b} = ENNReal.ofReal (D u))
    (hD : Measurable D) (hD0 : ∀ u ∈ Ioo (0 : ℝ) 1, 0 ≤ D u ∧ D u ≤ 1)
    (hF0 : F 0 = 0) (hF : ContinuousOn F (Icc 0 a)) {s : Set ℝ} (hs : s.Countable)
    (hFD : ∀ u ∈ Ioo 0 a \ s, HasDerivAt F (D u) u) :
    volume {p : ℝ × ℝ | p.1 ∈ Ioo (0 : ℝ) 1 ∧ p.2 ∈ Ioo (0 : ℝ) 1 ∧ p.1 ≤ a ∧ V p ≤ b}
      = ENNReal.ofReal (F a) := by
  set S := {p : ℝ × ℝ | p.1 ∈ Ioo (0 : ℝ) 1 ∧ p.2 ∈ Ioo (0 : ℝ) 1 ∧ p.1 ≤ a ∧ V p ≤ b} with hSdef
  have hS : MeasurableSet S := by
    refine ((measurable_fst measurableSet_Ioo)).inter ((measurable_snd measurableSet_Ioo).inter
      ((measurable_fst measurableSet_Iic).inter (hV measurableSet_Iic)))
  set A := Ioo (0 : ℝ) 1 ∩ Iic a with hA
  have hAm : MeasurableSet A := measurableSet_Ioo.inter measurableSet_Iic
  have hAe : A =ᵐ[volume] Ioc 0 a := by
    rcases ha1.eq_or_lt with h | h
    · have : A = Ioo 0 a := by
        rw [hA, h]
        ext u
        simp only [mem_inter_iff, mem_Ioo, mem_Iic]
        constructor
        · rintro ⟨h1, -⟩; exact h1
        · intro h1; exact ⟨h1, h1.2.le⟩
      rw [this]
      exact Ioo_ae_eq_Ioc
    · have : A = Ioc 0 a := by
        rw [hA]
        ext u
        simp only [mem_inter_iff, mem_Ioo, mem_Iic, mem_Ioc]
        constructor
        · rintro ⟨h1, h2⟩; exact ⟨h1.1, h2⟩
        · rintro ⟨h1, h2⟩; exact ⟨⟨h1, by linarith⟩, h2⟩
      exact Filter.EventuallyEq.of_eq this
  have hsecS : ∀ u, volume (Prod.mk u ⁻¹' S) = A.indicator (fun u => ENNReal.ofReal (D u)) u := by
    intro u
    by_cases hu : u ∈ A
    · rw [indicator_of_mem hu, ← hsec u hu.1]
      congr 1
      ext w
      simp only [hSdef, mem_preimage, mem_ofPred_eq]
      exact ⟨fun h => ⟨h.2.1, h.2.2.2⟩, fun h => ⟨hu.1, h.1, hu.2, h.2⟩⟩
    · rw [indicator_of_notMem hu]
      have : Prod.mk u ⁻¹' S = ∅ := by
        ext w
        simp only [hSdef, mem_preimage, mem_ofPred_eq, mem_empty_iff_false, iff_false]
        rintro ⟨h1, -, h2, -⟩
        exact hu ⟨h1, h2⟩
      rw [this, measure_empty]
  have hint : IntegrableOn D (Ioc 0 a) := by
    refine (IntegrableOn.congr_set_ae ?_ hAe.symm)
    refine Measure.integrableOn_of_bounded (M := 1) ?_ hD.aestronglyMeasurable ?_
    · refine ne_top_of_le_ne_top ?_ (measure_mono (inter_subset_left : A ⊆ Ioo 0 1))
      simp
    · refine (ae_restrict_iff' hAm).mpr (Filter.Eventually.of_forall fun u hu => ?_)
      rw [Real.norm_eq_abs, abs_of_nonneg (hD0 u hu.1).1]
      exact (hD0 u hu.1).2
  rw [Measure.volume_eq_prod, Measure.prod_apply hS]
  simp only [hsecS]
  rw [lintegral_indicator hAm, setLIntegral_congr hAe, ← ofReal_integral_eq_lintegral_ofReal hint,
    ← intervalIntegral.integral_of_le ha]
  · congr 1
    have := integral_eq_of_hasDerivAt_off_countable_of_le F D ha hs hF hFD
      ((intervalIntegrable_iff_integrableOn_Ioc_of_le ha).mpr hint)
    rw [this, hF0, sub_zero]
  · refine (ae_restrict_congr_set hAe).mp ?_ |>.mono fun u hu => hu
    exact (ae_restrict_iff' hAm).mpr (Filter.Eventually.of_forall fun u hu => (hD0 u hu.1).1)

theorem volume_section_le {D : ℝ} (h1 : D ≤ 1) (P : ℝ → Prop)
    (hP : ∀ w ∈ Ioo (0 : ℝ) 1, P w ↔ w ≤ D) :
    volume {w | w ∈ Ioo (0 : ℝ) 1 ∧ P w} = ENNReal.ofReal D := by
  have : {w | w ∈ Ioo (0 : ℝ) 1 ∧ P w} =ᵐ[volume] Ioc 0 D := by
    rcases h1.eq_or_lt with h | h
    · have e : {w | w ∈ Ioo (0 : ℝ) 1 ∧ P w} = Ioo 0 D := by
        ext w
        simp only [mem_ofPred_eq]
        rw [h]
        constructor
        · rintro ⟨h1, -⟩; exact h1
        · intro hw; exact ⟨hw, (hP w hw).mpr (by rw [h]; exact hw.2.le)⟩
      rw [e]
      exact Ioo_ae_eq_Ioc
    · have e : {w | w ∈ Ioo (0 : ℝ) 1 ∧ P w} = Ioc 0 D := by
        ext w
        simp only [mem_ofPred_eq]
        constructor
        · rintro ⟨hw, h2⟩; exact ⟨hw.1, (hP w hw).mp h2⟩
        · rintro ⟨h2, h3⟩
          have hw : w ∈ Ioo (0 : ℝ) 1 := ⟨h2, by linarith⟩
          exact ⟨hw, (hP w hw).mpr h3⟩
      exact Filter.EventuallyEq.of_eq e
  rw [measure_congr this, Real.volume_Ioc, sub_zero]

theorem volume_section_ge {D : ℝ} (h1 : D ≤ 1) (P : ℝ → Prop)
    (hP : ∀ w ∈ Ioo (0 : ℝ) 1, P w ↔ 1 - D ≤ w) :
    volume {w | w ∈ Ioo (0 : ℝ) 1 ∧ P w} = ENNReal.ofReal D := by
  have : {w | w ∈ Ioo (0 : ℝ) 1 ∧ P w} =ᵐ[volume] Ico (1 - D) 1 := by
    rcases h1.eq_or_lt with h | h
    · have e : {w | w ∈ Ioo (0 : ℝ) 1 ∧ P w} = Ioo (1 - D) 1 := by
        ext w
        simp only [mem_ofPred_eq]
        rw [h, sub_self]
        constructor
        · rintro ⟨h1, -⟩; exact h1
        · intro hw; exact ⟨hw, (hP w hw).mpr (by rw [h, sub_self]; exact hw.1.le)⟩
      rw [e]
      exact Ioo_ae_eq_Ico
    · have e : {w | w ∈ Ioo (0 : ℝ) 1 ∧ P w} = Ico (1 - D) 1 := by
        ext w
        simp only [mem_ofPred_eq]
        constructor
        · rintro ⟨hw, h2⟩; exact ⟨(hP w hw).mp h2, hw.2⟩
        · rintro ⟨h2, h3⟩
          have hw : w ∈ Ioo (0 : ℝ) 1 := ⟨by linarith, h3⟩
          exact ⟨hw, (hP w hw).mpr h2⟩
      exact Filter.EventuallyEq.of_eq e
  rw [measure_congr this, Real.volume_Ico, sub_sub_cancel]

theorem continuousOn_of_squeeze {F : ℝ → ℝ} {a : ℝ} (h0 : F 0 = 0)
    (h : ∀ u ∈ Ioc 0 a, 0 ≤ F u ∧ F u ≤ u) (hc : ∀ u ∈ Ioc 0 a, ContinuousAt F u) :
    ContinuousOn F (Icc 0 a) := by
  intro u hu
  rcases hu.1.eq_or_lt with e | hpos
  · subst e
    rw [ContinuousWithinAt, h0]
    refine tendsto_of_tendsto_of_tendsto_of_le_of_le' tendsto_const_nhds
      (h := fun u => u) (Filter.tendsto_id.mono_left nhdsWithin_le_nhds) ?_ ?_
    · filter_upwards [self_mem_nhdsWithin] with v hv
      rcases hv.1.eq_or_lt with e | hp
      · rw [← e, h0]
      · exact (h v ⟨hp, hv.2⟩).1
    · filter_upwards [self_mem_nhdsWithin] with v hv
      rcases hv.1.eq_or_lt with e | hp
      · rw [← e, h0]
      · exact (h v ⟨hp, hv.2⟩).2
  · exact (hc u ⟨hpos, hu.2⟩).continuousWithinAt

/-! ## Clayton -/

/-- The second coordinate of a Clayton pair. -/
noncomputable def claytonV (θ : ℝ) (p : ℝ × ℝ) : ℝ :=
  (p.1 ^ (-θ) * (p.2 ^ (-θ / (θ + 1)) - 1) + 1) ^ (-1 / θ)

/-- Partial derivative of the bivariate Clayton copula with respect to its first argument. -/
noncomputable def claytonD (θ b u : ℝ) : ℝ :=
  u ^ (-θ - 1) * (max (u ^ (-θ) + b ^ (-θ) - 1) 0) ^ (-1 / θ - 1)

section clayton

variable {θ : ℝ} (h1 : -1 < θ) (h0 : θ ≠ 0)
include h1 h0

omit h1 in
theorem claytonBase_pos {u w : ℝ} (hu : u ∈ Ioo (0 : ℝ) 1) (hw : w ∈ Ioo (0 : ℝ) 1) :
    0 < u ^ (-θ) * (w ^ (-θ / (θ + 1)) - 1) + 1 := by
  have hup := Real.rpow_pos_of_pos hu.1 (-θ)
  have hwp := Real.rpow_pos_of_pos hw.1 (-θ / (θ + 1))
  rcases lt_or_gt_of_ne h0 with h | h
  · have : u ^ (-θ) < 1 := Real.rpow_lt_one hu.1.le hu.2 (by linarith)
    nlinarith
  · have : 1 < w ^ (-θ / (θ + 1)) :=
      Real.one_lt_rpow_of_pos_of_lt_one_of_neg hw.1 hw.2
        (div_neg_of_neg_of_pos (by linarith) (by linarith))
    nlinarith

theorem claytonV_mem {u w : ℝ} (hu : u ∈ Ioo (0 : ℝ) 1) (hw : w ∈ Ioo (0 : ℝ) 1) :
    claytonV θ (u, w) ∈ Ioo (0 : ℝ) 1 := by
  have hB := claytonBase_pos h0 hu hw
  have hup := Real.rpow_pos_of_pos hu.1 (-θ)
  have hwp := Real.rpow_pos_of_pos hw.1 (-θ / (θ + 1))
  refine ⟨Real.rpow_pos_of_pos hB _, ?_⟩
  unfold claytonV
  rcases lt_or_gt_of_ne h0 with h | h
  · have h2 : w ^ (-θ / (θ + 1)) < 1 :=
      Real.rpow_lt_one hw.1.le hw.2 (div_pos (by linarith) (by linarith))
    refine Real.rpow_lt_one hB.le ?_ (div_pos_of_neg_of_neg (by norm_num) h)
    simp only
    nlinarith
  · have h2 : 1 < w ^ (-θ / (θ + 1)) :=
      Real.one_lt_rpow_of_pos_of_lt_one_of_neg hw.1 hw.2
        (div_neg_of_neg_of_pos (by linarith) (by linarith))
    refine Real.rpow_lt_one_of_one_lt_of_neg ?_ (div_neg_of_neg_of_pos (by norm_num) h)
    simp only
    nlinarith

omit h1 in
theorem claytonV_rpow {u w : ℝ} (hu : u ∈ Ioo (0 : ℝ) 1) (hw : w ∈ Ioo (0 : ℝ) 1) :
    u ^ (-θ) + claytonV θ (u, w) ^ (-θ) - 1 = u ^ (-θ) * w ^ (-θ / (θ + 1)) := by
  have hB := claytonBase_pos h0 hu hw
  have : claytonV θ (u, w) ^ (-θ) = u ^ (-θ) * (w ^ (-θ / (θ + 1)) - 1) + 1 := by
    unfold claytonV
    rw [← Real.rpow_mul hB.le, show -1 / θ * -θ = 1 by field_simp, Real.rpow_one]
  rw [this]
  ring

omit h1 in
theorem claytonD_split {u w : ℝ} (hu : 0 < u) (hw : 0 < w) (h1 : θ + 1 ≠ 0) :
    (u ^ (-θ) * w ^ (-θ / (θ + 1))) ^ (-1 / θ - 1) = u ^ (θ + 1) * w := by
  rw [Real.mul_rpow (Real.rpow_nonneg hu.le _) (Real.rpow_nonneg hw.le _), ← Real.rpow_mul hu.le,
    ← Real.rpow_mul hw.le, show -θ * (-1 / θ - 1) = θ + 1 by field_simp; ring,
    show -θ / (θ + 1) * (-1 / θ - 1) = 1 by field_simp; ring, Real.rpow_one]

theorem claytonD_V {u w : ℝ} (hu : u ∈ Ioo (0 : ℝ) 1) (hw : w ∈ Ioo (0 : ℝ) 1) :
    claytonD θ (claytonV θ (u, w)) u = w := by
  have hp : 0 < u ^ (-θ) * w ^ (-θ / (θ + 1)) :=
    mul_pos (Real.rpow_pos_of_pos hu.1 _) (Real.rpow_pos_of_pos hw.1 _)
  unfold claytonD
  rw [claytonV_rpow h0 hu hw, max_eq_left hp.le, claytonD_split h0 hu.1 hw.1 (by linarith),
    ← mul_assoc, ← Real.rpow_add hu.1, show -θ - 1 + (θ + 1) = 0 by ring, Real.rpow_zero, one_mul]

theorem claytonV_le_iff {u w b : ℝ} (hu : u ∈ Ioo (0 : ℝ) 1) (hw : w ∈ Ioo (0 : ℝ) 1)
    (hb : 0 < b) (hb1 : b ≤ 1) : claytonV θ (u, w) ≤ b ↔ w ≤ claytonD θ b u := by
  have hV := claytonV_mem h1 h0 hu hw
  have hbp := Real.rpow_pos_of_pos hb (-θ)
  have hup := Real.rpow_pos_of_pos hu.1 (-θ)
  have hp : 0 < u ^ (-θ) * w ^ (-θ / (θ + 1)) :=
    mul_pos (Real.rpow_pos_of_pos hu.1 _) (Real.rpow_pos_of_pos hw.1 _)
  have key := claytonV_rpow h0 hu hw
  have hq : 0 < u ^ (θ + 1) := Real.rpow_pos_of_pos hu.1 _
  have hD : w ≤ claytonD θ b u ↔ u ^ (θ + 1) * w ≤
      (max (u ^ (-θ) + b ^ (-θ) - 1) 0) ^ (-1 / θ - 1) := by
    have : claytonD θ b u = (max (u ^ (-θ) + b ^ (-θ) - 1) 0) ^ (-1 / θ - 1) / u ^ (θ + 1) := by
      unfold claytonD
      rw [show -θ - 1 = -(θ + 1) by ring, Real.rpow_neg hu.1.le]
      field_simp
    rw [this, le_div_iff₀ hq, mul_comm]
  rw [hD, ← claytonD_split h0 hu.1 hw.1 (by linarith)]
  rcases lt_or_gt_of_ne h0 with h | h
  · have e : (0 : ℝ) < -1 / θ - 1 := by
      rw [sub_pos, lt_div_iff_of_neg h]; linarith
    rw [Real.rpow_le_rpow_iff hp.le (le_max_right _ _) e, le_max_iff, ← key,
      ← Real.rpow_le_rpow_iff hV.1.le hb.le (show 0 < -θ by linarith)]
    constructor
    · intro h; left; linarith
    · rintro (h | h)
      · linarith
      · rw [key] at h; linarith
  · have e : -1 / θ - 1 < (0 : ℝ) := by
      have : -1 / θ < 0 := div_neg_of_neg_of_pos (by norm_num) h
      linarith
    have hb2 : 1 ≤ b ^ (-θ) := Real.one_le_rpow_of_pos_of_le_one_of_nonpos hb hb1 (by linarith)
    have hS : 0 < u ^ (-θ) + b ^ (-θ) - 1 := by linarith
    rw [max_eq_left hS.le, Real.rpow_le_rpow_iff_of_neg hp hS e, ← key,
      ← Real.rpow_le_rpow_iff_of_neg hb hV.1 (show -θ < 0 by linarith)]
    constructor <;> intro h <;> linarith

theorem claytonD_mem {u b : ℝ} (hu : u ∈ Ioo (0 : ℝ) 1) (hb : 0 < b) (hb1 : b ≤ 1) :
    0 ≤ claytonD θ b u ∧ claytonD θ b u ≤ 1 := by
  have hup := Real.rpow_pos_of_pos hu.1 (-θ)
  have hq : 0 < u ^ (θ + 1) := Real.rpow_pos_of_pos hu.1 _
  refine ⟨mul_nonneg (Real.rpow_nonneg hu.1.le _) (Real.rpow_nonneg (le_max_right _ _) _), ?_⟩
  have : claytonD θ b u = (max (u ^ (-θ) + b ^ (-θ) - 1) 0) ^ (-1 / θ - 1) / u ^ (θ + 1) := by
    unfold claytonD
    rw [show -θ - 1 = -(θ + 1) by ring, Real.rpow_neg hu.1.le]
    field_simp
  rw [this, div_le_one hq]
  have hue : (u ^ (-θ)) ^ (-1 / θ - 1) = u ^ (θ + 1) := by
    rw [← Real.rpow_mul hu.1.le]
    congr 1
    field_simp
    ring
  rw [← hue]
  rcases lt_or_gt_of_ne h0 with h | h
  · have e : (0 : ℝ) < -1 / θ - 1 := by
      rw [sub_pos, lt_div_iff_of_neg h]; linarith
    have hb2 : b ^ (-θ) ≤ 1 := Real.rpow_le_one hb.le hb1 (by linarith)
    exact Real.rpow_le_rpow (le_max_right _ _) (max_le (by linarith) hup.le) e.le
  · have e : -1 / θ - 1 < (0 : ℝ) := by
      have : -1 / θ < 0 := div_neg_of_neg_of_pos (by norm_num) h
      linarith
    have hb2 : 1 ≤ b ^ (-θ) := Real.one_le_rpow_of_pos_of_le_one_of_nonpos hb hb1 (by linarith)
    refine Real.rpow_le_rpow_of_nonpos hup ?_ e.le
    exact le_max_of_le_left (by linarith)

omit h1 in
theorem clayton_hasDerivAt {u b : ℝ} (hu : 0 < u) (hS : 0 < u ^ (-θ) + b ^ (-θ) - 1) :
    HasDerivAt (fun t => (max (t ^ (-θ) + b ^ (-θ) - 1) 0) ^ (-1 / θ)) (claytonD θ b u) u := by
  have e : (fun t => (max (t ^ (-θ) + b ^ (-θ) - 1) 0) ^ (-1 / θ)) =ᶠ[nhds u]
      fun t => (t ^ (-θ) + b ^ (-θ) - 1) ^ (-1 / θ) := by
    have hc : ContinuousAt (fun t : ℝ => t ^ (-θ) + b ^ (-θ) - 1) u :=
      ((Real.continuousAt_rpow_const u (-θ) (Or.inl hu.ne')).add continuousAt_const).sub
        continuousAt_const
    filter_upwards [Filter.Tendsto.eventually_const_lt hS hc] with t ht
    rw [max_eq_left ht.le]
  refine HasDerivAt.congr_of_eventuallyEq ?_ e
  have hd : HasDerivAt (fun t : ℝ => t ^ (-θ) + b ^ (-θ) - 1) (-θ * u ^ (-θ - 1)) u :=
    ((Real.hasDerivAt_rpow_const (Or.inl hu.ne')).add_const _).sub_const _
  refine (hd.rpow_const (p := -1 / θ) (Or.inl hS.ne')).congr_deriv ?_
  unfold claytonD
  rw [max_eq_left hS.le]
  field_simp

omit h0 in
theorem clayton_hasDerivAt_zero {u b : ℝ} (h : θ < 0) (hu : 0 < u)
    (hS : u ^ (-θ) + b ^ (-θ) - 1 < 0) :
    HasDerivAt (fun t => (max (t ^ (-θ) + b ^ (-θ) - 1) 0) ^ (-1 / θ)) (claytonD θ b u) u := by
  have e1 : (0 : ℝ) < -1 / θ - 1 := by
    rw [sub_pos, lt_div_iff_of_neg h]; linarith
  have e : (fun t => (max (t ^ (-θ) + b ^ (-θ) - 1) 0) ^ (-1 / θ)) =ᶠ[nhds u] fun _ => 0 := by
    have hc : ContinuousAt (fun t : ℝ => t ^ (-θ) + b ^ (-θ) - 1) u :=
      ((Real.continuousAt_rpow_const u (-θ) (Or.inl hu.ne')).add continuousAt_const).sub
        continuousAt_const
    filter_upwards [Filter.Tendsto.eventually_lt_const hS hc] with t ht
    rw [max_eq_right ht.le, Real.zero_rpow (by linarith)]
  have : claytonD θ b u = 0 := by
    unfold claytonD
    rw [max_eq_right hS.le, Real.zero_rpow e1.ne', mul_zero]
  rw [this]
  exact (hasDerivAt_const u 0).congr_of_eventuallyEq e

theorem clayton_pair_distribution {a b : ℝ} (ha : 0 < a) (ha1 : a ≤ 1) (hb : 0 < b) (hb1 : b ≤ 1) :
    volume {p : ℝ × ℝ | p.1 ∈ Ioo (0 : ℝ) 1 ∧ p.2 ∈ Ioo (0 : ℝ) 1 ∧ p.1 ≤ a ∧ claytonV θ p ≤ b}
      = ENNReal.ofReal ((max (a ^ (-θ) + b ^ (-θ) - 1) 0) ^ (-1 / θ)) := by
  set G : ℝ → ℝ := fun t => (max (t ^ (-θ) + b ^ (-θ) - 1) 0) ^ (-1 / θ) with hG
  set F : ℝ → ℝ := fun t => if t ≤ 0 then 0 else G t with hFdef
  have hFG : ∀ u, 0 < u → F =ᶠ[nhds u] G := fun u hu => by
    filter_upwards [lt_mem_nhds hu] with t ht
    exact if_neg (not_le.mpr ht)
  have hpos : ∀ u, 0 < u → F u = G u := fun u hu => if_neg (not_le.mpr hu)
  have hGc : ∀ u, 0 < u → ContinuousAt G u := by
    intro u hu
    have hc : ContinuousAt (fun t : ℝ => max (t ^ (-θ) + b ^ (-θ) - 1) 0) u :=
      (((Real.continuousAt_rpow_const u (-θ) (Or.inl hu.ne')).add continuousAt_const).sub
        continuousAt_const).max continuousAt_const
    refine hc.rpow_const ?_
    rcases lt_or_gt_of_ne h0 with h | h
    · exact Or.inr (div_pos_of_neg_of_neg (by norm_num) h).le
    · left
      have hb2 : 1 ≤ b ^ (-θ) := Real.one_le_rpow_of_pos_of_le_one_of_nonpos hb hb1 (by linarith)
      have hup := Real.rpow_pos_of_pos hu (-θ)
      exact (lt_max_of_lt_left (by linarith)).ne'
  have hGle : ∀ u, 0 < u → 0 ≤ G u ∧ G u ≤ u := by
    intro u hu
    refine ⟨Real.rpow_nonneg (le_max_right _ _) _, ?_⟩
    have hup := Real.rpow_pos_of_pos hu (-θ)
    have hue : (u ^ (-θ)) ^ (-1 / θ) = u := by
      rw [← Real.rpow_mul hu.le, show -θ * (-1 / θ) = 1 by field_simp, Real.rpow_one]
    conv_rhs => rw [← hue]
    rcases lt_or_gt_of_ne h0 with h | h
    · have hb2 : b ^ (-θ) ≤ 1 := Real.rpow_le_one hb.le hb1 (by linarith)
      exact Real.rpow_le_rpow (le_max_right _ _) (max_le (by linarith) hup.le)
        (div_pos_of_neg_of_neg (by norm_num) h).le
    · have hb2 : 1 ≤ b ^ (-θ) := Real.one_le_rpow_of_pos_of_le_one_of_nonpos hb hb1 (by linarith)
      refine Real.rpow_le_rpow_of_nonpos hup (le_max_of_le_left (by linarith))
        (div_neg_of_neg_of_pos (by norm_num) h).le
  set s : Set ℝ := {u | 0 < u ∧ u ^ (-θ) + b ^ (-θ) - 1 = 0} with hs
  have hsc : s.Countable := by
    refine Set.Subsingleton.countable fun x hx y hy => ?_
    have : x ^ (-θ) = y ^ (-θ) := by linarith [hx.2, hy.2]
    exact (Real.rpow_left_inj hx.1.le hy.1.le (neg_ne_zero.mpr h0)).mp this
  have hmeasV : Measurable (claytonV θ) := by
    unfold claytonV
    fun_prop
  have hmeasD : Measurable (claytonD θ b) := by
    unfold claytonD
    fun_prop
  have := pair_distribution hmeasV (b := b) ha.le ha1
    (fun u hu => volume_section_le (claytonD_mem h1 h0 hu hb hb1).2 _
      fun w hw => claytonV_le_iff h1 h0 hu hw hb hb1) hmeasD
    (fun u hu => claytonD_mem h1 h0 hu hb hb1) (F := F) (if_pos le_rfl)
    (continuousOn_of_squeeze (if_pos le_rfl) (fun u hu => by rw [hpos u hu.1]; exact hGle u hu.1)
      fun u hu => (hGc u hu.1).congr (hFG u hu.1).symm) hsc
    (fun u hu => by
      refine HasDerivAt.congr_of_eventuallyEq ?_ (hFG u hu.1.1)
      have hu0 := hu.1.1
      rcases lt_trichotomy (u ^ (-θ) + b ^ (-θ) - 1) 0 with h | h | h
      · refine clayton_hasDerivAt_zero h1 ?_ hu0 h
        by_contra hθ
        have hb2 : 1 ≤ b ^ (-θ) :=
          Real.one_le_rpow_of_pos_of_le_one_of_nonpos hb hb1 (by linarith [not_lt.mp hθ])
        have hup := Real.rpow_pos_of_pos hu0 (-θ)
        linarith
      · exact absurd ⟨hu0, h⟩ hu.2
      · exact clayton_hasDerivAt h0 hu0 h)
  rw [this, hpos a ha]

end clayton

/-! ## Frank -/

/-- The variable `v` of the sampler, for a negative parameter `a`. -/
noncomputable def frankVR (a : ℝ) (p : ℝ × ℝ) : ℝ :=
  -1 / a * Real.log (1 + -p.2 * (Real.exp (-a) - 1) / (Real.exp (-a * p.1) * (p.2 - 1) - p.2))

/-- Partial derivative of the bivariate Frank copula with respect to its first argument. -/
noncomputable def frankD (θ b u : ℝ) : ℝ :=
  Real.exp (-θ * u) * (Real.exp (-θ * b) - 1) /
    (Real.exp (-θ) - 1 + (Real.exp (-θ * u) - 1) * (Real.exp (-θ * b) - 1))

/-- The bivariate Frank copula. -/
noncomputable def frankC2 (θ u b : ℝ) : ℝ :=
  -1 / θ * Real.log (1 + (Real.exp (-θ * u) - 1) * (Real.exp (-θ * b) - 1) / (Real.exp (-θ) - 1))

theorem frank_den {θ u b : ℝ} (hθ : θ ≠ 0) (hu : 0 ≤ u) (hu1 : u ≤ 1) (hb : 0 ≤ b) (hb1 : b ≤ 1) :
    0 < 1 + (Real.exp (-θ * u) - 1) * (Real.exp (-θ * b) - 1) / (Real.exp (-θ) - 1) := by
  rcases lt_or_gt_of_ne hθ with h | h
  · have hK : 0 < Real.exp (-θ) - 1 := by
      have : 1 < Real.exp (-θ) := Real.one_lt_exp_iff.mpr (by linarith)
      linarith
    have hE : 0 ≤ Real.exp (-θ * u) - 1 := by
      have : 1 ≤ Real.exp (-θ * u) := Real.one_le_exp (by nlinarith)
      linarith
    have hX : 0 ≤ Real.exp (-θ * b) - 1 := by
      have : 1 ≤ Real.exp (-θ * b) := Real.one_le_exp (by nlinarith)
      linarith
    positivity
  · have hK : Real.exp (-θ) - 1 < 0 := by
      have : Real.exp (-θ) < 1 := Real.exp_lt_one_iff.mpr (by linarith)
      linarith
    have hk := Real.exp_pos (-θ)
    have hE : Real.exp (-θ * u) ≤ 1 := Real.exp_le_one_iff.mpr (by nlinarith)
    have hE2 : Real.exp (-θ) ≤ Real.exp (-θ * u) := Real.exp_le_exp.mpr (by nlinarith)
    have hX : Real.exp (-θ * b) ≤ 1 := Real.exp_le_one_iff.mpr (by nlinarith)
    have hX2 : Real.exp (-θ) ≤ Real.exp (-θ * b) := Real.exp_le_exp.mpr (by nlinarith)
    rw [← sub_neg_eq_add, sub_pos, ← neg_div, div_lt_one_of_neg hK]
    nlinarith

theorem frankD_eq {θ u b : ℝ} (hθ : θ ≠ 0) :
    frankD θ b u = Real.exp (-θ * u) * (Real.exp (-θ * b) - 1) / (Real.exp (-θ) - 1) /
      (1 + (Real.exp (-θ * u) - 1) * (Real.exp (-θ * b) - 1) / (Real.exp (-θ) - 1)) := by
  have hK : Real.exp (-θ) - 1 ≠ 0 := by
    rw [sub_ne_zero, Ne, Real.exp_eq_one_iff]
    simpa using hθ
  unfold frankD
  rw [div_div, mul_add, mul_one, mul_div_cancel₀ _ hK]

theorem frankC2_hasDerivAt {θ u b : ℝ} (hθ : θ ≠ 0) (hu : 0 ≤ u) (hu1 : u ≤ 1) (hb : 0 ≤ b)
    (hb1 : b ≤ 1) : HasDerivAt (fun t => frankC2 θ t b) (frankD θ b u) u := by
  have hp := frank_den hθ hu hu1 hb hb1
  have h1 : HasDerivAt (fun t => Real.exp (-θ * t)) (Real.exp (-θ * u) * (-θ)) u := by
    refine HasDerivAt.exp ?_
    exact ((hasDerivAt_id u).const_mul (-θ)).congr_deriv (mul_one _)
  have h2 := (((h1.sub_const 1).mul_const (Real.exp (-θ * b) - 1)).div_const
    (Real.exp (-θ) - 1)).const_add 1
  refine ((h2.log hp.ne').const_mul (-1 / θ)).congr_deriv ?_
  rw [frankD_eq hθ]
  generalize 1 + (Real.exp (-θ * u) - 1) * (Real.exp (-θ * b) - 1) / (Real.exp (-θ) - 1) = P
  rw [← mul_div_assoc]
  congr 1
  field_simp

/-- Radial symmetry of the derivative. -/
theorem frankD_neg {θ u b : ℝ} (hθ : θ ≠ 0) (hu : 0 ≤ u) (hu1 : u ≤ 1) (hb : 0 ≤ b) (hb1 : b ≤ 1) :
    frankD (-θ) (1 - b) u = 1 - frankD θ b u := by
  have hK : Real.exp (-θ) - 1 ≠ 0 := by
    rw [sub_ne_zero, Ne, Real.exp_eq_one_iff]
    simpa using hθ
  have hd : Real.exp (-θ) - 1 + (Real.exp (-θ * u) - 1) * (Real.exp (-θ * b) - 1) ≠ 0 := by
    have := mul_ne_zero hK (frank_den hθ hu hu1 hb hb1).ne'
    rwa [mul_add, mul_one, mul_div_cancel₀ _ hK] at this
  unfold frankD
  have e1 : Real.exp (- -θ * u) = (Real.exp (-θ * u))⁻¹ := by rw [← Real.exp_neg]; congr 1; ring
  have e2 : Real.exp (- -θ * (1 - b)) = Real.exp (-θ * b) * (Real.exp (-θ))⁻¹ := by
    rw [← Real.exp_neg, ← Real.exp_add]; congr 1; ring
  have e3 : Real.exp (- -θ) = (Real.exp (-θ))⁻¹ := by rw [← Real.exp_neg]
  rw [e1, e2, e3]
  have hx := Real.exp_pos (-θ * u)
  have hk := Real.exp_pos (-θ)
  generalize Real.exp (-θ * u) = x at *
  generalize Real.exp (-θ * b) = y at *
  generalize Real.exp (-θ) = k at *
  have hd2 : k⁻¹ - 1 + (x⁻¹ - 1) * (y * k⁻¹ - 1) = -(k - 1 + (x - 1) * (y - 1)) * (k⁻¹ * x⁻¹) := by
    field_simp
    ring
  rw [hd2, eq_sub_iff_add_eq, div_add_div _ _ (mul_ne_zero (neg_ne_zero.mpr hd)
    (mul_ne_zero (inv_ne_zero hk.ne') (inv_ne_zero hx.ne'))) hd, div_eq_one_iff_eq]
  · field_simp
    ring
  · exact mul_ne_zero (mul_ne_zero (neg_ne_zero.mpr hd)
      (mul_ne_zero (inv_ne_zero hk.ne') (inv_ne_zero hx.ne'))) hd

section frank

variable {a u w : ℝ} (ha : a < 0) (hu : u ∈ Ioo (0 : ℝ) 1) (hw : w ∈ Ioo (0 : ℝ) 1)
include ha hu

theorem frank_neg_bounds : 0 < Real.exp (-a) - 1 ∧ 1 < Real.exp (-a * u) := by
  have := hu.1
  constructor
  · have : 1 < Real.exp (-a) := Real.one_lt_exp_iff.mpr (by linarith)
    linarith
  · exact Real.one_lt_exp_iff.mpr (by nlinarith)

include hw

theorem frankV_arg : -w * (Real.exp (-a) - 1) / (Real.exp (-a * u) * (w - 1) - w)
      = w * (Real.exp (-a) - 1) / (Real.exp (-a * u) * (1 - w) + w) ∧
    0 < w * (Real.exp (-a) - 1) / (Real.exp (-a * u) * (1 - w) + w) ∧
    0 < Real.exp (-a * u) * (1 - w) + w := by
  obtain ⟨hK, hE⟩ := frank_neg_bounds ha hu
  have hden : 0 < Real.exp (-a * u) * (1 - w) + w := by
    have := hw.1; have := hw.2
    have : 0 < 1 - w := by linarith
    positivity
  refine ⟨?_, div_pos (mul_pos hw.1 hK) hden, hden⟩
  rw [show Real.exp (-a * u) * (w - 1) - w = -(Real.exp (-a * u) * (1 - w) + w) by ring, neg_mul,
    neg_div_neg_eq]

theorem frankVR_cmp {b : ℝ} (hb : 0 ≤ b) :
    (frankVR a (u, w) ≤ b ↔ w ≤ frankD a b u) ∧ (b ≤ frankVR a (u, w) ↔ frankD a b u ≤ w) := by
  obtain ⟨hK, hE⟩ := frank_neg_bounds ha hu
  obtain ⟨e, hp, hden⟩ := frankV_arg ha hu hw
  have hX : 0 ≤ Real.exp (-a * b) - 1 := by
    have : 1 ≤ Real.exp (-a * b) := Real.one_le_exp (by nlinarith)
    linarith
  have hq : 0 < Real.exp (-a) - 1 + (Real.exp (-a * u) - 1) * (Real.exp (-a * b) - 1) := by
    have : 0 ≤ (Real.exp (-a * u) - 1) * (Real.exp (-a * b) - 1) := mul_nonneg (by linarith) hX
    linarith
  have hV : frankVR a (u, w) =
      Real.log (1 + w * (Real.exp (-a) - 1) / (Real.exp (-a * u) * (1 - w) + w)) / (-a) := by
    unfold frankVR
    simp only
    rw [e, neg_div, neg_mul, one_div, div_neg, ← div_eq_inv_mul]
  have hpp : 0 < 1 + w * (Real.exp (-a) - 1) / (Real.exp (-a * u) * (1 - w) + w) := by linarith
  have hna : 0 < -a := by linarith
  constructor
  · rw [hV, div_le_iff₀ hna, mul_comm b, Real.log_le_iff_le_exp hpp, ← le_sub_iff_add_le',
      div_le_iff₀ hden, frankD, le_div_iff₀ hq]
    constructor <;> intro h <;> nlinarith
  · rw [hV, le_div_iff₀ hna, mul_comm b, Real.le_log_iff_exp_le hpp, ← sub_le_iff_le_add',
      le_div_iff₀ hden, frankD, div_le_iff₀ hq]
    constructor <;> intro h <;> nlinarith

theorem frankVR_mem : frankVR a (u, w) ∈ Ioo (0 : ℝ) 1 := by
  obtain ⟨hK, hE⟩ := frank_neg_bounds ha hu
  have h0 := (frankVR_cmp ha hu hw (b := 0) le_rfl).1
  have h1 := (frankVR_cmp ha hu hw (b := 1) zero_le_one).2
  constructor
  · rw [← not_le, h0]
    simp only [frankD, mul_zero, Real.exp_zero, sub_self, mul_zero, zero_div, not_le]
    exact hw.1
  · rw [← not_le, h1, not_le]
    have : frankD a 1 u = 1 := by
      unfold frankD
      rw [mul_one, div_eq_one_iff_eq]
      · ring
      · have : 0 < (Real.exp (-a * u) - 1) * (Real.exp (-a) - 1) := mul_pos (by linarith) hK
        linarith
    rw [this]
    exact hw.2

theorem frankD_VR : frankD a (frankVR a (u, w)) u = w := by
  have h := frankVR_mem ha hu hw
  obtain ⟨h1, h2⟩ := frankVR_cmp ha hu hw h.1.le
  exact le_antisymm (h2.mp le_rfl) (h1.mp le_rfl)

end frank

/-- The second coordinate of a Frank pair. -/
noncomputable def frankPairR (θ : ℝ) (p : ℝ × ℝ) : ℝ :=
  if θ > 0 then 1 - frankVR (-θ) p else frankVR θ p

theorem frankD_mem {θ u b : ℝ} (hθ : θ ≠ 0) (hu : u ∈ Ioo (0 : ℝ) 1) (hb : 0 ≤ b) (hb1 : b ≤ 1) :
    0 ≤ frankD θ b u ∧ frankD θ b u ≤ 1 := by
  have key : ∀ {a b : ℝ}, a < 0 → 0 ≤ b → b ≤ 1 → 0 ≤ frankD a b u ∧ frankD a b u ≤ 1 := by
    intro a b ha hb hb1
    obtain ⟨hK, hE⟩ := frank_neg_bounds ha hu
    have hX : 0 ≤ Real.exp (-a * b) - 1 := by
      have : 1 ≤ Real.exp (-a * b) := Real.one_le_exp (by nlinarith)
      linarith
    have hX1 : Real.exp (-a * b) ≤ Real.exp (-a) := Real.exp_le_exp.mpr (by nlinarith)
    have hq : 0 < Real.exp (-a) - 1 + (Real.exp (-a * u) - 1) * (Real.exp (-a * b) - 1) := by
      have : 0 ≤ (Real.exp (-a * u) - 1) * (Real.exp (-a * b) - 1) := mul_nonneg (by linarith) hX
      linarith
    unfold frankD
    refine ⟨div_nonneg (mul_nonneg (Real.exp_pos _).le hX) hq.le, (div_le_one hq).mpr ?_⟩
    nlinarith
  rcases lt_or_gt_of_ne hθ with h | h
  · exact key h hb hb1
  · have e := frankD_neg hθ hu.1.le hu.2.le hb hb1
    have := key (a := -θ) (b := 1 - b) (by linarith) (by linarith) (by linarith)
    rw [e] at this
    exact ⟨by linarith, by linarith⟩

theorem frankPairR_mem {θ u w : ℝ} (hθ : θ ≠ 0) (hu : u ∈ Ioo (0 : ℝ) 1) (hw : w ∈ Ioo (0 : ℝ) 1) :
    frankPairR θ (u, w) ∈ Ioo (0 : ℝ) 1 := by
  unfold frankPairR
  rcases lt_or_gt_of_ne hθ with h | h
  · rw [if_neg (by linarith)]
    exact frankVR_mem h hu hw
  · rw [if_pos h]
    have := frankVR_mem (a := -θ) (by linarith) hu hw
    exact ⟨by linarith [this.2], by linarith [this.1]⟩

theorem frankD_pair {θ u w : ℝ} (hθ : θ ≠ 0) (hu : u ∈ Ioo (0 : ℝ) 1) (hw : w ∈ Ioo (0 : ℝ) 1) :
    frankD θ (frankPairR θ (u, w)) u = if θ > 0 then 1 - w else w := by
  have hm := frankPairR_mem hθ hu hw
  rcases lt_or_gt_of_ne hθ with h | h
  · rw [if_neg (by linarith), frankPairR, if_neg (by linarith)]
    exact frankD_VR h hu hw
  · rw [if_pos h]
    have e := frankD_neg hθ hu.1.le hu.2.le hm.1.le hm.2.le
    have h2 := frankD_VR (a := -θ) (by linarith) hu hw
    have h3 : 1 - frankPairR θ (u, w) = frankVR (-θ) (u, w) := by
      rw [frankPairR, if_pos h]; ring
    rw [h3, h2] at e
    linarith

theorem frank_pair_distribution {θ : ℝ} (hθ : θ ≠ 0) {a b : ℝ} (ha : 0 ≤ a) (ha1 : a ≤ 1)
    (hb : 0 ≤ b) (hb1 : b ≤ 1) :
    volume {p : ℝ × ℝ | p.1 ∈ Ioo (0 : ℝ) 1 ∧ p.2 ∈ Ioo (0 : ℝ) 1 ∧ p.1 ≤ a ∧ frankPairR θ p ≤ b}
      = ENNReal.ofReal (frankC2 θ a b) := by
  have hmeas : ∀ a, Measurable (frankVR a) := by
    intro a
    unfold frankVR
    fun_prop
  have hmeasV : Measurable (frankPairR θ) := by
    unfold frankPairR
    split
    · exact measurable_const.sub (hmeas _)
    · exact hmeas _
  have hmeasD : Measurable (frankD θ b) := by
    unfold frankD
    fun_prop
  refine pair_distribution hmeasV ha ha1 (fun u hu => ?_) hmeasD
    (fun u hu => frankD_mem hθ hu hb hb1) (F := fun t => frankC2 θ t b) ?_ ?_ countable_empty
    (fun u hu => frankC2_hasDerivAt hθ hu.1.1.le (by linarith [hu.1.2]) hb hb1)
  · rcases lt_or_gt_of_ne hθ with h | h
    · refine volume_section_le (frankD_mem hθ hu hb hb1).2 _ fun w hw => ?_
      rw [frankPairR, if_neg (by linarith)]
      exact (frankVR_cmp h hu hw hb).1
    · refine volume_section_ge (frankD_mem hθ hu hb hb1).2 _ fun w hw => ?_
      rw [frankPairR, if_pos h, ← frankD_neg hθ hu.1.le hu.2.le hb hb1,
        ← (frankVR_cmp (a := -θ) (by linarith) hu hw (b := 1 - b) (by linarith)).2]
      constructor <;> intro h <;> linarith
  · simp [frankC2]
  · intro u hu
    exact (frankC2_hasDerivAt hθ hu.1 (by linarith [hu.2]) hb hb1).continuousAt.continuousWithinAt

theorem claytonV_measurable (θ : ℝ) : Measurable (claytonV θ) := by
  unfold claytonV
  fun_prop

theorem frankPairR_measurable (θ : ℝ) : Measurable (frankPairR θ) := by
  have hmeas : ∀ a, Measurable (frankVR a) := by
    intro a
    unfold frankVR
    fun_prop
  unfold frankPairR
  split
  · exact measurable_const.sub (hmeas _)
  · exact hmeas _

end Copulae
