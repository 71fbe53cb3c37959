import Mathlib.Probability.CDF
import Mathlib.MeasureTheory.Constructions.Pi
import Mathlib.MeasureTheory.Measure.Lebesgue.Basic
import Mathlib.MeasureTheory.Measure.Prod
import Mathlib.MeasureTheory.Measure.WithDensity
import Mathlib.MeasureTheory.Integral.Pi
import Mathlib.Topology.Order.IntermediateValue
import Verif.Spec.IsCopula

/-!
Laws on the unit cube with uniform margins, and their densities.
-/

namespace Copulae.CopulaMeasure

open MeasureTheory Set
open scoped ENNReal

/-! ### One margin -/

/-- `F` and `q` are the distribution and the quantile function of the law `ν`, which charges every interval and
no point. -/
structure IsMargin (ν : Measure ℝ) (F q : ℝ → ℝ) : Prop where
  prob : IsProbabilityMeasure ν
  cdf : ∀ x, F x = ν.real (Iic x)
  mono : StrictMono F
  mem : ∀ x, 0 < F x ∧ F x < 1
  right : ∀ u, 0 < u → u < 1 → F (q u) = u

namespace IsMargin

variable {ν : Measure ℝ} {F q : ℝ → ℝ}

theorem left (h : IsMargin ν F q) (x : ℝ) : q (F x) = x :=
  h.mono.injective (h.right _ (h.mem x).1 (h.mem x).2)

theorem le_iff (h : IsMargin ν F q) {u : ℝ} (h0 : 0 < u) (h1 : u < 1) (x : ℝ) : F x ≤ u ↔ x ≤ q u := by
  conv_lhs => rw [← h.right u h0 h1]
  exact h.mono.le_iff_le

theorem measurable (h : IsMargin ν F q) : Measurable F := h.mono.monotone.measurable

/-- The law of `F X` is uniform. -/
theorem map_eq (h : IsMargin ν F q) : ν.map F = volume.restrict (Ioc 0 1) := by
  have := h.prob
  have : IsProbabilityMeasure (ν.map F) := Measure.isProbabilityMeasure_map h.measurable.aemeasurable
  have : IsProbabilityMeasure (volume.restrict (Ioc (0 : ℝ) 1)) := ⟨by simp⟩
  refine Measure.ext_of_Iic _ _ fun u => ?_
  rw [Measure.map_apply h.measurable measurableSet_Iic, Measure.restrict_apply measurableSet_Iic]
  rcases le_or_gt u 0 with h0 | h0
  · have e1 : F ⁻¹' Iic u = ∅ := by
      ext x; simp only [mem_preimage, mem_Iic, mem_empty_iff_false, iff_false, not_le]
      exact h0.trans_lt (h.mem x).1
    have e2 : Iic u ∩ Ioc 0 1 = ∅ := by
      ext x; simp only [mem_inter_iff, mem_Iic, mem_Ioc, mem_empty_iff_false, iff_false]
      intro hx; linarith [hx.1, hx.2.1]
    rw [e1, e2]; simp
  rcases le_or_gt 1 u with h1 | h1
  · have e1 : F ⁻¹' Iic u = univ := by
      ext x; simp only [mem_preimage, mem_Iic, mem_univ, iff_true]; exact (h.mem x).2.le.trans h1
    have e2 : Iic u ∩ Ioc 0 1 = Ioc 0 1 := inter_eq_right.mpr fun x hx => hx.2.trans h1
    rw [e1, e2]; simp
  · have e1 : F ⁻¹' Iic u = Iic (q u) := by
      ext x; exact h.le_iff h0 h1 x
    have e2 : Iic u ∩ Ioc 0 1 = Ioc 0 u := by
      ext x; simp only [mem_inter_iff, mem_Iic, mem_Ioc]
      constructor
      · intro hx; exact ⟨hx.2.1, hx.1⟩
      · intro hx; exact ⟨hx.2, hx.1, hx.2.trans h1.le⟩
    rw [e1, e2, Real.volume_Ioc, sub_zero]
    have := h.right u h0 h1
    rw [h.cdf] at this
    rw [measureReal_def] at this
    conv_rhs => rw [← this]
    rw [ENNReal.ofReal_toReal (measure_ne_top _ _)]

end IsMargin

/-- A law with a positive density has a margin function. -/
theorem exists_isMargin {ν : Measure ℝ} [IsProbabilityMeasure ν] {φ : ℝ → ℝ≥0∞}
    (hφ : ν = volume.withDensity φ) (hm : Measurable φ) (hpos : ∀ x, φ x ≠ 0) :
    ∃ q, IsMargin ν (fun x => ν.real (Iic x)) q := by
  classical
  have hatom : NullSingletonClass ν := by rw [hφ]; infer_instance
  have hmono : StrictMono fun x => ν.real (Iic x) := by
    intro a b hab
    have hd : ν.real (Iic b) = ν.real (Iic a) + ν.real (Ioc a b) := by
      rw [← measureReal_union (by
        rw [Set.disjoint_left]; intro x hx hx'; exact absurd hx'.1 (not_lt.mpr hx)) measurableSet_Ioc,
        Iic_union_Ioc_eq_Iic hab.le]
    have hp : 0 < ν.real (Ioc a b) := by
      rw [measureReal_def, ENNReal.toReal_pos_iff]
      refine ⟨?_, measure_lt_top _ _⟩
      rw [pos_iff_ne_zero, hφ, ne_eq, withDensity_apply_eq_zero hm]
      have : {x | φ x ≠ 0} ∩ Ioc a b = Ioc a b := inter_eq_right.mpr fun x _ => hpos x
      rw [this, Real.volume_Ioc]
      simpa using hab
    show ν.real (Iic a) < ν.real (Iic b)
    linarith
  have hcont : Continuous fun x => ν.real (Iic x) := by
    have : (fun x => ν.real (Iic x)) = ProbabilityTheory.cdf ν := by
      funext x; rw [ProbabilityTheory.cdf_eq_real]
    rw [this, continuous_iff_continuousAt]
    intro x
    rw [(ProbabilityTheory.monotone_cdf ν).continuousAt_iff_leftLim_eq_rightLim,
      StieltjesFunction.rightLim_eq]
    have := StieltjesFunction.measure_singleton (ProbabilityTheory.cdf ν) x
    rw [ProbabilityTheory.measure_cdf, measure_singleton] at this
    have h2 := (ProbabilityTheory.monotone_cdf ν).leftLim_le (le_refl x)
    have h3 : ProbabilityTheory.cdf ν x - Function.leftLim (ProbabilityTheory.cdf ν) x ≤ 0 := by
      by_contra h; push Not at h
      exact absurd this.symm (by rw [ENNReal.ofReal_eq_zero]; exact not_le.mpr h)
    linarith
  have hbot : Filter.Tendsto (fun x => ν.real (Iic x)) Filter.atBot (nhds 0) := by
    have := ProbabilityTheory.tendsto_cdf_atBot ν
    refine this.congr fun x => ?_
    rw [ProbabilityTheory.cdf_eq_real]
  have htop : Filter.Tendsto (fun x => ν.real (Iic x)) Filter.atTop (nhds 1) := by
    have := ProbabilityTheory.tendsto_cdf_atTop ν
    refine this.congr fun x => ?_
    rw [ProbabilityTheory.cdf_eq_real]
  have hmem : ∀ x, 0 < ν.real (Iic x) ∧ ν.real (Iic x) < 1 := by
    intro x
    constructor
    · exact lt_of_le_of_lt measureReal_nonneg (hmono (sub_one_lt x))
    · exact lt_of_lt_of_le (hmono (lt_add_one x)) measureReal_le_one
  have hsurj : ∀ u, 0 < u → u < 1 → ∃ x, ν.real (Iic x) = u := by
    intro u h0 h1
    obtain ⟨a, ha⟩ := (hbot.eventually (gt_mem_nhds h0)).exists
    obtain ⟨b, hb⟩ := (htop.eventually (lt_mem_nhds h1)).exists
    exact mem_range_of_exists_le_of_exists_ge hcont ⟨a, ha.le⟩ ⟨b, hb.le⟩
  refine ⟨fun u => if h : 0 < u ∧ u < 1 then (hsurj u h.1 h.2).choose else 0, ‹_›, fun _ => rfl, hmono, hmem, ?_⟩
  intro u h0 h1
  rw [dif_pos ⟨h0, h1⟩]
  exact (hsurj u h0 h1).choose_spec

/-! ### Laws with uniform margins -/

variable {d : ℕ}

/-- The law of `(F X₁, …, F X_d)`. -/
noncomputable def cubeLaw (μ : Measure (Fin d → ℝ)) (F : ℝ → ℝ) : Measure (Fin d → ℝ) :=
  μ.map fun x j => F (x j)

/-- Uniform margins. -/
def Uniform (P : Measure (Fin d → ℝ)) : Prop := ∀ j, P.map (fun u => u j) = volume.restrict (Ioc 0 1)

theorem measurable_pointwise {F : ℝ → ℝ} (hF : Measurable F) : Measurable fun (x : Fin d → ℝ) j => F (x j) :=
  measurable_pi_lambda _ fun j => hF.comp (measurable_pi_apply j)

theorem cubeLaw_uniform {μ : Measure (Fin d → ℝ)} {ν : Measure ℝ} {F q : ℝ → ℝ} (h : IsMargin ν F q)
    (hμ : ∀ j, μ.map (fun x => x j) = ν) : Uniform (cubeLaw μ F) := by
  intro j
  rw [cubeLaw, Measure.map_map (measurable_pi_apply j) (measurable_pointwise h.measurable), ← h.map_eq, ← hμ j,
    Measure.map_map h.measurable (measurable_pi_apply j)]
  rfl

theorem measurableSet_le (u : Fin d → ℝ) : MeasurableSet {x : Fin d → ℝ | ∀ j, x j ≤ u j} := by
  have : {x : Fin d → ℝ | ∀ j, x j ≤ u j} = Iic u := by ext x; exact Pi.le_def.symm
  rw [this]; exact measurableSet_Iic

/-- Inclusion–exclusion: the volume of a box is the probability of the box. -/
theorem volume_df (P : Measure (Fin d → ℝ)) [IsProbabilityMeasure P] {a b : Fin d → ℝ} (hab : ∀ j, a j ≤ b j) :
    Spec.volume (Spec.distFn P) a b = P.real {x | ∀ j, a j < x j ∧ x j ≤ b j} := by
  classical
  have hind : ∀ u : Fin d → ℝ, Spec.distFn P u = ∫ x, ∏ j, (Iic (u j)).indicator (fun _ => (1 : ℝ)) (x j) ∂P := by
    intro u
    rw [Spec.distFn, ← integral_indicator_one (measurableSet_le u)]
    congr 1
    funext x
    by_cases h : ∀ j, x j ≤ u j
    · rw [indicator_of_mem (by exact h)]
      rw [Finset.prod_eq_one]; · rfl
      intro j _
      rw [indicator_of_mem (by exact h j)]
    · rw [indicator_of_notMem (by exact h)]
      push Not at h
      obtain ⟨j, hj⟩ := h
      rw [Finset.prod_eq_zero (Finset.mem_univ j)]
      rw [indicator_of_notMem (by simpa using hj)]
  have hint : ∀ u : Fin d → ℝ,
      Integrable (fun x => ∏ j, (Iic (u j)).indicator (fun _ => (1 : ℝ)) (x j)) P := by
    intro u
    refine Integrable.of_bound (C := 1) ?_ (Filter.Eventually.of_forall fun x => ?_)
    · refine (Finset.measurable_prod _ fun j _ => ?_).aestronglyMeasurable
      exact (measurable_const.indicator measurableSet_Iic).comp (measurable_pi_apply j)
    · rw [norm_prod]
      refine Finset.prod_le_one (fun _ _ => norm_nonneg _) fun j _ => ?_
      by_cases h : x j ∈ Iic (u j) <;> simp [h]
  have hbox : MeasurableSet {x : Fin d → ℝ | ∀ j, a j < x j ∧ x j ≤ b j} := by
    have : {x : Fin d → ℝ | ∀ j, a j < x j ∧ x j ≤ b j} = Set.pi univ fun j => Ioc (a j) (b j) := by
      ext x; simp [Set.mem_pi]
    rw [this]; exact MeasurableSet.univ_pi fun j => measurableSet_Ioc
  rw [← integral_indicator_one hbox]
  unfold Spec.volume
  simp_rw [hind, ← integral_const_mul]
  rw [← integral_finsetSum _ fun S _ => (hint _).const_mul _]
  congr 1
  funext x
  have hprod : ({x : Fin d → ℝ | ∀ j, a j < x j ∧ x j ≤ b j}.indicator 1 x : ℝ) =
      ∏ j, ((Iic (b j)).indicator (fun _ => (1 : ℝ)) (x j) - (Iic (a j)).indicator (fun _ => (1 : ℝ)) (x j)) := by
    by_cases h : ∀ j, a j < x j ∧ x j ≤ b j
    · rw [indicator_of_mem (by exact h), Finset.prod_eq_one]; · rfl
      intro j _
      rw [indicator_of_mem (by exact (h j).2), indicator_of_notMem (by simpa using (h j).1), sub_zero]
    · rw [indicator_of_notMem (by exact h)]
      push Not at h
      obtain ⟨j, hj⟩ := h
      rw [Finset.prod_eq_zero (Finset.mem_univ j)]
      rcases le_or_gt (x j) (a j) with h1 | h1
      · rw [indicator_of_mem (by exact h1.trans (hab j)), indicator_of_mem (by exact h1), sub_self]
      · rw [indicator_of_notMem (by simpa using hj h1), indicator_of_notMem (by simpa using h1), sub_self]
  rw [hprod]
  simp_rw [sub_eq_neg_add]
  rw [Finset.prod_add]
  rw [← Finset.powerset_univ]
  refine Finset.sum_congr rfl fun S _ => ?_
  have e : ∏ j, (Iic (if j ∈ S then a j else b j)).indicator (fun _ => (1 : ℝ)) (x j) =
      (∏ j ∈ S, (Iic (a j)).indicator (fun _ => (1 : ℝ)) (x j)) *
        ∏ j ∈ Finset.univ \ S, (Iic (b j)).indicator (fun _ => (1 : ℝ)) (x j) := by
    rw [← Finset.prod_sdiff (Finset.subset_univ S), mul_comm]
    congr 1
    · exact Finset.prod_congr rfl fun j hj => by rw [if_pos hj]
    · exact Finset.prod_congr rfl fun j hj => by rw [if_neg (Finset.mem_sdiff.mp hj).2]
  rw [e, Finset.prod_neg]
  ring

end Copulae.CopulaMeasure
