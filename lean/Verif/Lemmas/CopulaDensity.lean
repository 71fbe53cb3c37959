import Mathlib.MeasureTheory.Constructions.Polish.Basic
import Verif.Lemmas.CopulaMeasure
import Verif.Spec.IsCopula

/-!
The distribution function of a law with uniform margins is a copula, and the density of the law of
`(F X₁, …, F X_d)` is the ratio of the joint density to the product of the marginal ones.
-/

namespace Copulae.CopulaMeasure

open MeasureTheory Set
open scoped ENNReal

variable {d : ℕ}

theorem uniform_le {P : Measure (Fin d → ℝ)} [IsProbabilityMeasure P] (hP : Uniform P) (j : Fin d) {v : ℝ}
    (h0 : 0 ≤ v) (h1 : v ≤ 1) : P.real {x | x j ≤ v} = v := by
  have h := congrArg (fun m => m (Iic v)) (hP j)
  rw [Measure.map_apply (measurable_pi_apply j) measurableSet_Iic, Measure.restrict_apply measurableSet_Iic] at h
  have e : Iic v ∩ Ioc 0 1 = Ioc 0 v := by
    ext x; simp only [mem_inter_iff, mem_Iic, mem_Ioc]
    constructor
    · intro hx; exact ⟨hx.2.1, hx.1⟩
    · intro hx; exact ⟨hx.2, hx.1, hx.2.trans h1⟩
  rw [e, Real.volume_Ioc, sub_zero] at h
  have h2 : {x : Fin d → ℝ | x j ≤ v} = (fun u : Fin d → ℝ => u j) ⁻¹' Iic v := rfl
  rw [measureReal_def, h2, h, ENNReal.toReal_ofReal h0]

theorem uniform_ae {P : Measure (Fin d → ℝ)} (hP : Uniform P) : ∀ᵐ x ∂P, ∀ j, 0 < x j ∧ x j ≤ 1 := by
  rw [ae_all_iff]
  intro j
  have h : ∀ᵐ y ∂(P.map fun u => u j), 0 < y ∧ y ≤ 1 := by
    rw [hP j]
    exact (ae_restrict_iff' measurableSet_Ioc).mpr (Filter.Eventually.of_forall fun x hx => hx)
  exact ae_of_ae_map (measurable_pi_apply j).aemeasurable h

/-- The distribution function of a law with uniform margins is a copula. -/
theorem isCopula_df {P : Measure (Fin d → ℝ)} [IsProbabilityMeasure P] (hP : Uniform P) :
    Spec.IsCopula (Spec.distFn P) := by
  refine ⟨fun u _ ⟨j, hj⟩ => ?_, fun j v h0 h1 => ?_, fun a b _ hab _ => ?_⟩
  · have h1 : Spec.distFn P u ≤ P.real {x | x j ≤ 0} := measureReal_mono fun x hx => hj ▸ hx j
    rw [uniform_le hP j le_rfl zero_le_one] at h1
    exact le_antisymm h1 measureReal_nonneg
  · refine Eq.trans ?_ (uniform_le hP j h0 h1)
    refine measureReal_congr ?_
    filter_upwards [uniform_ae hP] with x hx
    refine propext ⟨fun h => ?_, fun h k => ?_⟩
    · have := h j
      rw [if_pos rfl] at this
      exact this
    · by_cases hk : k = j
      · subst hk
        rw [if_pos rfl]
        exact h
      · rw [if_neg hk]; exact (hx k).2
  · rw [volume_df P hab]; exact measureReal_nonneg

/-- The distribution function of a law with uniform margins is 1-Lipschitz. -/
theorem df_lipschitz {P : Measure (Fin d → ℝ)} [IsProbabilityMeasure P] (hP : Uniform P) {u v : Fin d → ℝ}
    (hu : ∀ j, 0 ≤ u j ∧ u j ≤ 1) (hv : ∀ j, 0 ≤ v j ∧ v j ≤ 1) : |Spec.distFn P u - Spec.distFn P v| ≤ ∑ j, |u j - v j| := by
  have key : ∀ u v : Fin d → ℝ, (∀ j, 0 ≤ u j ∧ u j ≤ 1) → (∀ j, 0 ≤ v j ∧ v j ≤ 1) →
      Spec.distFn P u - Spec.distFn P v ≤ ∑ j, |u j - v j| := by
    intro u v hu hv
    have h1 : {x : Fin d → ℝ | ∀ j, x j ≤ u j} ⊆
        {x | ∀ j, x j ≤ v j} ∪ ⋃ j, {x | v j < x j ∧ x j ≤ u j} := by
      intro x hx
      by_cases h : ∀ j, x j ≤ v j
      · exact Or.inl h
      · push Not at h
        obtain ⟨j, hj⟩ := h
        exact Or.inr (mem_iUnion.mpr ⟨j, hj, hx j⟩)
    have h2 : Spec.distFn P u ≤ Spec.distFn P v + ∑ j, P.real {x | v j < x j ∧ x j ≤ u j} :=
      (measureReal_mono h1).trans ((measureReal_union_le _ _).trans
        (add_le_add le_rfl (measureReal_iUnion_fintype_le _)))
    have h3 : ∀ j, P.real {x | v j < x j ∧ x j ≤ u j} ≤ |u j - v j| := by
      intro j
      rcases le_or_gt (u j) (v j) with h | h
      · have : {x : Fin d → ℝ | v j < x j ∧ x j ≤ u j} = ∅ := by
          ext x; simp only [mem_ofPred_eq, mem_empty_iff_false, iff_false]; intro hx; linarith [hx.1, hx.2]
        rw [this]; simp
      · have hs : {x : Fin d → ℝ | v j < x j ∧ x j ≤ u j} = {x | x j ≤ u j} \ {x | x j ≤ v j} := by
          ext x; simp only [mem_ofPred_eq, mem_sdiff, not_le]; exact and_comm
        have hsub : {x : Fin d → ℝ | x j ≤ v j} ⊆ {x | x j ≤ u j} := fun x (hx : x j ≤ v j) => hx.trans h.le
        have hmeas : MeasurableSet {x : Fin d → ℝ | x j ≤ v j} := (measurable_pi_apply j) measurableSet_Iic
        rw [hs, measureReal_sdiff hsub hmeas, uniform_le hP j (hu j).1 (hu j).2,
          uniform_le hP j (hv j).1 (hv j).2]
        exact le_abs_self _
    have h4 : ∑ j, P.real {x | v j < x j ∧ x j ≤ u j} ≤ ∑ j, |u j - v j| := Finset.sum_le_sum fun j _ => h3 j
    linarith
  rw [abs_le]
  constructor
  · have := key v u hv hu
    simp_rw [abs_sub_comm (u _)]
    linarith
  · exact key u v hu hv

/-! ### Densities -/

theorem lintegral_pi_prod {d : ℕ} (μ : Fin d → Measure ℝ) [∀ i, SigmaFinite (μ i)] {f : Fin d → ℝ → ℝ≥0∞}
    (hf : ∀ i, Measurable (f i)) : ∫⁻ x, ∏ i, f i (x i) ∂(Measure.pi μ) = ∏ i, ∫⁻ x, f i x ∂(μ i) := by
  induction d with
  | zero =>
    simp
  | succ n ih =>
    have hm : ∀ i : Fin n, Measurable fun x : Fin n → ℝ => f i.succ (x i) := fun i =>
      (hf _).comp (measurable_pi_apply i)
    calc ∫⁻ x, ∏ i, f i (x i) ∂(Measure.pi μ)
        = ∫⁻ x : ℝ × (Fin n → ℝ), f 0 x.1 * ∏ i : Fin n, f i.succ (x.2 i)
            ∂((μ 0).prod (Measure.pi fun i => μ i.succ)) := by
          rw [← ((measurePreserving_piFinSuccAbove μ 0).symm).lintegral_comp_emb
            (MeasurableEquiv.measurableEmbedding _)]
          simp_rw [MeasurableEquiv.piFinSuccAbove_symm_apply, Fin.insertNthEquiv,
            Fin.prod_univ_succ, Fin.insertNth_zero, Equiv.coe_fn_mk, Fin.cons_succ, Fin.zero_succAbove]
          simp
      _ = (∫⁻ x, f 0 x ∂μ 0) * ∏ i : Fin n, ∫⁻ x, f i.succ x ∂(μ i.succ) := by
          rw [lintegral_prod_mul (hf 0).aemeasurable
            (Finset.measurable_prod _ fun i _ => hm i).aemeasurable, ih (fun i => μ i.succ) fun i => hf _]
      _ = ∏ i, ∫⁻ x, f i x ∂(μ i) := by rw [Fin.prod_univ_succ]

theorem pi_withDensity (φ : ℝ → ℝ≥0∞) (hm : Measurable φ) [SigmaFinite (volume.withDensity φ)] :
    Measure.pi (fun _ : Fin d => volume.withDensity φ) =
      (volume : Measure (Fin d → ℝ)).withDensity fun x => ∏ j, φ (x j) := by
  refine Measure.pi_eq fun s hs => ?_
  rw [withDensity_apply _ (MeasurableSet.univ_pi hs), volume_pi, Measure.restrict_pi_pi,
    lintegral_pi_prod _ fun _ => hm]
  exact Finset.prod_congr rfl fun j _ => (withDensity_apply _ (hs j)).symm

/-- The density of `(F X₁, …, F X_d)` when `X` has density `f` and `F` is the distribution function of a law
with the positive density `φ`. -/
theorem cubeLaw_density {ν : Measure ℝ} {F q : ℝ → ℝ} (h : IsMargin ν F q) {φ : ℝ → ℝ≥0∞}
    (hφ : ν = volume.withDensity φ) (hm : Measurable φ) (h0 : ∀ x, φ x ≠ 0) (htop : ∀ x, φ x ≠ ∞)
    {f : (Fin d → ℝ) → ℝ≥0∞} (hf : Measurable f) :
    cubeLaw (volume.withDensity f) F = (volume.restrict (Set.pi univ fun _ => Ioc 0 1)).withDensity
      fun u => f (fun j => q (u j)) / ∏ j, φ (q (u j)) := by
  have := h.prob
  have hsf : SigmaFinite (volume.withDensity φ) := by rw [← hφ]; infer_instance
  set g : (Fin d → ℝ) → ℝ≥0∞ := fun x => f x / ∏ j, φ (x j) with hg
  have hgm : Measurable g := hf.div (Finset.measurable_prod _ fun j _ => hm.comp (measurable_pi_apply j))
  have hpm : Measurable fun x : Fin d → ℝ => ∏ j, φ (x j) :=
    Finset.measurable_prod _ fun j _ => hm.comp (measurable_pi_apply j)
  have e1 : (volume : Measure (Fin d → ℝ)).withDensity f = (Measure.pi fun _ => ν).withDensity g := by
    rw [hφ, pi_withDensity φ hm, ← withDensity_mul _ hpm hgm]
    congr 1
    funext x
    rw [Pi.mul_apply, hg]
    exact (ENNReal.mul_div_cancel (Finset.prod_ne_zero_iff.mpr fun j _ => h0 _)
      (ENNReal.prod_ne_top fun j _ => htop _)).symm
  have e2 : (Measure.pi fun _ : Fin d => ν).map (fun x j => F (x j)) =
      volume.restrict (Set.pi univ fun _ => Ioc 0 1) := by
    have : ∀ _ : Fin d, SigmaFinite (ν.map F) := fun _ => by rw [h.map_eq]; infer_instance
    rw [Measure.pi_map_pi fun _ => h.measurable.aemeasurable]
    simp_rw [h.map_eq]
    rw [volume_pi, Measure.restrict_pi_pi]
  ext s hs
  rw [cubeLaw, Measure.map_apply (measurable_pointwise h.measurable) hs, e1,
    withDensity_apply _ (measurable_pointwise h.measurable hs), withDensity_apply _ hs, ← e2]
  have hemb : MeasurableEmbedding fun (x : Fin d → ℝ) j => F (x j) :=
    (measurable_pointwise h.measurable).measurableEmbedding fun x y hxy =>
      funext fun j => h.mono.injective (congrFun hxy j)
  rw [hemb.restrict_map, hemb.lintegral_map]
  refine lintegral_congr fun x => ?_
  simp only [hg, h.left]

/-- The same as an integral of real numbers: `c` is any function that agrees with the ratio of the densities inside
the cube. -/
theorem df_eq_integral {ν : Measure ℝ} {F q : ℝ → ℝ} (h : IsMargin ν F q) {φ : ℝ → ℝ} (hm : Measurable φ)
    (h0 : ∀ x, 0 < φ x) (hφ : ν = volume.withDensity fun x => ENNReal.ofReal (φ x))
    {f : (Fin d → ℝ) → ℝ} (hf : Measurable f) (hf0 : ∀ x, 0 ≤ f x)
    [IsProbabilityMeasure ((volume : Measure (Fin d → ℝ)).withDensity fun x => ENNReal.ofReal (f x))]
    {c : (Fin d → ℝ) → ℝ}
    (hc : ∀ u : Fin d → ℝ, (∀ j, 0 < u j ∧ u j < 1) → c u = f (fun j => q (u j)) / ∏ j, φ (q (u j)))
    {s : Set (Fin d → ℝ)} (hs : MeasurableSet s) :
    (cubeLaw (volume.withDensity fun x => ENNReal.ofReal (f x)) F).real s =
        ∫ u in s ∩ Set.pi univ fun _ => Ioo 0 1, c u ∧
      IntegrableOn c (s ∩ Set.pi univ fun _ => Ioo 0 1) := by
  have hmargin := cubeLaw_density (d := d) h hφ hm.ennreal_ofReal
    (fun x => by rw [ne_eq, ENNReal.ofReal_eq_zero, not_le]; exact h0 x) (fun x => ENNReal.ofReal_ne_top)
    (f := fun x => ENNReal.ofReal (f x)) hf.ennreal_ofReal
  have hbox : (Set.pi univ fun _ : Fin d => Ioc (0 : ℝ) 1) =ᵐ[volume] Set.pi univ fun _ => Ioo 0 1 := by
    rw [volume_pi]
    exact Measure.univ_pi_Ioc_ae_eq_Icc.trans Measure.univ_pi_Ioo_ae_eq_Icc.symm
  have hIoo : MeasurableSet (Set.pi univ fun _ : Fin d => Ioo (0 : ℝ) 1) :=
    MeasurableSet.univ_pi fun _ => measurableSet_Ioo
  rw [Measure.restrict_congr_set hbox] at hmargin
  have hcpos : ∀ u : Fin d → ℝ, (∀ j, 0 < u j ∧ u j < 1) →
      ENNReal.ofReal (f fun j => q (u j)) / ∏ j, ENNReal.ofReal (φ (q (u j))) = ENNReal.ofReal (c u) := by
    intro u hu
    rw [hc u hu, ENNReal.ofReal_div_of_pos (Finset.prod_pos fun j _ => h0 _),
      ENNReal.ofReal_prod_of_nonneg fun j _ => (h0 _).le]
  have hlin : ∀ s : Set (Fin d → ℝ), MeasurableSet s →
      cubeLaw (volume.withDensity fun x => ENNReal.ofReal (f x)) F s =
        ∫⁻ u in s ∩ Set.pi univ fun _ => Ioo 0 1, ENNReal.ofReal (c u) := by
    intro s hs
    rw [hmargin, withDensity_apply _ hs, Measure.restrict_restrict hs]
    refine setLIntegral_congr_fun (hs.inter hIoo) fun u hu => ?_
    exact hcpos u fun j => hu.2 j (mem_univ j)
  have hq : Measurable fun u : ℝ => if 0 < u ∧ u < 1 then q u else 0 := by
    refine measurable_of_Iic fun x => ?_
    have : (fun u : ℝ => if 0 < u ∧ u < 1 then q u else 0) ⁻¹' Iic x =
        (Ioo 0 1 ∩ Iic (F x)) ∪ ((Ioo 0 1)ᶜ ∩ {_u | 0 ≤ x}) := by
      ext u
      simp only [mem_preimage, mem_Iic, mem_union, mem_inter_iff, mem_Ioo, mem_compl_iff, mem_ofPred_eq]
      by_cases hu : 0 < u ∧ u < 1
      · rw [if_pos hu]
        have h1 : q u ≤ x ↔ u ≤ F x := by
          rw [← h.mono.le_iff_le, h.right u hu.1 hu.2]
        simp [hu, h1]
      · rw [if_neg hu]; simp [hu]
    rw [this]
    exact (measurableSet_Ioo.inter measurableSet_Iic).union (measurableSet_Ioo.compl.inter (MeasurableSet.const _))
  have hcm : ∀ s : Set (Fin d → ℝ), MeasurableSet s →
      AEStronglyMeasurable c (volume.restrict (s ∩ Set.pi univ fun _ => Ioo 0 1)) := by
    intro s hs
    have hm' : Measurable fun u : Fin d → ℝ =>
        f (fun j => if 0 < u j ∧ u j < 1 then q (u j) else 0) /
          ∏ j, φ (if 0 < u j ∧ u j < 1 then q (u j) else 0) := by
      refine (hf.comp (measurable_pi_lambda _ fun j => hq.comp (measurable_pi_apply j))).div
        (Finset.measurable_prod _ fun j _ => hm.comp (hq.comp (measurable_pi_apply j)))
    refine hm'.aestronglyMeasurable.congr ?_
    refine (ae_restrict_iff' (hs.inter hIoo)).mpr (Filter.Eventually.of_forall fun u hu => ?_)
    have hu' : ∀ j, 0 < u j ∧ u j < 1 := fun j => hu.2 j (mem_univ j)
    simp only [hu', and_self, if_true]
    exact (hc u hu').symm
  have hpos : 0 ≤ᵐ[volume.restrict (s ∩ Set.pi univ fun _ => Ioo 0 1)] c := by
    refine (ae_restrict_iff' (hs.inter hIoo)).mpr (Filter.Eventually.of_forall fun u hu => ?_)
    rw [hc u fun j => hu.2 j (mem_univ j)]
    exact div_nonneg (hf0 _) (Finset.prod_nonneg fun j _ => (h0 _).le)
  constructor
  · rw [integral_eq_lintegral_of_nonneg_ae hpos (hcm s hs), ← hlin s hs, measureReal_def]
  · refine ⟨hcm s hs, ?_⟩
    rw [hasFiniteIntegral_iff_ofReal hpos, ← hlin s hs]
    have : IsProbabilityMeasure (cubeLaw ((volume : Measure (Fin d → ℝ)).withDensity
        fun x => ENNReal.ofReal (f x)) F) :=
      Measure.isProbabilityMeasure_map (measurable_pointwise h.measurable).aemeasurable
    exact measure_lt_top _ _

end Copulae.CopulaMeasure
