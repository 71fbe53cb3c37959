import Verif.Lemmas.CopulaDensity

/-!
The density of `(F₁ X₁, …, F_d X_d)` for different margins `F_j`.
-/

namespace Copulae.CopulaMeasure

open MeasureTheory Set
open scoped ENNReal

variable {d : ℕ}

theorem pi_withDensity' (φ : Fin d → ℝ → ℝ≥0∞) (hm : ∀ j, Measurable (φ j))
    [∀ j, SigmaFinite (volume.withDensity (φ j))] :
    Measure.pi (fun j : Fin d => volume.withDensity (φ j)) =
      (volume : Measure (Fin d → ℝ)).withDensity fun x => ∏ j, φ j (x j) := by
  refine Measure.pi_eq fun s hs => ?_
  rw [withDensity_apply _ (MeasurableSet.univ_pi hs), volume_pi, Measure.restrict_pi_pi,
    lintegral_pi_prod _ hm]
  exact Finset.prod_congr rfl fun j _ => (withDensity_apply _ (hs j)).symm

/-- The density of `(F₁ X₁, …, F_d X_d)` when `X` has density `f` and every `F_j` is the distribution function of a law
with the positive density `φ j`. -/
theorem cubeLaw_density' {ν : Fin d → Measure ℝ} {F q : Fin d → ℝ → ℝ} (h : ∀ j, IsMargin (ν j) (F j) (q j))
    {φ : Fin d → ℝ → ℝ≥0∞} (hφ : ∀ j, ν j = volume.withDensity (φ j)) (hm : ∀ j, Measurable (φ j))
    (h0 : ∀ j x, φ j x ≠ 0) (htop : ∀ j x, φ j x ≠ ∞) {f : (Fin d → ℝ) → ℝ≥0∞} (hf : Measurable f) :
    (volume.withDensity f).map (fun x j => F j (x j)) =
      (volume.restrict (Set.pi univ fun _ => Ioc 0 1)).withDensity
        fun u => f (fun j => q j (u j)) / ∏ j, φ j (q j (u j)) := by
  have := fun j => (h j).prob
  have hsf : ∀ j, SigmaFinite (volume.withDensity (φ j)) := fun j => by rw [← hφ j]; infer_instance
  set g : (Fin d → ℝ) → ℝ≥0∞ := fun x => f x / ∏ j, φ j (x j) with hg
  have hpm : Measurable fun x : Fin d → ℝ => ∏ j, φ j (x j) :=
    Finset.measurable_prod _ fun j _ => (hm j).comp (measurable_pi_apply j)
  have hgm : Measurable g := hf.div hpm
  have hFm : Measurable fun (x : Fin d → ℝ) j => F j (x j) :=
    measurable_pi_lambda _ fun j => (h j).measurable.comp (measurable_pi_apply j)
  have e1 : (volume : Measure (Fin d → ℝ)).withDensity f = (Measure.pi ν).withDensity g := by
    have : ν = fun j => volume.withDensity (φ j) := funext hφ
    rw [this, pi_withDensity' φ hm, ← withDensity_mul _ hpm hgm]
    congr 1
    funext x
    rw [Pi.mul_apply, hg]
    exact (ENNReal.mul_div_cancel (Finset.prod_ne_zero_iff.mpr fun j _ => h0 _ _)
      (ENNReal.prod_ne_top fun j _ => htop _ _)).symm
  have e2 : (Measure.pi ν).map (fun x j => F j (x j)) = volume.restrict (Set.pi univ fun _ => Ioc 0 1) := by
    have : ∀ j : Fin d, SigmaFinite ((ν j).map (F j)) := fun j => by rw [(h j).map_eq]; infer_instance
    rw [Measure.pi_map_pi fun j => (h j).measurable.aemeasurable]
    simp_rw [(h _).map_eq]
    rw [volume_pi, Measure.restrict_pi_pi]
  ext s hs
  rw [Measure.map_apply hFm hs, e1, withDensity_apply _ (hFm hs), withDensity_apply _ hs, ← e2]
  have hemb : MeasurableEmbedding fun (x : Fin d → ℝ) j => F j (x j) :=
    hFm.measurableEmbedding fun x y hxy => funext fun j => (h j).mono.injective (congrFun hxy j)
  rw [hemb.restrict_map, hemb.lintegral_map]
  refine lintegral_congr fun x => ?_
  simp only [hg, (h _).left]

/-- The same as an integral of real numbers: `c` is any function that agrees with the ratio of the densities inside
the cube. -/
theorem df_eq_integral' {ν : Fin d → Measure ℝ} {F q : Fin d → ℝ → ℝ} (h : ∀ j, IsMargin (ν j) (F j) (q j))
    {φ : Fin d → ℝ → ℝ} (hm : ∀ j, Measurable (φ j)) (h0 : ∀ j x, 0 < φ j x)
    (hφ : ∀ j, ν j = volume.withDensity fun x => ENNReal.ofReal (φ j x))
    {f : (Fin d → ℝ) → ℝ} (hf : Measurable f) (hf0 : ∀ x, 0 ≤ f x)
    [IsProbabilityMeasure ((volume : Measure (Fin d → ℝ)).withDensity fun x => ENNReal.ofReal (f x))]
    {c : (Fin d → ℝ) → ℝ}
    (hc : ∀ u : Fin d → ℝ, (∀ j, 0 < u j ∧ u j < 1) → c u = f (fun j => q j (u j)) / ∏ j, φ j (q j (u j)))
    {s : Set (Fin d → ℝ)} (hs : MeasurableSet s) :
    ((volume.withDensity fun x => ENNReal.ofReal (f x)).map fun x j => F j (x j)).real s =
        ∫ u in s ∩ Set.pi univ fun _ => Ioo 0 1, c u ∧
      IntegrableOn c (s ∩ Set.pi univ fun _ => Ioo 0 1) := by
  have hmargin := cubeLaw_density' (d := d) h hφ (fun j => (hm j).ennreal_ofReal)
    (fun j x => by rw [ne_eq, ENNReal.ofReal_eq_zero, not_le]; exact h0 j x) (fun j x => ENNReal.ofReal_ne_top)
    (f := fun x => ENNReal.ofReal (f x)) hf.ennreal_ofReal
  have hbox : (Set.pi univ fun _ : Fin d => Ioc (0 : ℝ) 1) =ᵐ[volume] Set.pi univ fun _ => Ioo 0 1 := by
    rw [volume_pi]
    exact Measure.univ_pi_Ioc_ae_eq_Icc.trans Measure.univ_pi_Ioo_ae_eq_Icc.symm
  have hIoo : MeasurableSet (Set.pi univ fun _ : Fin d => Ioo (0 : ℝ) 1) :=
    MeasurableSet.univ_pi fun _ => measurableSet_Ioo
  rw [Measure.restrict_congr_set hbox] at hmargin
  have hcpos : ∀ u : Fin d → ℝ, (∀ j, 0 < u j ∧ u j < 1) →
      ENNReal.ofReal (f fun j => q j (u j)) / ∏ j, ENNReal.ofReal (φ j (q j (u j))) = ENNReal.ofReal (c u) := by
    intro u hu
    rw [hc u hu, ENNReal.ofReal_div_of_pos (Finset.prod_pos fun j _ => h0 _ _),
      ENNReal.ofReal_prod_of_nonneg fun j _ => (h0 _ _).le]
  have hlin : ∀ s : Set (Fin d → ℝ), MeasurableSet s →
      ((volume.withDensity fun x => ENNReal.ofReal (f x)).map fun x j => F j (x j)) s =
        ∫⁻ u in s ∩ Set.pi univ fun _ => Ioo 0 1, ENNReal.ofReal (c u) := by
    intro s hs
    rw [hmargin, withDensity_apply _ hs, Measure.restrict_restrict hs]
    refine setLIntegral_congr_fun (hs.inter hIoo) fun u hu => ?_
    exact hcpos u fun j => hu.2 j (mem_univ j)
  have hq : ∀ j, Measurable fun u : ℝ => if 0 < u ∧ u < 1 then q j u else 0 := by
    intro j
    refine measurable_of_Iic fun x => ?_
    have : (fun u : ℝ => if 0 < u ∧ u < 1 then q j u else 0) ⁻¹' Iic x =
        (Ioo 0 1 ∩ Iic (F j x)) ∪ ((Ioo 0 1)ᶜ ∩ {_u | 0 ≤ x}) := by
      ext u
      simp only [mem_preimage, mem_Iic, mem_union, mem_inter_iff, mem_Ioo, mem_compl_iff, mem_ofPred_eq]
      by_cases hu : 0 < u ∧ u < 1
      · rw [if_pos hu]
        have h1 : q j u ≤ x ↔ u ≤ F j x := by
          rw [← (h j).mono.le_iff_le, (h j).right u hu.1 hu.2]
        simp [hu, h1]
      · rw [if_neg hu]; simp [hu]
    rw [this]
    exact (measurableSet_Ioo.inter measurableSet_Iic).union (measurableSet_Ioo.compl.inter (MeasurableSet.const _))
  have hcm : ∀ s : Set (Fin d → ℝ), MeasurableSet s →
      AEStronglyMeasurable c (volume.restrict (s ∩ Set.pi univ fun _ => Ioo 0 1)) := by
    intro s hs
    have hm' : Measurable fun u : Fin d → ℝ =>
        f (fun j => if 0 < u j ∧ u j < 1 then q j (u j) else 0) /
          ∏ j, φ j (if 0 < u j ∧ u j < 1 then q j (u j) else 0) := by
      refine (hf.comp (measurable_pi_lambda _ fun j => (hq j).comp (measurable_pi_apply j))).div
        (Finset.measurable_prod _ fun j _ => (hm j).comp ((hq j).comp (measurable_pi_apply j)))
    refine hm'.aestronglyMeasurable.congr ?_
    refine (ae_restrict_iff' (hs.inter hIoo)).mpr (Filter.Eventually.of_forall fun u hu => ?_)
    have hu' : ∀ j, 0 < u j ∧ u j < 1 := fun j => hu.2 j (mem_univ j)
    simp only [hu', and_self, if_true]
    exact (hc u hu').symm
  have hpos : 0 ≤ᵐ[volume.restrict (s ∩ Set.pi univ fun _ => Ioo 0 1)] c := by
    refine (ae_restrict_iff' (hs.inter hIoo)).mpr (Filter.Eventually.of_forall fun u hu => ?_)
    rw [hc u fun j => hu.2 j (mem_univ j)]
    exact div_nonneg (hf0 _) (Finset.prod_nonneg fun j _ => (h0 _ _).le)
  constructor
  · rw [integral_eq_lintegral_of_nonneg_ae hpos (hcm s hs), ← hlin s hs, measureReal_def]
  · refine ⟨hcm s hs, ?_⟩
    rw [hasFiniteIntegral_iff_ofReal hpos, ← hlin s hs]
    have hFm : Measurable fun (x : Fin d → ℝ) j => F j (x j) :=
      measurable_pi_lambda _ fun j => (h j).measurable.comp (measurable_pi_apply j)
    have : IsProbabilityMeasure (((volume : Measure (Fin d → ℝ)).withDensity
        fun x => ENNReal.ofReal (f x)).map fun x j => F j (x j)) :=
      Measure.isProbabilityMeasure_map hFm.aemeasurable
    exact measure_lt_top _ _

end Copulae.CopulaMeasure
