import Verif.Lemmas.GmmLaw
import Verif.Lemmas.MarginDensity

/-!
The density of a normal mixture, of its margins and of the Gaussian mixture copula.
-/

namespace Copulae

open MeasureTheory Set ProbabilityTheory CopulaMeasure
open scoped ENNReal NNReal

variable {m d : ℕ} {p : Fin m → ℝ} {μ : Fin m → Fin d → ℝ} {S : Fin m → Matrix (Fin d) (Fin d) ℝ}

/-- The density of the mixture. -/
noncomputable def gmmPdf (p : Fin m → ℝ) (μ : Fin m → Fin d → ℝ) (S : Fin m → Matrix (Fin d) (Fin d) ℝ)
    (x : Fin d → ℝ) : ℝ := ∑ c, p c * gaussPdf (S c) (fun j => x j - μ c j)

/-- The density of margin `j` of the mixture. -/
noncomputable def gmmPdf1 (p : Fin m → ℝ) (μ : Fin m → Fin d → ℝ) (S : Fin m → Matrix (Fin d) (Fin d) ℝ) (j : Fin d)
    (x : ℝ) : ℝ := ∑ c, p c * gaussianPDFReal (μ c j) (S c j j).toNNReal x

theorem map_add_withDensity (a : Fin d → ℝ) (f : (Fin d → ℝ) → ℝ≥0∞) :
    (volume.withDensity f).map (fun z j => a j + z j) = volume.withDensity fun x => f fun j => x j - a j := by
  have hmp : MeasurePreserving (fun z : Fin d → ℝ => a + z) volume volume := measurePreserving_add_left volume a
  ext s hs
  have hm : Measurable fun (z : Fin d → ℝ) j => a j + z j := by fun_prop
  rw [Measure.map_apply hm hs, withDensity_apply _ (hm hs), withDensity_apply _ hs]
  refine Eq.trans ?_ (hmp.setLIntegral_comp_preimage_emb (MeasurableEquiv.addLeft a).measurableEmbedding _ s)
  refine setLIntegral_congr_fun (hm hs) fun z _ => ?_
  congr 1
  funext j
  simp

theorem gaussPdf_measurable (S : Matrix (Fin d) (Fin d) ℝ) : Measurable (gaussPdf S) := by
  unfold gaussPdf
  refine Measurable.div_const (Real.measurable_exp.comp (Measurable.div_const (Measurable.neg ?_) _)) _
  have : Continuous fun x : Fin d → ℝ => x ⬝ᵥ S⁻¹.mulVec x :=
    continuous_id.dotProduct (continuous_const.matrix_mulVec continuous_id)
  exact this.measurable

theorem gaussPdf_pos' {S : Matrix (Fin d) (Fin d) ℝ} (hS : S.PosDef) (x : Fin d → ℝ) : 0 < gaussPdf S x := by
  unfold gaussPdf
  have := hS.det_pos
  have hpi := Real.pi_pos
  positivity

theorem gmmPdf_measurable : Measurable (gmmPdf p μ S) := by
  unfold gmmPdf
  refine Finset.measurable_sum _ fun c _ => Measurable.const_mul ?_ _
  have hf : Measurable fun (x : Fin d → ℝ) j => x j - μ c j := by fun_prop
  exact (gaussPdf_measurable (S c)).comp hf

theorem gmmPdf_pos (h : Spec.IsMixture p S) (hS : ∀ c, (S c).PosDef) (x : Fin d → ℝ) : 0 < gmmPdf p μ S x := by
  obtain ⟨c0, hc0⟩ := h.exists_pos
  exact Finset.sum_pos' (fun c _ => mul_nonneg (h.nonneg c) (gaussPdf_pos' (hS c) _).le)
    ⟨c0, Finset.mem_univ _, mul_pos hc0 (gaussPdf_pos' (hS c0) _)⟩

theorem withDensity_finsetSum {α ι : Type*} [MeasurableSpace α] (ν : Measure α) (s : Finset ι) {f : ι → α → ℝ≥0∞}
    (hf : ∀ i, Measurable (f i)) : ν.withDensity (fun x => ∑ i ∈ s, f i x) = ∑ i ∈ s, ν.withDensity (f i) := by
  classical
  induction s using Finset.induction_on with
  | empty => simp
  | insert a s ha ih =>
    rw [Finset.sum_insert ha, ← ih, ← withDensity_add_left (hf a)]
    congr 1
    funext x
    rw [Finset.sum_insert ha]
    rfl

theorem gmmLaw_density (h : Spec.IsMixture p S) (hS : ∀ c, (S c).PosDef) :
    Spec.gmmLaw p μ S = volume.withDensity fun x => ENNReal.ofReal (gmmPdf p μ S x) := by
  have hm : ∀ c, Measurable fun x : Fin d → ℝ => ENNReal.ofReal (gaussPdf (S c) fun j => x j - μ c j) := fun c => by
    have hf : Measurable fun (x : Fin d → ℝ) j => x j - μ c j := by fun_prop
    exact ((gaussPdf_measurable (S c)).comp hf).ennreal_ofReal
  rw [gmmLaw_eq]
  have : (fun x => ENNReal.ofReal (gmmPdf p μ S x)) =
      fun x => ∑ c, ENNReal.ofReal (p c) * ENNReal.ofReal (gaussPdf (S c) fun j => x j - μ c j) := by
    funext x
    unfold gmmPdf
    rw [ENNReal.ofReal_sum_of_nonneg fun c _ => mul_nonneg (h.nonneg c) (gaussPdf_pos' (hS c) _).le]
    exact Finset.sum_congr rfl fun c _ => ENNReal.ofReal_mul (h.nonneg c)
  rw [this, withDensity_finsetSum _ _ fun c => (hm c).const_mul _]
  refine Finset.sum_congr rfl fun c _ => ?_
  rw [gauss_density (hS c), map_add_withDensity]
  exact (withDensity_smul _ (hm c)).symm

theorem gmmPdf1_measurable (j : Fin d) : Measurable (gmmPdf1 p μ S j) := by
  unfold gmmPdf1
  exact Finset.measurable_sum _ fun c _ => (measurable_gaussianPDFReal _ _).const_mul _

theorem toNNReal_var (h : Spec.IsMixture p S) (c : Fin m) (j : Fin d) : (S c j j).toNNReal ≠ 0 := by
  rw [ne_eq, Real.toNNReal_eq_zero, not_le]
  exact h.var c j

theorem gmmPdf1_pos (h : Spec.IsMixture p S) (j : Fin d) (x : ℝ) : 0 < gmmPdf1 p μ S j x := by
  obtain ⟨c0, hc0⟩ := h.exists_pos
  have hp := fun c => gaussianPDFReal_pos (μ c j) _ x (toNNReal_var h c j)
  exact Finset.sum_pos' (fun c _ => mul_nonneg (h.nonneg c) (hp c).le)
    ⟨c0, Finset.mem_univ _, mul_pos hc0 (hp c0)⟩

theorem gmmMargin_density (h : Spec.IsMixture p S) (j : Fin d) :
    (Spec.gmmLaw p μ S).map (fun z => z j) = volume.withDensity fun x => ENNReal.ofReal (gmmPdf1 p μ S j x) := by
  have hc : ∀ c, (ENNReal.ofReal (p c) • (gauss (S c)).map fun z j => μ c j + z j).map (fun z => z j) =
      volume.withDensity fun x => ENNReal.ofReal (p c) * gaussianPDF (μ c j) (S c j j).toNNReal x := fun c => by
    have hf : Measurable fun (z : Fin d → ℝ) j => μ c j + z j := by fun_prop
    rw [Measure.map_smul, Measure.map_map (measurable_pi_apply j) hf]
    have e1 : ((fun z : Fin d → ℝ => z j) ∘ fun (z : Fin d → ℝ) j => μ c j + z j) =
        (fun y => μ c j + y) ∘ fun z => z j := rfl
    have hg : Measurable fun y : ℝ => μ c j + y := by fun_prop
    rw [e1, ← Measure.map_map hg (measurable_pi_apply j), gauss_margin (h.psd c), gaussianReal_map_const_add, zero_add,
      gaussianReal_of_var_ne_zero _ (toNNReal_var h c j)]
    exact (withDensity_smul _ (measurable_gaussianPDF _ _)).symm
  rw [gmmLaw_eq]
  have hsum : ∀ s : Finset (Fin m), (∑ c ∈ s, ENNReal.ofReal (p c) • (gauss (S c)).map fun z j => μ c j + z j).map
      (fun z => z j) = ∑ c ∈ s, (ENNReal.ofReal (p c) • (gauss (S c)).map fun z j => μ c j + z j).map fun z => z j := by
    intro s
    classical
    induction s using Finset.induction_on with
    | empty => simp
    | insert a s ha ih => rw [Finset.sum_insert ha, Finset.sum_insert ha, Measure.map_add _ _ (measurable_pi_apply j), ih]
  rw [hsum, Finset.sum_congr rfl fun c _ => hc c,
    ← withDensity_finsetSum _ _ fun c => (measurable_gaussianPDF _ _).const_mul _]
  congr 1
  funext x
  unfold gmmPdf1
  rw [ENNReal.ofReal_sum_of_nonneg fun c _ => mul_nonneg (h.nonneg c) (gaussianPDFReal_nonneg _ _ _)]
  exact Finset.sum_congr rfl fun c _ => (ENNReal.ofReal_mul (h.nonneg c)).symm

/-- The density of the Gaussian mixture copula. -/
theorem gmcLaw_density (h : Spec.IsMixture p S) (hS : ∀ c, (S c).PosDef) :
    ∃ c : (Fin d → ℝ) → ℝ,
      (∀ z : Fin d → ℝ, c (fun j => Spec.gmmMargin p μ S j (z j)) = gmmPdf p μ S z / ∏ j, gmmPdf1 p μ S j (z j)) ∧
      ∀ s, MeasurableSet s →
        (Spec.gmcLaw p μ S).real s = ∫ u in s ∩ Set.pi univ fun _ => Ioo 0 1, c u ∧
        IntegrableOn c (s ∩ Set.pi univ fun _ => Ioo 0 1) := by
  choose q hq using gmm_isMargin (μ := μ) h
  have hprob : IsProbabilityMeasure ((volume : Measure (Fin d → ℝ)).withDensity
      fun x => ENNReal.ofReal (gmmPdf p μ S x)) := by
    rw [← gmmLaw_density h hS]
    exact h.isProb μ
  refine ⟨fun u => gmmPdf p μ S (fun j => q j (u j)) / ∏ j, gmmPdf1 p μ S j (q j (u j)), fun z => ?_, fun s hs => ?_⟩
  · simp only [(hq _).left]
  · have := df_eq_integral' hq gmmPdf1_measurable (gmmPdf1_pos h) (gmmMargin_density h)
      (gmmPdf_measurable (p := p) (μ := μ) (S := S)) (fun x => (gmmPdf_pos h hS x).le) (fun u _ => rfl) hs
    rw [Spec.gmcLaw, gmmLaw_density h hS]
    exact this

end Copulae
