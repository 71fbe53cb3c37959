import Verif.Lemmas.NormalPairs
import Verif.Lemmas.EllFns
import Verif.Spec.Concordance

/-!
Kendall's tau of scale mixtures of normal vectors and Spearman's rho of normal vectors.
-/

namespace Copulae

open MeasureTheory ProbabilityTheory Set CopulaMeasure
open scoped ENNReal

variable {d : ℕ}

/-- Exchange of the middle coordinates. -/
theorem measurePreserving_middle {α β γ δ : Type*} [MeasurableSpace α] [MeasurableSpace β] [MeasurableSpace γ]
    [MeasurableSpace δ] (a : Measure α) (b : Measure β) (c : Measure γ) (e : Measure δ) [SFinite a] [SFinite b]
    [SFinite c] [SFinite e] :
    MeasurePreserving (fun p : (α × β) × (γ × δ) => ((p.1.1, p.2.1), (p.1.2, p.2.2)))
      ((a.prod b).prod (c.prod e)) ((a.prod c).prod (b.prod e)) := by
  have h1 := measurePreserving_prodAssoc a b (c.prod e)
  have h2 := (MeasurePreserving.id a).prod ((measurePreserving_prodAssoc b c e).symm)
  have h3 := (MeasurePreserving.id a).prod
    ((Measure.measurePreserving_swap (μ := b) (ν := c)).prod (MeasurePreserving.id e))
  have h4 := (MeasurePreserving.id a).prod (measurePreserving_prodAssoc c b e)
  have h5 := (measurePreserving_prodAssoc a c (b.prod e)).symm
  exact h5.comp (h4.comp (h3.comp (h2.comp h1)))

/-- The law of `g(W) Z` for a normal vector `Z` and an independent `W`. -/
noncomputable def scaleMix (S : Matrix (Fin d) (Fin d) ℝ) (κ : Measure ℝ) (g : ℝ → ℝ) : Measure (Fin d → ℝ) :=
  ((gauss S).prod κ).map fun p => g p.2 • p.1

theorem measurable_scale {g : ℝ → ℝ} (hg : Measurable g) : Measurable fun p : (Fin d → ℝ) × ℝ => g p.2 • p.1 :=
  (hg.comp measurable_snd).smul measurable_fst

theorem scaleMix_prob {S : Matrix (Fin d) (Fin d) ℝ} {κ : Measure ℝ} [IsProbabilityMeasure κ] {g : ℝ → ℝ}
    (hg : Measurable g) : IsProbabilityMeasure (scaleMix S κ g) :=
  Measure.isProbabilityMeasure_map (measurable_scale hg).aemeasurable

theorem gauss_smul {S : Matrix (Fin d) (Fin d) ℝ} (hS : S.PosSemidef) (c : ℝ) :
    (gauss S).map (fun x => c • x) = gauss (c ^ 2 • S) := by
  have h := gauss_map hS (c • (1 : Matrix (Fin d) (Fin d) ℝ))
  have e : (fun x : Fin d → ℝ => Matrix.mulVec (c • (1 : Matrix (Fin d) (Fin d) ℝ)) x) = fun x => c • x := by
    funext x; rw [Matrix.smul_mulVec, Matrix.one_mulVec]
  rw [e] at h
  rw [h]
  congr 1
  rw [Matrix.transpose_smul, Matrix.transpose_one, Matrix.smul_mul, Matrix.one_mul, Matrix.mul_smul, Matrix.mul_one,
    smul_smul, sq]

theorem posSemidef_smul {S : Matrix (Fin d) (Fin d) ℝ} (hS : S.PosSemidef) {c : ℝ} (hc : 0 ≤ c) :
    (c • S).PosSemidef := hS.smul hc

/-- Differences of scaled normal vectors. -/
theorem gauss_scaled_sub {S : Matrix (Fin d) (Fin d) ℝ} (hS : S.PosSemidef) (a b : ℝ) :
    ((gauss S).prod (gauss S)).map (fun p => a • p.1 - b • p.2) = gauss ((a ^ 2 + b ^ 2) • S) := by
  have h := gauss_sub (posSemidef_smul hS (sq_nonneg a)) (posSemidef_smul hS (sq_nonneg b))
  rw [add_smul, ← h, ← gauss_smul hS, ← gauss_smul hS, Measure.map_prod_map _ _ (by fun_prop) (by fun_prop),
    Measure.map_map (by fun_prop) (by fun_prop)]
  rfl

/-- Kendall's tau of a scale mixture of normal vectors. -/
theorem kendallTau_scaleMix {S : Matrix (Fin d) (Fin d) ℝ} (hS : S.PosSemidef) (h1 : ∀ j, S j j = 1)
    {κ : Measure ℝ} [IsProbabilityMeasure κ] {g : ℝ → ℝ} (hg : Measurable g) (h0 : ∀ᵐ w ∂κ, g w ≠ 0) (i j : Fin d) :
    Spec.kendallTau (scaleMix S κ g) i j = 2 / Real.pi * Real.arcsin (S i j) := by
  have hρ := corr_mem hS (h1 i) (h1 j)
  have hprod : ∀ A : Set (Fin d → ℝ), MeasurableSet A → ∀ r : ℝ,
      (∀ v : ℝ, 0 < v → (gauss (v • S)).real A = r) →
      ((scaleMix S κ g).prod (scaleMix S κ g)).real {p | p.1 - p.2 ∈ A} = r := by
    intro A hA r hr
    have hr0 : 0 ≤ r := by rw [← hr 1 one_pos]; exact measureReal_nonneg
    have hms : MeasurableSet {p : (Fin d → ℝ) × (Fin d → ℝ) | p.1 - p.2 ∈ A} :=
      (measurable_fst.sub measurable_snd) hA
    have hm := measurable_scale (d := d) hg
    rw [measureReal_def, scaleMix, Measure.map_prod_map _ _ hm hm, Measure.map_apply (hm.prodMap hm) hms]
    set B : Set (((Fin d → ℝ) × (Fin d → ℝ)) × (ℝ × ℝ)) := {q | g q.2.1 • q.1.1 - g q.2.2 • q.1.2 ∈ A} with hB
    have hmB : MeasurableSet B :=
      (((hg.comp (measurable_fst.comp measurable_snd)).smul (measurable_fst.comp measurable_fst)).sub
        ((hg.comp (measurable_snd.comp measurable_snd)).smul (measurable_snd.comp measurable_fst))) hA
    have e : Prod.map (fun p : (Fin d → ℝ) × ℝ => g p.2 • p.1) (fun p : (Fin d → ℝ) × ℝ => g p.2 • p.1) ⁻¹'
        {p | p.1 - p.2 ∈ A} = (fun p : ((Fin d → ℝ) × ℝ) × ((Fin d → ℝ) × ℝ) =>
          ((p.1.1, p.2.1), (p.1.2, p.2.2))) ⁻¹' B := rfl
    rw [e, (measurePreserving_middle (gauss S) κ (gauss S) κ).measure_preimage hmB.nullMeasurableSet,
      Measure.prod_apply_symm hmB]
    have hin : ∀ᵐ w ∂(κ.prod κ), ((gauss S).prod (gauss S)) ((fun x => (x, w)) ⁻¹' B) = ENNReal.ofReal r := by
      have hw : ∀ᵐ w ∂(κ.prod κ), g w.1 ≠ 0 := by
        have : MeasurePreserving (Prod.fst : ℝ × ℝ → ℝ) (κ.prod κ) κ := measurePreserving_fst
        exact this.quasiMeasurePreserving.ae h0
      filter_upwards [hw] with w hw
      have hv : 0 < g w.1 ^ 2 + g w.2 ^ 2 := by positivity
      rw [← hr _ hv, ← gauss_scaled_sub hS, ofReal_measureReal, Measure.map_apply (by fun_prop) hA]
      rfl
    rw [lintegral_congr_ae hin, lintegral_const, measure_univ, mul_one, ENNReal.toReal_ofReal hr0]
  have hmp : MeasurableSet {x : Fin d → ℝ | 0 < x i * x j} :=
    measurableSet_lt measurable_const ((measurable_pi_apply i).mul (measurable_pi_apply j))
  have hmn : MeasurableSet {x : Fin d → ℝ | x i * x j < 0} :=
    measurableSet_lt ((measurable_pi_apply i).mul (measurable_pi_apply j)) measurable_const
  have hsig : ∀ v : ℝ, 0 < v → _ := fun v hv => gauss_signs (posSemidef_smul hS hv.le) (i := i) (j := j) (ρ := S i j) hv
    (by simp [h1]) (by simp [h1]) (by simp) hρ.1 hρ.2
  have hc := hprod _ hmp _ fun v hv => (hsig v hv).1
  have hd := hprod _ hmn _ fun v hv => (hsig v hv).2
  have hc' : ((scaleMix S κ g).prod (scaleMix S κ g)).real {p | 0 < (p.1 i - p.2 i) * (p.1 j - p.2 j)} = _ := hc
  have hd' : ((scaleMix S κ g).prod (scaleMix S κ g)).real {p | (p.1 i - p.2 i) * (p.1 j - p.2 j) < 0} = _ := hd
  rw [Spec.kendallTau, hc', hd']
  ring

/-- Kendall's tau does not change under increasing transformations of the coordinates. -/
theorem kendallTau_cubeLaw {μ : Measure (Fin d → ℝ)} [SFinite μ] {F : ℝ → ℝ} (hF : StrictMono F) (i j : Fin d) :
    Spec.kendallTau (cubeLaw μ F) i j = Spec.kendallTau μ i j := by
  have hm : Measurable fun (x : Fin d → ℝ) k => F (x k) := measurable_pointwise hF.monotone.measurable
  have hf : Measurable fun p : (Fin d → ℝ) × (Fin d → ℝ) => (p.1 i - p.2 i) * (p.1 j - p.2 j) := by fun_prop
  have hpos : ∀ a b : ℝ, 0 < F a - F b ↔ 0 < a - b := fun a b => by rw [sub_pos, sub_pos, hF.lt_iff_lt]
  have hneg : ∀ a b : ℝ, F a - F b < 0 ↔ a - b < 0 := fun a b => by rw [sub_neg, sub_neg, hF.lt_iff_lt]
  rw [Spec.kendallTau, Spec.kendallTau, cubeLaw, Measure.map_prod_map _ _ hm hm,
    map_measureReal_apply (hm.prodMap hm) (measurableSet_lt measurable_const hf),
    map_measureReal_apply (hm.prodMap hm) (measurableSet_lt hf measurable_const)]
  congr 2
  · ext p
    simp only [mem_preimage, mem_ofPred_eq, Prod.map_fst, Prod.map_snd, mul_pos_iff, hpos, hneg]
  · ext p
    simp only [mem_preimage, mem_ofPred_eq, Prod.map_fst, Prod.map_snd, mul_neg_iff, hpos, hneg]

theorem scaleMix_one (S : Matrix (Fin d) (Fin d) ℝ) : scaleMix S (Measure.dirac 1) id = gauss S := by
  rw [scaleMix, Measure.prod_dirac, Measure.map_map (measurable_scale measurable_id) (by fun_prop)]
  have : ((fun p : (Fin d → ℝ) × ℝ => id p.2 • p.1) ∘ fun x : Fin d → ℝ => (x, (1 : ℝ))) = id := by
    funext x; simp
  rw [this, Measure.map_id]

/-- Kendall's tau of the Gaussian copula. -/
theorem kendallTau_gaussLaw {S : Matrix (Fin d) (Fin d) ℝ} (hS : S.PosSemidef) (h1 : ∀ j, S j j = 1) (i j : Fin d) :
    Spec.kendallTau (Spec.gaussLaw S) i j = 2 / Real.pi * Real.arcsin (S i j) := by
  rw [gaussLaw_eq, kendallTau_cubeLaw normMargin.mono, ← scaleMix_one,
    kendallTau_scaleMix hS h1 measurable_id (by simp)]

/-- The mean of a product of two values of the normal distribution function. -/
theorem integral_normCdf {S : Matrix (Fin d) (Fin d) ℝ} (hS : S.PosSemidef) (h1 : ∀ j, S j j = 1) (i j : Fin d)
    (α β : ℝ) : ∫ x, normCdf (α * x i) * normCdf (β * x j) ∂(gauss S) =
      1 / 4 + Real.arcsin (S i j * (α / √(1 + α ^ 2)) * (β / √(1 + β ^ 2))) / (2 * Real.pi) := by
  have hρ := corr_mem hS (h1 i) (h1 j)
  have hji : S j i = S i j := by
    have := congrFun (congrFun hS.1 i) j
    simpa only [Matrix.conjTranspose_apply, star_trivial] using this
  set B : Matrix (Fin 2) (Fin d) ℝ := Matrix.of ![Pi.single i α, Pi.single j β] with hB
  set R : Matrix (Fin 2) (Fin 2) ℝ := B * S * B.transpose with hR
  have hRS : R.PosSemidef := by
    have := hS.mul_mul_conjTranspose_same B
    rwa [Matrix.conjTranspose_eq_transpose_of_trivial] at this
  have hB0 : ∀ x : Fin d → ℝ, Matrix.mulVec B x 0 = α * x i := fun x => by simp [hB, Matrix.mulVec]
  have hB1 : ∀ x : Fin d → ℝ, Matrix.mulVec B x 1 = β * x j := fun x => by simp [hB, Matrix.mulVec]
  have hBm : Measurable fun x : Fin d → ℝ => Matrix.mulVec B x :=
    (Continuous.matrix_mulVec continuous_const continuous_id).measurable
  have hpi : ∀ x : Fin 2 → ℝ, normCdf (x 0) * normCdf (x 1) =
      (gauss (1 : Matrix (Fin 2) (Fin 2) ℝ)).real {z | z 0 ≤ x 0 ∧ z 1 ≤ x 1} := by
    intro x
    have e : {z : Fin 2 → ℝ | z 0 ≤ x 0 ∧ z 1 ≤ x 1} = Set.pi univ fun k => Iic (x k) := by
      ext z
      simp only [mem_ofPred_eq, mem_univ_pi, Fin.forall_fin_two, mem_Iic]
    rw [gauss_one, e, measureReal_def, Measure.pi_pi, ENNReal.toReal_prod, Fin.prod_univ_two]
    rfl
  have hA : MeasurableSet {x : Fin 2 → ℝ | 0 ≤ x 0 ∧ 0 ≤ x 1} :=
    (measurableSet_le measurable_const (measurable_pi_apply 0)).inter
      (measurableSet_le measurable_const (measurable_pi_apply 1))
  have hT : (R + 1).PosSemidef := hRS.add Matrix.PosSemidef.one
  have hmul : Measurable fun x : Fin 2 → ℝ => normCdf (x 0) * normCdf (x 1) :=
    (normMargin.measurable.comp (measurable_pi_apply 0)).mul (normMargin.measurable.comp (measurable_pi_apply 1))
  have hprod : ∫ x, normCdf (α * x i) * normCdf (β * x j) ∂(gauss S) =
      (gauss (R + 1)).real {x | 0 ≤ x 0 ∧ 0 ≤ x 1} := by
    have hs : MeasurableSet ((fun p : (Fin 2 → ℝ) × (Fin 2 → ℝ) => p.1 - p.2) ⁻¹' {x | 0 ≤ x 0 ∧ 0 ≤ x 1}) :=
      (measurable_fst.sub measurable_snd) hA
    have h2 : ∫ x, normCdf (α * x i) * normCdf (β * x j) ∂(gauss S) = ∫ y, normCdf (y 0) * normCdf (y 1) ∂(gauss R) := by
      rw [hR, ← gauss_map hS B, integral_map hBm.aemeasurable hmul.aestronglyMeasurable]
      simp_rw [hB0, hB1]
    rw [h2, ← gauss_sub hRS Matrix.PosSemidef.one, map_measureReal_apply (by fun_prop) hA, measureReal_def,
      Measure.prod_apply hs, ← integral_toReal (measurable_measure_prodMk_left hs).aemeasurable
        (Filter.Eventually.of_forall fun x => measure_lt_top _ _)]
    refine integral_congr_ae (Filter.Eventually.of_forall fun x => ?_)
    simp only
    rw [hpi x, measureReal_def]
    congr 2
    ext z
    simp
  have hR00 : (R + 1) 0 0 = √(1 + α ^ 2) ^ 2 := by
    rw [Real.sq_sqrt (by positivity), Matrix.add_apply, Matrix.one_apply_eq, hR]
    simp [hB, Matrix.mul_apply, Pi.single_apply, h1]
    ring
  have hR11 : (R + 1) 1 1 = √(1 + β ^ 2) ^ 2 := by
    rw [Real.sq_sqrt (by positivity), Matrix.add_apply, Matrix.one_apply_eq, hR]
    simp [hB, Matrix.mul_apply, Pi.single_apply, h1]
    ring
  have hsa : 0 < √(1 + α ^ 2) := by positivity
  have hsb : 0 < √(1 + β ^ 2) := by positivity
  have hR01 : (R + 1) 0 1 = √(1 + α ^ 2) * √(1 + β ^ 2) * (S i j * (α / √(1 + α ^ 2)) * (β / √(1 + β ^ 2))) := by
    rw [Matrix.add_apply, Matrix.one_apply_ne (by decide), hR]
    simp [hB, Matrix.mul_apply, Pi.single_apply]
    field_simp
  have hae : (gauss (R + 1)).real {x | 0 ≤ x 0 ∧ 0 ≤ x 1} = (gauss (R + 1)).real {x | 0 < x 0 ∧ 0 < x 1} := by
    refine measureReal_congr ?_
    filter_upwards [gauss_ne_zero hT (i := 0) (by rw [hR00]; positivity),
      gauss_ne_zero hT (i := 1) (by rw [hR11]; positivity)] with x hx hy
    refine propext (?_ : (0 ≤ x 0 ∧ 0 ≤ x 1) ↔ (0 < x 0 ∧ 0 < x 1))
    exact ⟨fun h => ⟨lt_of_le_of_ne h.1 hx.symm, lt_of_le_of_ne h.2 hy.symm⟩, fun h => ⟨h.1.le, h.2.le⟩⟩
  have hone : ∀ t : ℝ, |t / √(1 + t ^ 2)| ≤ 1 := by
    intro t
    have hs : 0 < √(1 + t ^ 2) := by positivity
    rw [abs_div, abs_of_pos hs, div_le_one hs]
    exact Real.abs_le_sqrt (by linarith)
  have habs : |S i j * (α / √(1 + α ^ 2)) * (β / √(1 + β ^ 2))| ≤ 1 := by
    rw [abs_mul, abs_mul]
    exact mul_le_one₀ (mul_le_one₀ (abs_le.mpr hρ) (abs_nonneg _) (hone α)) (abs_nonneg _) (hone β)
  rw [hprod, hae, gauss_orthant' hT hsa hsb hR00 hR11 hR01 (abs_le.mp habs).1 (abs_le.mp habs).2]

/-- Spearman's rho of the Gaussian copula. -/
theorem spearmanRho_gaussLaw {S : Matrix (Fin d) (Fin d) ℝ} (hS : S.PosSemidef) (h1 : ∀ j, S j j = 1) (i j : Fin d) :
    Spec.spearmanRho (Spec.gaussLaw S) i j = 6 / Real.pi * Real.arcsin (S i j / 2) := by
  have hm : Measurable fun (x : Fin d → ℝ) k => normCdf (x k) := measurable_pointwise normMargin.measurable
  have hmul : Measurable fun u : Fin d → ℝ => u i * u j := (measurable_pi_apply i).mul (measurable_pi_apply j)
  have h := integral_normCdf hS h1 i j 1 1
  simp only [one_mul, one_pow] at h
  have e : S i j * (1 / √(1 + 1)) * (1 / √(1 + 1)) = S i j / 2 := by
    have : √(1 + 1 : ℝ) * √(1 + 1) = 2 := by rw [Real.mul_self_sqrt (by norm_num)]; norm_num
    rw [mul_assoc, div_mul_div_comm, this]; ring
  rw [e] at h
  rw [Spec.spearmanRho, gaussLaw_eq, cubeLaw, integral_map hm.aemeasurable hmul.aestronglyMeasurable, h]
  field_simp
  ring

end Copulae
