import Verif.Lemmas.NormalMix
import Verif.Spec.TailDep

/-!
Tail dependence of transformed symmetric vectors, and of normal vectors.
-/

namespace Copulae

open MeasureTheory ProbabilityTheory Set CopulaMeasure Filter Topology

variable {d : ℕ}

theorem isMargin_atBot {κ : Measure ℝ} {F q : ℝ → ℝ} (h : IsMargin κ F q) : Tendsto q (𝓝[>] 0) atBot := by
  rw [tendsto_atBot]
  intro M
  have hM := h.mem M
  filter_upwards [Ioo_mem_nhdsGT hM.1] with u hu
  by_contra hlt
  rw [not_le] at hlt
  have := h.mono hlt
  rw [h.right u hu.1 (hu.2.trans hM.2)] at this
  linarith [hu.2]

theorem isMargin_atTop {κ : Measure ℝ} {F q : ℝ → ℝ} (h : IsMargin κ F q) : Tendsto q (𝓝[<] 1) atTop := by
  rw [tendsto_atTop]
  intro M
  have hM := h.mem M
  filter_upwards [Ioo_mem_nhdsLT hM.2] with u hu
  by_contra hlt
  rw [not_le] at hlt
  have := h.mono hlt
  rw [h.right u (hM.1.trans hu.1) hu.2] at this
  linarith [hu.1]

/-- The tail dependence of a transformed vector, from the vector itself. -/
theorem tailDep_cubeLaw {μ : Measure (Fin d → ℝ)} {κ : Measure ℝ} {F q : ℝ → ℝ} (h : IsMargin κ F q)
    (hsym : μ.map (fun x => -x) = μ) [NullSingletonClass κ] (hmar : ∀ k, μ.map (fun x => x k) = κ) {i j : Fin d} {l : ℝ}
    (hl : Tendsto (fun t : ℝ => μ.real {x | x i ≤ t ∧ x j ≤ t} / κ.real (Iic t)) atBot (𝓝 l)) :
    Spec.LowerTailDep (cubeLaw μ F) i j l ∧ Spec.UpperTailDep (cubeLaw μ F) i j l := by
  have hm := measurable_pointwise (d := d) h.measurable
  have hpair : ∀ u : ℝ, MeasurableSet {x : Fin d → ℝ | x i ≤ u ∧ x j ≤ u} := fun u =>
    (measurableSet_le (measurable_pi_apply i) measurable_const).inter
      (measurableSet_le (measurable_pi_apply j) measurable_const)
  have hpair' : ∀ u : ℝ, MeasurableSet {x : Fin d → ℝ | u < x i ∧ u < x j} := fun u =>
    (measurableSet_lt measurable_const (measurable_pi_apply i)).inter
      (measurableSet_lt measurable_const (measurable_pi_apply j))
  have hone : ∀ u : ℝ, MeasurableSet {x : Fin d → ℝ | x i ≤ u} := fun u =>
    measurableSet_le (measurable_pi_apply i) measurable_const
  have hone' : ∀ u : ℝ, MeasurableSet {x : Fin d → ℝ | u < x i} := fun u =>
    measurableSet_lt measurable_const (measurable_pi_apply i)
  have hκ : ∀ t, κ.real (Iic t) = μ.real {x | x i ≤ t} := by
    intro t
    rw [← hmar i, map_measureReal_apply (measurable_pi_apply i) measurableSet_Iic]
    rfl
  constructor
  · refine (hl.comp (isMargin_atBot h)).congr' ?_
    filter_upwards [Ioo_mem_nhdsGT one_pos] with u hu
    rw [Function.comp, cubeLaw, map_measureReal_apply hm (hpair u), map_measureReal_apply hm (hone u), hκ]
    congr 2
    · ext x
      simp only [mem_ofPred_eq, mem_preimage, h.le_iff hu.1 hu.2]
    · ext x
      simp only [mem_ofPred_eq, mem_preimage, h.le_iff hu.1 hu.2]
  · have hnull : ∀ k : Fin d, ∀ t : ℝ, ∀ᵐ x ∂μ, x k ≠ t := by
      intro k t
      have : ∀ᵐ y ∂(μ.map fun x => x k), y ≠ t := by
        rw [hmar k]
        exact (measure_eq_zero_iff_ae_notMem.mp (measure_singleton t)).mono fun y hy => hy
      exact ae_of_ae_map (measurable_pi_apply k).aemeasurable this
    have hneg : ∀ t : ℝ, μ.real {x | t < x i ∧ t < x j} = μ.real {x | x i ≤ -t ∧ x j ≤ -t} := by
      intro t
      conv_rhs => rw [← hsym]
      rw [map_measureReal_apply measurable_neg (hpair _)]
      refine measureReal_congr ?_
      filter_upwards [hnull i t, hnull j t] with x hx hx'
      refine propext ?_
      change (t < x i ∧ t < x j) ↔ (-x i ≤ -t ∧ -x j ≤ -t)
      rw [neg_le_neg_iff, neg_le_neg_iff]
      exact ⟨fun h => ⟨h.1.le, h.2.le⟩, fun h => ⟨lt_of_le_of_ne h.1 hx.symm, lt_of_le_of_ne h.2 hx'.symm⟩⟩
    have hneg' : ∀ t : ℝ, μ.real {x | t < x i} = μ.real {x | x i ≤ -t} := by
      intro t
      conv_rhs => rw [← hsym]
      rw [map_measureReal_apply measurable_neg (hone _)]
      refine measureReal_congr ?_
      filter_upwards [hnull i t] with x hx
      refine propext ?_
      change t < x i ↔ -x i ≤ -t
      rw [neg_le_neg_iff]
      exact ⟨fun h => h.le, fun h => lt_of_le_of_ne h hx.symm⟩
    refine (hl.comp (tendsto_neg_atTop_atBot.comp (isMargin_atTop h))).congr' ?_
    filter_upwards [Ioo_mem_nhdsLT (zero_lt_one (α := ℝ))] with u hu
    simp only [Function.comp]
    rw [cubeLaw, map_measureReal_apply hm (hpair' u), map_measureReal_apply hm (hone' u), hκ, ← hneg, ← hneg']
    have hlt : ∀ x : ℝ, q u < x ↔ u < F x := fun x => by
      rw [← not_le, ← not_le, h.le_iff hu.1 hu.2]
    congr 2
    · ext x
      simp only [mem_ofPred_eq, mem_preimage, hlt]
    · ext x
      simp only [mem_ofPred_eq, mem_preimage, hlt]

/-! ### Normal vectors -/

/-- The law of a linear combination of two coordinates. -/
theorem gauss_comb {S : Matrix (Fin d) (Fin d) ℝ} (hS : S.PosSemidef) (i j : Fin d) (a b : ℝ) :
    (gauss S).map (fun x => a * x i + b * x j) =
      gaussianReal 0 (a ^ 2 * S i i + 2 * a * b * S i j + b ^ 2 * S j j).toNNReal := by
  have hji : S j i = S i j := by
    have := congrFun (congrFun hS.1 i) j
    simpa only [Matrix.conjTranspose_apply, star_trivial] using this
  set A : Matrix (Fin 1) (Fin d) ℝ := Matrix.of fun _ k => (if k = i then a else 0) + (if k = j then b else 0) with hA
  have hP : (A * S * A.transpose).PosSemidef := by
    have := hS.mul_mul_conjTranspose_same A
    rwa [Matrix.conjTranspose_eq_transpose_of_trivial] at this
  have h := gauss_map hS A
  have h2 := gauss_margin hP 0
  rw [← h, Measure.map_map (measurable_pi_apply 0) (by fun_prop)] at h2
  have e : ((fun x : Fin 1 → ℝ => x 0) ∘ fun x => A.mulVec x) = fun x => a * x i + b * x j := by
    funext x
    simp [hA, Matrix.mulVec, dotProduct, add_mul, Finset.sum_add_distrib]
  rw [e] at h2
  rw [h2]
  congr 2
  have hr : ∀ k, (A * S) 0 k = a * S i k + b * S j k := by
    intro k
    simp [hA, Matrix.mul_apply, add_mul, Finset.sum_add_distrib]
  simp only [Matrix.mul_apply (M := A * S), hr, Matrix.transpose_apply]
  simp [hA, mul_add, Finset.sum_add_distrib]
  rw [hji]
  ring

/-- A normal law with a smaller variance has lighter tails. -/
theorem normal_tail {v : ℝ} (h0 : 0 < v) (h1 : v < 1) {x : ℝ} (hx : x ≤ 0) :
    (gaussianReal 0 v.toNNReal).real (Iic x) ≤
      (√v)⁻¹ * Real.exp (-((1 / v - 1) * x ^ 2 / 2)) * (gaussianReal 0 1).real (Iic x) := by
  have hv0 : v.toNNReal ≠ 0 := by simpa using h0
  have hvc : (v.toNNReal : ℝ) = v := Real.coe_toNNReal v h0.le
  have hK : 0 ≤ (√v)⁻¹ * Real.exp (-((1 / v - 1) * x ^ 2 / 2)) := by positivity
  rw [measureReal_def, measureReal_def, ← ENNReal.toReal_ofReal hK, ← ENNReal.toReal_mul]
  refine ENNReal.toReal_mono (ENNReal.mul_ne_top ENNReal.ofReal_ne_top (measure_ne_top _ _)) ?_
  rw [gaussianReal_apply 0 hv0, gaussianReal_apply 0 one_ne_zero,
    ← lintegral_const_mul _ (measurable_gaussianPDF 0 1)]
  refine setLIntegral_mono ((measurable_gaussianPDF 0 1).const_mul _) fun y hy => ?_
  rw [gaussianPDF, gaussianPDF, ← ENNReal.ofReal_mul hK]
  refine ENNReal.ofReal_le_ofReal ?_
  unfold gaussianPDFReal
  rw [hvc, NNReal.coe_one, mul_one, sub_zero]
  have hy' : y ≤ x := hy
  have hsq : x ^ 2 ≤ y ^ 2 := by nlinarith
  have hpi := Real.pi_pos
  have hs : √(2 * Real.pi * v) = √(2 * Real.pi) * √v := Real.sqrt_mul (by positivity) v
  have hvi : 0 < 1 / v - 1 := by rw [sub_pos, lt_div_iff₀ h0]; linarith
  have e1 : -y ^ 2 / (2 * v) = -((1 / v - 1) * y ^ 2 / 2) + -y ^ 2 / 2 := by field_simp; ring
  rw [hs, e1, Real.exp_add, mul_inv]
  have h3 : Real.exp (-((1 / v - 1) * y ^ 2 / 2)) ≤ Real.exp (-((1 / v - 1) * x ^ 2 / 2)) := by
    rw [Real.exp_le_exp]
    nlinarith
  have hc : 0 ≤ (√(2 * Real.pi))⁻¹ * (√v)⁻¹ * Real.exp (-y ^ 2 / 2) := by positivity
  nlinarith [mul_le_mul_of_nonneg_left h3 hc]

theorem gauss_tail_lim {S : Matrix (Fin d) (Fin d) ℝ} (hS : S.PosSemidef) (h1 : ∀ k, S k k = 1) (i j : Fin d) :
    Tendsto (fun t : ℝ => (gauss S).real {x | x i ≤ t ∧ x j ≤ t} / (gaussianReal 0 1).real (Iic t)) atBot
      (𝓝 (if S i j = 1 then 1 else 0)) := by
  obtain ⟨hr1, hr2⟩ := corr_mem hS (h1 i) (h1 j)
  have hpos : ∀ t, 0 < (gaussianReal 0 1).real (Iic t) := fun t => (normMargin.mem t).1
  have hmi : ∀ t, (gauss S).real {x | x i ≤ t} = (gaussianReal 0 1).real (Iic t) := by
    intro t
    have := gauss_margin hS i
    rw [h1, Real.toNNReal_one] at this
    rw [← this, map_measureReal_apply (measurable_pi_apply i) measurableSet_Iic]
    rfl
  split_ifs with hρ
  · -- equal coordinates
    have hz := gauss_comb hS i j 1 (-1)
    have e0 : (1 : ℝ) ^ 2 * S i i + 2 * 1 * (-1) * S i j + (-1) ^ 2 * S j j = 0 := by rw [h1, h1, hρ]; ring
    rw [e0, Real.toNNReal_zero, gaussianReal_zero_var] at hz
    have hmf : Measurable fun x : Fin d → ℝ => 1 * x i + -1 * x j := by fun_prop
    have hae : ∀ᵐ x ∂(gauss S), 1 * x i + -1 * x j = 0 := by
      have : ∀ᵐ y ∂((gauss S).map fun x => 1 * x i + -1 * x j), y = 0 := by
        rw [hz, ae_dirac_eq]; exact rfl
      exact ae_of_ae_map hmf.aemeasurable this
    refine tendsto_const_nhds.congr fun t => ?_
    have : (gauss S).real {x | x i ≤ t ∧ x j ≤ t} = (gauss S).real {x | x i ≤ t} := by
      refine measureReal_congr ?_
      filter_upwards [hae] with x hx
      refine propext ⟨fun h => h.1, fun h => ⟨h, ?_⟩⟩
      have h' : x i ≤ t := h
      linarith
    rw [this, hmi, div_self (hpos t).ne']
  · have hlt : S i j < 1 := lt_of_le_of_ne hr2 hρ
    have hcomb := gauss_comb hS i j (1 / 2) (1 / 2)
    have e0 : (1 / 2 : ℝ) ^ 2 * S i i + 2 * (1 / 2) * (1 / 2) * S i j + (1 / 2) ^ 2 * S j j = (1 + S i j) / 2 := by
      rw [h1, h1]; ring
    rw [e0] at hcomb
    have hmf : Measurable fun x : Fin d → ℝ => 1 / 2 * x i + 1 / 2 * x j := by fun_prop
    have hle : ∀ t, (gauss S).real {x | x i ≤ t ∧ x j ≤ t} ≤ (gaussianReal 0 ((1 + S i j) / 2).toNNReal).real (Iic t) := by
      intro t
      rw [← hcomb, map_measureReal_apply hmf measurableSet_Iic]
      refine measureReal_mono fun x hx => ?_
      have h' : x i ≤ t ∧ x j ≤ t := hx
      simp only [mem_preimage, mem_Iic]
      linarith [h'.1, h'.2]
    rcases hr1.eq_or_lt with hm1 | hm1
    · -- opposite coordinates
      refine tendsto_const_nhds.congr' ?_
      filter_upwards [eventually_lt_atBot (0 : ℝ)] with t ht
      have h2 := hle t
      rw [← hm1, show (1 + (-1 : ℝ)) / 2 = 0 by norm_num, Real.toNNReal_zero, gaussianReal_zero_var] at h2
      have h3 : (Measure.dirac (0 : ℝ)).real (Iic t) = 0 := by
        rw [measureReal_def, Measure.dirac_apply' _ measurableSet_Iic]
        simp [ht]
      rw [h3] at h2
      rw [le_antisymm h2 measureReal_nonneg, zero_div]
    · have hv0 : 0 < (1 + S i j) / 2 := by linarith
      have hv1 : (1 + S i j) / 2 < 1 := by linarith
      set v := (1 + S i j) / 2 with hv
      have hvi : 0 < 1 / v - 1 := by rw [sub_pos, lt_div_iff₀ hv0]; linarith
      have hlim : Tendsto (fun t : ℝ => (√v)⁻¹ * Real.exp (-((1 / v - 1) * t ^ 2 / 2))) atBot (𝓝 0) := by
        rw [show (0 : ℝ) = (√v)⁻¹ * 0 by ring]
        refine Tendsto.const_mul _ (Real.tendsto_exp_neg_atTop_nhds_zero.comp ?_)
        have hsq : Tendsto (fun t : ℝ => t ^ 2) atBot atTop := by
          have := (tendsto_pow_atTop (α := ℝ) two_ne_zero).comp tendsto_neg_atBot_atTop
          refine this.congr fun t => ?_
          simp [Function.comp]
        exact (hsq.const_mul_atTop hvi).atTop_div_const two_pos
      refine tendsto_of_tendsto_of_tendsto_of_le_of_le' tendsto_const_nhds hlim
        (Eventually.of_forall fun t => div_nonneg measureReal_nonneg (hpos t).le) ?_
      filter_upwards [eventually_le_atBot (0 : ℝ)] with t ht
      rw [div_le_iff₀ (hpos t)]
      exact (hle t).trans (normal_tail hv0 hv1 ht)

/-- Tail dependence of the Gaussian copula. -/
theorem tailDep_gaussLaw {S : Matrix (Fin d) (Fin d) ℝ} (hS : S.PosSemidef) (h1 : ∀ k, S k k = 1) (i j : Fin d) :
    Spec.LowerTailDep (Spec.gaussLaw S) i j (if S i j = 1 then 1 else 0) ∧
      Spec.UpperTailDep (Spec.gaussLaw S) i j (if S i j = 1 then 1 else 0) := by
  rw [gaussLaw_eq]
  have : NullSingletonClass (gaussianReal 0 1) := nullSingletonClass_gaussianReal one_ne_zero
  refine tailDep_cubeLaw normMargin (gauss_neg hS) (fun k => ?_) (gauss_tail_lim hS h1 i j)
  rw [gauss_margin hS, h1, Real.toNNReal_one]

end Copulae
