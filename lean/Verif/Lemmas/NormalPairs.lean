import Verif.Lemmas.Orthant

/-!
Signs of pairs of coordinates of normal vectors, of their differences, and of scale mixtures of them.
-/

namespace Copulae

open MeasureTheory ProbabilityTheory Set Matrix
open scoped ENNReal

variable {d : ℕ}

/-- Differences of independent normal vectors. -/
theorem gauss_sub {S T : Matrix (Fin d) (Fin d) ℝ} (hS : S.PosSemidef) (hT : T.PosSemidef) :
    ((gauss S).prod (gauss T)).map (fun p => p.1 - p.2) = gauss (S + T) := by
  have hneg : gauss T = ((multivariateGaussian 0 T).map WithLp.ofLp).map (fun x => -x) := by
    have h := gauss_map hT (-1 : Matrix (Fin d) (Fin d) ℝ)
    have e : (fun x : Fin d → ℝ => (-1 : Matrix (Fin d) (Fin d) ℝ) *ᵥ x) = fun x => -x := by
      funext x; simp [neg_mulVec]
    rw [e] at h
    rw [← gauss, h]
    simp
  have hconv : (multivariateGaussian 0 S).conv (multivariateGaussian 0 T) = multivariateGaussian 0 (S + T) := by
    refine Measure.ext_of_charFun ?_
    funext x
    rw [charFun_conv, charFun_multivariateGaussian hS, charFun_multivariateGaussian hT,
      charFun_multivariateGaussian (hS.add hT), ← Complex.exp_add]
    congr 1
    simp only [inner_zero_right, add_mulVec, dotProduct_add, Complex.ofReal_zero, zero_mul, zero_sub]
    push_cast
    ring
  have hm : Measurable fun x : Fin d → ℝ => -x := measurable_neg
  rw [hneg, Measure.map_map hm (by fun_prop)]
  conv_lhs => rw [gauss]
  rw [Measure.map_prod_map _ _ (by fun_prop) (hm.comp (by fun_prop)), Measure.map_map (by fun_prop)
    (by fun_prop), gauss, ← hconv, Measure.conv, Measure.map_map (by fun_prop) (by fun_prop)]
  congr 1
  funext p
  simp

/-- Both coordinates positive. -/
theorem gauss_orthant' {T : Matrix (Fin d) (Fin d) ℝ} (hT : T.PosSemidef) {i j : Fin d} {a b ρ : ℝ} (ha : 0 < a) (hb : 0 < b)
    (hi : T i i = a ^ 2) (hj : T j j = b ^ 2) (hij : T i j = a * b * ρ) (h1 : -1 ≤ ρ) (h2 : ρ ≤ 1) :
    (gauss T).real {x | 0 < x i ∧ 0 < x j} = 1 / 4 + Real.arcsin ρ / (2 * Real.pi) := by
  have hji : T j i = a * b * ρ := by
    have := congrFun (congrFun hT.1 i) j
    simp only [conjTranspose_apply, star_trivial] at this
    rw [this, hij]
  set A : Matrix (Fin 2) (Fin 2) ℝ := !![a, 0; b * ρ, b * √(1 - ρ ^ 2)] with hA
  have hBT : T.submatrix ![i, j] ![i, j] = A * 1 * Aᵀ := by
    have hr : √(1 - ρ ^ 2) * √(1 - ρ ^ 2) = 1 - ρ ^ 2 := Real.mul_self_sqrt (by nlinarith)
    rw [mul_one]
    ext k l
    fin_cases k <;> fin_cases l <;>
      simp only [submatrix_apply, hA, Matrix.mul_apply, Fin.sum_univ_two, transpose_apply, Fin.zero_eta, Fin.mk_one,
        cons_val_zero, cons_val_one, of_apply, cons_val', hi, hj, hij, hji, cons_val_fin_one]
    · ring
    · ring
    · ring
    · linear_combination -(b ^ 2) * hr
  have hm1 : Measurable fun x : Fin 2 → ℝ => A *ᵥ x :=
    (Continuous.matrix_mulVec continuous_const continuous_id).measurable
  have hms : MeasurableSet {y : Fin 2 → ℝ | 0 < y 0 ∧ 0 < y 1} :=
    (measurableSet_lt measurable_const (measurable_pi_apply 0)).inter
      (measurableSet_lt measurable_const (measurable_pi_apply 1))
  have hm2 : Measurable fun (x : Fin d → ℝ) (k : Fin 2) => x (![i, j] k) :=
    measurable_pi_lambda _ fun k => measurable_pi_apply (![i, j] k)
  have hmq : MeasurableSet {p : ℝ × ℝ | 0 < p.1 ∧ 0 < ρ * p.1 + √(1 - ρ ^ 2) * p.2} :=
    (measurableSet_lt measurable_const measurable_fst).inter
      (measurableSet_lt measurable_const ((measurable_fst.const_mul _).add (measurable_snd.const_mul _)))
  have hpair : (gauss T).real {x | 0 < x i ∧ 0 < x j} =
      (gauss (T.submatrix ![i, j] ![i, j])).real {y | 0 < y 0 ∧ 0 < y 1} := by
    rw [← gauss_submatrix hT ![i, j], map_measureReal_apply hm2 hms]
    rfl
  rw [hpair, hBT, ← gauss_map PosSemidef.one, map_measureReal_apply hm1 hms, gauss_one,
    ← normal_orthant h1 h2,
    ← (measurePreserving_finTwoArrow (gaussianReal 0 1)).map_eq, map_measureReal_apply (MeasurableEquiv.measurable _) hmq]
  congr 1
  ext x
  have e0 : (A *ᵥ x) 0 = a * x 0 := by simp [hA, mulVec, dotProduct, Fin.sum_univ_two]
  have e1 : (A *ᵥ x) 1 = b * (ρ * x 0 + √(1 - ρ ^ 2) * x 1) := by
    simp [hA, mulVec, dotProduct, Fin.sum_univ_two]; ring
  simp only [mem_preimage, mem_ofPred_eq, e0, e1, mul_pos_iff_of_pos_left ha, mul_pos_iff_of_pos_left hb]
  rfl

/-- Both coordinates positive, equal variances. -/
theorem gauss_orthant {T : Matrix (Fin d) (Fin d) ℝ} (hT : T.PosSemidef) {i j : Fin d} {v ρ : ℝ} (hv : 0 < v)
    (hi : T i i = v) (hj : T j j = v) (hij : T i j = v * ρ) (h1 : -1 ≤ ρ) (h2 : ρ ≤ 1) :
    (gauss T).real {x | 0 < x i ∧ 0 < x j} = 1 / 4 + Real.arcsin ρ / (2 * Real.pi) := by
  have hs := Real.sqrt_pos.mpr hv
  refine gauss_orthant' hT hs hs ?_ ?_ ?_ h1 h2
  · rw [Real.sq_sqrt hv.le, hi]
  · rw [Real.sq_sqrt hv.le, hj]
  · rw [Real.mul_self_sqrt hv.le, hij]

/-- A coordinate of a normal vector with positive variance is not zero. -/
theorem gauss_ne_zero {T : Matrix (Fin d) (Fin d) ℝ} (hT : T.PosSemidef) {i : Fin d} (hi : 0 < T i i) :
    ∀ᵐ x ∂(gauss T), x i ≠ 0 := by
  have hv : (T i i).toNNReal ≠ 0 := by simpa using hi
  have : NullSingletonClass (gaussianReal 0 (T i i).toNNReal) := nullSingletonClass_gaussianReal hv
  have h : ∀ᵐ y ∂((gauss T).map fun x => x i), y ≠ 0 := by
    rw [gauss_margin hT]
    exact Measure.ae_ne _ 0
  exact ae_of_ae_map (measurable_pi_apply i).aemeasurable h

theorem gauss_neg {T : Matrix (Fin d) (Fin d) ℝ} (hT : T.PosSemidef) : (gauss T).map (fun x => -x) = gauss T := by
  have h := gauss_map hT (-1 : Matrix (Fin d) (Fin d) ℝ)
  have e : (fun x : Fin d → ℝ => (-1 : Matrix (Fin d) (Fin d) ℝ) *ᵥ x) = fun x => -x := by
    funext x; simp [neg_mulVec]
  rw [e] at h
  rw [h]
  simp

/-- Equal signs and opposite signs. -/
theorem gauss_signs {T : Matrix (Fin d) (Fin d) ℝ} (hT : T.PosSemidef) {i j : Fin d} {v ρ : ℝ} (hv : 0 < v)
    (hi : T i i = v) (hj : T j j = v) (hij : T i j = v * ρ) (h1 : -1 ≤ ρ) (h2 : ρ ≤ 1) :
    (gauss T).real {x | 0 < x i * x j} = 1 / 2 + Real.arcsin ρ / Real.pi ∧
    (gauss T).real {x | x i * x j < 0} = 1 / 2 - Real.arcsin ρ / Real.pi := by
  have ho := gauss_orthant hT hv hi hj hij h1 h2
  have hmp : MeasurableSet {x : Fin d → ℝ | 0 < x i ∧ 0 < x j} :=
    (measurableSet_lt measurable_const (measurable_pi_apply i)).inter
      (measurableSet_lt measurable_const (measurable_pi_apply j))
  have hmn : MeasurableSet {x : Fin d → ℝ | x i < 0 ∧ x j < 0} :=
    (measurableSet_lt (measurable_pi_apply i) measurable_const).inter
      (measurableSet_lt (measurable_pi_apply j) measurable_const)
  have hn : (gauss T).real {x | x i < 0 ∧ x j < 0} = (gauss T).real {x | 0 < x i ∧ 0 < x j} := by
    conv_lhs => rw [← gauss_neg hT]
    rw [map_measureReal_apply measurable_neg hmn]
    congr 1
    ext x; simp
  have hc : (gauss T).real {x | 0 < x i * x j} = 1 / 2 + Real.arcsin ρ / Real.pi := by
    have e : {x : Fin d → ℝ | 0 < x i * x j} = {x | 0 < x i ∧ 0 < x j} ∪ {x | x i < 0 ∧ x j < 0} := by
      ext x; exact mul_pos_iff (a := x i)
    rw [e, measureReal_union _ hmn, hn, ho]
    · field_simp; ring
    · rw [Set.disjoint_left]
      intro x hx hx'
      exact absurd hx.1 (not_lt.mpr hx'.1.le)
  refine ⟨hc, ?_⟩
  have hmc : MeasurableSet {x : Fin d → ℝ | 0 < x i * x j} :=
    measurableSet_lt measurable_const ((measurable_pi_apply i).mul (measurable_pi_apply j))
  have h3 : (gauss T).real {x | x i * x j < 0} = (gauss T).real {x | 0 < x i * x j}ᶜ := by
    refine measureReal_congr ?_
    filter_upwards [gauss_ne_zero hT (hi ▸ hv), gauss_ne_zero hT (hj ▸ hv)] with x hx hy
    refine propext (?_ : x i * x j < 0 ↔ ¬ 0 < x i * x j)
    have := mul_ne_zero hx hy
    rw [not_lt]
    exact ⟨le_of_lt, fun h => lt_of_le_of_ne h this⟩
  rw [h3, probReal_compl_eq_one_sub hmc, hc]
  ring

/-- Correlations lie between -1 and 1. -/
theorem corr_mem {S : Matrix (Fin d) (Fin d) ℝ} (hS : S.PosSemidef) {i j : Fin d} (hi : S i i = 1) (hj : S j j = 1) :
    -1 ≤ S i j ∧ S i j ≤ 1 := by
  have hji : S j i = S i j := by
    have := congrFun (congrFun hS.1 i) j
    simpa only [conjTranspose_apply, star_trivial] using this
  have key : ∀ t : ℝ, 0 ≤ 1 + 2 * t * S i j + t ^ 2 := by
    intro t
    have h := hS.dotProduct_mulVec_nonneg (Pi.single i 1 + t • Pi.single j 1)
    have e : star (Pi.single i 1 + t • Pi.single j 1) ⬝ᵥ S *ᵥ (Pi.single i 1 + t • Pi.single j (1 : ℝ)) =
        1 + 2 * t * S i j + t ^ 2 := by
      rw [star_trivial, mulVec_add, mulVec_smul, dotProduct_add, add_dotProduct, add_dotProduct]
      simp [hi, hj, hji]
      ring
    rwa [e] at h
  have ha := key 1
  have hb := key (-1)
  constructor <;> linarith

end Copulae
