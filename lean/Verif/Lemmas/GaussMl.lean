import Mathlib.Analysis.Matrix.Order
import Mathlib.Analysis.SpecialFunctions.Log.Deriv
import Mathlib.Topology.Instances.Matrix
import Verif.Lemmas.GaussMeasure

/-!
The normal log-likelihood as a function of the correlation matrix: a matrix whose log-likelihood is at least that of `S₀` is close to
`S₀` when the second moments of the sample are.
-/

namespace Copulae

open Matrix
open scoped MatrixOrder

variable {d : ℕ}

/-- A number with a small value of `x - 1 - log x` is close to one. -/
theorem log_gap {τ : ℝ} (h0 : 0 < τ) (h1 : τ < 1) :
    ∃ κ : ℝ, 0 < κ ∧ ∀ x : ℝ, 0 < x → x - 1 - Real.log x ≤ κ → |x - 1| ≤ τ := by
  have k1 : 0 < τ - Real.log (1 + τ) := by
    have := Real.log_lt_sub_one_of_pos (by linarith : (0 : ℝ) < 1 + τ) (by linarith)
    linarith
  have k2 : 0 < -τ - Real.log (1 - τ) := by
    have := Real.log_lt_sub_one_of_pos (by linarith : (0 : ℝ) < 1 - τ) (by linarith)
    linarith
  refine ⟨min (τ - Real.log (1 + τ)) (-τ - Real.log (1 - τ)) / 2, half_pos (lt_min k1 k2), fun x hx h => ?_⟩
  have m1 := min_le_left (τ - Real.log (1 + τ)) (-τ - Real.log (1 - τ))
  have m2 := min_le_right (τ - Real.log (1 + τ)) (-τ - Real.log (1 - τ))
  have key : ∀ a : ℝ, 0 < a → Real.log x ≤ Real.log a + x / a - 1 := fun a ha => by
    have := Real.log_le_sub_one_of_pos (div_pos hx ha)
    rw [Real.log_div hx.ne' ha.ne'] at this
    linarith
  rw [abs_le]
  constructor
  · by_contra hc
    have := key (1 - τ) (by linarith)
    have e : x / (1 - τ) ≤ x + τ := by
      rw [div_le_iff₀ (by linarith)]
      nlinarith
    linarith
  · by_contra hc
    have := key (1 + τ) (by linarith)
    have e : x / (1 + τ) ≤ x - τ := by
      rw [div_le_iff₀ (by linarith)]
      nlinarith
    linarith

/-- A positive definite matrix whose eigenvalues are near one has nearly the quadratic form of the unit matrix. -/
theorem quad_near {A : Matrix (Fin d) (Fin d) ℝ} (hA : A.PosDef) {τ : ℝ} (h : ∀ i, |hA.1.eigenvalues i - 1| ≤ τ) (y : Fin d → ℝ) :
    |y ⬝ᵥ A *ᵥ y - y ⬝ᵥ y| ≤ τ * (y ⬝ᵥ y) := by
  set U : Matrix (Fin d) (Fin d) ℝ := (hA.1.eigenvectorUnitary : Matrix (Fin d) (Fin d) ℝ) with hU
  have hUU : U * star U = 1 := Unitary.coe_mul_star_self hA.1.eigenvectorUnitary
  have hs : A = U * diagonal hA.1.eigenvalues * star U := by
    conv_lhs => rw [hA.1.spectral_theorem]
    rw [Unitary.conjStarAlgAut_apply]
    rfl
  have hst : star U = Uᵀ := by
    rw [star_eq_conjTranspose, conjTranspose_eq_transpose_of_trivial]
  set w := Uᵀ *ᵥ y with hw
  have e1 : y ⬝ᵥ A *ᵥ y = ∑ i, hA.1.eigenvalues i * w i ^ 2 := by
    conv_lhs => rw [hs, hst, ← mulVec_mulVec, ← mulVec_mulVec, dotProduct_mulVec, ← mulVec_transpose]
    simp only [dotProduct, mulVec_diagonal]
    exact Finset.sum_congr rfl fun i _ => by ring
  have e2 : y ⬝ᵥ y = ∑ i, w i ^ 2 := by
    have : y ⬝ᵥ y = w ⬝ᵥ w := by
      rw [hw, dotProduct_mulVec, ← mulVec_transpose, transpose_transpose, mulVec_mulVec, ← hst, hUU, one_mulVec]
    rw [this]
    simp only [dotProduct, pow_two]
  rw [e1, e2, ← Finset.sum_sub_distrib, Finset.mul_sum]
  refine (Finset.abs_sum_le_sum_abs _ _).trans (Finset.sum_le_sum fun i _ => ?_)
  rw [show hA.1.eigenvalues i * w i ^ 2 - w i ^ 2 = (hA.1.eigenvalues i - 1) * w i ^ 2 by ring, abs_mul, abs_of_nonneg (sq_nonneg (w i))]
  exact mul_le_mul_of_nonneg_right (h i) (sq_nonneg _)

/-- Twice the divergence of the centred normal law with covariance `S` from that with covariance `M`. -/
noncomputable def divg (M S : Matrix (Fin d) (Fin d) ℝ) : ℝ := (S⁻¹ * M).trace - d - Real.log M.det + Real.log S.det

/-- A small divergence means nearly equal quadratic forms. -/
theorem divg_small {τ : ℝ} (h0 : 0 < τ) (h1 : τ < 1) : ∃ κ : ℝ, 0 < κ ∧ ∀ (M S : Matrix (Fin d) (Fin d) ℝ), M.PosDef → S.PosDef →
    divg M S ≤ κ → ∀ x : Fin d → ℝ, |x ⬝ᵥ M *ᵥ x - x ⬝ᵥ S *ᵥ x| ≤ τ * (x ⬝ᵥ S *ᵥ x) := by
  obtain ⟨κ, hκ, hgap⟩ := log_gap h0 h1
  refine ⟨κ, hκ, fun M S hM hS h x => ?_⟩
  set B := CFC.sqrt S with hB
  have hBB : B * B = S := CFC.sqrt_mul_sqrt_self S hS.posSemidef.nonneg
  have hBt : Bᵀ = B := by
    have := (CFC.sqrt_nonneg S).isSelfAdjoint
    rw [IsSelfAdjoint, star_eq_conjTranspose, conjTranspose_eq_transpose_of_trivial] at this
    exact this
  have hdet : B.det * B.det = S.det := by rw [← det_mul, hBB]
  have hdpos : 0 < S.det := hS.det_pos
  have hB0 : B.det ≠ 0 := fun h => by rw [h] at hdet; simp at hdet; exact hdpos.ne hdet
  have hu : IsUnit B.det := isUnit_iff_ne_zero.mpr hB0
  have hit : (B⁻¹)ᵀ = B⁻¹ := by rw [transpose_nonsing_inv, hBt]
  set A := B⁻¹ * M * B⁻¹ with hAdef
  have hA : A.PosDef := by
    have := hM.conjTranspose_mul_mul_same (B := B⁻¹) (by
      rw [mulVec_injective_iff_isUnit, isUnit_nonsing_inv_iff, isUnit_iff_isUnit_det]
      exact hu)
    rwa [conjTranspose_eq_transpose_of_trivial, hit] at this
  have htr : A.trace = (S⁻¹ * M).trace := by
    rw [hAdef, trace_mul_comm, ← Matrix.mul_assoc, ← Matrix.mul_inv_rev, hBB]
  have hdA : A.det = M.det / S.det := by
    rw [hAdef, det_mul, det_mul, det_nonsing_inv, Ring.inverse_eq_inv', ← hdet]
    field_simp
  have hsum : ∑ i, (hA.1.eigenvalues i - 1 - Real.log (hA.1.eigenvalues i)) = divg M S := by
    rw [Finset.sum_sub_distrib, Finset.sum_sub_distrib, ← Real.log_prod fun i _ => (hA.eigenvalues_pos i).ne']
    have t1 := hA.1.trace_eq_sum_eigenvalues
    have t2 := hA.1.det_eq_prod_eigenvalues
    simp only [RCLike.ofReal_real_eq_id, id] at t1 t2
    rw [← t1, ← t2, htr, hdA, Real.log_div hM.det_pos.ne' hdpos.ne', divg]
    simp
    ring
  have hnn : ∀ i, 0 ≤ hA.1.eigenvalues i - 1 - Real.log (hA.1.eigenvalues i) := fun i => by
    have := Real.log_le_sub_one_of_pos (hA.eigenvalues_pos i)
    linarith
  have hq := quad_near hA (fun i => hgap _ (hA.eigenvalues_pos i) (by
    refine le_trans ?_ h
    rw [← hsum]
    exact Finset.single_le_sum (f := fun i => hA.1.eigenvalues i - 1 - Real.log (hA.1.eigenvalues i)) (fun i _ => hnn i)
      (Finset.mem_univ i))) (B *ᵥ x)
  have q1 : (B *ᵥ x) ⬝ᵥ A *ᵥ (B *ᵥ x) = x ⬝ᵥ M *ᵥ x := by
    rw [mulVec_mulVec, hAdef, Matrix.mul_assoc, nonsing_inv_mul _ hu, Matrix.mul_one, ← hBt, ← vecMul_transpose, transpose_transpose,
      ← dotProduct_mulVec, mulVec_mulVec, hBt, ← Matrix.mul_assoc, mul_nonsing_inv _ hu, Matrix.one_mul]
  have q2 : (B *ᵥ x) ⬝ᵥ (B *ᵥ x) = x ⬝ᵥ S *ᵥ x := by
    conv_lhs => rw [dotProduct_mulVec, ← mulVec_transpose, hBt, mulVec_mulVec, hBB, dotProduct_comm]
  rwa [q1, q2] at hq

/-- Nearly equal quadratic forms mean nearly equal entries. -/
theorem entries_near {M S : Matrix (Fin d) (Fin d) ℝ} (hM : M.PosSemidef) (hS : S.PosSemidef) (h1 : ∀ j, S j j = 1) {τ : ℝ}
    (h0 : 0 ≤ τ) (h : ∀ x : Fin d → ℝ, |x ⬝ᵥ M *ᵥ x - x ⬝ᵥ S *ᵥ x| ≤ τ * (x ⬝ᵥ S *ᵥ x)) (i j : Fin d) : |M i j - S i j| ≤ 3 * τ := by
  have hsym : ∀ {T : Matrix (Fin d) (Fin d) ℝ}, T.PosSemidef → T j i = T i j := fun hT => by
    have := congrFun (congrFun hT.1 i) j
    simpa using this
  have quad : ∀ {T : Matrix (Fin d) (Fin d) ℝ}, T.PosSemidef →
      (Pi.single i 1 + Pi.single j 1 : Fin d → ℝ) ⬝ᵥ T *ᵥ (Pi.single i 1 + Pi.single j 1) = T i i + T j j + 2 * T i j := fun hT => by
    rw [mulVec_add, add_dotProduct, dotProduct_add, dotProduct_add]
    simp only [mulVec_single_one, single_one_dotProduct, col_apply]
    rw [hsym hT]
    ring
  have one : ∀ (T : Matrix (Fin d) (Fin d) ℝ) (k : Fin d), (Pi.single k 1 : Fin d → ℝ) ⬝ᵥ T *ᵥ Pi.single k 1 = T k k := fun T k => by
    simp only [mulVec_single_one, single_one_dotProduct, col_apply]
  have a1 := h (Pi.single i 1)
  have a2 := h (Pi.single j 1)
  have a3 := h (Pi.single i 1 + Pi.single j 1)
  rw [one, one, h1] at a1 a2
  rw [quad hM, quad hS, h1, h1] at a3
  have hij : S i j ≤ 1 := by
    have a4 := hS.dotProduct_mulVec_nonneg (Pi.single i 1 - Pi.single j 1)
    rw [star_trivial, mulVec_sub, sub_dotProduct, dotProduct_sub, dotProduct_sub] at a4
    simp only [mulVec_single_one, single_one_dotProduct, col_apply, h1] at a4
    rw [hsym hS] at a4
    linarith
  have : τ * (1 + 1 + 2 * S i j) ≤ τ * 4 := mul_le_mul_of_nonneg_left (by linarith) h0
  rw [abs_le] at *
  constructor <;> linarith [a1.1, a1.2, a2.1, a2.2, a3.1, a3.2]

/-- **A correlation matrix with at least the likelihood of the true one is close to it**, when the second moments are. -/
theorem ml_near {S₀ : Matrix (Fin d) (Fin d) ℝ} (hS₀ : S₀.PosDef) {ε : ℝ} (hε : 0 < ε) :
    ∃ η : ℝ, 0 < η ∧ ∀ M : Matrix (Fin d) (Fin d) ℝ, M.PosSemidef → (∀ i j, |M i j - S₀ i j| < η) →
      ∀ S : Matrix (Fin d) (Fin d) ℝ, S.PosDef → (∀ j, S j j = 1) →
        (S⁻¹ * M).trace + Real.log S.det ≤ (S₀⁻¹ * M).trace + Real.log S₀.det → ∀ i j, |S i j - S₀ i j| < ε := by
  set τ := min (ε / 6) (1 / 2) with hτ
  have hτ0 : 0 < τ := lt_min (by linarith) (by norm_num)
  have hτ1 : τ < 1 := lt_of_le_of_lt (min_le_right _ _) (by norm_num)
  obtain ⟨κ, hκ, hsmall⟩ := divg_small (d := d) hτ0 hτ1
  have hd0 := hS₀.det_pos
  have c1 : ContinuousAt (fun T : Fin d → Fin d → ℝ => divg (Matrix.of T) S₀) S₀ := by
    have h1 : Continuous fun T : Fin d → Fin d → ℝ => (Matrix.of T).det := Continuous.matrix_det continuous_id
    have h2 : Continuous fun T : Fin d → Fin d → ℝ => (S₀⁻¹ * Matrix.of T).trace :=
      Continuous.matrix_trace (Continuous.matrix_mul continuous_const continuous_id)
    unfold divg
    exact ((h2.continuousAt.sub continuousAt_const).sub (h1.continuousAt.log (by exact hd0.ne'))).add continuousAt_const
  have c2 : ContinuousAt (fun T : Fin d → Fin d → ℝ => (Matrix.of T).det) S₀ :=
    (Continuous.matrix_det continuous_id).continuousAt
  have v0 : divg (Matrix.of S₀) S₀ = 0 := by
    unfold divg
    rw [show (Matrix.of S₀ : Matrix (Fin d) (Fin d) ℝ) = S₀ from rfl, nonsing_inv_mul _ (isUnit_iff_ne_zero.mpr hd0.ne')]
    simp
  obtain ⟨η1, hη1, k1⟩ := Metric.continuousAt_iff.mp c1 κ hκ
  obtain ⟨η2, hη2, k2⟩ := Metric.continuousAt_iff.mp c2 _ hd0
  refine ⟨min (min η1 η2) (ε / 2), lt_min (lt_min hη1 hη2) (by linarith), fun M hM hnear S hS h1 hle i j => ?_⟩
  have hdist : ∀ {η : ℝ}, 0 < η → (∀ i j, |M i j - S₀ i j| < η) → dist (α := Fin d → Fin d → ℝ) M S₀ < η := fun hη h =>
    (dist_pi_lt_iff hη).mpr fun i => (dist_pi_lt_iff hη).mpr fun j => by rw [Real.dist_eq]; exact h i j
  have n1 := k1 (hdist hη1 fun i j => (hnear i j).trans_le ((min_le_left _ _).trans (min_le_left _ _)))
  have n2 := k2 (hdist hη2 fun i j => (hnear i j).trans_le ((min_le_left _ _).trans (min_le_right _ _)))
  rw [v0, Real.dist_eq, sub_zero] at n1
  rw [Real.dist_eq] at n2
  have hMdet : 0 < M.det := by
    have := (abs_lt.mp n2).1
    have e : (Matrix.of M : Matrix (Fin d) (Fin d) ℝ).det - (Matrix.of S₀ : Matrix (Fin d) (Fin d) ℝ).det = M.det - S₀.det := rfl
    linarith
  have hMp : M.PosDef := hM.posDef_iff_det_ne_zero.mpr hMdet.ne'
  have hdiv : divg M S ≤ κ := by
    have := (abs_lt.mp n1).2
    have e : divg M S₀ < κ := this
    unfold divg at e ⊢
    linarith
  have q := entries_near hM hS.posSemidef h1 hτ0.le (hsmall M S hMp hS hdiv) i j
  have hτε : 3 * τ ≤ ε / 2 := by linarith [min_le_left (ε / 6) (1 / 2 : ℝ)]
  have n3 := (hnear i j).trans_le (min_le_right _ _)
  rw [abs_lt] at *
  rw [abs_le] at q
  constructor <;> linarith [q.1, q.2, n3.1, n3.2]

end Copulae
