import Mathlib.Analysis.Convex.Jensen
import Mathlib.Analysis.Convex.SpecificFunctions.Basic
import Mathlib.Analysis.SpecialFunctions.Log.Basic
import Mathlib.Analysis.Matrix.Spectrum
import Verif.Lemmas.GmcDensityLaw
import Verif.Props.GmcEm

/-!
Why a step of expectation maximisation does not decrease the likelihood of a normal mixture.
-/

namespace Copulae

open Matrix
open scoped MatrixOrder

/-- For positive definite matrices `tr(A⁻¹ B) - log det (A⁻¹ B) ≥ d`. -/
theorem trace_log_det {d : ℕ} {A B : Matrix (Fin d) (Fin d) ℝ} (hA : A.PosDef) (hB : B.PosDef) :
    (d : ℝ) + Real.log B.det ≤ (A⁻¹ * B).trace + Real.log A.det := by
  obtain ⟨R, hR⟩ : ∃ R : Matrix (Fin d) (Fin d) ℝ, A⁻¹ = Rᴴ * R := by
    refine ⟨CFC.sqrt A⁻¹, ?_⟩
    have h1 : CFC.sqrt A⁻¹ * CFC.sqrt A⁻¹ = A⁻¹ := CFC.sqrt_mul_sqrt_self _ hA.inv.posSemidef.nonneg
    have h2 : (CFC.sqrt A⁻¹)ᴴ = CFC.sqrt A⁻¹ := (CFC.sqrt_nonneg A⁻¹).isSelfAdjoint
    rw [h2, h1]
  have hdetR : R.det ≠ 0 := by
    intro h0
    have := hA.inv.det_pos
    rw [hR, det_mul, h0, mul_zero] at this
    exact lt_irrefl _ this
  have hM : (R * B * Rᴴ).PosDef := by
    refine hB.mul_mul_conjTranspose_same (B := R) ?_
    exact Matrix.vecMul_injective_of_isUnit ((Matrix.isUnit_iff_isUnit_det R).mpr (isUnit_iff_ne_zero.mpr hdetR))
  have htr : (R * B * Rᴴ).trace = (A⁻¹ * B).trace := by
    rw [Matrix.trace_mul_comm, ← Matrix.mul_assoc, ← hR]
  have hdet : (R * B * Rᴴ).det = B.det / A.det := by
    rw [det_mul, det_mul, mul_comm R.det, mul_assoc, mul_comm R.det, ← det_mul, ← hR, Matrix.det_nonsing_inv,
      Ring.inverse_eq_inv', div_eq_mul_inv]
  have hev := hM.eigenvalues_pos
  have h1 := hM.isHermitian.trace_eq_sum_eigenvalues
  have h2 := hM.isHermitian.det_eq_prod_eigenvalues
  simp only [RCLike.ofReal_real_eq_id, id_eq] at h1 h2
  have h3 : Real.log (R * B * Rᴴ).det = ∑ i, Real.log (hM.isHermitian.eigenvalues i) := by
    rw [h2, Real.log_prod fun i _ => (hev i).ne']
  have h4 : ∑ i, Real.log (hM.isHermitian.eigenvalues i) ≤ ∑ i, (hM.isHermitian.eigenvalues i - 1) :=
    Finset.sum_le_sum fun i _ => Real.log_le_sub_one_of_pos (hev i)
  rw [Finset.sum_sub_distrib, ← h1, htr, ← h3, hdet, Real.log_div hB.det_pos.ne' hA.det_pos.ne'] at h4
  simp at h4
  linarith

theorem log_gaussPdf {d : ℕ} {V : Matrix (Fin d) (Fin d) ℝ} (hV : V.PosDef) (x : Fin d → ℝ) :
    Real.log (gaussPdf V x) = -(x ⬝ᵥ V⁻¹ *ᵥ x) / 2 - (Real.log ((2 * Real.pi) ^ d) + Real.log V.det) / 2 := by
  have h1 := hV.det_pos
  have h2 : (0 : ℝ) < (2 * Real.pi) ^ d := by have := Real.pi_pos; positivity
  unfold gaussPdf
  rw [Real.log_div (Real.exp_pos _).ne' (Real.sqrt_pos.mpr (mul_pos h2 h1)).ne', Real.log_exp, Real.log_sqrt (mul_pos h2 h1).le,
    Real.log_mul h2.ne' h1.ne']

/-- The weighted normal log-likelihood is largest at the weighted mean and covariance matrix. -/
theorem gauss_mle {n d : ℕ} {w : Fin n → ℝ} (hw : ∑ i, w i = 1) (x : Fin n → Fin d → ℝ)
    {a b : Fin d → ℝ} (hb : ∀ j, b j = ∑ i, w i * x i j) {V W : Matrix (Fin d) (Fin d) ℝ}
    (hW : ∀ j k, W j k = ∑ i, w i * (x i j - b j) * (x i k - b k)) (hV : V.PosDef) (hWp : W.PosDef) :
    ∑ i, w i * Real.log (gaussPdf V fun j => x i j - a j) ≤ ∑ i, w i * Real.log (gaussPdf W fun j => x i j - b j) := by
  -- the quadratic forms
  have hquad : ∀ (M : Matrix (Fin d) (Fin d) ℝ), ∑ i, w i * ((fun j => x i j - b j) ⬝ᵥ M *ᵥ (fun j => x i j - b j)) =
      (M * W).trace := by
    intro M
    simp only [Matrix.trace, Matrix.diag, Matrix.mul_apply, dotProduct, mulVec, hW, Finset.mul_sum]
    rw [Finset.sum_comm]
    refine Finset.sum_congr rfl fun j _ => ?_
    rw [Finset.sum_comm]
    refine Finset.sum_congr rfl fun k _ => Finset.sum_congr rfl fun i _ => ?_
    ring
  have hzero : ∀ j, ∑ i, w i * (x i j - b j) = 0 := by
    intro j
    simp only [mul_sub, Finset.sum_sub_distrib]
    rw [← Finset.sum_mul, hw, ← hb, one_mul, sub_self]
  have hshift : ∑ i, w i * ((fun j => x i j - a j) ⬝ᵥ V⁻¹ *ᵥ (fun j => x i j - a j)) =
      (V⁻¹ * W).trace + (fun j => b j - a j) ⬝ᵥ V⁻¹ *ᵥ (fun j => b j - a j) := by
    rw [← hquad]
    have e : ∀ i, (fun j => x i j - a j) = (fun j => x i j - b j) + fun j => b j - a j := fun i => by
      funext j
      simp
    have hcross : ∀ v : Fin d → ℝ, ∑ i, w i * ((fun j => x i j - b j) ⬝ᵥ v) = 0 := fun v => by
      simp only [dotProduct, Finset.mul_sum]
      rw [Finset.sum_comm]
      refine Finset.sum_eq_zero fun j _ => ?_
      have := congrArg (· * v j) (hzero j)
      simp only [zero_mul, Finset.sum_mul] at this
      rw [← this]
      exact Finset.sum_congr rfl fun i _ => by ring
    have hcross' : ∀ M : Matrix (Fin d) (Fin d) ℝ, ∀ v : Fin d → ℝ,
        ∑ i, w i * (v ⬝ᵥ M *ᵥ fun j => x i j - b j) = 0 := fun M v => by
      have := hcross (v ᵥ* M)
      rw [← this]
      refine Finset.sum_congr rfl fun i _ => ?_
      rw [dotProduct_mulVec, dotProduct_comm]
    have : ∀ i, w i * ((fun j => x i j - a j) ⬝ᵥ V⁻¹ *ᵥ (fun j => x i j - a j)) =
        w i * ((fun j => x i j - b j) ⬝ᵥ V⁻¹ *ᵥ (fun j => x i j - b j)) +
        w i * ((fun j => x i j - b j) ⬝ᵥ V⁻¹ *ᵥ fun j => b j - a j) +
        w i * ((fun j => b j - a j) ⬝ᵥ V⁻¹ *ᵥ fun j => x i j - b j) +
        w i * ((fun j => b j - a j) ⬝ᵥ V⁻¹ *ᵥ fun j => b j - a j) := fun i => by
      rw [e i, mulVec_add, dotProduct_add, add_dotProduct, add_dotProduct]
      ring
    rw [Finset.sum_congr rfl fun i _ => this i, Finset.sum_add_distrib, Finset.sum_add_distrib, Finset.sum_add_distrib,
      hcross, hcross', ← Finset.sum_mul, hw]
    ring
  have hpos : 0 ≤ (fun j => b j - a j) ⬝ᵥ V⁻¹ *ᵥ (fun j => b j - a j) := by
    have := hV.inv.posSemidef.dotProduct_mulVec_nonneg (fun j => b j - a j)
    simpa using this
  have hself : (W⁻¹ * W).trace = d := by
    rw [Matrix.nonsing_inv_mul _ (isUnit_iff_ne_zero.mpr hWp.det_pos.ne'), Matrix.trace_one, Fintype.card_fin]
  have key := trace_log_det hV hWp
  have expand : ∀ {U : Matrix (Fin d) (Fin d) ℝ} (_ : U.PosDef) (y : Fin d → ℝ),
      ∑ i, w i * Real.log (gaussPdf U fun j => x i j - y j) =
        -(∑ i, w i * ((fun j => x i j - y j) ⬝ᵥ U⁻¹ *ᵥ (fun j => x i j - y j))) / 2 -
          (Real.log ((2 * Real.pi) ^ d) + Real.log U.det) / 2 := by
    intro U hU y
    have : ∀ i, w i * Real.log (gaussPdf U fun j => x i j - y j) =
        -(w i * ((fun j => x i j - y j) ⬝ᵥ U⁻¹ *ᵥ (fun j => x i j - y j))) / 2 -
          w i * ((Real.log ((2 * Real.pi) ^ d) + Real.log U.det) / 2) := fun i => by
      rw [log_gaussPdf hU]
      ring
    rw [Finset.sum_congr rfl fun i _ => this i, Finset.sum_sub_distrib, ← Finset.sum_mul, hw, one_mul,
      ← Finset.sum_div, Finset.sum_neg_distrib]
  rw [expand hV a, expand hWp b, hshift, hquad, hself]
  linarith

/-- Gibbs' inequality. -/
theorem gibbs {m : ℕ} {p r : Fin m → ℝ} (hp : ∀ c, 0 ≤ p c) (hr : ∀ c, 0 ≤ r c) (hps : ∑ c, p c ≤ ∑ c, r c)
    (hz : ∀ c, r c ≠ 0 → p c ≠ 0) : ∑ c, r c * Real.log (p c) ≤ ∑ c, r c * Real.log (r c) := by
  have : ∀ c, r c * Real.log (p c) - r c * Real.log (r c) ≤ p c - r c := fun c => by
    rcases (hr c).eq_or_lt with h | h
    · rw [← h]
      simpa using hp c
    · have hpc : 0 < p c := lt_of_le_of_ne (hp c) (hz c h.ne').symm
      have := Real.log_le_sub_one_of_pos (div_pos hpc h)
      rw [Real.log_div hpc.ne' h.ne'] at this
      have h2 := mul_le_mul_of_nonneg_left this h.le
      rw [mul_sub, mul_sub, mul_one, mul_div_cancel₀ _ h.ne'] at h2
      exact h2
  have h := Finset.sum_le_sum fun c (_ : c ∈ Finset.univ) => this c
  rw [Finset.sum_sub_distrib, Finset.sum_sub_distrib] at h
  linarith

/-- Jensen's inequality for the logarithm. -/
theorem log_jensen {m : ℕ} {k y : Fin m → ℝ} (hk : ∀ c, 0 ≤ k c) (hks : ∑ c, k c = 1) (hy : ∀ c, 0 < y c) :
    ∑ c, k c * Real.log (y c) ≤ Real.log (∑ c, k c * y c) := by
  have := strictConcaveOn_log_Ioi.concaveOn.le_map_sum (t := Finset.univ) (w := k) (p := y)
    (fun c _ => hk c) hks (fun c _ => hy c)
  simpa [smul_eq_mul] using this

end Copulae
