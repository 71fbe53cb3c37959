import Mathlib.Analysis.Matrix.PosDef
import Verif.Model.Linalg
import Verif.Model.FlAlg

/-!
C55 and C63: conversions between covariance and correlation matrices, and the positive
semi-definiteness test.
-/

namespace Copulae

open Matrix

/-- The array of a real matrix. -/
def flMat {d : ℕ} (S : Matrix (Fin d) (Fin d) ℝ) : SqMat Fl d := fun i j => .fin (S i j)

/-- The array of a real vector. -/
def flVec {d : ℕ} (s : Fin d → ℝ) : Fin d → Fl := fun i => .fin (s i)

lemma covStd_fin {d : ℕ} (S : Matrix (Fin d) (Fin d) ℝ) (h : ∀ i, 0 ≤ S i i) :
    covStd (flMat S) = flVec fun i => √(S i i) := by
  funext i
  simp [covStd, flMat, flVec, Fl.sqrt, not_lt.mpr (h i)]

lemma cov2corr_fin {d : ℕ} (S : Matrix (Fin d) (Fin d) ℝ) (h : ∀ i, 0 < S i i) :
    cov2corr (flMat S) = flMat (Matrix.of fun i j => S i j / (√(S i i) * √(S j j))) := by
  funext i j
  have hi := Real.sqrt_pos.mpr (h i)
  have hj := Real.sqrt_pos.mpr (h j)
  simp only [cov2corr, covStd_fin S fun i => (h i).le, flVec, flMat, Fl.fin_mul_fin, Matrix.of_apply]
  rw [Fl.fin_div_fin' _ (mul_pos hi hj).ne']

/-- C55: converting a covariance matrix with positive variances to correlations and back with the
returned standard deviations gives the matrix. -/
theorem corr2cov_cov2corr {d : ℕ} (S : Matrix (Fin d) (Fin d) ℝ) (h : ∀ i, 0 < S i i) :
    corr2cov (cov2corrStd (flMat S)).1 (cov2corrStd (flMat S)).2 = flMat S := by
  funext i j
  have hi := (Real.sqrt_pos.mpr (h i)).ne'
  have hj := (Real.sqrt_pos.mpr (h j)).ne'
  simp only [cov2corrStd, cov2corr_fin S h, covStd_fin S fun i => (h i).le, corr2cov, flVec, flMat,
    Fl.fin_mul_fin, Matrix.of_apply]
  congr 1
  field_simp

example := corr2cov_cov2corr (!![4, 3; 3, 9]) (by intro i; fin_cases i <;> norm_num)

/-- C55: the standard deviations returned are the square roots of the variances. -/
theorem cov2corr_std {d : ℕ} (S : Matrix (Fin d) (Fin d) ℝ) (h : ∀ i, 0 ≤ S i i) (i : Fin d) :
    ∃ s : ℝ, (cov2corrStd (flMat S)).2 i = .fin s ∧ 0 ≤ s ∧ s ^ 2 = S i i :=
  ⟨√(S i i), by simp [cov2corrStd, covStd_fin S h, flVec], Real.sqrt_nonneg _, Real.sq_sqrt (h i)⟩

example := cov2corr_std (!![4, 3; 3, 0]) (by intro i; fin_cases i <;> norm_num) 1

/-- C55: converting a correlation matrix (unit diagonal) to covariances with positive standard
deviations and back gives the matrix and the standard deviations. -/
theorem cov2corr_corr2cov {d : ℕ} (R : Matrix (Fin d) (Fin d) ℝ) (s : Fin d → ℝ)
    (hR : ∀ i, R i i = 1) (hs : ∀ i, 0 < s i) :
    cov2corrStd (corr2cov (flMat R) (flVec s)) = (flMat R, flVec s) := by
  have e : corr2cov (flMat R) (flVec s) = flMat (Matrix.of fun i j => R i j * (s i * s j)) := by
    funext i j
    simp only [corr2cov, flMat, flVec, Fl.fin_mul_fin, Matrix.of_apply]
  have hd : ∀ i, (Matrix.of fun i j => R i j * (s i * s j)) i i = s i ^ 2 := by
    intro i
    rw [Matrix.of_apply, hR i]
    ring
  have hp : ∀ i, 0 < (Matrix.of fun i j => R i j * (s i * s j)) i i := by
    intro i
    rw [hd]
    exact pow_pos (hs i) 2
  have hq : ∀ i, √((Matrix.of fun i j => R i j * (s i * s j)) i i) = s i := by
    intro i
    rw [hd, Real.sqrt_sq (hs i).le]
  rw [e, cov2corrStd, cov2corr_fin _ hp, covStd_fin _ fun i => (hp i).le]
  simp only [hq, Prod.mk.injEq, and_true]
  funext i j
  simp only [flMat, Matrix.of_apply]
  have := (hs i).ne'
  have := (hs j).ne'
  congr 1
  field_simp

example := cov2corr_corr2cov (!![1, 1 / 2; 1 / 2, 1]) ![2, 3] (by intro i; fin_cases i <;> rfl)
  (by intro i; fin_cases i <;> norm_num)

/-- C55: the result of `cov2corr` on a positive semi-definite matrix with positive variances is a
correlation matrix: positive semi-definite (hence symmetric), with unit diagonal and entries in [-1, 1]. -/
theorem cov2corr_valid {d : ℕ} (S : Matrix (Fin d) (Fin d) ℝ) (hS : S.PosSemidef) (h : ∀ i, 0 < S i i) :
    ∃ R : Matrix (Fin d) (Fin d) ℝ, cov2corr (flMat S) = flMat R ∧ R.PosSemidef ∧ (∀ i, R i i = 1) ∧
      ∀ i j, -1 ≤ R i j ∧ R i j ≤ 1 := by
  set R : Matrix (Fin d) (Fin d) ℝ := Matrix.of fun i j => S i j / (√(S i i) * √(S j j)) with hRdef
  have hpos : R.PosSemidef := by
    have e : R = (Matrix.diagonal fun i => (√(S i i))⁻¹) * S * (Matrix.diagonal fun i => (√(S i i))⁻¹)ᴴ := by
      ext i j
      rw [Matrix.diagonal_conjTranspose, Matrix.mul_diagonal, Matrix.diagonal_mul, hRdef, Matrix.of_apply]
      simp only [star_trivial]
      rw [div_eq_mul_inv, mul_inv]
      ring
    rw [e]
    exact hS.mul_mul_conjTranspose_same _
  have hdiag : ∀ i, R i i = 1 := by
    intro i
    rw [hRdef, Matrix.of_apply, Real.mul_self_sqrt (h i).le, div_self (h i).ne']
  have hsym : ∀ i j, R j i = R i j := fun i j => by
    have := hpos.1.apply i j
    simpa using this
  have key : ∀ i j (c : ℝ), 0 ≤ 1 + c ^ 2 + 2 * c * R i j := by
    intro i j c
    by_cases hij : i = j
    · subst hij
      rw [hdiag]
      nlinarith [sq_nonneg (1 + c)]
    have hq := hpos.dotProduct_mulVec_nonneg (Pi.single i (1 : ℝ) + Pi.single j c)
    have hv : (R *ᵥ (Pi.single i (1 : ℝ) + Pi.single j c)) = fun k => R k i + c * R k j := by
      funext k
      rw [Matrix.mulVec_add, Pi.add_apply, Matrix.mulVec_single, Matrix.mulVec_single]
      simp [mul_comm]
    rw [hv, star_trivial, add_dotProduct, single_dotProduct, single_dotProduct, hdiag, hdiag, hsym i j] at hq
    nlinarith
  refine ⟨R, cov2corr_fin S h, hpos, hdiag, fun i j => ?_⟩
  have h1 := key i j 1
  have h2 := key i j (-1)
  constructor <;> linarith

/-- C55: a component without variance has no correlations: its row and column are NaN. -/
theorem cov2corr_zero_var {d : ℕ} (S : Matrix (Fin d) (Fin d) ℝ) (hS : S.PosSemidef) (i j : Fin d)
    (hi : S i i = 0) : cov2corr (flMat S) i j = .nan ∧ cov2corr (flMat S) j i = .nan := by
  have hnn : ∀ k, 0 ≤ S k k := fun k => by
    have := hS.dotProduct_mulVec_nonneg (Pi.single k (1 : ℝ))
    rw [Matrix.mulVec_single, star_trivial, single_dotProduct] at this
    simpa using this
  have hsym : S j i = S i j := by
    have := hS.1.apply i j
    simpa using this
  have h0 : S i j = 0 := by
    by_cases hij : i = j
    · rw [← hij, hi]
    have key : ∀ c : ℝ, 0 ≤ 2 * c * S i j + S j j := by
      intro c
      have hq := hS.dotProduct_mulVec_nonneg (Pi.single i c + Pi.single j (1 : ℝ))
      have hv : (S *ᵥ (Pi.single i c + Pi.single j (1 : ℝ))) = fun k => c * S k i + S k j := by
        funext k
        rw [Matrix.mulVec_add, Pi.add_apply, Matrix.mulVec_single, Matrix.mulVec_single]
        simp [mul_comm]
      rw [hv, star_trivial, add_dotProduct, single_dotProduct, single_dotProduct, hi, hsym] at hq
      nlinarith
    by_contra hne
    have h1 := key (-(S j j + 1) / (2 * S i j))
    have : 2 * (-(S j j + 1) / (2 * S i j)) * S i j = -(S j j + 1) := by field_simp
    rw [this] at h1
    linarith
  have hs := covStd_fin S hnn
  constructor <;>
  · rw [cov2corr, hs]
    simp only [flVec, flMat, hi, h0, hsym, Real.sqrt_zero, Fl.fin_mul_fin, zero_mul, mul_zero]
    simp [HDiv.hDiv, Div.div, Fl.div, Fl.infSign]

/-- The hypotheses of `cov2corr_valid` are met by a non-diagonal covariance matrix. -/
example : ∃ S : Matrix (Fin 2) (Fin 2) ℝ, S.PosSemidef ∧ (∀ i, 0 < S i i) ∧ S 0 1 = 3 := by
  refine ⟨!![4, 3; 3, 9], .of_dotProduct_mulVec_nonneg ?_ fun x => ?_, ?_, rfl⟩
  · ext i j
    fin_cases i <;> fin_cases j <;> simp
  · simp [Matrix.mulVec, dotProduct, Fin.sum_univ_two]
    nlinarith [sq_nonneg (x 0 + x 1), sq_nonneg (x 0), sq_nonneg (x 1)]
  · intro i
    fin_cases i <;> simp

/-! ### is_psd -/

lemma quad_eq {d : ℕ} (R : Matrix (Fin d) (Fin d) ℝ) (v : Fin d → ℝ) :
    ∑ i, ∑ j, R i j * v i * v j = star v ⬝ᵥ (R *ᵥ v) := by
  simp only [dotProduct, mulVec, Finset.mul_sum, star_trivial]
  exact Finset.sum_congr rfl fun i _ => Finset.sum_congr rfl fun j _ => by ring

lemma shift_eigen {d : ℕ} (R : Matrix (Fin d) (Fin d) ℝ) (hR : R.IsHermitian) (tol : ℝ) :
    R + tol • (1 : Matrix (Fin d) (Fin d) ℝ) = (hR.eigenvectorUnitary : Matrix (Fin d) (Fin d) ℝ) *
      Matrix.diagonal (fun i => hR.eigenvalues i + tol) *
      (hR.eigenvectorUnitary : Matrix (Fin d) (Fin d) ℝ)ᴴ := by
  have hU : (hR.eigenvectorUnitary : Matrix (Fin d) (Fin d) ℝ) *
      (hR.eigenvectorUnitary : Matrix (Fin d) (Fin d) ℝ)ᴴ = 1 := by
    have := Unitary.coe_mul_star_self hR.eigenvectorUnitary
    simpa [Matrix.star_eq_conjTranspose] using this
  have hsp := hR.spectral_theorem
  rw [Unitary.conjStarAlgAut_apply] at hsp
  have e : Matrix.diagonal (fun i => hR.eigenvalues i + tol)
      = Matrix.diagonal (hR.eigenvalues) + tol • (1 : Matrix (Fin d) (Fin d) ℝ) := by
    ext i j
    by_cases h : i = j
    · subst h; simp
    · simp [h]
  rw [e, Matrix.mul_add, Matrix.add_mul, Matrix.mul_smul, Matrix.mul_one, Matrix.smul_mul, hU]
  congr 1

/-- The shifted quadratic form in the coordinates of the eigenvectors. -/
lemma quad_shift {d : ℕ} (R : Matrix (Fin d) (Fin d) ℝ) (hR : R.IsHermitian) (tol : ℝ) (v : Fin d → ℝ) :
    ∑ i, ∑ j, R i j * v i * v j - -tol * ∑ i, v i ^ 2 = ∑ i, (hR.eigenvalues i + tol) *
      ((hR.eigenvectorUnitary : Matrix (Fin d) (Fin d) ℝ)ᴴ *ᵥ v) i ^ 2 := by
  have h1 : ∑ i, ∑ j, R i j * v i * v j - -tol * ∑ i, v i ^ 2
      = star v ⬝ᵥ ((R + tol • (1 : Matrix (Fin d) (Fin d) ℝ)) *ᵥ v) := by
    rw [quad_eq, Matrix.add_mulVec, dotProduct_add, Matrix.smul_mulVec, Matrix.one_mulVec,
      dotProduct_smul, smul_eq_mul]
    simp only [dotProduct, star_trivial, ← sq]
    ring
  rw [h1, shift_eigen R hR tol]
  set U := (hR.eigenvectorUnitary : Matrix (Fin d) (Fin d) ℝ)
  rw [← Matrix.mulVec_mulVec, ← Matrix.mulVec_mulVec, Matrix.dotProduct_mulVec]
  have h2 : star v ᵥ* U = Uᴴ *ᵥ v := by
    have := Matrix.star_mulVec Uᴴ v
    rw [Matrix.conjTranspose_conjTranspose] at this
    rw [← this]
    simp
  rw [h2]
  simp only [dotProduct, Matrix.mulVec_diagonal]
  exact Finset.sum_congr rfl fun i _ => by ring

lemma eigen_coords {d : ℕ} (R : Matrix (Fin d) (Fin d) ℝ) (hR : R.IsHermitian) (w : Fin d → ℝ) :
    (hR.eigenvectorUnitary : Matrix (Fin d) (Fin d) ℝ)ᴴ *ᵥ
      ((hR.eigenvectorUnitary : Matrix (Fin d) (Fin d) ℝ) *ᵥ w) = w := by
  have := Unitary.coe_star_mul_self hR.eigenvectorUnitary
  rw [Matrix.mulVec_mulVec]
  rw [Matrix.star_eq_conjTranspose] at this
  rw [this, Matrix.one_mulVec]

lemma eigen_coords_ne {d : ℕ} (R : Matrix (Fin d) (Fin d) ℝ) (hR : R.IsHermitian) {v : Fin d → ℝ}
    (hv : v ≠ 0) : (hR.eigenvectorUnitary : Matrix (Fin d) (Fin d) ℝ)ᴴ *ᵥ v ≠ 0 := by
  intro h
  apply hv
  have := Unitary.coe_mul_star_self hR.eigenvectorUnitary
  rw [Unitary.coe_star, Matrix.star_eq_conjTranspose] at this
  rw [← Matrix.one_mulVec v, ← this, ← Matrix.mulVec_mulVec, h, Matrix.mulVec_zero]

/-- The quadratic form is bounded below by `-tol` on the unit sphere exactly if the eigenvalues are. -/
lemma quad_ge_iff {d : ℕ} (R : Matrix (Fin d) (Fin d) ℝ) (hR : R.IsHermitian) (tol : ℝ) :
    (∀ v : Fin d → ℝ, -tol * ∑ i, v i ^ 2 ≤ ∑ i, ∑ j, R i j * v i * v j) ↔
      ∀ i, -tol ≤ hR.eigenvalues i := by
  constructor
  · intro h i
    have h1 := h ((hR.eigenvectorUnitary : Matrix (Fin d) (Fin d) ℝ) *ᵥ Pi.single i 1)
    rw [← sub_nonneg, quad_shift R hR tol, eigen_coords,
      Finset.sum_eq_single i (fun b _ hb => by simp [hb]) (by simp)] at h1
    simp only [Pi.single_eq_same, one_pow, mul_one] at h1
    linarith
  · intro h v
    rw [← sub_nonneg, quad_shift R hR tol]
    exact Finset.sum_nonneg fun i _ => mul_nonneg (by linarith [h i]) (sq_nonneg _)

lemma quad_gt_iff {d : ℕ} (R : Matrix (Fin d) (Fin d) ℝ) (hR : R.IsHermitian) (tol : ℝ) :
    (∀ v : Fin d → ℝ, v ≠ 0 → -tol * ∑ i, v i ^ 2 < ∑ i, ∑ j, R i j * v i * v j) ↔
      ∀ i, -tol < hR.eigenvalues i := by
  constructor
  · intro h i
    have hne : (hR.eigenvectorUnitary : Matrix (Fin d) (Fin d) ℝ) *ᵥ Pi.single i 1 ≠ 0 := by
      intro h0
      have := eigen_coords R hR (Pi.single i 1)
      rw [h0, Matrix.mulVec_zero] at this
      have := congrFun this i
      simp at this
    have h1 := h _ hne
    rw [← sub_pos, quad_shift R hR tol, eigen_coords,
      Finset.sum_eq_single i (fun b _ hb => by simp [hb]) (by simp)] at h1
    simp only [Pi.single_eq_same, one_pow, mul_one] at h1
    linarith
  · intro h v hv
    rw [← sub_pos, quad_shift R hR tol]
    obtain ⟨k, hk⟩ := Function.ne_iff.mp (eigen_coords_ne R hR hv)
    refine Finset.sum_pos' (fun i _ => mul_nonneg (by linarith [h i]) (sq_nonneg _)) ⟨k, Finset.mem_univ _, ?_⟩
    exact mul_pos (by linarith [h k]) (sq_pos_of_ne_zero (by simpa using hk))

lemma lowerReal_unique {d : ℕ} {S R : Matrix (Fin d) (Fin d) ℝ} (hS : S.IsHermitian)
    (h : lowerReal (flMat S) R) : R = S := by
  ext i j
  have hs : S j i = S i j := by simpa using hS.apply i j
  rcases le_total j i with hij | hij
  · have := h.1 i j hij
    simp only [flMat, Fl.fin.injEq] at this
    exact this.symm
  · have := h.1 j i hij
    simp only [flMat, Fl.fin.injEq] at this
    rw [h.2 i j, ← this, hs]

lemma lowerReal_self {d : ℕ} {S : Matrix (Fin d) (Fin d) ℝ} (hS : S.IsHermitian) :
    lowerReal (flMat S) S :=
  ⟨fun _ _ _ => rfl, fun i j => by simpa using hS.apply j i⟩

lemma isSymmetric_self {d : ℕ} {S : Matrix (Fin d) (Fin d) ℝ} (hS : S.IsHermitian) {tol : ℝ}
    (h : 0 ≤ tol) : isSymmetric (flMat S) tol := by
  intro i j
  have hs : S j i = S i j := by simpa using hS.apply i j
  simp only [flMat, closeTo, hs, sub_self, abs_zero]
  positivity

/-- C63: on symmetric matrices `is_psd` with tolerance `tol` accepts exactly the matrices all of whose
eigenvalues are at least `-tol` (above `-tol` when `strict`). -/
theorem isPsdTol_iff {d : ℕ} (S : Matrix (Fin d) (Fin d) ℝ) (hS : S.IsHermitian) (strict : Bool) (tol : ℝ)
    (h : 0 ≤ tol) :
    isPsdTol (flMat S) strict tol ↔
      ∀ i, if strict then -tol < hS.eigenvalues i else -tol ≤ hS.eigenvalues i := by
  have hsym := isSymmetric_self hS h
  cases strict
  · simp only [isPsdTol, hsym, true_and, Bool.false_eq_true, if_false, ← quad_ge_iff S hS tol]
    constructor
    · rintro ⟨R, hR, hq⟩
      rwa [lowerReal_unique hS hR] at hq
    · exact fun hq => ⟨S, lowerReal_self hS, hq⟩
  · simp only [isPsdTol, hsym, true_and, if_true, ← quad_gt_iff S hS tol]
    constructor
    · rintro ⟨R, hR, hq⟩
      rwa [lowerReal_unique hS hR] at hq
    · exact fun hq => ⟨S, lowerReal_self hS, hq⟩

example := isPsdTol_iff (!![4, 3; 3, 1]) (by ext i j; fin_cases i <;> fin_cases j <;> simp) true (1 / 10 ^ 8) (by norm_num)

/-- C63: `is_psd` is `is_psd(M, strict=False, tol=1e-12)`. -/
theorem isPsd_eq {d : ℕ} (M : SqMat Fl d) : isPsd M ↔ isPsdTol M false 1e-12 := by
  simp [isPsd, isPsdTol]

/-- C63: `is_psd` accepts every positive semi-definite matrix, and `near_psd` returns it unchanged. -/
theorem isPsd_of_posSemidef {d : ℕ} (ext : CovNearest) (S : Matrix (Fin d) (Fin d) ℝ) (hS : S.PosSemidef) :
    isPsd (flMat S) ∧ nearPsd ext (.mat d d (flMat S)) = .ok ⟨d, flMat S⟩ := by
  have h1 : isPsd (flMat S) := by
    rw [isPsd_eq, isPsdTol_iff S hS.1 false 1e-12 (by norm_num)]
    intro i
    have := hS.eigenvalues_nonneg i
    simp only [Bool.false_eq_true, if_false]
    linarith
  refine ⟨h1, ?_⟩
  have h2 : isSymmetric (flMat S) 1e-8 := isSymmetric_self hS.1 (by norm_num)
  simp [nearPsd, h1, h2]

example (ext : CovNearest) := isPsd_of_posSemidef ext !![4, 3; 3, 9] (.of_dotProduct_mulVec_nonneg
  (by ext i j; fin_cases i <;> fin_cases j <;> simp) fun x => by
    simp [Matrix.mulVec, dotProduct, Fin.sum_univ_two]
    nlinarith [sq_nonneg (x 0 + x 1), sq_nonneg (x 0), sq_nonneg (x 1)])

/-- C63: a matrix that is not symmetric up to the tolerances of `np.allclose` is rejected by both. -/
theorem nearPsd_asymmetric {d : ℕ} (ext : CovNearest) (S : Matrix (Fin d) (Fin d) ℝ) (i j : Fin d)
    (h : 1e-8 + 1e-5 * |S j i| < |S i j - S j i|) :
    ¬ isPsd (flMat S) ∧ nearPsd ext (.mat d d (flMat S)) = .error .nonSymmetric := by
  have h2 : ¬ isSymmetric (flMat S) 1e-8 := fun hs => by
    have := hs i j
    simp only [flMat, closeTo] at this
    linarith
  refine ⟨fun hp => ?_, by simp [nearPsd, h2]⟩
  have := hp.1 i j
  simp only [flMat, closeTo] at this
  have : (1e-12 : ℝ) ≤ 1e-8 := by norm_num
  linarith

example (ext : CovNearest) := nearPsd_asymmetric ext (!![4, 3; 2, 1]) 0 1 (by norm_num [abs_of_pos])

/-- C63: a matrix with an eigenvalue below the tolerance is not accepted: `near_psd` hands it to
`cov_nearest`. -/
theorem nearPsd_indefinite {d : ℕ} (ext : CovNearest) (S : Matrix (Fin d) (Fin d) ℝ) (hS : S.IsHermitian)
    (i : Fin d) (h : hS.eigenvalues i < -1e-12) :
    ¬ isPsd (flMat S) ∧ nearPsd ext (.mat d d (flMat S)) = .ok ⟨d, ext d (flMat S)⟩ := by
  have h1 : ¬ isPsd (flMat S) := by
    rw [isPsd_eq, isPsdTol_iff S hS false 1e-12 (by norm_num)]
    intro hall
    have := hall i
    simp only [Bool.false_eq_true, if_false] at this
    linarith
  refine ⟨h1, ?_⟩
  have h2 : isSymmetric (flMat S) 1e-8 := isSymmetric_self hS (by norm_num)
  simp [nearPsd, h1, h2]

/-- C63 (violation): with `strict=True`, documented to test positive definiteness, `is_psd` accepts the
singular zero matrix of every size and the number 0, for every positive tolerance. -/
theorem isPsdStrict_singular (d : ℕ) (tol : ℝ) (h : 0 < tol) :
    isPsdTol (flMat (0 : Matrix (Fin (d + 1)) (Fin (d + 1)) ℝ)) true tol ∧
      ¬ (0 : Matrix (Fin (d + 1)) (Fin (d + 1)) ℝ).PosDef ∧ isPsdScalar (.fin 0) true tol := by
  have h0 : (0 : Matrix (Fin (d + 1)) (Fin (d + 1)) ℝ).PosSemidef := PosSemidef.zero
  refine ⟨?_, fun hp => ?_, ?_⟩
  · rw [isPsdTol_iff _ h0.1 true tol h.le]
    intro i
    have := h0.eigenvalues_nonneg i
    simp only [if_true]
    linarith
  · have := hp.det_pos
    simp at this
  · simp only [isPsdScalar, if_true]
    exact Fl.fin_lt_fin.mpr (by linarith)

example := isPsdStrict_singular 2 (1 / 10 ^ 8) (by norm_num)

end Copulae
