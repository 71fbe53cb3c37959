import Verif.Lemmas.StudentTail
import Verif.Props.StudentCopula

/-!
**C103** `lambda_` of Gaussian and Student copulas and the coefficients of tail dependence of their laws.
-/

namespace Copulae

open MeasureTheory ProbabilityTheory

variable {f : EllFns} {s : Ell} {d : ℕ} {S : Matrix (Fin d) (Fin d) ℝ}

/-- **C103** `lambda_` of a Gaussian copula: arranged as a matrix like the correlations, the numbers returned are the
lower and the upper coefficient of tail dependence of every pair of coordinates. -/
theorem gaussian_lambda_tail (h : s.sigma = .ok ⟨d, fun i j => .fin (S i j)⟩) (hS : S.PosSemidef) :
    ∃ L U : Matrix (Fin d) (Fin d) ℝ,
      createCovMatrix (gaussianLambda s).1 = .ok ⟨d, fun i j => .fin (L i j)⟩ ∧
      createCovMatrix (gaussianLambda s).2 = .ok ⟨d, fun i j => .fin (U i j)⟩ ∧
      ∀ i j, Spec.LowerTailDep (Spec.gaussLaw S) i j (L i j) ∧ Spec.UpperTailDep (Spec.gaussLaw S) i j (U i j) := by
  have h1 := sigma_diag h
  have key : createCovMatrix (gaussianLambda s).1 = .ok ⟨d, fun i j => .fin (if S i j = 1 then 1 else 0)⟩ := by
    unfold gaussianLambda
    simp only
    rw [(sigma_map h _).1]
    simp only [Except.ok.injEq, Sigma.mk.injEq, heq_eq_eq, true_and]
    funext i j
    by_cases hij : i = j
    · subst hij; simp [h1]
    · rw [if_neg hij]
      by_cases hr : S i j = 1 <;> simp [Fl.beq, hr]
  exact ⟨_, _, key, key, fun i j => tailDep_gaussLaw hS h1 i j⟩

example := gaussian_lambda_tail halfEll_corr.sigma posDef_half.posSemidef

/-- The numbers returned by `lambda_` of a Student copula with finite degrees of freedom. -/
theorem student_lambda_value (hf : f.Student) (h : s.sigma = .ok ⟨d, fun i j => .fin (S i j)⟩) (hS : S.PosSemidef) {ν : ℝ}
    (hν : 0 < ν) :
    (studentLambda f s (.fin ν)).1 = (studentLambda f s (.fin ν)).2 ∧
    createCovMatrix (studentLambda f s (.fin ν)).1 =
      .ok ⟨d, fun i j => .fin (2 * tCdfR (ν + 1) (-√((ν + 1) * (1 - S i j))))⟩ := by
  have h1 := sigma_diag h
  have hp : 0 < ν + 1 := by linarith
  unfold studentLambda
  rw [if_neg (by simp)]
  refine ⟨rfl, ?_⟩
  simp only
  rw [(sigma_map h _).1]
  simp only [Except.ok.injEq, Sigma.mk.injEq, heq_eq_eq, true_and]
  funext i j
  by_cases hij : i = j
  · subst hij
    rw [if_pos rfl, h1, sub_self, mul_zero, Real.sqrt_zero, neg_zero, tCdfR_zero hp]
    norm_num
  · rw [if_neg hij]
    obtain ⟨-, hr⟩ := corr_mem hS (h1 i) (h1 j)
    have h0 : 0 ≤ (ν + 1) * (1 - S i j) := mul_nonneg hp.le (by linarith)
    rw [Fl.fin_add_fin, Fl.fin_sub_fin, Fl.fin_mul_fin, Fl.sqrt, if_neg (not_lt.mpr h0), Fl.neg_fin, hf.cdf _ _ hp, Fl.fin_mul_fin]
    rfl

/-- **C103**, violated by Student copulas: for all degrees of freedom, `lambda_` returns the coefficient of tail dependence of a
pair only if the correlation is 0 or 1; it is too small for correlations between 0 and 1 and too large for negative ones. -/
theorem student_lambda_wrong (hf : f.Student) (h : s.sigma = .ok ⟨d, fun i j => .fin (S i j)⟩) (hS : S.PosSemidef) {ν : ℝ}
    (hν : 0 < ν) :
    ∃ L T : Matrix (Fin d) (Fin d) ℝ,
      createCovMatrix (studentLambda f s (.fin ν)).1 = .ok ⟨d, fun i j => .fin (L i j)⟩ ∧
      createCovMatrix (studentLambda f s (.fin ν)).2 = .ok ⟨d, fun i j => .fin (L i j)⟩ ∧
      (∀ i j, Spec.LowerTailDep (Spec.studentLaw S ν) i j (T i j) ∧ Spec.UpperTailDep (Spec.studentLaw S ν) i j (T i j)) ∧
      ∀ i j, (S i j = 0 ∨ S i j = 1 → L i j = T i j) ∧ (0 < S i j → S i j < 1 → L i j < T i j) ∧
        (S i j < 0 → T i j < L i j) := by
  obtain ⟨e, hv⟩ := student_lambda_value hf h hS hν
  have h1 := sigma_diag h
  have hp : 0 < ν + 1 := by linarith
  obtain ⟨q, hq⟩ := exists_tMargin hp
  refine ⟨_, fun i j => tTail ν (S i j), hv, e ▸ hv, fun i j => tailDep_studentLaw hS h1 hν i j, fun i j => ?_⟩
  obtain ⟨hr1, hr2⟩ := corr_mem hS (h1 i) (h1 j)
  refine ⟨fun hr => ?_, fun h0 hlt => ?_, fun h0 => ?_⟩
  · rcases hr with hr | hr
    · simp only [tTail]
      rw [if_neg (by rw [hr]; norm_num), hr]; norm_num
    · simp only [tTail]
      rw [if_neg (by rw [hr]; norm_num), hr]; norm_num
  · simp only [tTail]
    rw [if_neg (by linarith)]
    refine mul_lt_mul_of_pos_left (hq.mono (neg_lt_neg ?_)) two_pos
    have hpos : 0 < (ν + 1) * (1 - S i j) := mul_pos hp (by linarith)
    refine Real.sqrt_lt_sqrt (by positivity) ?_
    exact div_lt_self hpos (by linarith)
  · simp only [tTail]
    split_ifs with hm
    · exact mul_pos two_pos (hq.mem _).1
    · have hm' : 0 < 1 + S i j := by
        have := lt_of_le_of_ne hr1 (Ne.symm hm)
        linarith
      refine mul_lt_mul_of_pos_left (hq.mono (neg_lt_neg ?_)) two_pos
      have hpos : 0 < (ν + 1) * (1 - S i j) := mul_pos hp (by linarith)
      refine Real.sqrt_lt_sqrt hpos.le ?_
      rw [lt_div_iff₀ hm']
      exact mul_lt_of_lt_one_right hpos (by linarith)

/-- **C103** With infinite degrees of freedom `lambda_` of a Student copula is that of the Gaussian copula. -/
theorem student_lambda_inf (f : EllFns) (s : Ell) : studentLambda f s .pinf = gaussianLambda s := by
  simp [studentLambda]

/-- A copula with correlation one half and four degrees of freedom. -/
example : ∃ (s : Ell) (l t : ℝ), (∃ L : Matrix (Fin 2) (Fin 2) ℝ, L 0 1 = l ∧
      createCovMatrix (studentLambda exactEll s (.fin 4)).1 = .ok ⟨2, fun i j => .fin (L i j)⟩) ∧
    Spec.LowerTailDep (Spec.studentLaw (!![1, 1 / 2; 1 / 2, 1] : Matrix (Fin 2) (Fin 2) ℝ) 4) 0 1 t ∧ l < t := by
  obtain ⟨s, hs⟩ := exists_hasCorr (by norm_num) _ posDef_half fun j => by fin_cases j <;> rfl
  obtain ⟨L, T, h1, -, h3, h4⟩ := student_lambda_wrong exactEll_ok.2 hs.sigma posDef_half.posSemidef (ν := 4) (by norm_num)
  refine ⟨s, L 0 1, T 0 1, ⟨L, rfl, h1⟩, (h3 0 1).1, (h4 0 1).2.1 ?_ ?_⟩ <;> norm_num

end Copulae
