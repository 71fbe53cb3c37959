import Verif.Lemmas.StudentRho
import Verif.Props.ArchMeasures
import Verif.Props.GaussianCopula

/-!
**C100** `tau` of Gaussian and Student copulas is Kendall's tau of their laws, `rho` of a Gaussian copula is Spearman's rho
of its law; `rho` of a Student copula is not.
-/

namespace Copulae

open MeasureTheory ProbabilityTheory

variable {s : Ell} {d : ℕ} {S : Matrix (Fin d) (Fin d) ℝ}

theorem sigma_length {M : SqMat Fl d} (h : s.sigma = .ok ⟨d, M⟩) : 1 ≤ d ∧ s.rhos.length = d * (d - 1) / 2 := by
  unfold Ell.sigma at h
  by_cases hl : ∃ e : ℕ, 1 ≤ e ∧ s.rhos.length = e * (e - 1) / 2
  · obtain ⟨e, he, hl⟩ := hl
    obtain ⟨M', h1, -⟩ := createCovMatrix_roundTrip he s.rhos hl
    rw [h1] at h
    obtain ⟨rfl, -⟩ := Sigma.mk.inj (Except.ok.inj h)
    exact ⟨he, hl⟩
  · push Not at hl
    rw [createCovMatrix_badLength _ hl] at h
    exact absurd h (by simp)

/-- The matrix built from a function of the stored correlations. -/
theorem sigma_map {M : SqMat Fl d} (h : s.sigma = .ok ⟨d, M⟩) (φ : Fl → Fl) :
    createCovMatrix (s.rhos.map φ) = .ok ⟨d, fun i j => if i = j then .fin 1 else φ (M i j)⟩ ∧ (∀ i, M i i = .fin 1) := by
  obtain ⟨hd, hl⟩ := sigma_length h
  obtain ⟨M', k1, k2, k3⟩ := createCovMatrix_ok hd s.rhos hl
  obtain ⟨T, t1, t2, t3⟩ := createCovMatrix_ok hd (s.rhos.map φ) (by rw [List.length_map, hl])
  have hM : M' = M := by
    unfold Ell.sigma at h
    rw [k1] at h
    exact eq_of_heq (Sigma.mk.inj (Except.ok.inj h)).2
  subst hM
  refine ⟨?_, k2⟩
  rw [t1]
  simp only [Except.ok.injEq, Sigma.mk.injEq, heq_eq_eq, true_and]
  funext i j
  rcases lt_trichotomy i j with hij | hij | hij
  · rw [if_neg hij.ne]
    have a := (t3 i j hij).1
    rw [List.getElem?_map, (k3 i j hij).1] at a
    exact (Option.some.inj a).symm
  · rw [if_pos hij, hij]; exact t2 j
  · rw [if_neg hij.ne']
    have a := (t3 j i hij).2
    rw [List.getElem?_map, (k3 j i hij).2] at a
    exact (Option.some.inj a).symm

theorem sigma_diag (h : s.sigma = .ok ⟨d, fun i j => .fin (S i j)⟩) (j : Fin d) : S j j = 1 :=
  Fl.fin.inj ((sigma_map h id).2 j)

/-- **C100** `tau`: arranged as a matrix like the correlations, the numbers returned are Kendall's tau of every pair of
coordinates, of the Gaussian copula and of the Student copula with any number of degrees of freedom. -/
theorem ell_tau_kendall (h : s.sigma = .ok ⟨d, fun i j => .fin (S i j)⟩) (hS : S.PosSemidef) :
    createCovMatrix s.tau = .ok ⟨d, fun i j => .fin (Spec.kendallTau (Spec.gaussLaw S) i j)⟩ ∧
    ∀ ν : ℝ, 0 < ν →
      createCovMatrix s.tau = .ok ⟨d, fun i j => .fin (Spec.kendallTau (Spec.studentLaw S ν) i j)⟩ := by
  have h1 := sigma_diag h
  have hpi := Real.pi_pos
  have key : createCovMatrix s.tau = .ok ⟨d, fun i j => .fin (2 / Real.pi * Real.arcsin (S i j))⟩ := by
    rw [Ell.tau, (sigma_map h ellTau).1]
    simp only [Except.ok.injEq, Sigma.mk.injEq, heq_eq_eq, true_and]
    funext i j
    split_ifs with hij
    · subst hij
      rw [h1, Real.arcsin_one]
      congr 1; field_simp
    · obtain ⟨a, b⟩ := corr_mem hS (h1 i) (h1 j)
      rw [ellTau, arcsin_fin a b, Fl.fin_mul_fin, Fl.fin_div_fin' _ hpi.ne']
      congr 1; ring
  refine ⟨?_, fun ν hν => ?_⟩
  · simp_rw [kendallTau_gaussLaw hS h1]; exact key
  · simp_rw [kendallTau_studentLaw hS h1 hν]; exact key

example := ell_tau_kendall halfEll_corr.sigma posDef_half.posSemidef

/-- The values of `rho`. -/
theorem ell_rho_value (h : s.sigma = .ok ⟨d, fun i j => .fin (S i j)⟩) (hS : S.PosSemidef) :
    createCovMatrix s.rho = .ok ⟨d, fun i j => .fin (6 / Real.pi * Real.arcsin (S i j / 2))⟩ := by
  have h1 := sigma_diag h
  have hpi := Real.pi_pos
  rw [Ell.rho, (sigma_map h ellRho).1]
  simp only [Except.ok.injEq, Sigma.mk.injEq, heq_eq_eq, true_and]
  funext i j
  split_ifs with hij
  · subst hij
    have h6 : Real.arcsin (1 / 2) = Real.pi / 6 := by
      rw [← Real.sin_pi_div_six, Real.arcsin_sin (by linarith) (by linarith)]
    rw [h1, h6]
    congr 1; field_simp
  · obtain ⟨a, b⟩ := corr_mem hS (h1 i) (h1 j)
    rw [ellRho, Fl.fin_div_fin' _ two_ne_zero, arcsin_fin (by linarith) (by linarith), Fl.fin_mul_fin,
      Fl.fin_div_fin' _ hpi.ne']
    congr 1; ring

/-- **C100** `rho` of a Gaussian copula: Spearman's rho of every pair of coordinates. -/
theorem gaussian_rho_spearman (h : s.sigma = .ok ⟨d, fun i j => .fin (S i j)⟩) (hS : S.PosSemidef) :
    createCovMatrix s.rho = .ok ⟨d, fun i j => .fin (Spec.spearmanRho (Spec.gaussLaw S) i j)⟩ := by
  simp_rw [spearmanRho_gaussLaw hS (sigma_diag h)]
  exact ell_rho_value h hS

example := gaussian_rho_spearman halfEll_corr.sigma posDef_half.posSemidef

/-- **C100**, violated by Student copulas: for every number of degrees of freedom and every correlation other than
-1, 0 and 1 the number returned by `rho` is too large in absolute value. -/
theorem student_rho_wrong (h : s.sigma = .ok ⟨d, fun i j => .fin (S i j)⟩) (hS : S.PosSemidef) {ν : ℝ} (hν : 0 < ν) :
    ∃ R : Matrix (Fin d) (Fin d) ℝ, createCovMatrix s.rho = .ok ⟨d, fun i j => .fin (R i j)⟩ ∧
      ∀ i j, S i j ≠ 0 → |S i j| < 1 → |Spec.spearmanRho (Spec.studentLaw S ν) i j| < |R i j| := by
  refine ⟨_, ell_rho_value h hS, fun i j h0 hlt => ?_⟩
  have h1 := sigma_diag h
  have hpi := Real.pi_pos
  have h6 : 0 < 6 / Real.pi := by positivity
  rw [spearmanRho_studentLaw hS h1 hν, abs_mul, abs_mul]
  refine mul_lt_mul_of_pos_left ?_ (abs_pos.mpr h6.ne')
  have hnn : ∀ ρ : ℝ, 0 < ρ → 0 ≤ ∫ q : ℝ × (ℝ × ℝ), Real.arcsin (ρ * (mixP q.1 q.2.1 * mixP q.1 q.2.2)) ∂(mixQ ν) := by
    intro ρ hρ
    refine integral_nonneg fun q => Real.arcsin_nonneg.mpr ?_
    unfold mixP; positivity
  rcases lt_or_gt_of_ne h0 with hneg | hpos
  · obtain ⟨ρ, hρ⟩ : ∃ ρ, ρ = -S i j := ⟨_, rfl⟩
    have hS' : S i j = -ρ := by linarith
    rw [hS'] at hneg hlt ⊢
    rw [abs_neg, abs_of_pos (by linarith)] at hlt
    have hint : ∀ q : ℝ × (ℝ × ℝ), Real.arcsin (-ρ * (mixP q.1 q.2.1 * mixP q.1 q.2.2)) =
        -Real.arcsin (ρ * (mixP q.1 q.2.1 * mixP q.1 q.2.2)) := fun q => by rw [neg_mul, Real.arcsin_neg]
    simp_rw [hint]
    rw [integral_neg, abs_neg, neg_div, Real.arcsin_neg, abs_neg, abs_of_nonneg (hnn ρ (by linarith)),
      abs_of_nonneg (Real.arcsin_nonneg.mpr (by linarith))]
    exact integral_arcsin_lt hν (by linarith) hlt
  · rw [abs_of_pos hpos] at hlt
    rw [abs_of_nonneg (hnn _ hpos), abs_of_nonneg (Real.arcsin_nonneg.mpr (by linarith))]
    exact integral_arcsin_lt hν hpos hlt

/-- A copula with correlation one half: `tau` returns 1/3, and Kendall's tau of both laws is 1/3. -/
example : ∃ s : Ell, s.sigma = .ok ⟨2, fun i j => .fin ((!![1, 1 / 2; 1 / 2, 1] : Matrix (Fin 2) (Fin 2) ℝ) i j)⟩ ∧
    Spec.kendallTau (Spec.studentLaw (!![1, 1 / 2; 1 / 2, 1] : Matrix (Fin 2) (Fin 2) ℝ) 4) 0 1 = 1 / 3 := by
  obtain ⟨s, hs⟩ := exists_hasCorr (by norm_num) _ posDef_half fun j => by fin_cases j <;> rfl
  refine ⟨s, hs.sigma, ?_⟩
  rw [kendallTau_studentLaw posDef_half.posSemidef (fun j => by fin_cases j <;> rfl) (by norm_num)]
  have hpi := Real.pi_pos
  have h6 : Real.arcsin (1 / 2) = Real.pi / 6 := by
    rw [← Real.sin_pi_div_six, Real.arcsin_sin (by linarith) (by linarith)]
  have e : (!![1, 1 / 2; 1 / 2, 1] : Matrix (Fin 2) (Fin 2) ℝ) 0 1 = 1 / 2 := rfl
  rw [e, h6]
  field_simp; norm_num

end Copulae
