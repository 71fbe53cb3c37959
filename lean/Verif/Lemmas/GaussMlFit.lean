import Verif.Lemmas.GaussMl
import Verif.Lemmas.ScoreMoments
import Verif.Model.LogLik
import Verif.Props.GaussianCopula

/-!
The log-likelihood of a Gaussian copula as a function of its correlations and of the second moments of the normal scores.
-/

namespace Copulae

open Matrix MeasureTheory ProbabilityTheory Spec CopulaMeasure

variable {d n : ℕ}

/-- The second moments of the normal scores as a matrix. -/
noncomputable def scoreMatrix (r : Fin n → Fin d → ℝ) : Matrix (Fin d) (Fin d) ℝ := fun a b => scoreMoment r a b

theorem scoreMatrix_posSemidef (r : Fin n → Fin d → ℝ) : (scoreMatrix r).PosSemidef := by
  have h := posSemidef_conjTranspose_mul_self (Matrix.of fun i a => normQ (r i a) : Matrix (Fin n) (Fin d) ℝ)
  have e : scoreMatrix r = (1 / (n : ℝ)) • ((Matrix.of fun i a => normQ (r i a) : Matrix (Fin n) (Fin d) ℝ)ᴴ *
      (Matrix.of fun i a => normQ (r i a))) := by
    ext a b
    simp [scoreMatrix, scoreMoment, Matrix.mul_apply, div_eq_inv_mul]
  rw [e]
  exact h.smul (by positivity)

theorem sum_quad (hn : 0 < n) (r : Fin n → Fin d → ℝ) (A : Matrix (Fin d) (Fin d) ℝ) :
    ∑ i, ((fun j => normQ (r i j)) ⬝ᵥ A *ᵥ fun j => normQ (r i j)) = n * (A * scoreMatrix r).trace := by
  have hn' : (n : ℝ) ≠ 0 := by exact_mod_cast hn.ne'
  simp only [dotProduct, mulVec, trace, diag_apply, Matrix.mul_apply, scoreMatrix, scoreMoment, Finset.mul_sum]
  rw [Finset.sum_comm]
  refine Finset.sum_congr rfl fun a _ => ?_
  rw [Finset.sum_comm]
  refine Finset.sum_congr rfl fun b _ => ?_
  rw [mul_comm (n : ℝ), mul_assoc, div_mul_cancel₀ _ hn', Finset.mul_sum]
  exact Finset.sum_congr rfl fun i _ => by ring

/-- The sum of the logarithms of the densities of a Gaussian copula. -/
noncomputable def gaussScore (S : Matrix (Fin d) (Fin d) ℝ) (r : Fin n → Fin d → ℝ) : ℝ :=
  ∑ i, Real.log (gaussPdf S (fun j => normQ (r i j)) / ∏ j, gaussianPDFReal 0 1 (normQ (r i j)))

theorem gaussScore_eq (hn : 0 < n) {S : Matrix (Fin d) (Fin d) ℝ} (hS : S.PosDef) (r : Fin n → Fin d → ℝ) :
    gaussScore S r = -(n / 2) * ((S⁻¹ * scoreMatrix r).trace + Real.log S.det) -
      (n / 2 * Real.log ((2 * Real.pi) ^ d) + ∑ i, Real.log (∏ j, gaussianPDFReal 0 1 (normQ (r i j)))) := by
  have hφ : ∀ x, 0 < gaussianPDFReal 0 1 x := fun x => gaussianPDFReal_pos 0 1 x one_ne_zero
  have hdet := hS.det_pos
  have hpi : (0 : ℝ) < (2 * Real.pi) ^ d := by have := Real.pi_pos; positivity
  have row : ∀ i, Real.log (gaussPdf S (fun j => normQ (r i j)) / ∏ j, gaussianPDFReal 0 1 (normQ (r i j))) =
      -(1 / 2) * ((fun j => normQ (r i j)) ⬝ᵥ S⁻¹ *ᵥ fun j => normQ (r i j)) -
      (Real.log S.det / 2 + Real.log ((2 * Real.pi) ^ d) / 2 + Real.log (∏ j, gaussianPDFReal 0 1 (normQ (r i j)))) := by
    intro i
    rw [Real.log_div (gaussPdf_pos hS _).ne' (Finset.prod_pos fun j _ => hφ _).ne', gaussPdf,
      Real.log_div (Real.exp_pos _).ne' (Real.sqrt_pos.mpr (mul_pos hpi hdet)).ne', Real.log_exp, Real.log_sqrt (mul_pos hpi hdet).le,
      Real.log_mul hpi.ne' hdet.ne']
    ring
  unfold gaussScore
  rw [Finset.sum_congr rfl fun i _ => row i, Finset.sum_sub_distrib, ← Finset.mul_sum, sum_quad hn, Finset.sum_add_distrib,
    Finset.sum_const, Finset.card_univ, Fintype.card_fin, nsmul_eq_mul]
  ring

/-- A matrix with at least the log-likelihood of `S₀` is close to `S₀` when the moments of the scores are. -/
theorem gaussScore_near {S₀ : Matrix (Fin d) (Fin d) ℝ} (hS₀ : S₀.PosDef) {ε : ℝ} (hε : 0 < ε) :
    ∃ η, 0 < η ∧ ∀ (n : ℕ) (r : Fin n → Fin d → ℝ), 0 < n → (∀ a b, |scoreMoment r a b - S₀ a b| < η) →
      ∀ S : Matrix (Fin d) (Fin d) ℝ, S.PosDef → (∀ j, S j j = 1) → gaussScore S₀ r ≤ gaussScore S r →
        ∀ i j, |S i j - S₀ i j| < ε := by
  obtain ⟨η, hη, h⟩ := ml_near hS₀ hε
  refine ⟨η, hη, fun n r hn hr S hS h1 hle => h (scoreMatrix r) (scoreMatrix_posSemidef r) hr S hS h1 ?_⟩
  rw [gaussScore_eq hn hS₀, gaussScore_eq hn hS] at hle
  have hn' : (0 : ℝ) < n := by exact_mod_cast hn
  by_contra hcon
  push Not at hcon
  nlinarith

/-! ### The value of `log_lik` -/

/-- The summed log-densities of a Gaussian copula are those of the method `pdf` (gaussian.py:75-82, base.py:165-166). -/
def Spec.GaussLogPdf (env : FitEnv) (f : EllFns) : Prop :=
  ∀ (s : Ell) (n d : ℕ) (u : Fin n → Fin d → ℚ), env.logPdfSum (.gaussian s) n d u =
    (do let v ← gaussianPdf f s (fun i j => .fin ((u i j : ℚ) : ℝ)) true; sumLog v)

/-- `multivariate_normal.logpdf` raises unless the symmetric matrix is positive definite (`allow_singular=False`). -/
def Spec.NeedsPosDef (f : EllFns) : Prop :=
  ∀ (d : ℕ) (M : SqMat Fl d) (F : (Fin d → Fl) → Fl), (∀ i j, M i j = M j i) → f.mvnLogpdf d M = .ok F →
    ∃ S : Matrix (Fin d) (Fin d) ℝ, S.PosDef ∧ M = fun i j => .fin (S i j)

theorem gaussianPdf_hasCorr {f : EllFns} (hp : NeedsPosDef f) {s : Ell} {x : Fin n → Fin d → Fl} {log : Bool} {v : Fin n → Fl}
    (h : gaussianPdf f s x log = .ok v) : ∃ S : Matrix (Fin d) (Fin d) ℝ, s.HasCorr S := by
  unfold gaussianPdf at h
  by_cases hd : d ≠ s.dim
  · rw [if_pos hd] at h; simp at h
  rw [if_neg hd] at h
  push Not at hd
  rcases hσ : s.sigma with e | ⟨k, M⟩
  · rw [hσ] at h; simp [bind, Except.bind] at h
  rw [hσ] at h
  simp only [bind, Except.bind] at h
  by_cases hk : k = d
  · subst hk
    rw [fitDim_self] at h
    simp only at h
    rcases hL : f.mvnLogpdf k M with e | L
    · rw [hL] at h; simp at h
    · have hsym : ∀ i j, M i j = M j i := by
        have hσ' := hσ
        unfold Ell.sigma at hσ'
        by_cases hl : ∃ e : ℕ, 1 ≤ e ∧ s.rhos.length = e * (e - 1) / 2
        · obtain ⟨e, he, hl⟩ := hl
          obtain ⟨M', h1, -, h2, -⟩ := createCovMatrix_roundTrip he s.rhos hl
          rw [h1] at hσ'
          obtain ⟨rfl, hM⟩ := Sigma.mk.inj (Except.ok.inj hσ')
          rw [← eq_of_heq hM]
          exact h2
        · push Not at hl
          rw [createCovMatrix_badLength _ hl] at hσ'
          exact absurd hσ' (by simp)
      obtain ⟨S, hS, rfl⟩ := hp k M L hsym hL
      exact ⟨S, hd.symm, hσ, hS⟩
  · rw [fitDim, dif_neg hk] at h
    simp at h

theorem sumLog_ok {v : Fin n → ℝ} (hn : n ≠ 1) : sumLog (fun i => .fin (v i)) = .ok (.fin (∑ i, v i)) := by
  rw [sumLog, if_neg hn, Fl.sum_fin]

theorem logPdfSum_gauss {env : FitEnv} {f : EllFns} (hf : f.Normal) (he : GaussLogPdf env f) {s : Ell} {S : Matrix (Fin d) (Fin d) ℝ}
    (hs : s.HasCorr S) (hn : n ≠ 1) (u : Fin n → Fin d → ℚ) {r : Fin n → Fin d → ℝ} (hr : ∀ i j, ((u i j : ℚ) : ℝ) = r i j)
    (hu : ∀ i j, 0 < r i j ∧ r i j < 1) :
    env.logPdfSum (.gaussian s) n d u = .ok (.fin (gaussScore S r)) := by
  rw [he, show (fun i j => Fl.fin ((u i j : ℚ) : ℝ)) = fun i j => Fl.fin (r i j) from by funext i j; rw [hr],
    (gaussianPdf_rows hf hs r hu).2]
  simp only [bind, Except.bind]
  exact sumLog_ok hn

theorem logLikCut_hasCorr {s : Ell} {S : Matrix (Fin d) (Fin d) ℝ} (hs : s.HasCorr S) : logLikCut (.gaussian s) = .ok false := by
  have hpsd : isPsd (fun i j => Fl.fin (S i j)) := (isPsd_of_posSemidef (fun _ M => M) S hs.pos.posSemidef).1
  simp only [logLikCut, hs.sigma, bind, Except.bind, pure, Except.pure, hpsd, not_true_eq_false, decide_false]

/-- What `log_lik` says about a Gaussian copula object, on pseudo-observations `r`. -/
theorem logLik_gauss {env : FitEnv} {f : EllFns} (hf : f.Normal) (hp : NeedsPosDef f) (he : GaussLogPdf env f) (hn : n ≠ 1)
    (u : Fin n → Fin d → ℚ) {r : Fin n → Fin d → ℝ} (hr : ∀ i j, ((u i j : ℚ) : ℝ) = r i j) (hu : ∀ i j, 0 < r i j ∧ r i j < 1)
    (ties : String) :
    (∀ (s : Ell) (S : Matrix (Fin d) (Fin d) ℝ), s.HasCorr S → logLik env (.gaussian s) u false ties = .ok (.fin (gaussScore S r))) ∧
    ∀ (s : Ell) (v : Fl), logLik env (.gaussian s) u false ties = .ok v → v = .ninf ∨
      ∃ S : Matrix (Fin d) (Fin d) ℝ, s.HasCorr S ∧ v = .fin (gaussScore S r) := by
  have key : ∀ (s : Ell) (S : Matrix (Fin d) (Fin d) ℝ), s.HasCorr S →
      logLik env (.gaussian s) u false ties = .ok (.fin (gaussScore S r)) := fun s S hs => by
    simp only [logLik, logLikCut_hasCorr hs, bind, Except.bind, Bool.false_eq_true, if_false, maybePobs]
    exact logPdfSum_gauss hf he hs hn u hr hu
  refine ⟨key, fun s v hv => ?_⟩
  have hv' := hv
  simp only [logLik, bind, Except.bind, maybePobs, Bool.false_eq_true, if_false] at hv
  rcases hc : logLikCut (.gaussian s) with e | b
  · rw [hc] at hv; simp at hv
  rw [hc] at hv
  cases b with
  | true =>
    simp only [if_true, pure, Except.pure] at hv
    exact .inl (Except.ok.inj hv).symm
  | false =>
    simp only [Bool.false_eq_true, if_false] at hv
    rw [he] at hv
    rcases hg : gaussianPdf f s (fun i j => Fl.fin ((u i j : ℚ) : ℝ)) true with e | w
    · rw [hg] at hv; simp [bind, Except.bind] at hv
    · obtain ⟨S, hS⟩ := gaussianPdf_hasCorr hp hg
      refine .inr ⟨S, hS, ?_⟩
      rw [key s S hS] at hv'
      exact (Except.ok.inj hv').symm

end Copulae
