import Verif.Lemmas.GaussMeasure
import Verif.Lemmas.Elliptical
import Verif.Model.EllDensity
import Verif.Props.CovMatrix
import Verif.Spec.EllLaw

/-!
The assumptions about SciPy's normal distributions, and what follows about rows of the unit cube.
-/

namespace Copulae

open MeasureTheory ProbabilityTheory CopulaMeasure
open scoped ENNReal

/-- The standard normal distribution function. -/
noncomputable def normCdf (x : ℝ) : ℝ := (gaussianReal 0 1).real (Set.Iic x)

/-- What is assumed of SciPy's normal distributions: exact quantiles, log-densities and probabilities; only
positive definite covariance matrices are covered. -/
structure EllFns.Normal (f : EllFns) : Prop where
  ppf : ∀ u : ℝ, 0 < u → u < 1 → ∃ x, f.normPpf (.fin u) = .fin x ∧ normCdf x = u
  ppf_zero : f.normPpf (.fin 0) = .ninf
  ppf_one : f.normPpf (.fin 1) = .pinf
  logpdf : ∀ x : ℝ, f.normLogpdf (.fin x) = .fin (Real.log (gaussianPDFReal 0 1 x))
  mvnCdf : ∀ (d : ℕ) (S : Matrix (Fin d) (Fin d) ℝ), S.PosDef →
    ∃ F, f.mvnCdf d (fun i j => .fin (S i j)) = .ok F ∧
      ∀ q : Fin d → Fl, (∀ j, q j ≠ .nan) → F q = .fin ((gauss S).real {x | ∀ j, Fl.fin (x j) ≤ q j})
  mvnLogcdf : ∀ (d : ℕ) (S : Matrix (Fin d) (Fin d) ℝ), S.PosDef →
    ∃ F, f.mvnLogcdf d (fun i j => .fin (S i j)) = .ok F ∧
      ∀ q : Fin d → Fl, (∀ j, q j ≠ .nan) → F q = Fl.log (.fin ((gauss S).real {x | ∀ j, Fl.fin (x j) ≤ q j}))
  mvnPdf : ∀ (d : ℕ) (S : Matrix (Fin d) (Fin d) ℝ), S.PosDef →
    ∃ F, f.mvnPdf d (fun i j => .fin (S i j)) = .ok F ∧ ∀ x : Fin d → ℝ, F (fun j => .fin (x j)) = .fin (gaussPdf S x)
  mvnLogpdf : ∀ (d : ℕ) (S : Matrix (Fin d) (Fin d) ℝ), S.PosDef →
    ∃ F, f.mvnLogpdf d (fun i j => .fin (S i j)) = .ok F ∧
      ∀ x : Fin d → ℝ, F (fun j => .fin (x j)) = .fin (Real.log (gaussPdf S x))

theorem exists_normMargin : ∃ q, IsMargin (gaussianReal 0 1) normCdf q := by
  refine exists_isMargin (gaussianReal_of_var_ne_zero 0 one_ne_zero) (measurable_gaussianPDF 0 1) fun x => ?_
  exact (gaussianPDF_pos 0 one_ne_zero x).ne'

/-- The standard normal quantile function. -/
noncomputable def normQ : ℝ → ℝ := exists_normMargin.choose

theorem normMargin : IsMargin (gaussianReal 0 1) normCdf normQ := exists_normMargin.choose_spec

theorem EllFns.Normal.ppf_eq {f : EllFns} (hf : f.Normal) {u : ℝ} (h0 : 0 < u) (h1 : u < 1) :
    f.normPpf (.fin u) = .fin (normQ u) := by
  obtain ⟨x, hx, hu⟩ := hf.ppf u h0 h1
  rw [hx]
  congr 1
  apply normMargin.mono.injective
  rw [hu, normMargin.right u h0 h1]

theorem gaussLaw_eq {d : ℕ} (S : Matrix (Fin d) (Fin d) ℝ) : Spec.gaussLaw S = cubeLaw (gauss S) normCdf := by
  rw [cubeLaw, gauss, Measure.map_map (measurable_pointwise normMargin.measurable) (by fun_prop), Spec.gaussLaw]
  congr 1
  funext z j
  rw [cdf_eq_real]
  rfl

instance {d : ℕ} (S : Matrix (Fin d) (Fin d) ℝ) : IsProbabilityMeasure (Spec.gaussLaw S) := by
  rw [gaussLaw_eq]
  exact Measure.isProbabilityMeasure_map (measurable_pointwise normMargin.measurable).aemeasurable

theorem gaussLaw_uniform {d : ℕ} {S : Matrix (Fin d) (Fin d) ℝ} (hS : S.PosSemidef) (h1 : ∀ j, S j j = 1) :
    Uniform (Spec.gaussLaw S) := by
  rw [gaussLaw_eq]
  exact cubeLaw_uniform normMargin fun j => by rw [gauss_margin hS, h1]; simp

/-- The quantiles of a row of the closed cube, compared with a vector. -/
theorem EllFns.Normal.le_ppf {f : EllFns} (hf : f.Normal) {u : ℝ} (h0 : 0 ≤ u) (h1 : u ≤ 1) (x : ℝ) :
    f.normPpf (.fin u) ≠ .nan ∧ (Fl.fin x ≤ f.normPpf (.fin u) ↔ normCdf x ≤ u) := by
  rcases h0.eq_or_lt with rfl | h0
  · rw [hf.ppf_zero]
    refine ⟨by simp, ?_⟩
    have := (normMargin.mem x).1
    exact ⟨fun h => h.elim, fun h => absurd h (not_le.mpr this)⟩
  rcases h1.eq_or_lt with rfl | h1
  · rw [hf.ppf_one]
    refine ⟨by simp, ?_⟩
    exact ⟨fun _ => (normMargin.mem x).2.le, fun _ => trivial⟩
  · rw [hf.ppf_eq h0 h1, normMargin.le_iff h0 h1]
    exact ⟨by simp, Iff.rfl⟩

theorem EllFns.Normal.orthant {f : EllFns} (hf : f.Normal) {d : ℕ} {u : Fin d → ℝ} (hu : ∀ j, 0 ≤ u j ∧ u j ≤ 1)
    (S : Matrix (Fin d) (Fin d) ℝ) :
    (gauss S).real {x | ∀ j, Fl.fin (x j) ≤ f.normPpf (.fin (u j))} = Spec.distFn (Spec.gaussLaw S) u := by
  rw [Spec.distFn, gaussLaw_eq, cubeLaw, map_measureReal_apply (measurable_pointwise normMargin.measurable)
    (measurableSet_le u)]
  congr 1
  ext x
  simp only [Set.mem_ofPred_eq, Set.mem_preimage]
  exact forall_congr' fun j => (hf.le_ppf (hu j).1 (hu j).2 (x j)).2

/-! ### The correlation matrix -/

/-- The copula object has dimension `d`, and its property `sigma` is the positive definite matrix `S`. -/
structure Ell.HasCorr (s : Ell) {d : ℕ} (S : Matrix (Fin d) (Fin d) ℝ) : Prop where
  dim : s.dim = d
  sigma : s.sigma = .ok ⟨d, fun i j => .fin (S i j)⟩
  pos : S.PosDef

theorem Ell.HasCorr.diag {s : Ell} {d : ℕ} {S : Matrix (Fin d) (Fin d) ℝ} (h : s.HasCorr S) (j : Fin d) :
    S j j = 1 := by
  have hσ := h.sigma
  unfold Ell.sigma at hσ
  by_cases hl : ∃ e : ℕ, 1 ≤ e ∧ s.rhos.length = e * (e - 1) / 2
  · obtain ⟨e, he, hl⟩ := hl
    obtain ⟨M, h1, h2, -⟩ := createCovMatrix_roundTrip he s.rhos hl
    rw [h1] at hσ
    obtain ⟨rfl, hM⟩ := Sigma.mk.inj (Except.ok.inj hσ)
    have := h2 j
    rw [eq_of_heq hM] at this
    exact Fl.fin.inj this
  · push Not at hl
    rw [createCovMatrix_badLength _ hl] at hσ
    exact absurd hσ (by simp)

/-- Every positive definite correlation matrix is the `sigma` of some copula object. -/
theorem exists_hasCorr {d : ℕ} (hd : 1 ≤ d) (S : Matrix (Fin d) (Fin d) ℝ) (hS : S.PosDef) (h1 : ∀ j, S j j = 1) :
    ∃ s : Ell, s.HasCorr S := by
  obtain ⟨l, -, h⟩ := createCovMatrix_rebuild (α := Fl) hd (fun i j => .fin (S i j))
    (fun i => by rw [h1]; rfl) fun i j => by
      have := congrFun (congrFun hS.1 j) i
      simp only [Matrix.conjTranspose_apply, star_trivial] at this
      rw [this]
  exact ⟨⟨d, l⟩, rfl, h, hS⟩

theorem fitDim_self {k : ℕ} (M : SqMat Fl k) : fitDim ⟨k, M⟩ k = .ok M := by
  simp [fitDim]

end Copulae
