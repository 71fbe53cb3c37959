import Verif.Lemmas.GmcDensityLaw
import Verif.Props.GmmPpf
import Verif.Lemmas.EllFns

/-!
C112: the log-likelihoods of `copulae/mixtures/gmc/loglik.py`.
-/

namespace Copulae

open MeasureTheory Set ProbabilityTheory CopulaMeasure

variable {m d : ℕ} {p : Fin m → ℝ} {μ : Fin m → Fin d → ℝ} {S : Fin m → Matrix (Fin d) (Fin d) ℝ}

/-- Contract of `scipy.stats.multivariate_normal.pdf`: exact normal densities. -/
structure MvnPdf.Exact (N : MvnPdf d) : Prop where
  joint : ∀ (a : Fin d → ℝ) (V : Matrix (Fin d) (Fin d) ℝ) (x : Fin d → ℝ), V.PosDef →
    N.joint (fun j => .fin (a j)) (flMat V) (fun j => .fin (x j)) = .fin (gaussPdf V fun j => x j - a j)
  single : ∀ a v x : ℝ, 0 < v → N.single (.fin a) (.fin v) (.fin x) = .fin (gaussianPDFReal a v.toNNReal x)

theorem gmmLogLik_fin (h : Spec.IsMixture p S) (hS : ∀ c, (S c).PosDef) {N : MvnPdf d} (hN : N.Exact) {n : ℕ}
    (x : Fin n → Fin d → ℝ) :
    gmmLogLik (flParam p μ S)
      (fun i c => N.joint ((flParam p μ S).means c) ((flParam p μ S).covs c) fun j => .fin (x i j)) =
      .fin (∑ i, Real.log (gmmPdf p μ S (x i))) := by
  unfold gmmLogLik
  rw [← Fl.sum_fin]
  refine Finset.sum_congr rfl fun i _ => ?_
  have : ∀ c, (flParam p μ S).prob c * N.joint ((flParam p μ S).means c) ((flParam p μ S).covs c)
      (fun j => .fin (x i j)) = .fin (p c * gaussPdf (S c) fun j => x i j - μ c j) := fun c => by
    simp only [flParam]
    rw [hN.joint _ _ _ (hS c), Fl.fin_mul_fin]
  rw [Finset.sum_congr rfl fun c _ => this c, Fl.sum_fin]
  exact Fl.log_pos (gmmPdf_pos h hS (x i))

theorem gmmLogLikMarginal_fin (h : Spec.IsMixture p S) {N : MvnPdf d} (hN : N.Exact) {n : ℕ}
    (x : Fin n → Fin d → ℝ) (j : Fin d) :
    gmmLogLikMarginal (flParam p μ S)
      (fun i c => N.single ((flParam p μ S).means c j) ((flParam p μ S).covs c j j) (.fin (x i j))) =
      .fin (∑ i, Real.log (gmmPdf1 p μ S j (x i j))) := by
  unfold gmmLogLikMarginal
  rw [← Fl.sum_fin]
  refine Finset.sum_congr rfl fun i _ => ?_
  have : ∀ c, (flParam p μ S).prob c * N.single ((flParam p μ S).means c j) ((flParam p μ S).covs c j j)
      (.fin (x i j)) = .fin (p c * gaussianPDFReal (μ c j) (S c j j).toNNReal (x i j)) := fun c => by
    simp only [flParam, flMat]
    rw [hN.single _ _ _ (h.var c j), Fl.fin_mul_fin]
  rw [Finset.sum_congr rfl fun c _ => this c, Fl.sum_fin]
  exact Fl.log_pos (gmmPdf1_pos h j (x i j))

/-- **C112.** The copula of the normal mixture has a density `c`, given by the formula in the documentation, and
`gmcm_log_likelihood` returns the sum of the logarithms of `c` at the given observations, each coordinate moved by at most
half a percent for each component (plus 1.25e-5), the error of the quantiles. -/
theorem gmcm_log_likelihood_density (h : Spec.IsMixture p S) (hS : ∀ c, (S c).PosDef) {N : MvnPdf d} (hN : N.Exact) :
    ∃ c : (Fin d → ℝ) → ℝ,
      (∀ z : Fin d → ℝ, c (fun j => (Spec.gmmLaw p μ S).real {x | x j ≤ z j}) =
        gmmPdf p μ S z / ∏ j, gmmPdf1 p μ S j (z j)) ∧
      Spec.HasCubeDensity (Spec.gmcLaw p μ S) c ∧
      ∀ (n : ℕ) (u : Fin n → Fin d → ℝ), (∀ i j, u i j ∈ Icc (3e-7 : ℝ) (1 - 3e-7)) →
        ∃ w : Fin n → Fin d → ℝ, (∀ i j, w i j ∈ Ioo (0 : ℝ) 1 ∧ |w i j - u i j| ≤ 0.005 * m + 1.25e-5) ∧
          gmcmLogLik N (flParam p μ S) (fun i j => .fin (u i j)) = .ok (.fin (∑ i, Real.log (c (w i)))) := by
  obtain ⟨c, hc, hlaw⟩ := gmcLaw_density (μ := μ) h hS
  obtain ⟨Q, -, hacc, hok⟩ := gmm_ppf_accurate (μ := μ) h
  have hbox : (Set.pi Set.univ fun _ : Fin d => Set.Ioo (0 : ℝ) 1) = {u | ∀ j, 0 < u j ∧ u j < 1} := by
    ext u
    simp [Set.mem_pi]
  refine ⟨c, hc, fun s hs => ?_, fun n u hu => ?_⟩
  · rw [← hbox]
    exact ⟨(hlaw s hs).2, (hlaw s hs).1⟩
  refine ⟨fun i j => Spec.gmmMargin p μ S j (Q j (u i j)), fun i j => ⟨?_, hacc j _ (hu i j)⟩, ?_⟩
  · obtain ⟨q, hq⟩ := gmm_isMargin (μ := μ) h j
    exact hq.mem _
  · unfold gmcmLogLik
    rw [hok n false u hu]
    simp only [bind, Except.bind, pure, Except.pure]
    rw [gmmLogLik_fin h hS hN fun i j => Q j (u i j)]
    have : ∀ j, gmmLogLikMarginal (flParam p μ S) (fun i c => N.single ((flParam p μ S).means c j)
        ((flParam p μ S).covs c j j) (.fin (Q j (u i j)))) = .fin (∑ i, Real.log (gmmPdf1 p μ S j (Q j (u i j)))) :=
      fun j => gmmLogLikMarginal_fin h hN (fun i j => Q j (u i j)) j
    rw [Finset.sum_congr rfl fun j _ => this j, Fl.sum_fin, Fl.fin_sub_fin, Finset.sum_comm, ← Finset.sum_sub_distrib]
    congr 2
    refine Finset.sum_congr rfl fun i _ => ?_
    rw [hc, Real.log_div (gmmPdf_pos h hS _).ne' (Finset.prod_pos fun j _ => gmmPdf1_pos h j _).ne',
      Real.log_prod fun j _ => (gmmPdf1_pos h j _).ne']

/-- **C112.** `gmm_log_likelihood` and `gmm_log_likelihood_marginals` are the log-likelihoods of the normal mixture and of its
margins: `gmmPdf` and `gmmPdf1` are the densities of `Spec.gmmLaw`. -/
theorem gmm_log_likelihood_density (h : Spec.IsMixture p S) (hS : ∀ c, (S c).PosDef) {N : MvnPdf d} (hN : N.Exact) :
    ∃ (f : (Fin d → ℝ) → ℝ) (f1 : Fin d → ℝ → ℝ), (∀ x, 0 < f x) ∧ (∀ j x, 0 < f1 j x) ∧
      Spec.gmmLaw p μ S = volume.withDensity (fun x => ENNReal.ofReal (f x)) ∧
      (∀ j, (Spec.gmmLaw p μ S).map (fun z => z j) = volume.withDensity fun x => ENNReal.ofReal (f1 j x)) ∧
      ∀ (n : ℕ) (x : Fin n → Fin d → ℝ),
        gmmLogLik (flParam p μ S)
          (fun i c => N.joint ((flParam p μ S).means c) ((flParam p μ S).covs c) fun j => .fin (x i j)) =
          .fin (∑ i, Real.log (f (x i))) ∧
        ∀ j, gmmLogLikMarginal (flParam p μ S)
          (fun i c => N.single ((flParam p μ S).means c j) ((flParam p μ S).covs c j j) (.fin (x i j))) =
          .fin (∑ i, Real.log (f1 j (x i j))) :=
  ⟨gmmPdf p μ S, gmmPdf1 p μ S, gmmPdf_pos h hS, gmmPdf1_pos h, gmmLaw_density h hS, gmmMargin_density h,
    fun _ x => ⟨gmmLogLik_fin h hS hN x, gmmLogLikMarginal_fin h hN x⟩⟩

/-- **C112.** At an observation on the border of the cube the likelihood raises `ValueError`. -/
theorem gmcm_log_likelihood_border (h : Spec.IsMixture p S) (N : MvnPdf d) {n : ℕ} (u : Fin n → Fin d → Fl) {i : Fin n}
    {j : Fin d} {v : ℝ} (hu : u i j = .fin v) (hv : v ≤ 0 ∨ 1 ≤ v) :
    gmcmLogLik N (flParam p μ S) u = .error .valueError := by
  unfold gmcmLogLik
  rw [gmm_ppf_ends h false u hu hv]
  rfl

/-- **C112.** With one cluster the Gaussian mixture copula is the Gaussian copula of the correlation matrix, whatever the
mean. -/
theorem gmc_one_cluster {V : Matrix (Fin d) (Fin d) ℝ} (hV : V.PosSemidef) (hv : ∀ j, 0 < V j j) (a : Fin d → ℝ) :
    Spec.gmcLaw (m := 1) (fun _ => 1) (fun _ => a) (fun _ => V) =
      Spec.gaussLaw (Matrix.of fun i j => V i j / (√(V i i) * √(V j j))) := by
  have h : Spec.IsMixture (m := 1) (fun _ => 1) (fun _ => V) :=
    ⟨fun _ => zero_le_one, by simp, fun _ => hV, fun _ j => hv j⟩
  have hF : ∀ j x, Spec.gmmMargin (m := 1) (fun _ => 1) (fun _ => a) (fun _ => V) j x = normCdf ((x - a j) / √(V j j)) := by
    intro j x
    rw [gmmMargin_eq h]
    simp
  have hf : Measurable fun (z : Fin d → ℝ) j => a j + z j := by fun_prop
  have hD : (gauss V).map (fun x => (Matrix.diagonal fun j => (√(V j j))⁻¹).mulVec x) =
      gauss (Matrix.of fun i j => V i j / (√(V i i) * √(V j j))) := by
    rw [gauss_map hV]
    congr 1
    ext i j
    rw [Matrix.diagonal_transpose, Matrix.mul_diagonal, Matrix.diagonal_mul, Matrix.of_apply, div_eq_mul_inv, mul_inv]
    ring
  have hDm : Measurable fun x : Fin d → ℝ => (Matrix.diagonal fun j => (√(V j j))⁻¹).mulVec x :=
    (Continuous.matrix_mulVec continuous_const continuous_id).measurable
  rw [gaussLaw_eq, ← hD, cubeLaw, Measure.map_map (measurable_pointwise normMargin.measurable) hDm, Spec.gmcLaw,
    gmmLaw_eq, Fin.sum_univ_one, ENNReal.ofReal_one, one_smul, Measure.map_map (gmmMargin_measurable h) hf]
  congr 1
  funext z j
  simp only [Function.comp_apply, hF, Matrix.mulVec_diagonal]
  congr 1
  rw [add_sub_cancel_left, div_eq_inv_mul]

/-- The number behind a finite double. -/
def mvnReal : Fl → ℝ
  | .fin x => x
  | _ => 0

/-- Exact densities, as a program. -/
noncomputable def exactMvn (d : ℕ) : MvnPdf d where
  joint a V x := .fin (gaussPdf (fun i j => mvnReal (V i j)) fun j => mvnReal (x j) - mvnReal (a j))
  single a v x := .fin (gaussianPDFReal (mvnReal a) (mvnReal v).toNNReal (mvnReal x))

theorem exactMvn_ok (d : ℕ) : (exactMvn d).Exact := ⟨fun _ _ _ _ => rfl, fun _ _ _ _ => rfl⟩

/-- The covariance matrices of the example are positive definite. -/
theorem twoMix_posDef (c : Fin 2) :
    ((![!![1, 0.5; 0.5, 1], !![4, 0; 0, 9]] : Fin 2 → Matrix (Fin 2) (Fin 2) ℝ) c).PosDef := by
  have h1 : (!![1, 0.5; 0.5, 1] : Matrix (Fin 2) (Fin 2) ℝ).PosDef := by
    refine Matrix.PosDef.of_dotProduct_mulVec_pos ?_ fun x hx => ?_
    · ext i j
      fin_cases i <;> fin_cases j <;> simp
    · have : 0 < x 0 ^ 2 + x 1 ^ 2 := by
        by_contra hc
        push Not at hc
        refine hx (funext fun j => ?_)
        fin_cases j <;> simp <;> nlinarith [sq_nonneg (x 0), sq_nonneg (x 1)]
      simp [Matrix.mulVec, dotProduct, Fin.sum_univ_two]
      nlinarith [sq_nonneg (x 0 + x 1), sq_nonneg (x 0), sq_nonneg (x 1)]
  have h2 : (!![4, 0; 0, 9] : Matrix (Fin 2) (Fin 2) ℝ).PosDef := by
    refine Matrix.PosDef.of_dotProduct_mulVec_pos ?_ fun x hx => ?_
    · ext i j
      fin_cases i <;> fin_cases j <;> simp
    · have : 0 < x 0 ^ 2 + x 1 ^ 2 := by
        by_contra hc
        push Not at hc
        refine hx (funext fun j => ?_)
        fin_cases j <;> simp <;> nlinarith [sq_nonneg (x 0), sq_nonneg (x 1)]
      simp [Matrix.mulVec, dotProduct, Fin.sum_univ_two]
      nlinarith [sq_nonneg (x 0), sq_nonneg (x 1)]
  fin_cases c
  · exact h1
  · exact h2

example : ∃ l : ℝ, gmcmLogLik (exactMvn 2)
    (flParam ![0.25, 0.75] ![![0, 1], ![2, 3]] ![!![1, 0.5; 0.5, 1], !![4, 0; 0, 9]])
    (fun i j => .fin ((![![0.25, 0.5], ![0.5, 0.75]] : Fin 2 → Fin 2 → ℝ) i j)) = .ok (.fin l) := by
  obtain ⟨c, -, -, hok⟩ :=
    gmcm_log_likelihood_density (μ := ![![0, 1], ![2, 3]]) twoMix_valid twoMix_posDef (exactMvn_ok 2)
  obtain ⟨w, -, hw⟩ := hok 2 ![![0.25, 0.5], ![0.5, 0.75]] fun i j => by
    fin_cases i <;> fin_cases j <;> norm_num [mem_Icc]
  exact ⟨_, hw⟩

example := gmm_log_likelihood_density (μ := ![![0, 1], ![2, 3]]) twoMix_valid twoMix_posDef (exactMvn_ok 2)

example (N : MvnPdf 2) := gmcm_log_likelihood_border (μ := ![![0, 1], ![2, 3]]) twoMix_valid N
  (u := fun (_ : Fin 1) j => .fin (![0.5, 1] j)) (i := 0) (j := 1) (v := 1) rfl (by norm_num)

end Copulae
