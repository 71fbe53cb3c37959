import Verif.Lemmas.StudentRho
import Verif.Props.EllConcordance
import Verif.Props.Linalg
import Mathlib.Analysis.Complex.ExponentialBounds

/-!
**C101** `pdf` of a Student copula is a density of the law of its samples. **C102** `cdf` of a Student copula.
-/

namespace Copulae

open MeasureTheory ProbabilityTheory CopulaMeasure Matrix

/-- What is assumed of SciPy's t distribution: exact quantiles, log-densities and probabilities for positive degrees
of freedom. -/
structure EllFns.Student (f : EllFns) : Prop where
  ppf : ∀ ν u : ℝ, 0 < ν → 0 < u → u < 1 → ∃ x, f.tPpf (.fin ν) (.fin u) = .fin x ∧ (Spec.tLine ν).real (Set.Iic x) = u
  logpdf : ∀ ν x : ℝ, 0 < ν → f.tLogpdf (.fin ν) (.fin x) = .fin (Real.log (tPdf1 ν x))
  cdf : ∀ ν x : ℝ, 0 < ν → f.tCdf (.fin ν) (.fin x) = .fin ((Spec.tLine ν).real (Set.Iic x))

open Classical in
/-- The quantile function of the t distribution. -/
noncomputable def tQ (ν : ℝ) : ℝ → ℝ := if h : 0 < ν then (exists_tMargin h).choose else id

theorem tMargin {ν : ℝ} (hν : 0 < ν) : IsMargin (Spec.tLine ν) (tCdfR ν) (tQ ν) := by
  rw [tQ, dif_pos hν]
  exact (exists_tMargin hν).choose_spec

theorem EllFns.Student.ppf_eq {f : EllFns} (hf : f.Student) {ν u : ℝ} (hν : 0 < ν) (h0 : 0 < u) (h1 : u < 1) :
    f.tPpf (.fin ν) (.fin u) = .fin (tQ ν u) := by
  obtain ⟨x, hx, hu⟩ := hf.ppf ν u hν h0 h1
  rw [hx]
  congr 1
  apply (tMargin hν).mono.injective
  rw [(tMargin hν).right u h0 h1]
  exact hu

variable {f : EllFns} {s : Ell} {d : ℕ} {S : Matrix (Fin d) (Fin d) ℝ}

/-- The rows of `multivariate_t.pdf` with at most 10000 degrees of freedom. -/
theorem mvtPdf_value (hS : S.PosDef) (hd : 1 ≤ d) {ν : ℝ} (hν : 0 < ν) (hν' : ν ≤ 10000) {n : ℕ}
    (x : Fin n → Fin d → ℝ) :
    mvtPdf f (fun i j => .fin (x i j)) (fun i j => .fin (S i j)) (some (.fin ν)) =
      .ok fun i => .fin (tPdf S ν (x i)) := by
  have hpsd : isPsd (fun i j => Fl.fin (S i j)) := (isPsd_of_posSemidef (fun _ M => M) S hS.posSemidef).1
  have hdet : 0 < S.det := hS.det_pos
  have hreal : realMat (fun i j => Fl.fin (S i j)) = S := rfl
  have hG0 : 0 < Real.Gamma ((d : ℝ) / 2) := Real.Gamma_pos_of_pos (by have : (0 : ℝ) < d := by exact_mod_cast hd
                                                                       positivity)
  have hG1 : 0 < Real.Gamma (ν / 2) := Real.Gamma_pos_of_pos (by positivity)
  have hG2 : 0 < Real.Gamma (ν / 2 + d / 2) := Real.Gamma_pos_of_pos (by positivity)
  have hpi := Real.pi_pos
  unfold mvtPdf mvtParams
  have hnle : ¬ (Fl.fin ν ≤ Fl.fin 0) := by rw [Fl.fin_le_fin]; linarith
  have hnlt : ¬ (Fl.fin 10000 < Fl.fin ν) := by rw [Fl.fin_lt_fin]; linarith
  simp only [bind, Except.bind, pure, Except.pure, hpsd, not_true_eq_false, hnle, hnlt, if_false, hreal, hdet.ne']
  refine congrArg Except.ok (funext fun i => ?_)
  have hq : ∑ j, (∑ l, Fl.fin (x i l) * Fl.fin (S⁻¹ l j)) * Fl.fin (x i j) = .fin (x i ⬝ᵥ S⁻¹ *ᵥ x i) := by
    simp only [Fl.fin_mul_fin, Fl.sum_fin]
    rw [dotProduct_mulVec]
    rfl
  have hq0 := quad_nonneg hS (x i)
  have hc : (0 : ℝ) < 1 + x i ⬝ᵥ S⁻¹ *ᵥ x i / ν := by positivity
  rw [hq, Fl.fin_div_fin' _ hν.ne', Fl.fin_add_fin, Fl.pow_pos hc, Fl.pow_pos (by positivity), Fl.pow_pos hdet]
  simp only [Fl.fin_mul_fin]
  rw [Fl.fin_div_fin' _ (by positivity), tPdf, Real.sqrt_eq_rpow, show ((d : ℝ) + ν) / 2 = ν / 2 + d / 2 by ring,
    show (0.5 : ℝ) = 1 / 2 by norm_num]
  congr 1
  field_simp

theorem Ell.HasCorr.one_le (hs : s.HasCorr S) : 1 ≤ d := (sigma_length hs.sigma).1

theorem student_logRow {g : (Fin d → ℝ) → ℝ} (hg : ∀ x, 0 < g x) (hf : f.Student) {ν : ℝ} (hν : 0 < ν) {u : Fin d → ℝ}
    (hu : ∀ j, 0 < u j ∧ u j < 1) :
    Fl.log (.fin (g fun j => tQ ν (u j))) - ∑ j, f.tLogpdf (.fin ν) (f.tPpf (.fin ν) (.fin (u j))) =
      .fin (Real.log (g (fun j => tQ ν (u j)) / ∏ j, tPdf1 ν (tQ ν (u j)))) := by
  have hφ : ∀ x, 0 < tPdf1 ν x := tPdf1_pos hν
  have e : ∀ j, f.tLogpdf (.fin ν) (f.tPpf (.fin ν) (.fin (u j))) = .fin (Real.log (tPdf1 ν (tQ ν (u j)))) := by
    intro j
    rw [hf.ppf_eq hν (hu j).1 (hu j).2, hf.logpdf ν _ hν]
  simp_rw [e]
  rw [Fl.log_pos (hg _), Fl.sum_fin, Fl.fin_sub_fin, Real.log_div (hg _).ne' (Finset.prod_pos fun j _ => hφ _).ne',
    Real.log_prod fun j _ => (hφ _).ne']

theorem studentPdf_rows (hf : f.Student) (hs : s.HasCorr S) {ν : ℝ} (hν : 0 < ν) (hν' : ν ≤ 10000) {n : ℕ}
    (x : Fin n → Fin d → ℝ) (hx : ∀ i j, 0 < x i j ∧ x i j < 1) :
    studentPdf f s (.fin ν) (fun i j => .fin (x i j)) false = .ok (fun i => .fin
      (tPdf S ν (fun j => tQ ν (x i j)) / ∏ j, tPdf1 ν (tQ ν (x i j)))) ∧
    studentPdf f s (.fin ν) (fun i j => .fin (x i j)) true = .ok (fun i => .fin (Real.log
      (tPdf S ν (fun j => tQ ν (x i j)) / ∏ j, tPdf1 ν (tQ ν (x i j))))) := by
  have hg : ∀ x, 0 < tPdf S ν x := tPdf_pos hs.pos hν
  have hφ : ∀ x, 0 < tPdf1 ν x := tPdf1_pos hν
  have hq : (fun i j => f.tPpf (.fin ν) (.fin (x i j))) = fun i j => Fl.fin (tQ ν (x i j)) :=
    funext fun i => funext fun j => hf.ppf_eq hν (hx i j).1 (hx i j).2
  have hrow := fun i => student_logRow hg hf hν (hx i)
  unfold studentPdf
  rw [if_neg (not_not.mpr hs.dim.symm), if_neg (not_not.mpr hs.dim.symm), hs.sigma]
  simp only [bind, Except.bind, pure, Except.pure, fitDim_self, Bool.false_eq_true, if_false, if_true, mvtLogpdf, hq,
    mvtPdf_value hs.pos hs.one_le hν hν', hrow]
  refine ⟨congrArg Except.ok (funext fun i => ?_), trivial⟩
  rw [Fl.exp, Real.exp_log (div_pos (hg _) (Finset.prod_pos fun j _ => hφ _))]

theorem studentPdf_rows_large (hf : f.Student) (hn : f.Normal) (hs : s.HasCorr S) {ν : ℝ} (hν : 10000 < ν) {n : ℕ}
    (x : Fin n → Fin d → ℝ) (hx : ∀ i j, 0 < x i j ∧ x i j < 1) :
    studentPdf f s (.fin ν) (fun i j => .fin (x i j)) false = .ok (fun i => .fin
      (gaussPdf S (fun j => tQ ν (x i j)) / ∏ j, tPdf1 ν (tQ ν (x i j)))) ∧
    studentPdf f s (.fin ν) (fun i j => .fin (x i j)) true = .ok (fun i => .fin (Real.log
      (gaussPdf S (fun j => tQ ν (x i j)) / ∏ j, tPdf1 ν (tQ ν (x i j))))) := by
  have hν0 : 0 < ν := by linarith
  have hg : ∀ x, 0 < gaussPdf S x := gaussPdf_pos hs.pos
  have hφ : ∀ x, 0 < tPdf1 ν x := tPdf1_pos hν0
  have hpsd : isPsd (fun i j => Fl.fin (S i j)) := (isPsd_of_posSemidef (fun _ M => M) S hs.pos.posSemidef).1
  obtain ⟨F, hF, hFv⟩ := hn.mvnPdf d S hs.pos
  have hFq : ∀ i, F (fun j => f.tPpf (.fin ν) (.fin (x i j))) = .fin (gaussPdf S fun j => tQ ν (x i j)) := by
    intro i
    rw [← hFv]
    exact congrArg F (funext fun j => hf.ppf_eq hν0 (hx i j).1 (hx i j).2)
  have hrow := fun i => student_logRow hg hf hν0 (hx i)
  unfold studentPdf
  rw [if_neg (not_not.mpr hs.dim.symm), if_neg (not_not.mpr hs.dim.symm), hs.sigma]
  have hnle : ¬ (Fl.fin ν ≤ Fl.fin 0) := by rw [Fl.fin_le_fin]; linarith
  simp only [bind, Except.bind, pure, Except.pure, fitDim_self, Bool.false_eq_true, if_false, if_true, mvtLogpdf, mvtPdf,
    mvtParams, hpsd, not_true_eq_false, hnle, Fl.fin_lt_fin, hν, hF, hFq, hrow]
  refine ⟨congrArg Except.ok (funext fun i => ?_), trivial⟩
  rw [Fl.exp, Real.exp_log (div_pos (hg _) (Finset.prod_pos fun j _ => hφ _))]

/-- The ratio of a joint density and the densities of the t distribution is a density of the transformed law. -/
theorem t_cubeDensity {ν : ℝ} (hν : 0 < ν) {P : Measure (Fin d → ℝ)} [IsProbabilityMeasure P] {g : (Fin d → ℝ) → ℝ}
    (hm : Measurable g) (hg : ∀ x, 0 < g x) (hP : P = volume.withDensity fun x => ENNReal.ofReal (g x)) :
    Spec.HasCubeDensity (cubeLaw P (tCdfR ν)) fun u => g (fun j => tQ ν (u j)) / ∏ j, tPdf1 ν (tQ ν (u j)) := by
  intro t ht
  have : IsProbabilityMeasure (volume.withDensity fun x => ENNReal.ofReal (g x)) := by rw [← hP]; infer_instance
  have key := df_eq_integral (tMargin hν) (measurable_tPdf1 ν) (tPdf1_pos hν) (tLine_density hν) hm
    (fun x => (hg x).le) (c := fun u => g (fun j => tQ ν (u j)) / ∏ j, tPdf1 ν (tQ ν (u j))) (fun u _ => rfl) ht
  have hbox : (Set.pi Set.univ fun _ : Fin d => Set.Ioo (0 : ℝ) 1) = {u | ∀ j, 0 < u j ∧ u j < 1} := by
    ext u; simp [Set.mem_pi]
  rw [hbox, ← hP] at key
  exact ⟨key.2, key.1⟩

/-- **C101**, at most 10000 degrees of freedom: inside the cube `pdf` is the ratio of the joint density to the product of
the marginal densities at the quantiles, and its logarithm on request; it is a density of the Student copula. The
statement for more than 10000 degrees of freedom is false, see `studentPdf_large_margins`. -/
theorem studentPdf_density_partial (hf : f.Student) (hs : s.HasCorr S) {ν : ℝ} (hν : 0 < ν) (hν' : ν ≤ 10000) :
    ∃ c : (Fin d → ℝ) → ℝ, (∀ (n : ℕ) (x : Fin n → Fin d → ℝ), (∀ i j, 0 < x i j ∧ x i j < 1) →
      studentPdf f s (.fin ν) (fun i j => .fin (x i j)) false = .ok (fun i => .fin (c (x i))) ∧
      studentPdf f s (.fin ν) (fun i j => .fin (x i j)) true = .ok (fun i => .fin (Real.log (c (x i)))) ∧
      ∀ i, 0 < c (x i)) ∧
      Spec.HasCubeDensity (Spec.studentLaw S ν) c := by
  have hg : ∀ x, 0 < tPdf S ν x := tPdf_pos hs.pos hν
  refine ⟨fun u => tPdf S ν (fun j => tQ ν (u j)) / ∏ j, tPdf1 ν (tQ ν (u j)), ?_, ?_⟩
  · intro n x hx
    exact ⟨(studentPdf_rows hf hs hν hν' x hx).1, (studentPdf_rows hf hs hν hν' x hx).2,
      fun i => div_pos (hg _) (Finset.prod_pos fun j _ => tPdf1_pos hν _)⟩
  · have := tVector_prob S hν
    rw [studentLaw_eq S hν]
    exact t_cubeDensity hν (measurable_tPdf S ν) hg (tVector_density hs.pos hν)

/-- **C101** The Student copula is a copula. -/
theorem studentLaw_isCopula (hs : s.HasCorr S) {ν : ℝ} (hν : 0 < ν) : Spec.IsCopula (Spec.distFn (Spec.studentLaw S ν)) := by
  have := studentLaw_prob S hν
  exact isCopula_df (studentLaw_uniform hs.pos.posSemidef hs.diag hν)

/-- The normal and the t distribution differ. -/
theorem gauss_ne_t {ν : ℝ} (hν1 : 1 ≤ ν) : gaussianReal 0 1 ≠ Spec.tLine ν := by
  have hν : 0 < ν := by linarith
  intro h
  rw [gaussianReal_of_var_ne_zero 0 one_ne_zero, tLine_density hν] at h
  have hae := (withDensity_eq_iff (measurable_gaussianPDF 0 1).aemeasurable
    (measurable_tPdf1 ν).ennreal_ofReal.aemeasurable
    (by rw [lintegral_gaussianPDF_eq_one 0 one_ne_zero]; exact ENNReal.one_ne_top)).mp h
  have hae2 : gaussianPDFReal 0 1 =ᵐ[volume] tPdf1 ν := by
    filter_upwards [hae] with x hx
    rw [gaussianPDF, ENNReal.ofReal_eq_ofReal_iff (gaussianPDFReal_nonneg _ _ _) (tPdf1_pos hν x).le] at hx
    exact hx
  have hc1 : Continuous (gaussianPDFReal 0 1) := by unfold gaussianPDFReal; fun_prop
  have hc2 : Continuous (tPdf1 ν) := by
    unfold tPdf1
    refine continuous_const.mul (Continuous.rpow_const (by fun_prop) fun x => Or.inl ?_)
    positivity
  have heq := Measure.eq_of_ae_eq hae2 hc1 hc2
  have h0 := congrFun heq 0
  have h3 := congrFun heq √(3 * ν)
  unfold gaussianPDFReal tPdf1 at h0 h3
  simp only [NNReal.coe_one, mul_one, sub_zero, ne_eq, OfNat.ofNat_ne_zero, not_false_eq_true, zero_pow, neg_zero,
    zero_div, Real.exp_zero, add_zero, Real.one_rpow, Real.sq_sqrt (by positivity : (0 : ℝ) ≤ 3 * ν)] at h0 h3
  rw [← h0] at h3
  have hpos : 0 < (√(2 * Real.pi))⁻¹ := by have := Real.pi_pos; positivity
  have h4 := mul_left_cancel₀ hpos.ne' h3
  have e : (1 : ℝ) + 3 * ν / ν = 2 ^ (2 : ℝ) := by
    rw [mul_div_assoc, div_self hν.ne']; norm_num
  rw [e, ← Real.rpow_mul two_pos.le, Real.rpow_def_of_pos two_pos] at h4
  have h5 := Real.exp_injective h4
  have hl := Real.log_two_lt_d9
  have hl0 : 0 < Real.log 2 := Real.log_pos (by norm_num)
  have hl1 := Real.log_two_gt_d9
  nlinarith

/-- The law that `pdf` and `random` use for more than 10000 degrees of freedom: normal variates, transformed with
the distribution function of the t distribution. -/
theorem largeLaw_not_uniform (hS : S.PosSemidef) (h1 : ∀ j, S j j = 1) {ν : ℝ} (hν : 1 ≤ ν) (j : Fin d) :
    (cubeLaw (gauss S) (tCdfR ν)).map (fun u => u j) ≠ volume.restrict (Set.Ioc 0 1) := by
  have hν0 : 0 < ν := by linarith
  have hm := tMargin hν0
  have hmT : Measurable (tCdfR ν) := hm.measurable
  have hg := gauss_margin hS j
  rw [h1, Real.toNNReal_one] at hg
  intro h
  rw [cubeLaw, Measure.map_map (measurable_pi_apply j) (measurable_pointwise hmT)] at h
  have h2 : (gaussianReal 0 1).map (tCdfR ν) = (Spec.tLine ν).map (tCdfR ν) := by
    rw [hm.map_eq, ← h, ← hg, Measure.map_map hmT (measurable_pi_apply j)]
    rfl
  apply gauss_ne_t hν
  have hemb : MeasurableEmbedding (tCdfR ν) := hmT.measurableEmbedding hm.mono.injective
  exact hemb.map_injective h2

/-- **C101** More than 10000 degrees of freedom: `pdf` is not a density of the Student copula, nor of any other copula;
the law with this density does not have uniform margins. -/
theorem studentPdf_large_margins (hf : f.Student) (hn : f.Normal) (hs : s.HasCorr S) {ν : ℝ} (hν : 10000 < ν) :
    ∃ c : (Fin d → ℝ) → ℝ, (∀ (n : ℕ) (x : Fin n → Fin d → ℝ), (∀ i j, 0 < x i j ∧ x i j < 1) →
      studentPdf f s (.fin ν) (fun i j => .fin (x i j)) false = .ok (fun i => .fin (c (x i))) ∧
      studentPdf f s (.fin ν) (fun i j => .fin (x i j)) true = .ok (fun i => .fin (Real.log (c (x i))))) ∧
      ∀ P : Measure (Fin d → ℝ), IsProbabilityMeasure P → Spec.HasCubeDensity P c →
        ∀ j, P.map (fun u => u j) ≠ volume.restrict (Set.Ioc 0 1) := by
  have hν0 : 0 < ν := by linarith
  have hg : ∀ x, 0 < gaussPdf S x := gaussPdf_pos hs.pos
  refine ⟨fun u => gaussPdf S (fun j => tQ ν (u j)) / ∏ j, tPdf1 ν (tQ ν (u j)),
    fun n x hx => studentPdf_rows_large hf hn hs hν x hx, fun P hP hc j => ?_⟩
  have hmeas : Measurable (gaussPdf S) := by
    unfold gaussPdf
    refine Measurable.div_const (Real.measurable_exp.comp (Measurable.div_const (Measurable.neg ?_) _)) _
    exact (Continuous.dotProduct continuous_id (Continuous.matrix_mulVec continuous_const continuous_id)).measurable
  have hc' := t_cubeDensity hν0 hmeas hg (gauss_density hs.pos)
  have hprob : IsProbabilityMeasure (cubeLaw (gauss S) (tCdfR ν)) :=
    Measure.isProbabilityMeasure_map (measurable_pointwise (tMargin hν0).measurable).aemeasurable
  have hPQ : P = cubeLaw (gauss S) (tCdfR ν) := by
    ext t ht
    rw [← ENNReal.toReal_eq_toReal_iff' (measure_ne_top _ _) (measure_ne_top _ _)]
    exact (hc t ht).2.trans (hc' t ht).2.symm
  rw [hPQ]
  exact largeLaw_not_uniform hs.pos.posSemidef hs.diag (by linarith) j

theorem tQ_symm {ν u : ℝ} (hν : 0 < ν) (h0 : 0 < u) (h1 : u < 1) : tQ ν (1 - u) = -tQ ν u := by
  have hM := tMargin hν
  apply hM.mono.injective
  rw [hM.right (1 - u) (by linarith) (by linarith)]
  have := tLine_prob hν
  have hden := tLine_density hν
  have hac : Spec.tLine ν ≪ volume := by rw [hden]; exact withDensity_absolutelyContinuous _ _
  have hatom : NullSingletonClass (Spec.tLine ν) := ⟨fun x => hac (measure_singleton x)⟩
  have hsym : (Spec.tLine ν).map (fun x => -x) = Spec.tLine ν := by
    have hl : Measurable fun p : ℝ × ℝ => p.1 / √(p.2 / ν) := by fun_prop
    have := chi_prob hν
    have hg : (gaussianReal 0 1).map (fun x => -x) = gaussianReal 0 1 := by
      have := gaussianReal_map_neg (μ := 0) (v := 1)
      rw [this]; simp
    rw [Spec.tLine, Measure.map_map measurable_neg hl]
    conv_rhs => rw [← hg, ← Measure.map_id (μ := gammaMeasure (ν / 2) (1 / 2))]
    rw [Measure.map_prod_map _ _ measurable_neg measurable_id, Measure.map_map hl (by fun_prop)]
    congr 1
    funext p
    simp [neg_div]
  have h2 : tCdfR ν (-tQ ν u) = (Spec.tLine ν).real (Set.Ici (tQ ν u)) := by
    rw [tCdfR]
    conv_lhs => rw [← hsym]
    rw [map_measureReal_apply measurable_neg measurableSet_Iic]
    congr 1
    ext x; simp
  have h3 : (Spec.tLine ν).real (Set.Ici (tQ ν u)) = 1 - tCdfR ν (tQ ν u) := by
    rw [measureReal_congr Ioi_ae_eq_Ici.symm, ← Set.compl_Iic, probReal_compl_eq_one_sub measurableSet_Iic]
    rfl
  rw [h2, h3, hM.right u h0 h1]

/-- **C101** Radial symmetry: `pdf` takes the same value at `u` and at `1 - u`. -/
theorem studentPdf_radial (hf : f.Student) (hn : f.Normal) (hs : s.HasCorr S) {ν : ℝ} (hν : 0 < ν) {n : ℕ}
    (x : Fin n → Fin d → ℝ) (hx : ∀ i j, 0 < x i j ∧ x i j < 1) (log : Bool) :
    studentPdf f s (.fin ν) (fun i j => .fin (1 - x i j)) log = studentPdf f s (.fin ν) (fun i j => .fin (x i j)) log := by
  have hx' : ∀ i j, 0 < 1 - x i j ∧ 1 - x i j < 1 := fun i j => ⟨by linarith [(hx i j).2], by linarith [(hx i j).1]⟩
  have e : ∀ i j, tQ ν (1 - x i j) = -tQ ν (x i j) := fun i j => tQ_symm hν (hx i j).1 (hx i j).2
  have hneg : ∀ i, (fun j => -tQ ν (x i j)) = -fun j => tQ ν (x i j) := fun i => rfl
  have e1 : ∀ y, tPdf1 ν (-y) = tPdf1 ν y := fun y => by unfold tPdf1; simp
  have e2 : ∀ y : Fin d → ℝ, tPdf S ν (-y) = tPdf S ν y := fun y => by
    unfold tPdf
    rw [Matrix.mulVec_neg, dotProduct_neg, neg_dotProduct, neg_neg]
  have e3 : ∀ y : Fin d → ℝ, gaussPdf S (-y) = gaussPdf S y := fun y => by
    unfold gaussPdf
    rw [Matrix.mulVec_neg, dotProduct_neg, neg_dotProduct, neg_neg]
  rcases le_or_gt ν 10000 with h | h
  · cases log
    · rw [(studentPdf_rows hf hs hν h x hx).1, (studentPdf_rows hf hs hν h _ hx').1]
      simp only [e, e1, hneg, e2]
    · rw [(studentPdf_rows hf hs hν h x hx).2, (studentPdf_rows hf hs hν h _ hx').2]
      simp only [e, e1, hneg, e2]
  · cases log
    · rw [(studentPdf_rows_large hf hn hs h x hx).1, (studentPdf_rows_large hf hn hs h _ hx').1]
      simp only [e, e1, hneg, e3]
    · rw [(studentPdf_rows_large hf hn hs h x hx).2, (studentPdf_rows_large hf hn hs h _ hx').2]
      simp only [e, e1, hneg, e3]

/-! ### Rows, parameters and shapes that are rejected -/

/-- **C101** Errors of `pdf`: a wrong number of columns, non-positive degrees of freedom, and a correlation
matrix that is not positive semi-definite raise `ValueError`; a singular matrix raises `LinAlgError`; NaN degrees of freedom
give NaN. -/
theorem studentPdf_errors (f : EllFns) (s : Ell) (df : Fl) {n k : ℕ} (u : Fin n → Fin k → Fl) (log : Bool) :
    (k ≠ s.dim → studentPdf f s df u log = .error .valueError) ∧
    ∀ M : SqMat Fl k, k = s.dim → s.sigma = .ok ⟨k, M⟩ →
      (¬ isPsd M → studentPdf f s df u log = .error .valueError) ∧
      (df ≤ .fin 0 → studentPdf f s df u log = .error .valueError) ∧
      (isPsd M → (realMat M).det = 0 → ¬ df ≤ .fin 0 → ¬ .fin 10000 < df →
        studentPdf f s df u log = .error .linAlg) ∧
      (isPsd M → (realMat M).det ≠ 0 → df = .nan → studentPdf f s df u log = .ok fun _ => .nan) := by
  constructor
  · intro h
    rw [studentPdf, if_pos h]
  · intro M hk hσ
    unfold studentPdf
    rw [if_neg (not_not.mpr hk), hσ]
    simp only [bind, Except.bind, pure, Except.pure, fitDim_self, mvtLogpdf, mvtPdf, mvtParams]
    refine ⟨fun h => ?_, fun h => ?_, fun h hdet h0 h1 => ?_, fun h hdet hdf => ?_⟩
    · simp [h]
    · by_cases hp : isPsd M <;> simp [hp, h]
    · simp only [h, not_true_eq_false, if_false, h0, h1, hdet, if_true]
    · subst hdf
      have hnle : ¬ (Fl.nan ≤ Fl.fin 0) := fun h => h
      have hnlt : ¬ (Fl.fin 10000 < Fl.nan) := fun h => h
      simp only [h, not_true_eq_false, if_false, hnle, hnlt, hdet]
      refine congrArg Except.ok (funext fun i => ?_)
      cases log <;> simp [Fl.log, Fl.exp, Fl.nan_sub]

/-! ### Samples -/

/-- **C101** `random` without a seed: if the chi-square variate and the normal variates of a row are independent with the exact
laws, the row returned has the law of the Student copula (at most 10000 degrees of freedom). -/
theorem studentRandom_law_partial {G : Gen} {Ω : Type*} [MeasurableSpace Ω] (μ : Measure Ω) (σ : Ω → G.S) (n : ℕ) (i : Fin n)
    {ν : ℝ} (hν : 0 < ν) (hν' : ν ≤ 10000)
    (hσ : AEMeasurable (fun ω => ((G.mvn n d (fun _ => 0) S (G.chisq ν n (σ ω)).2).1 i, (G.chisq ν n (σ ω)).1 i)) μ)
    (hlaw : μ.map (fun ω => ((G.mvn n d (fun _ => 0) S (G.chisq ν n (σ ω)).2).1 i, (G.chisq ν n (σ ω)).1 i)) =
      (gauss S).prod (gammaMeasure (ν / 2) (1 / 2))) :
    ∃ U : Ω → Fin n → Fin d → ℝ,
      (∀ ω, ((studentRandomG (G := G) (fun x => .fin ((Spec.tLine ν).real (Set.Iic x))) n d S ν none).run (σ ω)).1 =
        .ok fun k j => .fin (U ω k j)) ∧
      μ.map (fun ω => U ω i) = Spec.studentLaw S ν := by
  have hmT : Measurable (tCdfR ν) := (tMargin hν).measurable
  refine ⟨fun ω k j => tCdfR ν ((G.mvn n d (fun _ => 0) S (G.chisq ν n (σ ω)).2).1 k j /
    √((G.chisq ν n (σ ω)).1 k / ν)), fun ω => ?_, ?_⟩
  · unfold studentRandomG mvtRvs
    rw [if_neg (not_le.mpr hν), if_neg (not_lt.mpr hν')]
    rfl
  · have hm : Measurable (fun p : (Fin d → ℝ) × ℝ => tScale ν p.2 • p.1) := measurable_scale (measurable_tScale ν)
    rw [studentLaw_eq S hν, cubeLaw, tVector_eq S hν, scaleMix, ← hlaw,
      AEMeasurable.map_map_of_aemeasurable hm.aemeasurable hσ,
      AEMeasurable.map_map_of_aemeasurable (measurable_pointwise hmT).aemeasurable (hm.comp_aemeasurable hσ)]
    congr 1
    funext ω
    simp [tScale, div_eq_inv_mul]

/-- **C101** With more than 10000 degrees of freedom the rows of `random` do not have uniform margins, if the normal variates have
the exact law. -/
theorem studentRandom_large {G : Gen} {Ω : Type*} [MeasurableSpace Ω] (μ : Measure Ω) (σ : Ω → G.S) (n : ℕ) (i : Fin n)
    {ν : ℝ} (hν : 10000 < ν) (hS : S.PosSemidef) (h1 : ∀ j, S j j = 1)
    (hσ : AEMeasurable (fun ω => (G.mvn n d (fun _ => 0) S (σ ω)).1 i) μ)
    (hlaw : μ.map (fun ω => (G.mvn n d (fun _ => 0) S (σ ω)).1 i) = gauss S) :
    ∃ U : Ω → Fin n → Fin d → ℝ,
      (∀ ω, ((studentRandomG (G := G) (fun x => .fin ((Spec.tLine ν).real (Set.Iic x))) n d S ν none).run (σ ω)).1 =
        .ok fun k j => .fin (U ω k j)) ∧
      ∀ j, μ.map (fun ω => U ω i j) ≠ volume.restrict (Set.Ioc 0 1) := by
  have hν0 : 0 < ν := by linarith
  have hmT : Measurable (tCdfR ν) := (tMargin hν0).measurable
  refine ⟨fun ω k j => tCdfR ν ((G.mvn n d (fun _ => 0) S (σ ω)).1 k j), fun ω => ?_, fun j => ?_⟩
  · unfold studentRandomG mvtRvs
    rw [if_neg (not_le.mpr hν0), if_pos hν]
    rfl
  · have := largeLaw_not_uniform hS h1 (by linarith : 1 ≤ ν) j
    rwa [cubeLaw, ← hlaw, AEMeasurable.map_map_of_aemeasurable (measurable_pointwise hmT).aemeasurable hσ,
      AEMeasurable.map_map_of_aemeasurable (measurable_pi_apply j).aemeasurable
        ((measurable_pointwise hmT).comp_aemeasurable hσ)] at this

/-! ### The distribution function -/

/-- **C102** is violated: `cdf` of a Student copula never returns a number; with the right number of columns it raises
`NotImplementedError`, otherwise `ValueError`. -/
theorem studentCdf_not_implemented (f : EllFns) (s : Ell) (df : Fl) {n k : ℕ} (x : Fin n → Fin k → Fl) (log : Bool) :
    (∀ v, studentCdf f s df x log ≠ .ok v) ∧
    (k ≠ s.dim → studentCdf f s df x log = .error .valueError) ∧
    (k = s.dim → ∀ M, s.sigma = .ok M → studentCdf f s df x log = .error .notImplemented) := by
  have h1 : ∀ M, (if log then mvtLogcdf (fun i j => f.tPpf df (x i j)) M (some df) else
      mvtCdf (fun i j => f.tPpf df (x i j)) M (some df)) = .error .notImplemented := by
    intro M
    cases log <;> rfl
  refine ⟨fun v => ?_, fun h => ?_, fun h M hM => ?_⟩
  · unfold studentCdf
    split
    · simp
    · cases s.sigma with
      | error e => simp [bind, Except.bind]
      | ok M => simp only [bind, Except.bind, h1]; simp
  · rw [studentCdf, if_pos h]
  · rw [studentCdf, if_neg (not_not.mpr h), hM]
    exact h1 M

/-! ### The assumptions can be met -/

open Classical in
/-- Exact versions of the normal and t distributions. -/
noncomputable def exactEll : EllFns :=
  { exactNormal with
    tPpf := fun
      | .fin ν, .fin u => if 0 < u ∧ u < 1 then .fin (tQ ν u) else .nan
      | _, _ => .nan
    tLogpdf := fun
      | .fin ν, .fin x => .fin (Real.log (tPdf1 ν x))
      | _, _ => .nan
    tCdf := fun
      | .fin ν, .fin x => .fin ((Spec.tLine ν).real (Set.Iic x))
      | _, _ => .nan }

theorem exactEll_ok : exactEll.Normal ∧ exactEll.Student :=
  ⟨{ ppf := exactNormal_ok.ppf
     ppf_zero := exactNormal_ok.ppf_zero
     ppf_one := exactNormal_ok.ppf_one
     logpdf := exactNormal_ok.logpdf
     mvnCdf := exactNormal_ok.mvnCdf
     mvnLogcdf := exactNormal_ok.mvnLogcdf
     mvnPdf := exactNormal_ok.mvnPdf
     mvnLogpdf := exactNormal_ok.mvnLogpdf },
   { ppf := fun ν u hν h0 h1 => ⟨tQ ν u, by simp [exactEll, h0, h1], (tMargin hν).right u h0 h1⟩
     logpdf := fun _ _ _ => rfl
     cdf := fun _ _ _ => rfl }⟩

/-- A copula with correlation one half and five degrees of freedom. -/
example : ∃ s : Ell, ∃ c : (Fin 2 → ℝ) → ℝ,
    Spec.HasCubeDensity (Spec.studentLaw !![1, 1 / 2; 1 / 2, 1] 5) c ∧
    studentPdf exactEll s (.fin 5) (fun (_ : Fin 1) (_ : Fin 2) => .fin (1 / 3)) false =
      .ok fun _ => .fin (c fun _ => 1 / 3) := by
  obtain ⟨s, hs⟩ := exists_hasCorr (by norm_num) _ posDef_half fun j => by fin_cases j <;> rfl
  obtain ⟨c, h1, h2⟩ := studentPdf_density_partial exactEll_ok.2 hs (ν := 5) (by norm_num) (by norm_num)
  exact ⟨s, c, h2, (h1 1 (fun _ _ => 1 / 3) fun _ _ => by norm_num).1⟩

example := studentLaw_isCopula halfEll_corr (ν := 5) (by norm_num)

example := studentPdf_large_margins exactEll_ok.2 exactEll_ok.1 halfEll_corr (ν := 20000) (by norm_num)

example := studentPdf_radial exactEll_ok.2 exactEll_ok.1 halfEll_corr (ν := 5) (by norm_num) (n := 1) (fun _ j => (j.val + 1) / 4)
  (by intro i j; fin_cases j <;> norm_num) true

/-- A generator whose state is the next normal vector and the next chi-square variate. -/
noncomputable def vecChiGen : Gen where
  S := (Fin 2 → ℝ) × ℝ
  ofSeed _ := 0
  uniform _ _ s := (fun _ _ => .nan, s)
  uniform1 _ s := (0, s)
  gamma _ _ s := (fun _ => .nan, s)
  expo _ s := (0, s)
  chisq _ _ s := (fun _ => s.2, s)
  randint _ _ s := (0, s)
  choice _ _ _ s := (0, s)
  normal _ s := (0, s)
  mvn _ _ _ _ s := (fun _ j => if h : j.val < 2 then s.1 ⟨j, h⟩ else 0, s)

theorem vecChiGen_draw (ν : ℝ) (S : Matrix (Fin 2) (Fin 2) ℝ) : (fun s => ((vecChiGen.mvn 3 2 (fun _ => 0) S
    (vecChiGen.chisq ν 3 (id s)).2).1 0, (vecChiGen.chisq ν 3 (id s)).1 0)) = id := by
  funext s
  refine Prod.ext (funext fun j => ?_) rfl
  simp only [vecChiGen, id, dif_pos j.isLt]

example := studentRandom_law_partial (G := vecChiGen) (Ω := (Fin 2 → ℝ) × ℝ) (S := !![1, 1 / 2; 1 / 2, 1])
  ((gauss !![1, 1 / 2; 1 / 2, 1]).prod (gammaMeasure (5 / 2) (1 / 2))) (fun s => s) 3 0 (ν := 5) (by norm_num) (by norm_num)
  ((vecChiGen_draw 5 !![1, 1 / 2; 1 / 2, 1]).symm ▸ aemeasurable_id)
  ((congrArg ((gauss !![1, 1 / 2; 1 / 2, 1]).prod (gammaMeasure (5 / 2) (1 / 2))).map (vecChiGen_draw 5 !![1, 1 / 2; 1 / 2, 1])).trans Measure.map_id)

example := studentRandom_large (G := vecGen) (Ω := Fin 2 → ℝ) (S := !![1, 1 / 2; 1 / 2, 1]) (gauss !![1, 1 / 2; 1 / 2, 1]) (fun s => s) 3 0
  (ν := 20000) (by norm_num) posDef_half.posSemidef (fun j => by fin_cases j <;> rfl)
  ((vecGen_mvn !![1, 1 / 2; 1 / 2, 1]).symm ▸ aemeasurable_id)
  ((congrArg (gauss !![1, 1 / 2; 1 / 2, 1]).map (vecGen_mvn !![1, 1 / 2; 1 / 2, 1])).trans Measure.map_id)

end Copulae
