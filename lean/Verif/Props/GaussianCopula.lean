import Verif.Lemmas.EllFns
import Verif.Model.Seeding

/-!
Property C98: `GaussianCopula.cdf` is a copula, the distribution function of the law of the transformed normal vector;
C99: `pdf` is a density of that law, and `random` draws from it.
-/

namespace Copulae

open MeasureTheory ProbabilityTheory CopulaMeasure

variable {f : EllFns} {s : Ell} {d : ℕ} {S : Matrix (Fin d) (Fin d) ℝ}

/-- **C98** On rows of the closed unit cube, corners included, `cdf` returns the probability that the transformed
normal vector is below the row, and its logarithm on request. -/
theorem gaussianCdf_law (hf : f.Normal) (hs : s.HasCorr S) {n : ℕ} (x : Fin n → Fin d → ℝ)
    (hx : ∀ i j, 0 ≤ x i j ∧ x i j ≤ 1) :
    gaussianCdf f s (fun i j => .fin (x i j)) false = .ok (fun i => .fin (Spec.distFn (Spec.gaussLaw S) (x i))) ∧
    gaussianCdf f s (fun i j => .fin (x i j)) true =
      .ok (fun i => Fl.log (.fin (Spec.distFn (Spec.gaussLaw S) (x i)))) := by
  obtain ⟨F, hF, hFv⟩ := hf.mvnCdf d S hs.pos
  obtain ⟨L, hL, hLv⟩ := hf.mvnLogcdf d S hs.pos
  have hnan : ∀ i j, f.normPpf (.fin (x i j)) ≠ .nan := fun i j => (hf.le_ppf (hx i j).1 (hx i j).2 0).1
  unfold gaussianCdf
  rw [if_neg (not_not.mpr hs.dim.symm), if_neg (not_not.mpr hs.dim.symm), hs.sigma]
  simp only [bind, Except.bind, pure, Except.pure, fitDim_self, Bool.false_eq_true, if_false, if_true, hF, hL]
  refine ⟨congrArg Except.ok (funext fun i => ?_), congrArg Except.ok (funext fun i => ?_)⟩
  · rw [hFv _ (hnan i), hf.orthant (hx i)]
  · rw [hLv _ (hnan i), hf.orthant (hx i)]

/-- **C98** The function computed by `cdf` is a copula. -/
theorem gaussianCdf_isCopula (hf : f.Normal) (hs : s.HasCorr S) :
    ∃ C : (Fin d → ℝ) → ℝ, (∀ (n : ℕ) (x : Fin n → Fin d → ℝ), (∀ i j, 0 ≤ x i j ∧ x i j ≤ 1) →
      gaussianCdf f s (fun i j => .fin (x i j)) false = .ok fun i => .fin (C (x i))) ∧
      Spec.IsCopula C ∧
      ∀ u v : Fin d → ℝ, (∀ j, 0 ≤ u j ∧ u j ≤ 1) → (∀ j, 0 ≤ v j ∧ v j ≤ 1) → |C u - C v| ≤ ∑ j, |u j - v j| :=
  ⟨Spec.distFn (Spec.gaussLaw S), fun _ x hx => (gaussianCdf_law hf hs x hx).1,
    isCopula_df (gaussLaw_uniform hs.pos.posSemidef hs.diag),
    fun _ _ hu hv => df_lipschitz (gaussLaw_uniform hs.pos.posSemidef hs.diag) hu hv⟩

/-- A row with the wrong number of columns is rejected by `cdf` and `pdf`. -/
theorem gaussian_badColumns (f : EllFns) (s : Ell) {n k : ℕ} (x : Fin n → Fin k → Fl) (log : Bool) (h : k ≠ s.dim) :
    gaussianCdf f s x log = .error .valueError ∧ gaussianPdf f s x log = .error .valueError := by
  unfold gaussianCdf gaussianPdf
  rw [if_pos h, if_pos h]
  exact ⟨rfl, rfl⟩

/-! ### C99 -/

theorem gaussPdf_pos (hS : S.PosDef) (x : Fin d → ℝ) : 0 < gaussPdf S x := by
  have hdet : 0 < S.det := hS.det_pos
  unfold gaussPdf; positivity

theorem gaussianPdf_rows (hf : f.Normal) (hs : s.HasCorr S) {n : ℕ} (x : Fin n → Fin d → ℝ)
    (hx : ∀ i j, 0 < x i j ∧ x i j < 1) :
    gaussianPdf f s (fun i j => .fin (x i j)) false = .ok (fun i => .fin
      (gaussPdf S (fun j => normQ (x i j)) / ∏ j, gaussianPDFReal 0 1 (normQ (x i j)))) ∧
    gaussianPdf f s (fun i j => .fin (x i j)) true = .ok (fun i => .fin (Real.log
      (gaussPdf S (fun j => normQ (x i j)) / ∏ j, gaussianPDFReal 0 1 (normQ (x i j))))) := by
  obtain ⟨L, hL, hLv⟩ := hf.mvnLogpdf d S hs.pos
  have hg : ∀ x, 0 < gaussPdf S x := gaussPdf_pos hs.pos
  have hφ : ∀ x, 0 < gaussianPDFReal 0 1 x := fun x => gaussianPDFReal_pos 0 1 x one_ne_zero
  have hcpos : ∀ i, 0 < gaussPdf S (fun j => normQ (x i j)) / ∏ j, gaussianPDFReal 0 1 (normQ (x i j)) :=
    fun i => div_pos (hg _) (Finset.prod_pos fun j _ => hφ _)
  have hrow : ∀ i, L (fun j => f.normPpf (.fin (x i j))) - ∑ j, f.normLogpdf (f.normPpf (.fin (x i j))) =
      .fin (Real.log (gaussPdf S (fun j => normQ (x i j)) / ∏ j, gaussianPDFReal 0 1 (normQ (x i j)))) := by
    intro i
    have e : (fun j => f.normPpf (.fin (x i j))) = fun j => Fl.fin (normQ (x i j)) :=
      funext fun j => hf.ppf_eq (hx i j).1 (hx i j).2
    have e2 : ∀ j, f.normLogpdf (f.normPpf (.fin (x i j))) =
        .fin (Real.log (gaussianPDFReal 0 1 (normQ (x i j)))) := fun j => by
      rw [hf.ppf_eq (hx i j).1 (hx i j).2, hf.logpdf]
    rw [e, hLv]
    simp_rw [e2]
    rw [Fl.sum_fin, Fl.fin_sub_fin, Real.log_div (hg _).ne' (Finset.prod_pos fun j _ => hφ _).ne',
      Real.log_prod fun j _ => (hφ _).ne']
  unfold gaussianPdf
  rw [if_neg (not_not.mpr hs.dim.symm), if_neg (not_not.mpr hs.dim.symm), hs.sigma]
  simp only [bind, Except.bind, pure, Except.pure, fitDim_self, Bool.false_eq_true, if_false, if_true, hL, hrow]
  refine ⟨congrArg Except.ok (funext fun i => ?_), trivial⟩
  rw [Fl.exp, Real.exp_log (hcpos i)]

theorem gaussianPdf_value (hf : f.Normal) (hs : s.HasCorr S) {n : ℕ} (x : Fin n → Fin d → ℝ)
    (hx : ∀ i j, 0 < x i j ∧ x i j < 1) :
    gaussianPdf f s (fun i j => .fin (x i j)) false = .ok (fun i => .fin
      (gaussPdf S (fun j => normQ (x i j)) / ∏ j, gaussianPDFReal 0 1 (normQ (x i j)))) :=
  (gaussianPdf_rows hf hs x hx).1

/-- **C99** Inside the cube `pdf` returns the ratio of the joint to the product of the marginal densities at the
normal quantiles, and its logarithm on request; it is a density of the law whose distribution function is `cdf`. -/
theorem gaussianPdf_density (hf : f.Normal) (hs : s.HasCorr S) :
    ∃ c : (Fin d → ℝ) → ℝ, (∀ (n : ℕ) (x : Fin n → Fin d → ℝ), (∀ i j, 0 < x i j ∧ x i j < 1) →
      gaussianPdf f s (fun i j => .fin (x i j)) false = .ok (fun i => .fin (c (x i))) ∧
      gaussianPdf f s (fun i j => .fin (x i j)) true = .ok (fun i => .fin (Real.log (c (x i)))) ∧
      ∀ i, 0 < c (x i)) ∧
      Spec.HasCubeDensity (Spec.gaussLaw S) c := by
  have hg : ∀ x, 0 < gaussPdf S x := gaussPdf_pos hs.pos
  have hφ : ∀ x, 0 < gaussianPDFReal 0 1 x := fun x => gaussianPDFReal_pos 0 1 x one_ne_zero
  refine ⟨fun u => gaussPdf S (fun j => normQ (u j)) / ∏ j, gaussianPDFReal 0 1 (normQ (u j)), ?_, ?_⟩
  · intro n x hx
    exact ⟨(gaussianPdf_rows hf hs x hx).1, (gaussianPdf_rows hf hs x hx).2,
      fun i => div_pos (hg _) (Finset.prod_pos fun j _ => hφ _)⟩
  · intro t ht
    have hden := gauss_density hs.pos
    have : IsProbabilityMeasure (volume.withDensity fun x => ENNReal.ofReal (gaussPdf S x)) := by
      rw [← hden]; infer_instance
    have hbox : (Set.pi Set.univ fun _ : Fin d => Set.Ioo (0 : ℝ) 1) = {u | ∀ j, 0 < u j ∧ u j < 1} := by
      ext u; simp [Set.mem_pi]
    have hmeas : Measurable (gaussPdf S) := by
      unfold gaussPdf
      refine Measurable.div_const (Real.measurable_exp.comp (Measurable.div_const (Measurable.neg ?_) _)) _
      exact (Continuous.dotProduct continuous_id (Continuous.matrix_mulVec continuous_const continuous_id)).measurable
    have key := df_eq_integral normMargin (measurable_gaussianPDFReal 0 1) hφ
      (gaussianReal_of_var_ne_zero 0 one_ne_zero) hmeas (fun x => (hg x).le)
      (c := fun u => gaussPdf S (fun j => normQ (u j)) / ∏ j, gaussianPDFReal 0 1 (normQ (u j)))
      (fun u _ => rfl) ht
    rw [hbox, ← hden, ← gaussLaw_eq] at key
    exact ⟨key.2, key.1⟩

/-- **C99** `random`: if the variates of a row have the normal law with covariance matrix `sigma`, the row returned by
`random` has the law whose distribution function is `cdf` and whose density is `pdf`. -/
theorem gaussianRandom_law {G : Gen} {Ω : Type*} [MeasurableSpace Ω] (μ : Measure Ω) (σ : Ω → G.S) (n : ℕ) (i : Fin n)
    (hσ : AEMeasurable (fun ω => (G.mvn n d (fun _ => 0) S (σ ω)).1 i) μ)
    (hlaw : μ.map (fun ω => (G.mvn n d (fun _ => 0) S (σ ω)).1 i) = gauss S) :
    ∃ U : Ω → Fin n → Fin d → ℝ,
      (∀ ω, ((gaussianRandomG (G := G) (fun x => .fin (normCdf x)) n d S none).run (σ ω)).1 =
        .ok fun k j => .fin (U ω k j)) ∧
      μ.map (fun ω => U ω i) = Spec.gaussLaw S := by
  refine ⟨fun ω k j => normCdf ((G.mvn n d (fun _ => 0) S (σ ω)).1 k j), fun ω => rfl, ?_⟩
  rw [gaussLaw_eq, cubeLaw, ← hlaw, AEMeasurable.map_map_of_aemeasurable
    (measurable_pointwise normMargin.measurable).aemeasurable hσ]
  rfl

/-! ### Symmetries -/

theorem gaussLaw_submatrix (hS : S.PosSemidef) {k : ℕ} (e : Fin k → Fin d) :
    (Spec.gaussLaw S).map (fun x i => x (e i)) = Spec.gaussLaw (S.submatrix e e) := by
  have hm : Measurable fun (x : Fin d → ℝ) (i : Fin k) => x (e i) :=
    measurable_pi_lambda _ fun i => measurable_pi_apply (e i)
  rw [gaussLaw_eq, gaussLaw_eq, cubeLaw, cubeLaw, Measure.map_map hm (measurable_pointwise normMargin.measurable),
    ← gauss_submatrix hS, Measure.map_map (measurable_pointwise normMargin.measurable) hm]
  rfl

/-- **C98** Margins and permutations: if the columns `e` of the rows carry the numbers `v` and all other columns are 1,
`cdf` returns what the copula of the corresponding correlations returns at `v`. With `e` a permutation this is the
symmetry of `cdf` in its arguments; with one column it is the uniform margin. -/
theorem gaussianCdf_margin (hf : f.Normal) (hs : s.HasCorr S) {k : ℕ} (e : Fin k → Fin d) {s' : Ell}
    (hs' : s'.HasCorr (S.submatrix e e)) {n : ℕ} (v : Fin n → Fin k → ℝ) (hv : ∀ i l, 0 ≤ v i l ∧ v i l ≤ 1)
    (x : Fin n → Fin d → ℝ) (hx : ∀ i l, x i (e l) = v i l) (hx1 : ∀ i j, (∀ l, e l ≠ j) → x i j = 1) (log : Bool) :
    gaussianCdf f s (fun i j => .fin (x i j)) log = gaussianCdf f s' (fun i j => .fin (v i j)) log := by
  have hx01 : ∀ i j, 0 ≤ x i j ∧ x i j ≤ 1 := by
    intro i j
    by_cases h : ∃ l, e l = j
    · obtain ⟨l, rfl⟩ := h
      rw [hx]; exact hv i l
    · push Not at h
      rw [hx1 i j h]; exact ⟨zero_le_one, le_rfl⟩
  have hm : Measurable fun (x : Fin d → ℝ) (i : Fin k) => x (e i) :=
    measurable_pi_lambda _ fun i => measurable_pi_apply (e i)
  have key : ∀ i, Spec.distFn (Spec.gaussLaw S) (x i) = Spec.distFn (Spec.gaussLaw (S.submatrix e e)) (v i) := by
    intro i
    rw [Spec.distFn, Spec.distFn, ← gaussLaw_submatrix hs.pos.posSemidef e,
      map_measureReal_apply hm (measurableSet_le (v i))]
    refine measureReal_congr ?_
    filter_upwards [uniform_ae (gaussLaw_uniform hs.pos.posSemidef hs.diag)] with y hy
    refine propext ⟨fun h l => hx i l ▸ h (e l), fun h j => ?_⟩
    by_cases hj : ∃ l, e l = j
    · obtain ⟨l, rfl⟩ := hj
      rw [hx]; exact h l
    · push Not at hj
      rw [hx1 i j hj]; exact (hy j).2
  cases log
  · rw [(gaussianCdf_law hf hs x hx01).1, (gaussianCdf_law hf hs' v hv).1]
    simp_rw [key]
  · rw [(gaussianCdf_law hf hs x hx01).2, (gaussianCdf_law hf hs' v hv).2]
    simp_rw [key]

/-- **C98** Without correlation `cdf` is the product of the coordinates and `pdf` is 1. -/
theorem gaussian_independent (hf : f.Normal) (hs : s.HasCorr (1 : Matrix (Fin d) (Fin d) ℝ)) {n : ℕ}
    (x : Fin n → Fin d → ℝ) :
    ((∀ i j, 0 ≤ x i j ∧ x i j ≤ 1) →
      gaussianCdf f s (fun i j => .fin (x i j)) false = .ok fun i => .fin (∏ j, x i j)) ∧
    ((∀ i j, 0 < x i j ∧ x i j < 1) →
      gaussianPdf f s (fun i j => .fin (x i j)) false = .ok fun _ => .fin 1) := by
  constructor
  · intro hx
    rw [(gaussianCdf_law hf hs x hx).1]
    refine congrArg Except.ok (funext fun i => congrArg Fl.fin ?_)
    have hu : ∀ _ : Fin d, SigmaFinite ((gaussianReal 0 1).map normCdf) := fun _ => by
      rw [normMargin.map_eq]; infer_instance
    have h1 : {y : Fin d → ℝ | ∀ j, y j ≤ x i j} = Set.pi Set.univ fun j => Set.Iic (x i j) := by
      ext y; exact ⟨fun h j _ => h j, fun h j => h j (Set.mem_univ j)⟩
    rw [Spec.distFn, gaussLaw_eq, cubeLaw, gauss_one, Measure.pi_map_pi fun _ => normMargin.measurable.aemeasurable,
      measureReal_def, h1, Measure.pi_pi, ENNReal.toReal_prod]
    refine Finset.prod_congr rfl fun j _ => ?_
    rw [normMargin.map_eq, Measure.restrict_apply measurableSet_Iic]
    have e : Set.Iic (x i j) ∩ Set.Ioc 0 1 = Set.Ioc 0 (x i j) := by
      ext y; simp only [Set.mem_inter_iff, Set.mem_Iic, Set.mem_Ioc]
      constructor
      · intro h; exact ⟨h.2.1, h.1⟩
      · intro h; exact ⟨h.2, h.1, h.2.trans (hx i j).2⟩
    rw [e, Real.volume_Ioc, sub_zero, ENNReal.toReal_ofReal (hx i j).1]
  · intro hx
    rw [gaussianPdf_value hf hs x hx]
    refine congrArg Except.ok (funext fun i => congrArg Fl.fin ?_)
    rw [div_eq_one_iff_eq]
    · unfold gaussPdf gaussianPDFReal
      rw [Finset.prod_mul_distrib, ← Real.exp_sum]
      have h3 : √((2 * Real.pi) ^ d) = √(2 * Real.pi) ^ d := by
        rw [← Real.sqrt_sq (by positivity : 0 ≤ √(2 * Real.pi) ^ d), ← pow_mul, mul_comm d 2, pow_mul,
          Real.sq_sqrt (by positivity)]
      simp only [NNReal.coe_one, mul_one, sub_zero, Finset.prod_const, Finset.card_univ, Fintype.card_fin, inv_one,
        Matrix.one_mulVec, Matrix.det_one, dotProduct, ← pow_two, h3]
      rw [← Finset.sum_div, Finset.sum_neg_distrib, inv_pow]
      field_simp
    · exact (Finset.prod_pos fun j _ => gaussianPDFReal_pos 0 1 _ one_ne_zero).ne'

theorem normQ_symm {u : ℝ} (h0 : 0 < u) (h1 : u < 1) : normQ (1 - u) = -normQ u := by
  apply normMargin.mono.injective
  rw [normMargin.right (1 - u) (by linarith) (by linarith)]
  have h := gaussianReal_map_neg (μ := 0) (v := 1)
  have h2 : normCdf (-normQ u) = (gaussianReal 0 1).real (Set.Ici (normQ u)) := by
    have e : (gaussianReal 0 1) = (gaussianReal 0 1).map (fun x => -x) := by
      rw [h]; simp
    rw [normCdf]
    conv_lhs => rw [e]
    rw [map_measureReal_apply measurable_neg measurableSet_Iic]
    congr 1
    ext x; simp
  have hatom : NullSingletonClass (gaussianReal 0 1) := nullSingletonClass_gaussianReal one_ne_zero
  have h3 : (gaussianReal 0 1).real (Set.Ici (normQ u)) = 1 - normCdf (normQ u) := by
    rw [measureReal_congr Ioi_ae_eq_Ici.symm, ← Set.compl_Iic, probReal_compl_eq_one_sub measurableSet_Iic]
    rfl
  rw [h2, h3, normMargin.right u h0 h1]

/-- **C99** Radial symmetry: `pdf` takes the same value at `u` and at `1 - u`. -/
theorem gaussianPdf_radial (hf : f.Normal) (hs : s.HasCorr S) {n : ℕ} (x : Fin n → Fin d → ℝ)
    (hx : ∀ i j, 0 < x i j ∧ x i j < 1) :
    gaussianPdf f s (fun i j => .fin (1 - x i j)) false = gaussianPdf f s (fun i j => .fin (x i j)) false := by
  rw [gaussianPdf_value hf hs x hx, gaussianPdf_value hf hs (fun i j => 1 - x i j) fun i j =>
    ⟨by linarith [(hx i j).2], by linarith [(hx i j).1]⟩]
  refine congrArg Except.ok (funext fun i => congrArg Fl.fin ?_)
  have e : ∀ j, normQ (1 - x i j) = -normQ (x i j) := fun j => normQ_symm (hx i j).1 (hx i j).2
  simp_rw [e]
  congr 1
  · unfold gaussPdf
    have : (fun j => -normQ (x i j)) = -fun j => normQ (x i j) := rfl
    rw [this, Matrix.mulVec_neg, dotProduct_neg, neg_dotProduct, neg_neg]
  · refine Finset.prod_congr rfl fun j _ => ?_
    unfold gaussianPDFReal
    simp

/-! ### The assumptions can be met -/

open Classical in
/-- Exact versions of the normal distributions. -/
noncomputable def exactNormal : EllFns where
  normPpf
    | .fin u => if u = 0 then .ninf else if u = 1 then .pinf else if 0 < u ∧ u < 1 then .fin (normQ u) else .nan
    | _ => .nan
  normLogpdf
    | .fin x => .fin (Real.log (gaussianPDFReal 0 1 x))
    | _ => .nan
  mvnCdf _ M := .ok fun q => .fin ((gauss (realMat M)).real {x | ∀ j, Fl.fin (x j) ≤ q j})
  mvnLogcdf _ M := .ok fun q => Fl.log (.fin ((gauss (realMat M)).real {x | ∀ j, Fl.fin (x j) ≤ q j}))
  mvnPdf _ M := .ok fun q => .fin (gaussPdf (realMat M) fun j => match q j with | .fin r => r | _ => 0)
  mvnLogpdf _ M := .ok fun q => .fin (Real.log (gaussPdf (realMat M) fun j => match q j with | .fin r => r | _ => 0))
  tPpf _ _ := .nan
  tLogpdf _ _ := .nan
  tCdf _ _ := .nan

theorem exactNormal_ok : exactNormal.Normal where
  ppf u h0 h1 := ⟨normQ u, by simp [exactNormal, h0.ne', h1.ne, h0, h1], normMargin.right u h0 h1⟩
  ppf_zero := by simp [exactNormal]
  ppf_one := by simp [exactNormal]
  logpdf _ := rfl
  mvnCdf _ _ _ := ⟨_, rfl, fun _ _ => rfl⟩
  mvnLogcdf _ _ _ := ⟨_, rfl, fun _ _ => rfl⟩
  mvnPdf _ _ _ := ⟨_, rfl, fun _ => rfl⟩
  mvnLogpdf _ _ _ := ⟨_, rfl, fun _ => rfl⟩

/-- A correlation of one half in two dimensions. -/
theorem posDef_half : (!![1, 1 / 2; 1 / 2, 1] : Matrix (Fin 2) (Fin 2) ℝ).PosDef := by
  refine Matrix.PosDef.of_dotProduct_mulVec_pos ?_ fun x hx => ?_
  · ext i j; fin_cases i <;> fin_cases j <;> simp
  · have h : star x ⬝ᵥ Matrix.mulVec !![1, 1 / 2; 1 / 2, 1] x =
        (x 0 + x 1 / 2) ^ 2 + 3 / 4 * x 1 ^ 2 := by
      simp [dotProduct, Matrix.mulVec, Fin.sum_univ_two]; ring
    rw [h]
    by_cases h1 : x 1 = 0
    · have h0 : x 0 ≠ 0 := fun h0 => hx (by funext j; fin_cases j <;> simp [h0, h1])
      rw [h1]
      have : 0 < x 0 ^ 2 := by positivity
      nlinarith
    · positivity

example : ∃ s : Ell, s.HasCorr (!![1, 1 / 2; 1 / 2, 1] : Matrix (Fin 2) (Fin 2) ℝ) :=
  exists_hasCorr (by norm_num) _ posDef_half fun j => by fin_cases j <;> rfl

/-- A Gaussian copula with correlation one half. -/
noncomputable def halfEll : Ell := (exists_hasCorr (by norm_num) _ posDef_half fun j => by fin_cases j <;> rfl).choose

theorem halfEll_corr : halfEll.HasCorr !![1, 1 / 2; 1 / 2, 1] := (exists_hasCorr (by norm_num) _ posDef_half fun j => by
  fin_cases j <;> rfl).choose_spec

example := gaussianCdf_law exactNormal_ok halfEll_corr (n := 3) (fun i j => ![0, 1 / 3, 1] i)
  (by intro i j; fin_cases i <;> norm_num)

example := gaussianCdf_isCopula exactNormal_ok halfEll_corr

example := gaussian_badColumns exactNormal halfEll (n := 3) (k := 3) (fun _ _ => .fin (1 / 2)) true
  (by rw [halfEll_corr.dim]; norm_num)

example := gaussianPdf_density exactNormal_ok halfEll_corr

/-- The margin of the second column. -/
example : ∃ s' : Ell, gaussianCdf exactNormal halfEll (fun (_ : Fin 3) (j : Fin 2) => .fin (![1, 1 / 3] j)) false =
    gaussianCdf exactNormal s' (fun (_ : Fin 3) (_ : Fin 1) => .fin (1 / 3)) false := by
  obtain ⟨s', hs'⟩ := exists_hasCorr (d := 1) le_rfl
    ((!![1, 1 / 2; 1 / 2, 1] : Matrix (Fin 2) (Fin 2) ℝ).submatrix (fun _ => 1) fun _ => 1)
    (posDef_half.submatrix (Function.injective_of_subsingleton _)) fun j => rfl
  exact ⟨s', gaussianCdf_margin exactNormal_ok halfEll_corr (fun _ => 1) hs' _ (fun _ _ => by norm_num) _
    (fun _ _ => rfl) (fun i j h => by
      fin_cases j
      · rfl
      · exact absurd rfl (h 0)) false⟩

example : ∃ s : Ell, s.HasCorr (1 : Matrix (Fin 3) (Fin 3) ℝ) ∧
    gaussianCdf exactNormal s (fun (_ : Fin 2) (_ : Fin 3) => .fin (1 / 2)) false = .ok fun _ => .fin (1 / 8) := by
  obtain ⟨s, hs⟩ := exists_hasCorr (by norm_num) (1 : Matrix (Fin 3) (Fin 3) ℝ) Matrix.PosDef.one (by simp)
  refine ⟨s, hs, ?_⟩
  rw [(gaussian_independent exactNormal_ok hs fun _ _ => 1 / 2).1 fun _ _ => by norm_num]
  norm_num [Fin.prod_univ_three]

/-- A generator whose state is the next normal vector. -/
noncomputable def vecGen : Gen where
  S := Fin 2 → ℝ
  ofSeed _ := 0
  uniform _ _ s := (fun _ _ => .nan, s)
  uniform1 _ s := (0, s)
  gamma _ _ s := (fun _ => .nan, s)
  expo _ s := (0, s)
  chisq _ _ s := (0, s)
  randint _ _ s := (0, s)
  choice _ _ _ s := (0, s)
  normal _ s := (0, s)
  mvn _ _ _ _ s := (fun _ j => if h : j.val < 2 then s ⟨j, h⟩ else 0, s)

theorem vecGen_mvn (S : Matrix (Fin 2) (Fin 2) ℝ) : (fun s => (vecGen.mvn 3 2 (fun _ => 0) S (id s)).1 0) = id := by
  funext s j
  simp only [vecGen, id, dif_pos j.isLt]

example := gaussianRandom_law (G := vecGen) (gauss !![1, 1 / 2; 1 / 2, 1]) id 3 0
  ((vecGen_mvn !![1, 1 / 2; 1 / 2, 1]).symm ▸ aemeasurable_id)
  ((congrArg (gauss _).map (vecGen_mvn !![1, 1 / 2; 1 / 2, 1])).trans Measure.map_id)

end Copulae
