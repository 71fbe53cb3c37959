import Verif.Spec.GmmLaw
import Verif.Lemmas.NormApprox
import Verif.Lemmas.Gmc

/-!
The margins of a mixture of normal laws, exactly and as approximated by the code.
-/

namespace Copulae

open MeasureTheory ProbabilityTheory CopulaMeasure Set
open scoped ENNReal

variable {m d : ℕ}

/-- Valid mixture parameters: weights with sum one, symmetric positive semi-definite matrices with positive
variances. -/
structure Spec.IsMixture (p : Fin m → ℝ) (S : Fin m → Matrix (Fin d) (Fin d) ℝ) : Prop where
  nonneg : ∀ c, 0 ≤ p c
  sum : ∑ c, p c = 1
  psd : ∀ c, (S c).PosSemidef
  var : ∀ c j, 0 < S c j j

variable {p : Fin m → ℝ} {μ : Fin m → Fin d → ℝ} {S : Fin m → Matrix (Fin d) (Fin d) ℝ}

theorem Spec.IsMixture.exists_pos (h : Spec.IsMixture p S) : ∃ c, 0 < p c := by
  by_contra hc
  push Not at hc
  have : ∑ c, p c = 0 := Finset.sum_eq_zero fun c _ => le_antisymm (hc c) (h.nonneg c)
  rw [h.sum] at this
  exact one_ne_zero this

theorem gmmLaw_eq : Spec.gmmLaw p μ S =
    ∑ c, ENNReal.ofReal (p c) • (gauss (S c)).map fun z j => μ c j + z j := by
  unfold Spec.gmmLaw
  refine Finset.sum_congr rfl fun c _ => ?_
  rw [gauss, Measure.map_map (by fun_prop) (by fun_prop)]
  rfl

theorem Spec.IsMixture.isProb (h : Spec.IsMixture p S) (μ : Fin m → Fin d → ℝ) :
    IsProbabilityMeasure (Spec.gmmLaw p μ S) := by
  constructor
  rw [gmmLaw_eq, Measure.finsetSum_apply]
  have : ∀ c, (ENNReal.ofReal (p c) • (gauss (S c)).map fun z j => μ c j + z j) univ = ENNReal.ofReal (p c) := by
    intro c
    rw [Measure.smul_apply, Measure.map_apply (by fun_prop) MeasurableSet.univ]
    simp
  simp only [this]
  rw [← ENNReal.ofReal_sum_of_nonneg fun c _ => h.nonneg c, h.sum, ENNReal.ofReal_one]

theorem gmmLaw_real (h : Spec.IsMixture p S) {s : Set (Fin d → ℝ)} (hs : MeasurableSet s) :
    (Spec.gmmLaw p μ S).real s = ∑ c, p c * (gauss (S c)).real {z | (fun j => μ c j + z j) ∈ s} := by
  rw [measureReal_def, gmmLaw_eq, Measure.finsetSum_apply, ENNReal.toReal_sum]
  · refine Finset.sum_congr rfl fun c _ => ?_
    have hf : Measurable fun (z : Fin d → ℝ) j => μ c j + z j := by fun_prop
    rw [Measure.smul_apply, Measure.map_apply hf hs, smul_eq_mul, ENNReal.toReal_mul,
      ENNReal.toReal_ofReal (h.nonneg c)]
    rfl
  · intro c _
    have hf : Measurable fun (z : Fin d → ℝ) j => μ c j + z j := by fun_prop
    have : IsProbabilityMeasure ((gauss (S c)).map fun z j => μ c j + z j) :=
      Measure.isProbabilityMeasure_map hf.aemeasurable
    rw [Measure.smul_apply, smul_eq_mul]
    exact ENNReal.mul_ne_top ENNReal.ofReal_ne_top (measure_ne_top _ _)

theorem gaussianReal_Iic {v : ℝ} (hv : 0 < v) (x : ℝ) :
    (gaussianReal 0 v.toNNReal).real (Iic x) = normCdf (x / √v) := by
  have h := gaussianReal_map_const_mul (μ := 0) (v := 1) (√v)
  have e : (NNReal.mk (√v ^ 2) (sq_nonneg _) * 1 : NNReal) = v.toNNReal := by
    ext
    rw [mul_one, NNReal.coe_mk, Real.sq_sqrt hv.le, Real.coe_toNNReal _ hv.le]
  rw [mul_zero, e] at h
  rw [← h, map_measureReal_apply (by fun_prop) measurableSet_Iic, normCdf]
  congr 1
  ext y
  simp only [mem_preimage, mem_Iic]
  rw [le_div_iff₀ (Real.sqrt_pos.mpr hv), mul_comm]

theorem gmmMargin_eq (h : Spec.IsMixture p S) (j : Fin d) (x : ℝ) :
    Spec.gmmMargin p μ S j x = ∑ c, p c * normCdf ((x - μ c j) / √(S c j j)) := by
  have hs : MeasurableSet {z : Fin d → ℝ | z j ≤ x} := (measurable_pi_apply j) measurableSet_Iic
  rw [Spec.gmmMargin, gmmLaw_real h hs]
  refine Finset.sum_congr rfl fun c _ => ?_
  congr 1
  rw [← gaussianReal_Iic (h.var c j), ← gauss_margin (h.psd c) j,
    map_measureReal_apply (measurable_pi_apply j) measurableSet_Iic]
  congr 1
  ext z
  simp only [mem_ofPred_eq, mem_preimage, mem_Iic]
  constructor <;> intro hz <;> linarith

theorem normCdf_continuous : Continuous normCdf :=
  continuous_iff_continuousAt.mpr fun y => (normCdf_hasDerivAt y).continuousAt

/-- Strictly increasing functions mix to one. -/
theorem sum_strictMono (h : Spec.IsMixture p S) {F : ℝ → ℝ} (hF : StrictMono F) (a : ℝ) (ha : 0 < a) (j : Fin d) :
    StrictMono fun x => ∑ c, p c * F ((x - μ c j) / √(S c j j) / a) := by
  intro x y hxy
  obtain ⟨c0, hc0⟩ := h.exists_pos
  have hlt : ∀ c, F ((x - μ c j) / √(S c j j) / a) < F ((y - μ c j) / √(S c j j) / a) := fun c => by
    have := Real.sqrt_pos.mpr (h.var c j)
    exact hF (by gcongr)
  refine Finset.sum_lt_sum (fun c _ => ?_) ⟨c0, Finset.mem_univ _, ?_⟩
  · exact mul_le_mul_of_nonneg_left (hlt c).le (h.nonneg c)
  · exact mul_lt_mul_of_pos_left (hlt c0) hc0

theorem sum_mem (h : Spec.IsMixture p S) {F : Fin m → ℝ} (hF : ∀ c, 0 < F c ∧ F c < 1) :
    0 < ∑ c, p c * F c ∧ ∑ c, p c * F c < 1 := by
  obtain ⟨c0, hc0⟩ := h.exists_pos
  constructor
  · exact Finset.sum_pos' (fun c _ => mul_nonneg (h.nonneg c) (hF c).1.le)
      ⟨c0, Finset.mem_univ _, mul_pos hc0 (hF c0).1⟩
  · rw [← h.sum]
    refine Finset.sum_lt_sum (fun c _ => ?_) ⟨c0, Finset.mem_univ _, ?_⟩
    · nlinarith [h.nonneg c, (hF c).2]
    · nlinarith [(hF c0).2]

theorem sum_tendsto (h : Spec.IsMixture p S) {F : ℝ → ℝ} {l : Filter ℝ} {b : ℝ} {a : ℝ} (j : Fin d)
    (hl : ∀ k r : ℝ, 0 < k → Filter.Tendsto (fun x => (x - r) / k / a) l l) (hF : Filter.Tendsto F l (nhds b)) :
    Filter.Tendsto (fun x => ∑ c, p c * F ((x - μ c j) / √(S c j j) / a)) l (nhds b) := by
  have : b = ∑ c, p c * b := by rw [← Finset.sum_mul, h.sum, one_mul]
  rw [this]
  exact tendsto_finsetSum _ fun c _ =>
    (hF.comp (hl _ (μ c j) (Real.sqrt_pos.mpr (h.var c j)))).const_mul _

theorem affine_top (k r a : ℝ) (hk : 0 < k) (ha : 0 < a) :
    Filter.Tendsto (fun x => (x - r) / k / a) Filter.atTop Filter.atTop :=
  ((Filter.tendsto_atTop_add_const_right _ (-r) Filter.tendsto_id).atTop_div_const hk).atTop_div_const ha

theorem affine_bot (k r a : ℝ) (hk : 0 < k) (ha : 0 < a) :
    Filter.Tendsto (fun x => (x - r) / k / a) Filter.atBot Filter.atBot :=
  ((Filter.tendsto_atBot_add_const_right _ (-r) Filter.tendsto_id).atBot_div_const hk).atBot_div_const ha

theorem sum_surj (h : Spec.IsMixture p S) {F : ℝ → ℝ} (hc : Continuous F) {a : ℝ} (ha : 0 < a) (j : Fin d)
    (h0 : Filter.Tendsto F Filter.atBot (nhds 0)) (h1 : Filter.Tendsto F Filter.atTop (nhds 1)) {u : ℝ}
    (hu : 0 < u) (hu1 : u < 1) : ∃ x, ∑ c, p c * F ((x - μ c j) / √(S c j j) / a) = u := by
  have hcont : Continuous fun x => ∑ c, p c * F ((x - μ c j) / √(S c j j) / a) := by
    refine continuous_finsetSum _ fun c _ => continuous_const.mul (hc.comp ?_)
    fun_prop
  obtain ⟨x, hx⟩ := ((sum_tendsto (μ := μ) h j (fun k r hk => affine_bot k r a hk ha) h0).eventually
    (gt_mem_nhds hu)).exists
  obtain ⟨y, hy⟩ := ((sum_tendsto (μ := μ) h j (fun k r hk => affine_top k r a hk ha) h1).eventually
    (lt_mem_nhds hu1)).exists
  exact mem_range_of_exists_le_of_exists_ge hcont ⟨x, hx.le⟩ ⟨y, hy.le⟩

theorem normCdf_atTop : Filter.Tendsto normCdf Filter.atTop (nhds 1) :=
  (tendsto_cdf_atTop (gaussianReal 0 1)).congr fun x => by rw [cdf_eq_real]; rfl

theorem normCdf_atBot : Filter.Tendsto normCdf Filter.atBot (nhds 0) :=
  (tendsto_cdf_atBot (gaussianReal 0 1)).congr fun x => by rw [cdf_eq_real]; rfl

theorem asErf_atTop : Filter.Tendsto asErf Filter.atTop (nhds 0) := by
  have h1 : Filter.Tendsto (fun z : ℝ => Real.exp (-z)) Filter.atTop (nhds 0) :=
    Real.tendsto_exp_neg_atTop_nhds_zero
  refine squeeze_zero' (Filter.Eventually.of_forall fun z => (asErf_pos z).le) ?_ h1
  filter_upwards [Filter.eventually_ge_atTop 1] with z hz
  unfold asErf
  have h2 : asPoly (asT z) ≤ 1 := by
    have ht := asT_mem z
    rcases ht.2.eq_or_lt with h | h
    · rw [h]; norm_num [asPoly]
    · have := asPoly_mono h
      have e : asPoly 1 = 1 := by norm_num [asPoly]
      linarith
  have h3 : Real.exp (-|z| ^ 2) ≤ Real.exp (-z) := by
    rw [Real.exp_le_exp, sq_abs]
    nlinarith
  have h4 := asPoly_pos (asT_mem z).1
  calc 0.5 * asPoly (asT z) * Real.exp (-|z| ^ 2) ≤ 1 * Real.exp (-z) := by
        gcongr
        linarith
    _ = _ := one_mul _

theorem asNdtr_atTop : Filter.Tendsto asNdtr Filter.atTop (nhds 1) := by
  have : Filter.Tendsto (fun z => 1 - asErf z) Filter.atTop (nhds (1 - 0)) := asErf_atTop.const_sub 1
  rw [sub_zero] at this
  refine this.congr' ?_
  filter_upwards [Filter.eventually_ge_atTop 0] with z hz
  rw [asNdtr, if_neg (not_lt.mpr hz)]

theorem asNdtr_atBot : Filter.Tendsto asNdtr Filter.atBot (nhds 0) := by
  have := (asNdtr_atTop.comp Filter.tendsto_neg_atBot_atTop).const_sub 1
  rw [sub_self] at this
  refine this.congr fun z => ?_
  simp only [Function.comp_apply, asNdtr_neg']
  ring

/-- The value of `gmm_marginal_cdf`. -/
noncomputable def gmmApprox (p : Fin m → ℝ) (μ : Fin m → Fin d → ℝ) (S : Fin m → Matrix (Fin d) (Fin d) ℝ) (j : Fin d)
    (x : ℝ) : ℝ := ∑ c, p c * asNdtr ((x - μ c j) / √(S c j j) / 1.4142136)

theorem gmmErf_fin (z : ℝ) : gmmErf (.fin z) = .fin (asNdtr z) := by
  have hne : (1 : ℝ) + 0.47047 * |z| ≠ 0 := by positivity
  have ht : (.fin 1 / .fin (1 + 0.47047 * |z|) : Fl) = .fin (asT z) := by
    rw [Fl.fin_div_fin' _ hne, asT]
  have hz2 : Fl.fin |z| ^ Fl.fin 2 = .fin (|z| ^ 2) := by
    rcases (abs_nonneg z).eq_or_lt with h | h
    · rw [← h, Fl.zero_pow_pos (by norm_num)]
      simp
    · rw [Fl.pow_pos h]
      norm_cast
  have ht2 : Fl.fin (asT z) ^ Fl.fin 2 = .fin (asT z ^ 2) := by
    rw [Fl.pow_pos (asT_mem z).1]; norm_cast
  have ht3 : Fl.fin (asT z) ^ Fl.fin 3 = .fin (asT z ^ 3) := by
    rw [Fl.pow_pos (asT_mem z).1]; norm_cast
  have habs : (Fl.fin z).abs = .fin |z| := rfl
  unfold gmmErf
  simp only [habs, ht, hz2, ht2, ht3, Fl.neg_fin, Fl.exp_fin, Fl.fin_mul_fin, Fl.fin_add_fin, Fl.fin_sub_fin,
    Fl.fin_lt_fin, asNdtr]
  split_ifs <;> simp only [asErf, asPoly]

theorem gmmMarginalCdf_fin (h : Spec.IsMixture p S) (j : Fin d) (x : ℝ) :
    gmmMarginalCdf (flParam p μ S) j (.fin x) = .fin (gmmApprox p μ S j x) := by
  have hv : ∀ c, √(S c j j) * 1.4142136 ≠ 0 := fun c =>
    mul_ne_zero (Real.sqrt_pos.mpr (h.var c j)).ne' (by norm_num)
  have hs : ∀ c, Fl.sqrt (.fin (S c j j)) = .fin √(S c j j) := fun c => by
    rw [Fl.sqrt, if_neg (not_lt.mpr (h.var c j).le)]
  unfold gmmMarginalCdf
  simp only [flParam, flMat, hs, Fl.fin_sub_fin, Fl.fin_mul_fin, Fl.fin_div_fin' _ (hv _), gmmErf_fin, Fl.sum_fin,
    gmmApprox]
  congr 1
  refine Finset.sum_congr rfl fun c _ => ?_
  rw [div_div, mul_comm]

theorem gmmApprox_close (h : Spec.IsMixture p S) (j : Fin d) (x : ℝ) :
    |gmmApprox p μ S j x - Spec.gmmMargin p μ S j x| ≤ 0.0000125 := by
  rw [gmmMargin_eq h, gmmApprox, ← Finset.sum_sub_distrib]
  calc _ ≤ ∑ c, |p c * asNdtr ((x - μ c j) / √(S c j j) / 1.4142136) - p c * normCdf ((x - μ c j) / √(S c j j))| :=
        Finset.abs_sum_le_sum_abs _ _
    _ ≤ ∑ c, p c * 0.0000125 := by
        refine Finset.sum_le_sum fun c _ => ?_
        rw [← mul_sub, abs_mul, abs_of_nonneg (h.nonneg c)]
        exact mul_le_mul_of_nonneg_left (asNdtr_normCdf _) (h.nonneg c)
    _ = 0.0000125 := by rw [← Finset.sum_mul, h.sum, one_mul]

theorem gmmApprox_strictMono (h : Spec.IsMixture p S) (j : Fin d) : StrictMono (gmmApprox p μ S j) :=
  sum_strictMono h asNdtr_strictMono _ (by norm_num) j

theorem gmmApprox_mem (h : Spec.IsMixture p S) (j : Fin d) (x : ℝ) :
    0 < gmmApprox p μ S j x ∧ gmmApprox p μ S j x < 1 := sum_mem h fun _ => asNdtr_mem _

theorem gmmApprox_continuous (j : Fin d) : Continuous (gmmApprox p μ S j) := by
  unfold gmmApprox
  refine continuous_finsetSum _ fun c _ => continuous_const.mul (asNdtr_continuous.comp ?_)
  fun_prop

theorem gmmApprox_surj (h : Spec.IsMixture p S) (j : Fin d) {u : ℝ} (h0 : 0 < u) (h1 : u < 1) :
    ∃ x, gmmApprox p μ S j x = u :=
  sum_surj h asNdtr_continuous (by norm_num) j asNdtr_atBot asNdtr_atTop h0 h1

/-- The margin of the mixture and its quantile function. -/
theorem gmm_isMargin (h : Spec.IsMixture p S) (j : Fin d) :
    ∃ q, IsMargin ((Spec.gmmLaw p μ S).map fun z => z j) (Spec.gmmMargin p μ S j) q := by
  classical
  have hp := h.isProb μ
  have he : Spec.gmmMargin p μ S j = fun x => ∑ c, p c * normCdf ((x - μ c j) / √(S c j j) / 1) := by
    funext x
    rw [gmmMargin_eq h]
    simp only [div_one]
  have hsurj : ∀ u, 0 < u → u < 1 → ∃ x, Spec.gmmMargin p μ S j x = u := by
    intro u h0 h1
    rw [he]
    exact sum_surj h normCdf_continuous one_pos j normCdf_atBot normCdf_atTop h0 h1
  refine ⟨fun u => if hu : 0 < u ∧ u < 1 then (hsurj u hu.1 hu.2).choose else 0,
    Measure.isProbabilityMeasure_map (measurable_pi_apply j).aemeasurable, fun x => ?_, ?_, fun x => ?_, ?_⟩
  · rw [map_measureReal_apply (measurable_pi_apply j) measurableSet_Iic]
    rfl
  · rw [he]
    exact sum_strictMono h normMargin.mono 1 one_pos j
  · rw [he]
    exact sum_mem h fun _ => normMargin.mem _
  · intro u h0 h1
    rw [dif_pos ⟨h0, h1⟩]
    exact (hsurj u h0 h1).choose_spec

theorem gmmMargin_measurable (h : Spec.IsMixture p S) :
    Measurable fun (z : Fin d → ℝ) j => Spec.gmmMargin p μ S j (z j) := by
  refine measurable_pi_lambda _ fun j => ?_
  obtain ⟨q, hq⟩ := gmm_isMargin (μ := μ) h j
  exact hq.measurable.comp (measurable_pi_apply j)

theorem gmcLaw_isProb (h : Spec.IsMixture p S) : IsProbabilityMeasure (Spec.gmcLaw p μ S) := by
  have := h.isProb μ
  exact Measure.isProbabilityMeasure_map (gmmMargin_measurable h).aemeasurable

theorem gmcLaw_uniform (h : Spec.IsMixture p S) : Uniform (Spec.gmcLaw p μ S) := by
  intro j
  obtain ⟨q, hq⟩ := gmm_isMargin (μ := μ) h j
  rw [Spec.gmcLaw, Measure.map_map (measurable_pi_apply j) (gmmMargin_measurable h), ← hq.map_eq,
    Measure.map_map hq.measurable (measurable_pi_apply j)]
  rfl

/-- The approximated margins change the distribution function of the copula by at most 1.25e-5 per coordinate. -/
theorem gmcApprox_dist (h : Spec.IsMixture p S) {u : Fin d → ℝ} (hu : ∀ j, 0 ≤ u j ∧ u j ≤ 1) :
    |Spec.distFn ((Spec.gmmLaw p μ S).map fun z j => gmmApprox p μ S j (z j)) u -
      Spec.distFn (Spec.gmcLaw p μ S) u| ≤ d * 0.0000125 := by
  have := gmcLaw_isProb (μ := μ) h
  have hpr := h.isProb μ
  have hex : ∀ j, ∃ v : ℝ, (0 ≤ v ∧ v ≤ 1) ∧ |v - u j| ≤ 0.0000125 ∧
      ∀ x, gmmApprox p μ S j x ≤ u j ↔ Spec.gmmMargin p μ S j x ≤ v := by
    intro j
    obtain ⟨q, hq⟩ := gmm_isMargin (μ := μ) h j
    rcases (hu j).1.eq_or_lt with h0 | h0
    · refine ⟨0, ⟨le_rfl, zero_le_one⟩, by rw [← h0]; norm_num, fun x => ?_⟩
      rw [← h0]
      exact ⟨fun hx => absurd hx (not_le.mpr (gmmApprox_mem h j x).1), fun hx => absurd hx (not_le.mpr (hq.mem x).1)⟩
    rcases (hu j).2.eq_or_lt with h1 | h1
    · refine ⟨1, ⟨zero_le_one, le_rfl⟩, by rw [h1]; norm_num, fun x => ?_⟩
      rw [h1]
      exact ⟨fun _ => (hq.mem x).2.le, fun _ => (gmmApprox_mem h j x).2.le⟩
    · obtain ⟨x0, hx0⟩ := gmmApprox_surj (μ := μ) h j h0 h1
      refine ⟨Spec.gmmMargin p μ S j x0, ⟨(hq.mem x0).1.le, (hq.mem x0).2.le⟩, ?_, fun x => ?_⟩
      · rw [← hx0, abs_sub_comm]
        exact gmmApprox_close h j x0
      · rw [← hx0, (gmmApprox_strictMono h j).le_iff_le, hq.mono.le_iff_le]
  choose v hv hvu hiff using hex
  have hA : Measurable fun (z : Fin d → ℝ) j => gmmApprox p μ S j (z j) :=
    measurable_pi_lambda _ fun j => (gmmApprox_continuous j).measurable.comp (measurable_pi_apply j)
  have e : Spec.distFn ((Spec.gmmLaw p μ S).map fun z j => gmmApprox p μ S j (z j)) u =
      Spec.distFn (Spec.gmcLaw p μ S) v := by
    rw [Spec.distFn, Spec.distFn, Spec.gmcLaw, map_measureReal_apply hA (measurableSet_le u),
      map_measureReal_apply (gmmMargin_measurable h) (measurableSet_le v)]
    congr 1
    ext z
    simp only [mem_preimage, mem_ofPred_eq]
    exact forall_congr' fun j => hiff j (z j)
  rw [e]
  refine (df_lipschitz (gmcLaw_uniform h) hv hu).trans ?_
  calc ∑ j, |v j - u j| ≤ ∑ _j : Fin d, (0.0000125 : ℝ) := Finset.sum_le_sum fun j _ => hvu j
    _ = d * 0.0000125 := by simp

end Copulae
