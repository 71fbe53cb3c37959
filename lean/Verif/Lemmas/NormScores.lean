import Mathlib.MeasureTheory.Integral.DominatedConvergence
import Verif.Lemmas.NormApprox
import Verif.Lemmas.UStat
import Verif.Props.GaussianCopula

/-!
Normal scores: the normal quantiles of the ranks of a sample, divided by `n + 1`. Their squares and the squares of their extreme
values have sums that do not depend on the sample and are bounded by the moments of the normal law.
-/

namespace Copulae

open MeasureTheory ProbabilityTheory Set

/-- The squared excess over `K`. -/
noncomputable def excess (K x : ℝ) : ℝ := max (x - K) 0 ^ 2

/-- The mean of the squared excess of a standard normal variable. -/
noncomputable def meanExcess (K : ℝ) : ℝ := ∫ x, excess K x ∂(gaussianReal 0 1)

theorem excess_nonneg (K x : ℝ) : 0 ≤ excess K x := sq_nonneg _

theorem excess_mono (K : ℝ) : Monotone (excess K) := fun x y h => by
  unfold excess
  have h1 : max (x - K) 0 ≤ max (y - K) 0 := max_le_max (by linarith) le_rfl
  exact pow_le_pow_left₀ (le_max_right _ _) h1 2

theorem excess_le {K : ℝ} (hK : 0 ≤ K) (x : ℝ) : excess K x ≤ x ^ 2 := by
  unfold excess
  rcases le_total (x - K) 0 with h | h
  · rw [max_eq_right h]; simp only [ne_eq, OfNat.ofNat_ne_zero, not_false_eq_true, zero_pow]; exact sq_nonneg x
  · rw [max_eq_left h]; nlinarith

theorem continuous_excess (K : ℝ) : Continuous (excess K) := by
  unfold excess
  fun_prop

theorem integrable_sq_norm : Integrable (fun x : ℝ => x ^ 2) (gaussianReal 0 1) :=
  (memLp_id_gaussianReal' 2 (by simp)).integrable_sq

theorem integral_sq_norm : ∫ x, x ^ 2 ∂(gaussianReal 0 1) = 1 := by
  have h := variance_fun_id_gaussianReal (μ := 0) (v := 1)
  rw [variance_eq_integral aemeasurable_id', integral_id_gaussianReal] at h
  simpa using h

theorem integrable_excess {K : ℝ} (hK : 0 ≤ K) : Integrable (excess K) (gaussianReal 0 1) :=
  integrable_sq_norm.mono' (continuous_excess K).aestronglyMeasurable (ae_of_all _ fun x => by
    rw [Real.norm_of_nonneg (excess_nonneg K x)]
    exact excess_le hK x)

theorem meanExcess_le_one {K : ℝ} (hK : 0 ≤ K) : meanExcess K ≤ 1 := by
  rw [← integral_sq_norm]
  exact integral_mono (integrable_excess hK) integrable_sq_norm fun x => excess_le hK x

theorem meanExcess_tendsto : Filter.Tendsto (fun k : ℕ => meanExcess k) Filter.atTop (nhds 0) := by
  have h := tendsto_integral_of_dominated_convergence (μ := gaussianReal 0 1) (F := fun (k : ℕ) x => excess k x) (f := fun _ => 0)
    (fun x => x ^ 2) (fun k => (continuous_excess k).aestronglyMeasurable) integrable_sq_norm
    (fun k => ae_of_all _ fun x => by
      rw [Real.norm_of_nonneg (excess_nonneg _ x)]
      exact excess_le (Nat.cast_nonneg k) x)
    (ae_of_all _ fun x => by
      refine tendsto_const_nhds.congr' ?_
      obtain ⟨m, hm⟩ := exists_nat_gt x
      filter_upwards [Filter.eventually_ge_atTop m] with k hk
      have : (m : ℝ) ≤ k := by exact_mod_cast hk
      unfold excess
      rw [max_eq_right (by linarith)]
      norm_num)
  simpa [meanExcess] using h

theorem meanExcess_small {ε : ℝ} (hε : 0 < ε) : ∃ K : ℝ, 0 < K ∧ meanExcess K < ε := by
  obtain ⟨k, h1, h2⟩ := ((meanExcess_tendsto.eventually (gt_mem_nhds hε)).and (Filter.eventually_gt_atTop 0)).exists
  exact ⟨k, by exact_mod_cast h2, h1⟩

/-- The sum of an increasing function over the normal scores is bounded by its mean. -/
theorem scores_sum_le {g : ℝ → ℝ} (hg : Monotone g) (h0 : ∀ x, 0 ≤ g x) (hi : Integrable g (gaussianReal 0 1)) (n : ℕ) :
    ∑ k : Fin n, g (normQ (((k : ℕ) + 1 : ℝ) / (n + 1))) ≤ (n + 1) * ∫ x, g x ∂(gaussianReal 0 1) := by
  have hn : (0 : ℝ) < n + 1 := by positivity
  set a : Fin n → ℝ := fun k => ((k : ℕ) + 1 : ℝ) / (n + 1) with ha
  set A : Fin n → Set ℝ := fun k => normCdf ⁻¹' Ico (a k) (((k : ℕ) + 2 : ℝ) / (n + 1)) with hA
  have ha0 : ∀ k, 0 < a k := fun k => by positivity
  have hkn : ∀ k : Fin n, ((k : ℕ) : ℝ) + 1 ≤ n := fun k => by exact_mod_cast k.isLt
  have ha1 : ∀ k, a k < 1 := fun k => by
    rw [ha, div_lt_one hn]
    linarith [hkn k]
  have hb1 : ∀ k : Fin n, ((k : ℕ) + 2 : ℝ) / (n + 1) ≤ 1 := fun k => by
    rw [div_le_one hn]
    linarith [hkn k]
  have hm : ∀ k, MeasurableSet (A k) := fun k => normMargin.measurable measurableSet_Ico
  have hsub : ∀ k : Fin n, Ico (a k) (((k : ℕ) + 2 : ℝ) / (n + 1)) ∩ Ioo 0 1 = Ico (a k) (((k : ℕ) + 2 : ℝ) / (n + 1)) := fun k =>
    inter_eq_left.mpr fun x hx => ⟨(ha0 k).trans_le hx.1, hx.2.trans_le (hb1 k)⟩
  have hγ : ∀ k, (gaussianReal 0 1).real (A k) = 1 / (n + 1) := fun k => by
    rw [measureReal_def, ← Measure.map_apply normMargin.measurable measurableSet_Ico, normMargin.map_eq,
      ← Measure.restrict_congr_set Ioo_ae_eq_Ioc, Measure.restrict_apply measurableSet_Ico, hsub k, Real.volume_Ico, ENNReal.toReal_ofReal]
    · simp only [ha]
      field_simp
      ring
    · simp only [ha]
      rw [sub_nonneg]
      exact div_le_div_of_nonneg_right (by linarith) hn.le
  have hdis : Pairwise (Function.onFun Disjoint A) := by
    intro k l hkl
    rw [Function.onFun, Set.disjoint_left]
    intro x hx hy
    have e : ∀ {k l : Fin n}, x ∈ A k → x ∈ A l → ¬ k < l := fun {k l} hx hy h => by
      have h1 := hx.2
      have h2 := hy.1
      have h3 : ((k : ℕ) : ℝ) + 1 ≤ (l : ℕ) := by exact_mod_cast h
      have h4 : ((k : ℕ) + 2 : ℝ) / (n + 1) ≤ a l := div_le_div_of_nonneg_right (by linarith) hn.le
      linarith
    exact hkl (le_antisymm (not_lt.mp (e hy hx)) (not_lt.mp (e hx hy)))
  have hle : ∀ k, g (normQ (a k)) * (1 / (n + 1)) ≤ ∫ x in A k, g x ∂(gaussianReal 0 1) := fun k => by
    rw [← hγ k, mul_comm, ← smul_eq_mul, ← setIntegral_const]
    refine setIntegral_mono_on (integrableOn_const (measure_ne_top _ _)) hi.integrableOn (hm k) fun x hx => hg ?_
    rw [← normMargin.mono.le_iff_le, normMargin.right _ (ha0 k) (ha1 k)]
    exact hx.1
  have hsum : ∑ k, ∫ x in A k, g x ∂(gaussianReal 0 1) ≤ ∫ x, g x ∂(gaussianReal 0 1) := by
    rw [← integral_iUnion_fintype hm hdis fun k => hi.integrableOn]
    exact setIntegral_le_integral hi (ae_of_all _ h0)
  have := (Finset.sum_le_sum fun k (_ : k ∈ Finset.univ) => hle k).trans hsum
  rw [← Finset.sum_mul, mul_one_div, div_le_iff₀ hn] at this
  linarith

/-- Restriction to the interval from `-K` to `K`. -/
noncomputable def clip (K x : ℝ) : ℝ := max (-K) (min K x)

theorem abs_clip {K : ℝ} (hK : 0 ≤ K) (x : ℝ) : |clip K x| ≤ K := by
  unfold clip
  rw [abs_le]
  exact ⟨le_max_left _ _, max_le (by linarith) (min_le_left _ _)⟩

theorem abs_clip_le {K : ℝ} (hK : 0 ≤ K) (x : ℝ) : |clip K x| ≤ |x| := by
  unfold clip
  rcases le_total K x with h | h
  · rw [min_eq_left h, max_eq_right (by linarith), abs_of_nonneg hK]
    exact h.trans (le_abs_self x)
  · rw [min_eq_right h]
    rcases le_total (-K) x with h' | h'
    · rw [max_eq_right h']
    · rw [max_eq_left h', abs_neg, abs_of_nonneg hK, abs_of_nonpos (by linarith)]
      linarith

theorem clip_excess {K : ℝ} (hK : 0 ≤ K) (x : ℝ) : (x - clip K x) ^ 2 = excess K x + excess K (-x) := by
  unfold clip excess
  rcases le_total K x with h | h
  · rw [min_eq_left h, max_eq_right (by linarith : -K ≤ K), max_eq_left (by linarith : 0 ≤ x - K),
      max_eq_right (by linarith : -x - K ≤ 0)]
    ring
  · rw [min_eq_right h]
    rcases le_total (-K) x with h' | h'
    · rw [max_eq_right h', max_eq_right (by linarith : x - K ≤ 0), max_eq_right (by linarith : -x - K ≤ 0)]
      ring
    · rw [max_eq_left h', max_eq_right (by linarith : x - K ≤ 0), max_eq_left (by linarith : 0 ≤ -x - K)]
      ring

theorem clip_mono (K : ℝ) : Monotone (clip K) := fun _ _ h => max_le_max le_rfl (min_le_min le_rfl h)

theorem continuous_clip (K : ℝ) : Continuous (clip K) := by
  unfold clip
  fun_prop

theorem excess_zero (x : ℝ) : x ^ 2 = excess 0 x + excess 0 (-x) := by
  have := clip_excess (le_refl (0 : ℝ)) x
  have h : clip 0 x = 0 := by
    have := abs_clip (le_refl (0 : ℝ)) x
    exact abs_nonpos_iff.mp this
  rwa [h, sub_zero] at this

/-- The squared excesses of the normal scores on both sides. -/
theorem scores_excess {K : ℝ} (hK : 0 ≤ K) (n : ℕ) :
    ∑ k : Fin n, (excess K (normQ (((k : ℕ) + 1 : ℝ) / (n + 1))) + excess K (-normQ (((k : ℕ) + 1 : ℝ) / (n + 1)))) ≤
      2 * ((n + 1) * meanExcess K) := by
  have h1 := scores_sum_le (excess_mono K) (excess_nonneg K) (integrable_excess hK) n
  have e : ∑ k : Fin n, excess K (-normQ (((k : ℕ) + 1 : ℝ) / (n + 1))) = ∑ k : Fin n, excess K (normQ (((k : ℕ) + 1 : ℝ) / (n + 1))) := by
    rw [← Equiv.sum_comp Fin.revPerm fun k : Fin n => excess K (normQ (((k : ℕ) + 1 : ℝ) / (n + 1)))]
    refine Finset.sum_congr rfl fun k _ => ?_
    have hk : ((k : ℕ) : ℝ) + 1 ≤ n := by exact_mod_cast k.isLt
    have hn : (0 : ℝ) < n + 1 := by positivity
    rw [← normQ_symm (by positivity) (by rw [div_lt_one hn]; linarith)]
    congr 2
    rw [Fin.revPerm_apply, Fin.val_rev, Nat.cast_sub (by omega)]
    push_cast
    field_simp
    ring
  rw [Finset.sum_add_distrib, e]
  unfold meanExcess
  linarith

/-- The product of two numbers and of their restrictions to an interval. -/
theorem clip_product {K σ : ℝ} (hK : 0 ≤ K) (hσ : 0 < σ) (x y : ℝ) : |x * y - clip K x * clip K y| ≤
    ((x - clip K x) ^ 2 / σ + σ * y ^ 2) / 2 + ((y - clip K y) ^ 2 / σ + σ * x ^ 2) / 2 := by
  have young : ∀ a b : ℝ, |a * b| ≤ (a ^ 2 / σ + σ * b ^ 2) / 2 := fun a b => by
    have e : (a ^ 2 / σ + σ * b ^ 2) / 2 - |a * b| = (|a| - σ * |b|) ^ 2 / (2 * σ) := by
      rw [abs_mul, ← sq_abs a, ← sq_abs b]
      field_simp
      ring
    have : 0 ≤ (|a| - σ * |b|) ^ 2 / (2 * σ) := by positivity
    linarith
  have e : x * y - clip K x * clip K y = (x - clip K x) * y + (y - clip K y) * clip K x := by ring
  rw [e]
  refine (abs_add_le _ _).trans (add_le_add (young _ _) ((young _ _).trans ?_))
  have : clip K x ^ 2 ≤ x ^ 2 := sq_le_sq.mpr (abs_clip_le hK _)
  have := mul_le_mul_of_nonneg_left this hσ.le
  linarith

theorem clip_products {ι : Type*} (s : Finset ι) {x y : ι → ℝ} {K σ D W : ℝ} (hK : 0 ≤ K) (hσ : 0 < σ)
    (hx : ∑ i ∈ s, (x i - clip K (x i)) ^ 2 ≤ D) (hy : ∑ i ∈ s, (y i - clip K (y i)) ^ 2 ≤ D) (hx2 : ∑ i ∈ s, x i ^ 2 ≤ W)
    (hy2 : ∑ i ∈ s, y i ^ 2 ≤ W) :
    |∑ i ∈ s, x i * y i - ∑ i ∈ s, clip K (x i) * clip K (y i)| ≤ D / σ + σ * W := by
  rw [← Finset.sum_sub_distrib]
  refine (Finset.abs_sum_le_sum_abs _ _).trans ((Finset.sum_le_sum fun i _ => clip_product hK hσ (x i) (y i)).trans ?_)
  rw [Finset.sum_add_distrib, ← Finset.sum_div, ← Finset.sum_div, Finset.sum_add_distrib, Finset.sum_add_distrib, ← Finset.sum_div,
    ← Finset.sum_div, ← Finset.mul_sum, ← Finset.mul_sum]
  have h1 := div_le_div_of_nonneg_right hx hσ.le
  have h2 := div_le_div_of_nonneg_right hy hσ.le
  have h3 := mul_le_mul_of_nonneg_left hx2 hσ.le
  have h4 := mul_le_mul_of_nonneg_left hy2 hσ.le
  linarith

theorem integral_clip_sq {K : ℝ} (hK : 0 ≤ K) : Integrable (fun x => (x - clip K x) ^ 2) (gaussianReal 0 1) ∧
    ∫ x, (x - clip K x) ^ 2 ∂(gaussianReal 0 1) = 2 * meanExcess K := by
  have hneg : (gaussianReal 0 1).map (fun x => -x) = gaussianReal 0 1 := by
    rw [gaussianReal_map_neg]
    simp
  have e : ∫ x, excess K (-x) ∂(gaussianReal 0 1) = meanExcess K := by
    conv_rhs => rw [meanExcess, ← hneg]
    rw [integral_map measurable_neg.aemeasurable (continuous_excess K).aestronglyMeasurable]
  have hi : Integrable (fun x => excess K (-x)) (gaussianReal 0 1) := by
    have h := integrable_excess hK
    rw [← hneg, integrable_map_measure (continuous_excess K).aestronglyMeasurable measurable_neg.aemeasurable] at h
    exact h
  simp only [clip_excess hK]
  refine ⟨(integrable_excess hK).add hi, ?_⟩
  rw [integral_add (integrable_excess hK) hi, e, meanExcess]
  ring

/-- The restricted quantile function, extended to the line. -/
noncomputable def clipQ (K u : ℝ) : ℝ := if u ≤ 0 then -K else if 1 ≤ u then K else clip K (normQ u)

theorem clipQ_eq (K : ℝ) {u : ℝ} (h0 : 0 < u) (h1 : u < 1) : clipQ K u = clip K (normQ u) := by
  unfold clipQ
  rw [if_neg (not_le.mpr h0), if_neg (not_le.mpr h1)]

theorem abs_clipQ {K : ℝ} (hK : 0 ≤ K) (u : ℝ) : |clipQ K u| ≤ K := by
  unfold clipQ
  split_ifs
  · rw [abs_neg, abs_of_nonneg hK]
  · rw [abs_of_nonneg hK]
  · exact abs_clip hK _

theorem normQ_mono {u v : ℝ} (h0 : 0 < u) (h : u ≤ v) (h1 : v < 1) : normQ u ≤ normQ v := by
  rw [← normMargin.mono.le_iff_le, normMargin.right u h0 (by linarith), normMargin.right v (by linarith) h1]
  exact h

theorem clipQ_mono {K : ℝ} (hK : 0 ≤ K) : Monotone (clipQ K) := by
  intro u v h
  by_cases hu : u ≤ 0
  · have : clipQ K u = -K := by unfold clipQ; rw [if_pos hu]
    rw [this]
    exact (abs_le.mp (abs_clipQ hK v)).1
  · by_cases hv : 1 ≤ v
    · have : clipQ K v = K := by unfold clipQ; rw [if_neg (by linarith), if_pos hv]
      rw [this]
      exact (abs_le.mp (abs_clipQ hK u)).2
    · rw [clipQ_eq K (not_le.mp hu) (by linarith), clipQ_eq K (by linarith) (not_le.mp hv)]
      exact clip_mono K (normQ_mono (not_le.mp hu) h (not_le.mp hv))

/-- The restricted quantile function does not vary much. -/
theorem clip_normQ_near {K : ℝ} (hK : 0 ≤ K) {u v : ℝ} (hu0 : 0 < u) (hu1 : u < 1) (hv0 : 0 < v) (hv1 : v < 1) :
    gaussianPDFReal 0 1 K * |clip K (normQ u) - clip K (normQ v)| ≤ |u - v| := by
  have key : ∀ {u v : ℝ}, 0 < u → u ≤ v → v < 1 →
      gaussianPDFReal 0 1 K * (clip K (normQ v) - clip K (normQ u)) ≤ v - u := by
    intro u v h0 h h1
    set x := clip K (normQ u) with hx
    set y := clip K (normQ v) with hy
    have hxy : x ≤ y := clip_mono K (normQ_mono h0 h h1)
    have hxK := abs_le.mp (abs_clip hK (normQ u))
    have hyK := abs_le.mp (abs_clip hK (normQ v))
    rcases hxy.eq_or_lt with e | hlt
    · rw [e, sub_self, mul_zero]
      linarith
    have b1 : u ≤ normCdf x := by
      rw [← normMargin.right u h0 (by linarith), normMargin.mono.le_iff_le, hx]
      by_contra hc
      have : K ≤ clip K (normQ u) := by
        unfold clip at hc ⊢
        rcases le_total K (normQ u) with h | h
        · rw [min_eq_left h]; exact le_max_right _ _
        · rw [min_eq_right h] at hc
          exact absurd (le_max_right _ _) hc
      linarith
    have b2 : normCdf y ≤ v := by
      rw [← normMargin.right v (by linarith) h1, normMargin.mono.le_iff_le, hy]
      by_contra hc
      have : clip K (normQ v) ≤ -K := by
        unfold clip at hc ⊢
        rcases le_total (-K) (min K (normQ v)) with h | h
        · rw [max_eq_right h] at hc
          exact absurd (min_le_right _ _) hc
        · rw [max_eq_left h]
      linarith
    have b3 : gaussianPDFReal 0 1 K * (y - x) ≤ normCdf y - normCdf x := by
      refine Convex.mul_sub_le_image_sub_of_le_deriv (convex_Icc (-K) K)
        (fun z _ => (normCdf_hasDerivAt z).continuousAt.continuousWithinAt)
        (fun z _ => (normCdf_hasDerivAt z).differentiableAt.differentiableWithinAt) (fun z hz => ?_) x ⟨hxK.1, hxK.2⟩ y ⟨hyK.1, hyK.2⟩ hxy
      rw [(normCdf_hasDerivAt z).deriv, gaussianPDFReal_std, gaussianPDFReal_std]
      rw [interior_Icc] at hz
      refine mul_le_mul_of_nonneg_left (Real.exp_le_exp.mpr ?_) (by positivity)
      nlinarith [hz.1, hz.2]
    linarith
  rcases le_total u v with h | h
  · rw [abs_of_nonpos (by linarith : u - v ≤ 0), abs_of_nonpos (sub_nonpos.mpr (clip_mono K (normQ_mono hu0 h hv1)))]
    have := key hu0 h hv1
    linarith
  · rw [abs_of_nonneg (by linarith : 0 ≤ u - v), abs_of_nonneg (sub_nonneg.mpr (clip_mono K (normQ_mono hv0 h hu1)))]
    exact key hv0 h hu1

end Copulae
