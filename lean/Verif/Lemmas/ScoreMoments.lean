import Verif.Lemmas.NormScores
import Verif.Lemmas.RadSymTest

/-!
The second moments of the normal scores of a sample from a Gaussian copula converge to its correlations.
-/

namespace Copulae

open MeasureTheory ProbabilityTheory Set Spec CopulaMeasure

variable {d n : ℕ}

/-- The law of large numbers for bounded functions. -/
theorem mean_close {X : Type*} [MeasurableSpace X] {P : Measure X} [IsProbabilityMeasure P] {h : X → ℝ} (hm : Measurable h) {C : ℝ}
    (hC : 0 < C) (hb : ∀ x, |h x| ≤ C) (hn : 2 ≤ n) {ε : ℝ} (hε : 0 < ε) :
    (Measure.pi fun _ : Fin n => P) {x | ε ≤ |(∑ i, h (x i)) / n - ∫ x, h x ∂P|} ≤ ENNReal.ofReal (4 * C ^ 2 / ((n - 1) * ε ^ 2)) := by
  have hn1 : (2 : ℝ) ≤ n := by exact_mod_cast hn
  have key := pairMean_close (P := P) (n := n) (h := fun p : X × X => h p.1 / C) (by fun_prop) (fun p => by
    rw [abs_div, abs_of_pos hC, div_le_one hC]
    exact hb _) hn (div_pos hε hC)
  have e1 : ∀ x : Fin n → X, pairMean (fun p : X × X => h p.1 / C) x = (∑ i, h (x i)) / n / C := fun x => by
    have : ∑ p ∈ pairsOf n, h (x p.1) / C = (n - 1) * ((∑ i, h (x i)) / C) := by
      have e : pairsOf n = (Finset.univ : Finset (Fin n)).offDiag := by
        ext p; simp [pairsOf]
      have hall : ∑ p ∈ (Finset.univ : Finset (Fin n × Fin n)), h (x p.1) / C = n * ((∑ i, h (x i)) / C) := by
        rw [Fintype.sum_prod_type, Finset.sum_div, Finset.mul_sum]
        simp
      have hdiag : ∑ p ∈ (Finset.univ : Finset (Fin n)).diag, h (x p.1) / C = (∑ i, h (x i)) / C := by
        rw [Finset.sum_diag, Finset.sum_div]
      have hs : ∑ p ∈ (Finset.univ : Finset (Fin n)).diag, h (x p.1) / C + ∑ p ∈ (Finset.univ : Finset (Fin n)).offDiag, h (x p.1) / C =
          ∑ p ∈ (Finset.univ : Finset (Fin n × Fin n)), h (x p.1) / C := by
        rw [← Finset.sum_union (Finset.disjoint_diag_offDiag _), Finset.diag_union_offDiag]
        rfl
      rw [e]
      linarith
    rw [pairMean, this]
    have : (0 : ℝ) < n - 1 := by linarith
    field_simp
  have e2 : ∫ p, h p.1 / C ∂(P.prod P) = (∫ x, h x ∂P) / C := by
    rw [integral_div, integral_fun_fst]
    simp
  refine (measure_mono fun x hx => ?_).trans (key.trans (ENNReal.ofReal_le_ofReal (le_of_eq ?_)))
  · show ε / C ≤ |pairMean (fun p : X × X => h p.1 / C) x - ∫ p, h p.1 / C ∂(P.prod P)|
    rw [e1, e2, ← sub_div, abs_div, abs_of_pos hC]
    exact div_le_div_of_nonneg_right hx hC.le
  · have : (0 : ℝ) < n - 1 := by linarith
    field_simp

section gauss

variable {S : Matrix (Fin d) (Fin d) ℝ}

theorem gauss_std (hS : S.PosSemidef) (h1 : ∀ j, S j j = 1) (j : Fin d) : (gauss S).map (fun x => x j) = gaussianReal 0 1 := by
  rw [gauss_margin hS, h1]
  simp

theorem gauss_integral (hS : S.PosSemidef) (h1 : ∀ j, S j j = 1) (j : Fin d) {g : ℝ → ℝ} (hg : Continuous g)
    (hi : Integrable g (gaussianReal 0 1)) :
    Integrable (fun x => g (x j)) (gauss S) ∧ ∫ x, g (x j) ∂(gauss S) = ∫ x, g x ∂(gaussianReal 0 1) := by
  have h := hi
  rw [← gauss_std hS h1 j] at h ⊢
  exact ⟨h.comp_measurable (measurable_pi_apply j),
    (integral_map (measurable_pi_apply j).aemeasurable hg.aestronglyMeasurable).symm⟩

theorem gauss_cov (hS : S.PosSemidef) (h1 : ∀ j, S j j = 1) (a b : Fin d) : ∫ x, x a * x b ∂(gauss S) = S a b := by
  have h := covariance_eval_multivariateGaussian (μ := 0) hS a b
  have hz : ∀ j, ∫ x, x j ∂(multivariateGaussian (0 : EuclideanSpace ℝ (Fin d)) S) = 0 := fun j => by
    have e := (gauss_integral hS h1 j continuous_id ((memLp_id_gaussianReal 1).integrable (by simp))).2
    simp only [id] at e
    rw [gauss, integral_map (by fun_prop) (continuous_apply (A := fun _ : Fin d => ℝ) j).aestronglyMeasurable] at e
    have := integral_id_gaussianReal (μ := 0) (v := 1)
    rw [e, this]
  rw [covariance, hz, hz] at h
  rw [gauss, integral_map (by fun_prop) (by fun_prop)]
  simpa using h

theorem integrable_gauss_mul (hS : S.PosSemidef) (h1 : ∀ j, S j j = 1) (a b : Fin d) : Integrable (fun x => x a * x b) (gauss S) := by
  have hm : ∀ j, MemLp (fun x : Fin d → ℝ => x j) 2 (gauss S) := fun j => by
    have := memLp_id_gaussianReal' (μ := 0) (v := 1) 2 (by simp)
    rw [← gauss_std hS h1 j] at this
    exact this.comp_measurePreserving ⟨measurable_pi_apply j, rfl⟩
  exact (hm a).integrable_mul (hm b)

/-- The correlations of the restricted vector. -/
theorem clip_cov (hS : S.PosSemidef) (h1 : ∀ j, S j j = 1) {K σ : ℝ} (hK : 0 ≤ K) (hσ : 0 < σ) (a b : Fin d) :
    |S a b - ∫ x, clip K (x a) * clip K (x b) ∂(gauss S)| ≤ 2 * meanExcess K / σ + σ := by
  have hc : Integrable (fun x : Fin d → ℝ => clip K (x a) * clip K (x b)) (gauss S) :=
    Integrable.of_bound (C := K * K) (((continuous_clip K).comp (continuous_apply a)).mul
      ((continuous_clip K).comp (continuous_apply b))).aestronglyMeasurable (ae_of_all _ fun x => by
        rw [Real.norm_eq_abs, abs_mul]
        exact mul_le_mul (abs_clip hK _) (abs_clip hK _) (abs_nonneg _) hK)
  have i1 : ∀ j, Integrable (fun x : Fin d → ℝ => (x j - clip K (x j)) ^ 2) (gauss S) ∧ _ := fun j =>
    gauss_integral hS h1 j (g := fun x => (x - clip K x) ^ 2) ((continuous_id.sub (continuous_clip K)).pow 2) (integral_clip_sq hK).1
  have i2 : ∀ j, Integrable (fun x : Fin d → ℝ => x j ^ 2) (gauss S) ∧ _ := fun j =>
    gauss_integral hS h1 j (g := fun x => x ^ 2) (continuous_pow 2) integrable_sq_norm
  have hp : ∀ a b, Integrable (fun x : Fin d → ℝ => ((x a - clip K (x a)) ^ 2 / σ + σ * x b ^ 2) / 2) (gauss S) := fun a b =>
    (((i1 a).1.div_const σ).add ((i2 b).1.const_mul σ)).div_const 2
  rw [← gauss_cov hS h1 a b, ← integral_sub (integrable_gauss_mul hS h1 a b) hc]
  refine (abs_integral_le_integral_abs).trans ((integral_mono ((integrable_gauss_mul hS h1 a b).sub hc).abs
    (g := fun x => ((x a - clip K (x a)) ^ 2 / σ + σ * x b ^ 2) / 2 + ((x b - clip K (x b)) ^ 2 / σ + σ * x a ^ 2) / 2) ?_
    fun x => clip_product hK hσ (x a) (x b)).trans (le_of_eq ?_))
  · exact (hp a b).add (hp b a)
  · rw [integral_add (hp a b) (hp b a), integral_div, integral_div,
      integral_add ((i1 a).1.div_const σ) ((i2 b).1.const_mul σ), integral_add ((i1 b).1.div_const σ) ((i2 a).1.const_mul σ),
      integral_div, integral_div, integral_const_mul, integral_const_mul, (i1 a).2, (i1 b).2, (i2 a).2, (i2 b).2,
      (integral_clip_sq hK).2, integral_sq_norm]
    ring

/-- The mean of the product of two restricted quantiles under the Gaussian copula. -/
theorem clipQ_mean {K : ℝ} (hK : 0 ≤ K) (a b : Fin d) :
    ∫ u, clipQ K (u a) * clipQ K (u b) ∂(gaussLaw S) = ∫ x, clip K (x a) * clip K (x b) ∂(gauss S) := by
  have hm : Measurable fun u : Fin d → ℝ => clipQ K (u a) * clipQ K (u b) :=
    ((clipQ_mono hK).measurable.comp (measurable_pi_apply a)).mul ((clipQ_mono hK).measurable.comp (measurable_pi_apply b))
  rw [gaussLaw_eq, cubeLaw, integral_map (measurable_pointwise normMargin.measurable).aemeasurable hm.aestronglyMeasurable]
  refine integral_congr_ae (ae_of_all _ fun x => ?_)
  have e : ∀ j, clipQ K (normCdf (x j)) = clip K (x j) := fun j => by
    rw [clipQ_eq K (normMargin.mem _).1 (normMargin.mem _).2, normMargin.left]
  simp only [e]

/-- The second moments of the normal scores. -/
noncomputable def scoreMoment (r : Fin n → Fin d → ℝ) (a b : Fin d) : ℝ := (∑ i, normQ (r i a) * normQ (r i b)) / n

theorem unitRanks_perm {y : Fin n → Fin d → ℝ} (hy : NoTies y) (i : Fin n) (j : Fin d) :
    unitRanks y i j = (((ordPerm fun k => y k j) i : Fin n) + 1 : ℝ) / (n + 1) := by
  have hinj : Function.Injective fun k => y k j := fun a b hab => by_contra fun hne => hy j a b hne hab
  unfold unitRanks
  rw [rankdata_eq_of_injective .average _ hinj, rankdata_ordinal_perm]
  push_cast
  rfl

theorem unitRanks_mem {y : Fin n → Fin d → ℝ} (hy : NoTies y) (i : Fin n) (j : Fin d) :
    0 < unitRanks y i j ∧ unitRanks y i j < 1 := by
  rw [unitRanks_perm hy]
  have hk : (((ordPerm fun k => y k j) i : Fin n) : ℝ) + 1 ≤ n := by exact_mod_cast ((ordPerm fun k => y k j) i).isLt
  exact ⟨by positivity, by rw [div_lt_one (by positivity)]; linarith⟩

theorem sum_scores {y : Fin n → Fin d → ℝ} (hy : NoTies y) (j : Fin d) (g : ℝ → ℝ) :
    ∑ i, g (unitRanks y i j) = ∑ k : Fin n, g (((k : ℕ) + 1 : ℝ) / (n + 1)) := by
  simp only [unitRanks_perm hy]
  exact Equiv.sum_comp (ordPerm fun k => y k j) fun k : Fin n => g (((k : ℕ) + 1 : ℝ) / (n + 1))

/-- **The second moments of the normal scores converge to the correlations.** -/
theorem scoreMoment_likely (hS : S.PosSemidef) (h1 : ∀ j, S j j = 1) {η δ : ℝ} (hη : 0 < η) (hδ : 0 < δ) :
    ∃ N : ℕ, ∀ n, N ≤ n →
      iid n (gaussLaw S) {y | ¬ (NoTies y ∧ ∀ a b, |scoreMoment (unitRanks y) a b - S a b| < η)} ≤ ENNReal.ofReal δ := by
  have hU := gaussLaw_uniform hS h1
  set σ := η / 40 with hσdef
  have hσ : 0 < σ := by positivity
  obtain ⟨K, hK, hmK⟩ := meanExcess_small (show 0 < σ ^ 2 by positivity)
  have hφ : 0 < gaussianPDFReal 0 1 K := gaussianPDFReal_pos 0 1 K one_ne_zero
  set ε := gaussianPDFReal 0 1 K * η / (24 * K) with hεdef
  have hε : 0 < ε := by positivity
  obtain ⟨N1, hN1⟩ := close_likely hU hε (half_pos hδ)
  obtain ⟨N2, hN2⟩ := exists_nat_gt (1 / ε)
  obtain ⟨N3, hN3⟩ := exists_nat_gt ((d : ℝ) ^ 2 * (4 * (K ^ 2) ^ 2 / ((η / 4) ^ 2)) / (δ / 2))
  refine ⟨N1 + N2 + N3 + 2, fun n hn => ?_⟩
  have hn2 : 2 ≤ n := by omega
  have hn0 : (0 : ℝ) < n := by exact_mod_cast (by omega : 0 < n)
  set bad : Fin d × Fin d → Set (Fin n → Fin d → ℝ) := fun p =>
    {y | η / 4 ≤ |(∑ i, clipQ K (y i p.1) * clipQ K (y i p.2)) / n - ∫ u, clipQ K (u p.1) * clipQ K (u p.2) ∂(gaussLaw S)|} with hbad
  have hb : ∀ p, iid n (gaussLaw S) (bad p) ≤ ENNReal.ofReal (4 * (K ^ 2) ^ 2 / ((n - 1) * (η / 4) ^ 2)) := fun p =>
    mean_close (P := gaussLaw S) (h := fun u => clipQ K (u p.1) * clipQ K (u p.2))
      (((clipQ_mono hK.le).measurable.comp (measurable_pi_apply _)).mul ((clipQ_mono hK.le).measurable.comp (measurable_pi_apply _)))
      (show 0 < K ^ 2 by positivity) (fun u => by
        rw [abs_mul, pow_two]
        exact mul_le_mul (abs_clipQ hK.le _) (abs_clipQ hK.le _) (abs_nonneg _) hK.le) hn2 (by positivity)
  have hsub : {y : Fin n → Fin d → ℝ | ¬ (NoTies y ∧ ∀ a b, |scoreMoment (unitRanks y) a b - S a b| < η)} ⊆
      {y | ¬ NoTies y} ∪ ({y | ¬ CloseTo (gaussLaw S) ε y} ∪ ⋃ p ∈ (Finset.univ : Finset (Fin d × Fin d)), bad p) := by
    intro y hy
    by_contra hcon
    simp only [Set.mem_union, not_or, Set.mem_iUnion, not_exists] at hcon
    obtain ⟨a1, a2, a3⟩ := hcon
    have t1 : NoTies y := not_not.mp a1
    have t2 : CloseTo (gaussLaw S) ε y := not_not.mp a2
    refine hy ⟨t1, fun a b => ?_⟩
    have t3 : |(∑ i, clipQ K (y i a) * clipQ K (y i b)) / n - ∫ u, clipQ K (u a) * clipQ K (u b) ∂(gaussLaw S)| < η / 4 :=
      not_le.mp (a3 (a, b) (Finset.mem_univ _))
    rw [clipQ_mean hK.le] at t3
    have t4 := clip_cov hS h1 hK.le hσ a b
    -- the scores and their restrictions
    have sD : ∀ j, ∑ i, (normQ (unitRanks y i j) - clip K (normQ (unitRanks y i j))) ^ 2 ≤ 4 * n * σ ^ 2 := fun j => by
      rw [sum_scores t1 j fun u => (normQ u - clip K (normQ u)) ^ 2]
      simp only [clip_excess hK.le]
      refine (scores_excess hK.le n).trans ?_
      have hn1 : (n : ℝ) + 1 ≤ 2 * n := by
        have : (2 : ℝ) ≤ n := by exact_mod_cast hn2
        linarith
      have hm0 : 0 ≤ meanExcess K := integral_nonneg fun x => excess_nonneg K x
      have : (n + 1 : ℝ) * meanExcess K ≤ 2 * n * σ ^ 2 := mul_le_mul hn1 hmK.le hm0 (by positivity)
      linarith
    have sW : ∀ j, ∑ i, normQ (unitRanks y i j) ^ 2 ≤ 4 * n := fun j => by
      rw [sum_scores t1 j fun u => normQ u ^ 2]
      simp only [excess_zero (normQ _)]
      refine (scores_excess le_rfl n).trans ?_
      have hn1 : (n : ℝ) + 1 ≤ 2 * n := by
        have : (2 : ℝ) ≤ n := by exact_mod_cast hn2
        linarith
      have hm0 : 0 ≤ meanExcess 0 := integral_nonneg fun x => excess_nonneg 0 x
      have : (n + 1 : ℝ) * meanExcess 0 ≤ 2 * n * 1 := mul_le_mul hn1 (meanExcess_le_one le_rfl) hm0 (by positivity)
      linarith
    have t5 := clip_products (Finset.univ : Finset (Fin n)) hK.le hσ (sD a) (sD b) (sW a) (sW b)
    have t5' : |scoreMoment (unitRanks y) a b - (∑ i, clip K (normQ (unitRanks y i a)) * clip K (normQ (unitRanks y i b))) / n| ≤ 8 * σ := by
      rw [scoreMoment, ← sub_div, abs_div, abs_of_pos hn0, div_le_iff₀ hn0]
      refine t5.trans (le_of_eq ?_)
      field_simp
      ring
    -- the ranks and the observations
    have hnε : 1 / ((n : ℝ) + 1) ≤ ε := by
      have : (N2 : ℝ) ≤ n := by exact_mod_cast (by omega : N2 ≤ n)
      rw [div_lt_iff₀ hε] at hN2
      rw [div_le_iff₀ (by positivity)]
      nlinarith
    have hr : ∀ i j, |clip K (normQ (unitRanks y i j)) - clipQ K (y i j)| ≤ 3 * ε / gaussianPDFReal 0 1 K := fun i j => by
      have r1 := rank_near_of_close hU (by omega) hε le_rfl hnε t2 (z := y) (fun i j => by simp) i j
      have r2 := clip_normQ_near hK.le (unitRanks_mem t1 i j).1 (unitRanks_mem t1 i j).2 (t2.1 i j).1 (t2.1 i j).2
      rw [clipQ_eq K (t2.1 i j).1 (t2.1 i j).2, le_div_iff₀ hφ, mul_comm]
      refine r2.trans ?_
      have : |unitRanks y i j - y i j| ≤ 2 * 0 + 3 * ε := r1
      linarith
    have t6 : |(∑ i, clip K (normQ (unitRanks y i a)) * clip K (normQ (unitRanks y i b))) / n -
        (∑ i, clipQ K (y i a) * clipQ K (y i b)) / n| ≤ η / 4 := by
      rw [← sub_div, abs_div, abs_of_pos hn0, div_le_iff₀ hn0, ← Finset.sum_sub_distrib]
      refine (Finset.abs_sum_le_sum_abs _ _).trans ((Finset.sum_le_sum (g := fun _ => η / 4) fun i _ => ?_).trans ?_)
      · have e : clip K (normQ (unitRanks y i a)) * clip K (normQ (unitRanks y i b)) - clipQ K (y i a) * clipQ K (y i b) =
            (clip K (normQ (unitRanks y i a)) - clipQ K (y i a)) * clip K (normQ (unitRanks y i b)) +
            clipQ K (y i a) * (clip K (normQ (unitRanks y i b)) - clipQ K (y i b)) := by ring
        rw [e]
        refine (abs_add_le _ _).trans ?_
        rw [abs_mul, abs_mul]
        have p1 := mul_le_mul (hr i a) (abs_clip hK.le (normQ (unitRanks y i b))) (abs_nonneg _) (by positivity)
        have p2 := mul_le_mul (abs_clipQ hK.le (y i a)) (hr i b) (abs_nonneg _) hK.le
        refine (add_le_add p1 p2).trans (le_of_eq ?_)
        rw [hεdef]
        field_simp
        ring
      · simp only [Finset.sum_const, Finset.card_univ, Fintype.card_fin, nsmul_eq_mul]
        linarith
    have t7 : 2 * meanExcess K / σ + σ ≤ 3 * σ := by
      have : 2 * meanExcess K / σ ≤ 2 * σ := by
        rw [div_le_iff₀ hσ]
        nlinarith
      linarith
    rw [abs_lt] at *
    rw [abs_le] at *
    constructor <;> linarith [t3.1, t3.2, t4.1, t4.2, t5'.1, t5'.2, t6.1, t6.2]
  have b0 : iid n (gaussLaw S) {y | ¬ NoTies y} = 0 := ae_iff.mp (noTies_ae (n := n) (atomless_of_uniform hU))
  have b1 := hN1 n (by omega)
  have b2 : iid n (gaussLaw S) (⋃ p ∈ (Finset.univ : Finset (Fin d × Fin d)), bad p) ≤ ENNReal.ofReal (δ / 2) := by
    refine (measure_biUnion_finset_le _ _).trans ((Finset.sum_le_sum fun p _ => hb p).trans ?_)
    have hn1 : (0 : ℝ) < n - 1 := by
      have : (2 : ℝ) ≤ n := by exact_mod_cast hn2
      linarith
    rw [Finset.sum_const, Finset.card_univ, Fintype.card_prod, Fintype.card_fin, nsmul_eq_mul, ← ENNReal.ofReal_natCast,
      ← ENNReal.ofReal_mul (Nat.cast_nonneg _)]
    refine ENNReal.ofReal_le_ofReal ?_
    have hN3' : (N3 : ℝ) ≤ n - 1 := by
      have : (N3 : ℝ) + 1 ≤ n := by exact_mod_cast (by omega : N3 + 1 ≤ n)
      linarith
    rw [div_lt_iff₀ (by positivity)] at hN3
    have h5 : (d : ℝ) ^ 2 * (4 * (K ^ 2) ^ 2 / (η / 4) ^ 2) ≤ (n - 1) * (δ / 2) :=
      hN3.le.trans (mul_le_mul_of_nonneg_right hN3' (by positivity))
    have e : ((d * d : ℕ) : ℝ) * (4 * (K ^ 2) ^ 2 / ((n - 1) * (η / 4) ^ 2)) = (d : ℝ) ^ 2 * (4 * (K ^ 2) ^ 2 / (η / 4) ^ 2) / (n - 1) := by
      push_cast
      field_simp
    rw [e, div_le_iff₀ hn1]
    linarith
  refine (measure_mono hsub).trans ((measure_union_le _ _).trans ?_)
  rw [b0, zero_add]
  refine (measure_union_le _ _).trans ((add_le_add b1 b2).trans (le_of_eq ?_))
  rw [← ENNReal.ofReal_add (by positivity) (by positivity), add_halves]

end gauss

end Copulae
