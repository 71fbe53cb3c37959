import Verif.Lemmas.GmmLaw

/-!
C110: `gmm_marginal_cdf`, by which `random()` turns a sample of the normal mixture into one of the copula.
-/

namespace Copulae

open MeasureTheory Set

variable {m d : ℕ} {p : Fin m → ℝ} {μ : Fin m → Fin d → ℝ} {S : Fin m → Matrix (Fin d) (Fin d) ℝ}

/-- **C110.** For every valid parameter the values of `gmm_marginal_cdf` are a strictly increasing continuous function
onto (0, 1) with the limits 0 and 1, and differ from the distribution function of the margin of the normal
mixture by at most 1.25e-5 everywhere. -/
theorem gmm_marginal_cdf_distribution (h : Spec.IsMixture p S) (j : Fin d) :
    ∃ F : ℝ → ℝ, (∀ x, gmmMarginalCdf (flParam p μ S) j (.fin x) = .fin (F x)) ∧
      StrictMono F ∧ Continuous F ∧ range F = Ioo 0 1 ∧
      ∀ x, |F x - (Spec.gmmLaw p μ S).real {z | z j ≤ x}| ≤ 1.25e-5 := by
  refine ⟨gmmApprox p μ S j, gmmMarginalCdf_fin h j, gmmApprox_strictMono h j, gmmApprox_continuous j, ?_, fun x => ?_⟩
  · ext u
    constructor
    · rintro ⟨x, rfl⟩
      exact gmmApprox_mem h j x
    · intro hu
      exact gmmApprox_surj h j hu.1 hu.2
  · have := gmmApprox_close (μ := μ) h j x
    norm_num at this ⊢
    exact this

/-- **C110.** A row of the normal mixture, turned by `gmm_marginal_cdf`, lies inside the open cube, and its distribution
function differs from that of the Gaussian mixture copula by at most 1.25e-5 per coordinate. -/
theorem gmc_random_law (h : Spec.IsMixture p S) :
    ∃ U : (Fin d → ℝ) → Fin d → ℝ, Measurable U ∧ (∀ z j, U z j ∈ Ioo (0 : ℝ) 1) ∧
      (∀ z j, gmmMarginalCdf (flParam p μ S) j (.fin (z j)) = .fin (U z j)) ∧
      ∀ u : Fin d → ℝ, (∀ j, 0 ≤ u j ∧ u j ≤ 1) →
        |Spec.distFn ((Spec.gmmLaw p μ S).map U) u - Spec.distFn (Spec.gmcLaw p μ S) u| ≤ d * 1.25e-5 := by
  refine ⟨fun z j => gmmApprox p μ S j (z j), ?_, fun z j => gmmApprox_mem h j _,
    fun z j => gmmMarginalCdf_fin h j _, fun u hu => ?_⟩
  · exact measurable_pi_lambda _ fun j => (gmmApprox_continuous j).measurable.comp (measurable_pi_apply j)
  · have := gmcApprox_dist (μ := μ) h hu
    norm_num at this ⊢
    exact this

/-- **C110.** The target is a copula: its law has uniform margins. -/
theorem gmc_isCopula (h : Spec.IsMixture p S) : Spec.IsCopula (Spec.distFn (Spec.gmcLaw p μ S)) := by
  have := gmcLaw_isProb (μ := μ) h
  exact CopulaMeasure.isCopula_df (gmcLaw_uniform h)

/-- **C110.** Infinite and undefined arguments. -/
theorem gmm_marginal_cdf_ends (h : Spec.IsMixture p S) (j : Fin d) :
    gmmMarginalCdf (flParam p μ S) j .pinf = .fin 1 ∧ gmmMarginalCdf (flParam p μ S) j .ninf = .fin 0 ∧
    gmmMarginalCdf (flParam p μ S) j .nan = .nan := by
  have hv : ∀ c, 0 < √(S c j j) * 1.4142136 := fun c =>
    mul_pos (Real.sqrt_pos.mpr (h.var c j)) (by norm_num)
  have hs : ∀ c, Fl.sqrt (.fin (S c j j)) = .fin √(S c j j) := fun c => by
    rw [Fl.sqrt, if_neg (not_lt.mpr (h.var c j).le)]
  have h1 : gmmErf .pinf = .fin 1 := by
    have e1 : Fl.fin 0.47047 * .pinf = .pinf := by rw [Fl.fin_mul_pinf]; exact Fl.infSign_pos (by norm_num)
    have e2 : (.fin 1 + .pinf : Fl) = .pinf := rfl
    have e3 : (.fin 1 / .pinf : Fl) = .fin 0 := rfl
    have e4 : (Fl.pinf ^ Fl.fin 2) = .pinf := Fl.pinf_pow_pos (by norm_num)
    have e5 : (-Fl.pinf) = .ninf := rfl
    have e6 : ¬ (Fl.pinf < Fl.fin 0) := fun h => h
    have ha : Fl.pinf.abs = .pinf := rfl
    simp only [gmmErf, ha, e1, e2, e3, e4, e5, Fl.exp_ninf, Fl.zero_pow_pos (show (0 : ℝ) < 2 by norm_num),
      Fl.zero_pow_pos (show (0 : ℝ) < 3 by norm_num), Fl.fin_mul_fin, Fl.fin_add_fin, Fl.fin_sub_fin, if_neg e6]
    norm_num
  have h2 : gmmErf .ninf = .fin 0 := by
    have e1 : Fl.fin 0.47047 * .pinf = .pinf := by rw [Fl.fin_mul_pinf]; exact Fl.infSign_pos (by norm_num)
    have e2 : (.fin 1 + .pinf : Fl) = .pinf := rfl
    have e3 : (.fin 1 / .pinf : Fl) = .fin 0 := rfl
    have e4 : (Fl.pinf ^ Fl.fin 2) = .pinf := Fl.pinf_pow_pos (by norm_num)
    have e5 : (-Fl.pinf) = .ninf := rfl
    have e6 : Fl.ninf < Fl.fin 0 := trivial
    have ha : Fl.ninf.abs = .pinf := rfl
    simp only [gmmErf, ha, e1, e2, e3, e4, e5, Fl.exp_ninf, Fl.zero_pow_pos (show (0 : ℝ) < 2 by norm_num),
      Fl.zero_pow_pos (show (0 : ℝ) < 3 by norm_num), Fl.fin_mul_fin, Fl.fin_add_fin, if_pos e6]
    norm_num
  have hp : ∀ a b : ℝ, 0 < b → (Fl.pinf - .fin a) / .fin b = .pinf := fun a b hb => by
    change (if 0 ≤ b then Fl.pinf else .ninf) = .pinf
    rw [if_pos hb.le]
  have hn : ∀ a b : ℝ, 0 < b → (Fl.ninf - .fin a) / .fin b = .ninf := fun a b hb => by
    change (if 0 ≤ b then Fl.ninf else .pinf) = .ninf
    rw [if_pos hb.le]
  refine ⟨?_, ?_, ?_⟩
  · unfold gmmMarginalCdf
    simp only [flParam, flMat, hs, Fl.fin_mul_fin, hp _ _ (hv _), h1, Fl.sum_fin, one_mul, h.sum]
  · unfold gmmMarginalCdf
    simp only [flParam, flMat, hs, Fl.fin_mul_fin, hn _ _ (hv _), h2, Fl.sum_fin, zero_mul, Finset.sum_const_zero]
  · obtain ⟨c, -⟩ := h.exists_pos
    unfold gmmMarginalCdf
    refine Fl.sum_nan _ _ ⟨c, Finset.mem_univ _, ?_⟩
    have e0 : (Fl.nan - (flParam p μ S).means c j) / (((flParam p μ S).covs c j j).sqrt * Fl.fin 1.4142136) =
      .nan := rfl
    have e1 : gmmErf .nan = .nan := by
      have e : ¬ (Fl.nan < Fl.fin 0) := fun h => h
      simp only [gmmErf, if_neg e]
      rfl
    rw [e0, e1]
    rfl

/-- A mixture of two correlated normal pairs. -/
theorem twoMix_valid : Spec.IsMixture (d := 2) ![0.25, 0.75] ![!![1, 0.5; 0.5, 1], !![4, 0; 0, 9]] := by
  have h1 : (!![1, 0.5; 0.5, 1] : Matrix (Fin 2) (Fin 2) ℝ).PosSemidef := by
    refine Matrix.PosSemidef.of_dotProduct_mulVec_nonneg ?_ fun x => ?_
    · ext i j
      fin_cases i <;> fin_cases j <;> simp
    · simp [Matrix.mulVec, dotProduct, Fin.sum_univ_two]
      nlinarith [sq_nonneg (x 0 + x 1), sq_nonneg (x 0), sq_nonneg (x 1)]
  have h2 : (!![4, 0; 0, 9] : Matrix (Fin 2) (Fin 2) ℝ).PosSemidef := by
    refine Matrix.PosSemidef.of_dotProduct_mulVec_nonneg ?_ fun x => ?_
    · ext i j
      fin_cases i <;> fin_cases j <;> simp
    · simp [Matrix.mulVec, dotProduct, Fin.sum_univ_two]
      nlinarith [sq_nonneg (x 0), sq_nonneg (x 1)]
  refine ⟨fun c => ?_, ?_, fun c => ?_, fun c j => ?_⟩
  · fin_cases c <;> norm_num
  · rw [Fin.sum_univ_two]; norm_num
  · fin_cases c
    · exact h1
    · exact h2
  · fin_cases c <;> fin_cases j <;> norm_num

example (z : Fin 2 → ℝ) (j : Fin 2) : ∃ u : ℝ, 0 < u ∧ u < 1 ∧
    gmmMarginalCdf (flParam ![0.25, 0.75] ![![0, 1], ![2, 3]] ![!![1, 0.5; 0.5, 1], !![4, 0; 0, 9]]) j (.fin (z j)) =
      .fin u := by
  obtain ⟨U, -, hm, hU, -⟩ := gmc_random_law (μ := ![![0, 1], ![2, 3]]) twoMix_valid
  exact ⟨U z j, (hm z j).1, (hm z j).2, hU z j⟩

example := gmm_marginal_cdf_distribution (μ := ![![0, 1], ![2, 3]]) twoMix_valid 1

example := gmc_isCopula (μ := ![![0, 1], ![2, 3]]) twoMix_valid

end Copulae
