import Verif.Model.Stable
import Verif.Lemmas.Stable
import Verif.Props.Frailty

/-!
C104: `GumbelCopula.random` draws from the Gumbel copula. C105: `skew_stable.rvs` with index below one and skewness
one draws from the stable law with the requested index, scale and location.

`frailSpace` is the law of the two variates drawn for one frailty: a uniform variate on (0, 1) and an independent
standard exponential one.
-/

namespace Copulae

open MeasureTheory Set ProbabilityTheory Real

theorem arctan_fin (a : ℝ) : Fl.arctan (.fin a) = .fin (arctan a) := rfl

section
variable {α : ℝ} (h0 : 0 < α) (h1 : α < 1)
include h0 h1

theorem stable_cos_pos : 0 < cos (α * π / 2) :=
  cos_pos_of_mem_Ioo ⟨by nlinarith [pi_pos], by nlinarith [pi_pos]⟩

theorem tanpi2_eq : tanpi2 α = .fin (tan (α * π / 2)) := by
  rw [tanpi2, if_neg (stable_cos_pos h0 h1).ne']

theorem one_add_tan_sq : 1 + tan (α * π / 2) * tan (α * π / 2) = (cos (α * π / 2) ^ 2)⁻¹ := by
  have h := stable_cos_pos h0 h1
  rw [tan_eq_sin_div_cos]
  field_simp
  have := sin_sq_add_cos_sq (α * π / 2)
  nlinarith

theorem stableC_eq :
    (1 + tan (α * π / 2) * tan (α * π / 2)) ^ (1 / (2 * α)) = cos (α * π / 2) ^ (-1 / α) := by
  have h := stable_cos_pos h0 h1
  rw [one_add_tan_sq h0 h1, ← rpow_natCast, ← rpow_neg h.le, ← rpow_mul h.le]
  congr 1
  push_cast
  field_simp

/-- The variate computed by the code for a totally skewed law with index below one is a scaled and shifted Kanter
variate. -/
theorem stableZ_eq {v w : ℝ} (hv : v ∈ Ioo (0 : ℝ) 1) (hw : 0 < w) :
    stableZ α 1 v w = .fin (cos (α * π / 2) ^ (-1 / α) * kanter α v w - tan (α * π / 2)) := by
  have hu : 0 < π * v := mul_pos pi_pos hv.1
  have hu1 : π * v < π := by nlinarith [pi_pos, hv.2]
  have hs := sin_pos_of_pos_of_lt_pi hu hu1
  obtain ⟨-, hb⟩ := kSin_pos h0 h1 hu hu1.le
  have hat : arctan (tan (α * π / 2)) / α = π / 2 := by
    rw [arctan_tan (by nlinarith [pi_pos]) (by nlinarith [pi_pos])]
    field_simp
  have hc : 0 < 1 + tan (α * π / 2) * tan (α * π / 2) := by nlinarith [mul_self_nonneg (tan (α * π / 2))]
  have e1 : cos (π * (v - 0.5)) = sin (π * v) := by
    rw [show π * (v - 0.5) = π * v - π / 2 by ring, cos_sub_pi_div_two]
  have e2 : α * (π * (v - 0.5) + π / 2) = α * (π * v) := by ring
  have e3 : cos (π * (v - 0.5) - α * (π * v)) = sin ((1 - α) * (π * v)) := by
    rw [show π * (v - 0.5) - α * (π * v) = (1 - α) * (π * v) - π / 2 by ring, cos_sub_pi_div_two]
  have ht0 : Fl.pyMin (Fl.pyMax (.fin (-(π / 2))) (.fin (π / 2))) (.fin (π / 2)) = .fin (π / 2) := by
    have : -(π / 2) < π / 2 := by linarith [pi_pos]
    simp [Fl.pyMin, Fl.pyMax, this]
  unfold stableZ
  simp only [tanpi2_eq h0 h1, Fl.fin_mul_fin, one_mul, arctan_fin, Fl.fin_div_fin' _ h0.ne', hat, ht0]
  simp only [Fl.fin_add_fin, Fl.fin_mul_fin, e2, Fl.fin_sub_fin, Fl.cos, Fl.sin, e1, e3,
    Fl.fin_div_fin' _ hw.ne', Fl.pow_pos hs, Fl.pow_pos hc, Fl.pow_pos (div_pos hb hw),
    stableC_eq h0 h1]
  congr 1
  unfold kanter
  ring

theorem not_int_of_mem : ¬ ∃ z : ℤ, (z : ℝ) = α := by
  rintro ⟨z, hz⟩
  rw [← hz] at h0 h1
  have a : 0 < z := by exact_mod_cast h0
  have b : z < 1 := by exact_mod_cast h1
  omega

/-- The scale of the positive stable law drawn. -/
theorem stableC_pos : 0 < cos (α * π / 2) ^ (-1 / α) := rpow_pos_of_pos (stable_cos_pos h0 h1) _

/-- `rvs` for skewness one, `pm = 1`. -/
theorem stableRvs_eq (mode : ℝ → ℝ → Except PyErr Fl) {γ : ℝ} (hγ : 0 ≤ γ) (δ : ℝ) {n : ℕ} (ca v w : Fin n → ℝ)
    (hv : ∀ i, v i ∈ Ioo (0 : ℝ) 1) (hw : ∀ i, 0 < w i) :
    stableRvs mode α 1 (.fin γ) (.fin δ) 1 ca v w
      = .ok fun i => .fin (γ * cos (α * π / 2) ^ (-1 / α) * kanter α (v i) (w i) + δ) := by
  unfold stableRvs stableCheck stableParam
  simp only [bind, Except.bind, pure, Except.pure]
  rw [if_pos (by norm_num), if_pos (by norm_num), if_pos ⟨h0, by linarith⟩, if_pos (by simpa using hγ)]
  simp only [if_true]
  rw [if_neg (by norm_num)]
  refine congrArg Except.ok (funext fun i => ?_)
  rw [stableZ_eq h0 h1 (hv i) (hw i), stableOmega, if_pos (not_int_of_mem h0 h1), tanpi2_eq h0 h1]
  simp only [Fl.fin_mul_fin, Fl.fin_add_fin]
  congr 1
  ring

/-- `rvs` for skewness one, `pm = 0`. -/
theorem stableRvs_eq0 (mode : ℝ → ℝ → Except PyErr Fl) {γ : ℝ} (hγ : 0 ≤ γ) (δ : ℝ) {n : ℕ} (ca v w : Fin n → ℝ)
    (hv : ∀ i, v i ∈ Ioo (0 : ℝ) 1) (hw : ∀ i, 0 < w i) :
    stableRvs mode α 1 (.fin γ) (.fin δ) 0 ca v w
      = .ok fun i => .fin (γ * cos (α * π / 2) ^ (-1 / α) * kanter α (v i) (w i)
          + (δ - γ * tan (α * π / 2))) := by
  unfold stableRvs stableCheck stableParam
  simp only [bind, Except.bind, pure, Except.pure]
  rw [if_pos (by norm_num), if_pos (by norm_num), if_pos ⟨h0, by linarith⟩, if_pos (by simpa using hγ)]
  simp only [zero_ne_one, if_false, OfNat.zero_ne_ofNat]
  rw [if_neg (by norm_num)]
  refine congrArg Except.ok (funext fun i => ?_)
  rw [stableZ_eq h0 h1 (hv i) (hw i)]
  simp only [Fl.fin_mul_fin, Fl.fin_add_fin]
  congr 1
  ring

theorem scaled_laplace {γ : ℝ} (hγ : 0 ≤ γ) (δ : ℝ) {s : ℝ} (hs : 0 ≤ s) :
    ∫⁻ p, ENNReal.ofReal (exp (-(s * (γ * cos (α * π / 2) ^ (-1 / α) * kanter α p.1 p.2 + δ)))) ∂frailSpace
      = ENNReal.ofReal (exp (-(δ * s) - γ ^ α * s ^ α / cos (α * π / 2))) := by
  have hc := stable_cos_pos h0 h1
  have hC := stableC_pos h0 h1
  have h := stable_laplace h0 h1 (s := γ * cos (α * π / 2) ^ (-1 / α) * s) (by positivity)
  have hm : Measurable fun x : ℝ =>
      ENNReal.ofReal (exp (-(x * (γ * cos (α * π / 2) ^ (-1 / α) * s)))) := by fun_prop
  unfold stableLaw at h
  rw [lintegral_map hm (measurable_kanter α)] at h
  have e : ∀ p : ℝ × ℝ,
      ENNReal.ofReal (exp (-(s * (γ * cos (α * π / 2) ^ (-1 / α) * kanter α p.1 p.2 + δ))))
        = ENNReal.ofReal (exp (-(δ * s))) *
          ENNReal.ofReal (exp (-(kanter α p.1 p.2 * (γ * cos (α * π / 2) ^ (-1 / α) * s)))) := by
    intro p
    rw [← ENNReal.ofReal_mul (exp_pos _).le, ← exp_add]
    congr 2
    ring
  simp only [e]
  have hm2 : Measurable fun p : ℝ × ℝ =>
      ENNReal.ofReal (exp (-(kanter α p.1 p.2 * (γ * cos (α * π / 2) ^ (-1 / α) * s)))) :=
    hm.comp (measurable_kanter α)
  rw [lintegral_const_mul _ hm2, h, ← ENNReal.ofReal_mul (exp_pos _).le, ← exp_add]
  congr 2
  rw [mul_rpow (by positivity) hs, mul_rpow hγ hC.le, ← rpow_mul hc.le,
    show -1 / α * α = -1 by field_simp, rpow_neg_one]
  ring

end

/-- C105: for every index below one, skewness one, every scale, location and either of the parametrisations 0 and 1,
`rvs` returns finite values whose law has the Laplace transform of the stable law with these parameters:
`exp (-δ₁ s - γ^α s^α / cos (π α / 2))` with `δ₁ = δ` for `pm = 1` and `δ₁ = δ - γ tan (π α / 2)` for `pm = 0`. -/
theorem stable_rvs_law {α γ δ : ℝ} (h0 : 0 < α) (h1 : α < 1) (hγ : 0 ≤ γ) (pm : ℤ) (hpm : pm = 0 ∨ pm = 1)
    (mode : ℝ → ℝ → Except PyErr Fl) :
    ∃ X : ℝ × ℝ → ℝ, Measurable X ∧
      (∀ s, 0 ≤ s → ∫⁻ p, ENNReal.ofReal (exp (-(s * X p))) ∂frailSpace
        = ENNReal.ofReal (exp (-((if pm = 1 then δ else δ - γ * tan (π * α / 2)) * s)
            - γ ^ α * s ^ α / cos (π * α / 2)))) ∧
      ∀ (n : ℕ) (ca v w : Fin n → ℝ), (∀ i, v i ∈ Ioo (0 : ℝ) 1) → (∀ i, 0 < w i) →
        stableRvs mode α 1 (.fin γ) (.fin δ) pm ca v w = .ok fun i => .fin (X (v i, w i)) := by
  have hk := measurable_kanter α
  rw [mul_comm π α]
  rcases hpm with rfl | rfl
  · exact ⟨fun p => γ * cos (α * π / 2) ^ (-1 / α) * kanter α p.1 p.2 + (δ - γ * tan (α * π / 2)),
      by fun_prop, fun s hs => by
        rw [if_neg zero_ne_one]
        exact scaled_laplace h0 h1 hγ _ hs, fun n ca v w hv hw => stableRvs_eq0 h0 h1 mode hγ δ ca v w hv hw⟩
  · exact ⟨fun p => γ * cos (α * π / 2) ^ (-1 / α) * kanter α p.1 p.2 + δ,
      by fun_prop, fun s hs => by
        rw [if_pos rfl]
        exact scaled_laplace h0 h1 hγ _ hs, fun n ca v w hv hw => stableRvs_eq h0 h1 mode hγ δ ca v w hv hw⟩

example (mode : ℝ → ℝ → Except PyErr Fl) := stable_rvs_law (α := 1 / 2) (γ := 2) (δ := 3) (by norm_num) (by norm_num)
  (by norm_num) 1 (.inr rfl) mode

/-- `rvs` refuses an index outside (0, 2], a skewness outside [-1, 1], a negative or NaN scale and an unknown
parametrisation, and draws nothing. -/
theorem stable_rvs_rejects (mode : ℝ → ℝ → Except PyErr Fl) {α β : ℝ} {γ δ : Fl} {pm : ℤ}
    (h : (pm ≠ 0 ∧ pm ≠ 1 ∧ pm ≠ 2) ∨ 1 < |β| ∨ α ≤ 0 ∨ 2 < α ∨ ¬ Fl.fin 0 ≤ γ) {n : ℕ} (ca v w : Fin n → ℝ) :
    stableRvs mode α β γ δ pm ca v w = .error .assertionError := by
  have : stableCheck α β γ pm = .error .assertionError := by
    unfold stableCheck
    split_ifs with a b c d
    · exfalso
      rcases h with h | h | h | h | h
      · omega
      · linarith
      · linarith [c.1]
      · linarith [c.2]
      · exact h d
    all_goals rfl
  unfold stableRvs
  rw [this]
  rfl

example (mode : ℝ → ℝ → Except PyErr Fl) := stable_rvs_rejects mode (α := 5 / 2) (β := 0) (γ := .fin 1) (δ := .fin 0) (pm := 0)
  (by norm_num) (n := 2) (fun _ => 0) (fun _ => 1 / 2) (fun _ => 1)

/-! ## Gumbel -/

theorem gumbelPsiR_le_iff {θ t b : ℝ} (hθ : 0 < θ) (ht : 0 < t) (hb : 0 < b) (hb1 : b ≤ 1) :
    gumbelPsiR θ t ≤ b ↔ gumbelPhi θ b ≤ t := by
  have hl : 0 ≤ -log b := by linarith [log_nonpos hb.le hb1]
  unfold gumbelPsiR gumbelPhi
  rw [← le_log_iff_exp_le hb, neg_le, one_div, ← rpow_le_rpow_iff hl (by positivity) hθ, ← rpow_mul ht.le,
    inv_mul_cancel₀ hθ.ne', rpow_one]

/-- C104, the sampler proper: for every parameter above `1 + 1e-5 + 1e-8` and every dimension, all uniforms in (0, 1)
and all positive exponential variates, `random` returns finite values in (0, 1) whose joint distribution function is
the Gumbel copula. -/
theorem gumbel_random_law_partial {θ : ℝ} (hθ : 1 + (1 / 10 ^ 8 + 1 / 10 ^ 5) < θ) {d : ℕ}
    (mode : ℝ → ℝ → Except PyErr Fl) :
    ∃ U : ℝ → ℝ × ℝ → ℝ, (Measurable fun q : ℝ × ℝ × ℝ => U q.1 q.2) ∧
      (∀ r ∈ Ioo (0 : ℝ) 1, ∀ p : ℝ × ℝ, p.1 ∈ Ioo (0 : ℝ) 1 → 0 < p.2 → U r p ∈ Ioo (0 : ℝ) 1) ∧
      (∀ b : Fin d → ℝ, (∀ j, 0 < b j ∧ b j ≤ 1) →
        (frailSpace.prod (volume : Measure (Fin d → ℝ)))
          {q | (∀ j, q.2 j ∈ Ioo (0 : ℝ) 1) ∧ ∀ j, U (q.2 j) q.1 ≤ b j} = ENNReal.ofReal (Spec.gumbel θ b)) ∧
      ∀ (n : ℕ) (r r2 : Fin n → Fin d → ℝ) (ca v w : Fin n → ℝ), (∀ i j, r i j ∈ Ioo (0 : ℝ) 1) →
        (∀ i, v i ∈ Ioo (0 : ℝ) 1) → (∀ i, 0 < w i) →
        gumbelRandom mode θ (fun i j => .fin (r i j)) (fun i j => .fin (r2 i j)) ca v w
          = .ok fun i j => .fin (U (r i j) (v i, w i)) := by
  have hθ1 : 1 < θ := lt_trans (by norm_num) hθ
  have hθ0 : 0 < θ := by linarith
  have h0 : 0 < 1 / θ := by positivity
  have h1 : 1 / θ < 1 := by rw [div_lt_one hθ0]; exact hθ1
  have harg : ∀ r ∈ Ioo (0 : ℝ) 1, ∀ x > (0 : ℝ), 0 < -log r / x := fun r hr x hx =>
    div_pos (by linarith [log_neg hr.1 hr.2]) hx
  have hm : Measurable (gumbelPsiR θ) := by
    unfold gumbelPsiR
    fun_prop
  have hU : Measurable fun q : ℝ × ℝ × ℝ => gumbelPsiR θ (-log q.1 / kanter (1 / θ) q.2.1 q.2.2) := by
    have hk : Measurable fun q : ℝ × ℝ × ℝ => kanter (1 / θ) q.2.1 q.2.2 := (measurable_kanter (1 / θ)).comp measurable_snd
    fun_prop
  refine ⟨fun r p => gumbelPsiR θ (-log r / kanter (1 / θ) p.1 p.2), hU, fun r hr p hp hp2 => ?_, fun b hb => ?_,
    fun n r r2 ca v w hr hv hw => ?_⟩
  · have ht := harg r hr _ (kanter_pos h0 h1 hp hp2)
    unfold gumbelPsiR
    exact ⟨exp_pos _, exp_lt_one_iff.mpr (by have := rpow_pos_of_pos ht (1 / θ); linarith)⟩
  · have hφ : ∀ j, 0 ≤ gumbelPhi θ (b j) := fun j => by
      unfold gumbelPhi
      exact rpow_nonneg (by linarith [log_nonpos (hb j).1.le (hb j).2]) _
    have h := frailty_distribution (stableLaw (1 / θ)) (stableLaw_pos h0 h1) (ψ := gumbelPsiR θ)
      (fun s hs => by
        rw [stable_laplace h0 h1 hs]
        rfl) hm hφ fun j t ht => gumbelPsiR_le_iff hθ0 ht (hb j).1 (hb j).2
    have hmap : (stableLaw (1 / θ)).prod (volume : Measure (Fin d → ℝ))
        = (frailSpace.prod volume).map (Prod.map (fun p => kanter (1 / θ) p.1 p.2) id) := by
      rw [← Measure.map_prod_map _ _ (measurable_kanter _) measurable_id, Measure.map_id]
      rfl
    have hS : MeasurableSet {p : ℝ × (Fin d → ℝ) |
        (∀ j, p.2 j ∈ Ioo (0 : ℝ) 1) ∧ ∀ j, gumbelPsiR θ (-log (p.2 j) / p.1) ≤ b j} := by
      have e : {p : ℝ × (Fin d → ℝ) |
          (∀ j, p.2 j ∈ Ioo (0 : ℝ) 1) ∧ ∀ j, gumbelPsiR θ (-log (p.2 j) / p.1) ≤ b j}
          = ⋂ j, {p : ℝ × (Fin d → ℝ) | p.2 j ∈ Ioo (0 : ℝ) 1 ∧
            gumbelPsiR θ (-log (p.2 j) / p.1) ≤ b j} := by
        ext p
        simp only [mem_ofPred_eq, mem_iInter]
        exact forall_and.symm
      rw [e]
      refine MeasurableSet.iInter fun j => ?_
      have m1 : Measurable fun p : ℝ × (Fin d → ℝ) => p.2 j := by fun_prop
      have m2 : Measurable fun p : ℝ × (Fin d → ℝ) => gumbelPsiR θ (-log (p.2 j) / p.1) := by fun_prop
      exact (m1 measurableSet_Ioo).inter (m2 measurableSet_Iic)
    rw [hmap, Measure.map_apply ((measurable_kanter _).prodMap measurable_id) hS] at h
    refine Eq.trans ?_ (h.trans ?_)
    · rfl
    · rfl
  · have hcos := stable_cos_pos h0 h1
    have e1 : cospi2 (1 / θ) = cos (1 / θ * π / 2) := rfl
    have hc1 : cos (1 / θ * π / 2) ^ θ * cos (1 / θ * π / 2) ^ (-1 / (1 / θ)) = 1 := by
      rw [← rpow_add hcos, show θ + -1 / (1 / θ) = 0 by field_simp; ring, rpow_zero]
    unfold gumbelRandom
    rw [if_neg (by linarith), if_neg (by rw [abs_of_pos (by linarith)]; linarith), e1, Fl.pow_pos hcos,
      stableRvs_eq h0 h1 mode (rpow_nonneg hcos.le _) 0 ca v w hv hw, gumbelPsi_ok hθ0.ne']
    simp only [bind, Except.bind, pure, Except.pure]
    refine congrArg Except.ok (funext fun i => funext fun j => ?_)
    have hk := kanter_pos h0 h1 (hv i) (hw i)
    rw [hc1, one_mul, add_zero, Fl.log_pos (hr i j).1, Fl.neg_fin, Fl.fin_div_fin' _ hk.ne',
      Fl.pow_pos (harg _ (hr i j) _ hk), Fl.neg_fin, Fl.exp_fin]
    rfl

example (mode : ℝ → ℝ → Except PyErr Fl) := gumbel_random_law_partial (θ := 2) (by norm_num) (d := 3) mode

theorem cube_le_volume {d : ℕ} {b : Fin d → ℝ} (hb : ∀ j, 0 < b j ∧ b j ≤ 1) :
    (volume : Measure (Fin d → ℝ)) {q | (∀ j, q j ∈ Ioo (0 : ℝ) 1) ∧ ∀ j, q j ≤ b j}
      = ENNReal.ofReal (∏ j, b j) := by
  have e : {q : Fin d → ℝ | (∀ j, q j ∈ Ioo (0 : ℝ) 1) ∧ ∀ j, q j ≤ b j}
      = Set.pi univ fun j => {x | x ∈ Ioo (0 : ℝ) 1 ∧ x ≤ b j} := by
    ext q
    simp only [mem_ofPred_eq, mem_pi, mem_univ, true_imp_iff]
    exact forall_and.symm
  rw [e, volume_pi_pi, ENNReal.ofReal_prod_of_nonneg fun j _ => (hb j).1.le]
  exact Finset.prod_congr rfl fun j _ => volume_section_le (hb j).2 _ fun x _ => Iff.rfl

/-- C104, the independence parameter: with θ = 1 the second matrix of uniforms is returned, whose law is the Gumbel
copula with parameter 1. -/
theorem gumbel_random_one (mode : ℝ → ℝ → Except PyErr Fl) {n d : ℕ} (r r2 : Fin n → Fin d → Fl)
    (ca v w : Fin n → ℝ) :
    gumbelRandom mode 1 r r2 ca v w = .ok r2 ∧
      ∀ b : Fin d → ℝ, (∀ j, 0 < b j ∧ b j ≤ 1) →
        (volume : Measure (Fin d → ℝ)) {q | (∀ j, q j ∈ Ioo (0 : ℝ) 1) ∧ ∀ j, q j ≤ b j}
          = ENNReal.ofReal (Spec.gumbel 1 b) := by
  refine ⟨by unfold gumbelRandom; rw [if_pos (by norm_num)], fun b hb => ?_⟩
  rw [cube_le_volume hb]
  congr 1
  unfold Spec.gumbel
  simp only [rpow_one, div_one]
  rw [Finset.sum_neg_distrib, neg_neg, exp_sum]
  exact Finset.prod_congr rfl fun j _ => (exp_log (hb j).1).symm

/-- C104 fails just above 1: for parameters up to `1 + 1e-5 + 1e-8` independent uniforms are returned, and their law
is not the Gumbel copula of the object. -/
theorem gumbel_random_near_one_fails {θ : ℝ} (hθ : 1 < θ) (hθ2 : θ ≤ 1 + (1 / 10 ^ 8 + 1 / 10 ^ 5))
    (mode : ℝ → ℝ → Except PyErr Fl) {d : ℕ} (hd : 2 ≤ d) :
    (∀ (n : ℕ) (r r2 : Fin n → Fin d → Fl) (ca v w : Fin n → ℝ),
      gumbelRandom mode θ r r2 ca v w = .ok r ∨ gumbelRandom mode θ r r2 ca v w = .ok r2) ∧
    ∃ b : Fin d → ℝ, (∀ j, 0 < b j ∧ b j ≤ 1) ∧
      (volume : Measure (Fin d → ℝ)) {q | (∀ j, q j ∈ Ioo (0 : ℝ) 1) ∧ ∀ j, q j ≤ b j}
        ≠ ENNReal.ofReal (Spec.gumbel θ b) := by
  have h0 : 0 < θ := by linarith
  constructor
  · intro n r r2 ca v w
    unfold gumbelRandom
    split_ifs with h1 h2
    · exact Or.inr rfl
    · exact Or.inl rfl
    · exact absurd (by rw [abs_of_pos (by linarith)]; linarith) h2
  · have hb : ∀ _ : Fin d, (0 : ℝ) < 1 / 2 ∧ (1 / 2 : ℝ) ≤ 1 := fun _ => by norm_num
    refine ⟨fun _ => 1 / 2, hb, ?_⟩
    rw [cube_le_volume hb]
    refine (ENNReal.ofReal_lt_ofReal_iff (exp_pos _)).mpr ?_ |>.ne
    have hl : 0 < -log (1 / 2) := by
      have := log_neg (by norm_num : (0 : ℝ) < 1 / 2) (by norm_num)
      linarith
    have hd' : (1 : ℝ) < d := by exact_mod_cast hd
    rw [Finset.prod_const, Finset.sum_const, Finset.card_univ, Fintype.card_fin, nsmul_eq_mul,
      mul_rpow (by positivity) (by positivity), ← rpow_mul hl.le, mul_one_div_cancel h0.ne', rpow_one,
      ← log_lt_iff_lt_exp (by positivity), log_pow]
    have : (d : ℝ) ^ (1 / θ) < d := by
      conv_rhs => rw [← rpow_one (d : ℝ)]
      exact rpow_lt_rpow_of_exponent_lt hd' (by rw [div_lt_one h0]; exact hθ)
    nlinarith

/-- A parameter meeting the hypotheses: θ = 2, whose frailty is a Lévy variate. -/
example : (1 : ℝ) + (1 / 10 ^ 8 + 1 / 10 ^ 5) < 2 := by norm_num

end Copulae
