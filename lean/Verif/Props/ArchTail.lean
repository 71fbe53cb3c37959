import Mathlib.Analysis.MeanInequalities
import Mathlib.Analysis.SpecialFunctions.Pow.Deriv
import Mathlib.Analysis.SpecialFunctions.Pow.Continuity
import Verif.Props.ArchCdf

/-!
Properties C23 (tail dependence coefficients) and C27 (Pickands function of the Gumbel copula).
-/

namespace Copulae

open Filter Topology Finset

/-! ### C23 -/

/-- `l` is the lower tail dependence coefficient of the bivariate function `C`. -/
def LowerTail (C : (Fin 2 → ℝ) → ℝ) (l : ℝ) : Prop :=
  Tendsto (fun u : ℝ => C ![u, u] / u) (𝓝[>] 0) (𝓝 l)

/-- `l` is the upper tail dependence coefficient of the bivariate function `C`. -/
def UpperTail (C : (Fin 2 → ℝ) → ℝ) (l : ℝ) : Prop :=
  Tendsto (fun u : ℝ => (1 - 2 * u + C ![u, u]) / (1 - u)) (𝓝[<] 1) (𝓝 l)

theorem upperTail_of_deriv {C : (Fin 2 → ℝ) → ℝ} {g : ℝ → ℝ} {m : ℝ} (hg : HasDerivAt g m 1)
    (h1 : g 1 = 1) (he : ∀ᶠ u in 𝓝[<] (1 : ℝ), C ![u, u] = g u) : UpperTail C (2 - m) := by
  have h2 := (hasDerivAt_iff_tendsto_slope.mp hg).mono_left
    (nhdsWithin_mono 1 (fun u (hu : u < 1) => hu.ne) : 𝓝[<] (1 : ℝ) ≤ 𝓝[≠] 1)
  have h3 := h2.const_sub 2
  refine h3.congr' ?_
  filter_upwards [he, self_mem_nhdsWithin] with u hu hlt
  have hlt' : u < 1 := hlt
  have a1 : u - 1 ≠ 0 := by linarith
  have a2 : 1 - u ≠ 0 := by linarith
  rw [hu, slope_def_field, h1]
  field_simp
  ring

theorem lowerTail_of_deriv {C : (Fin 2 → ℝ) → ℝ} {g : ℝ → ℝ} {m : ℝ} (hg : HasDerivAt g m 0)
    (h1 : g 0 = 0) (he : ∀ᶠ u in 𝓝[>] (0 : ℝ), C ![u, u] = g u) : LowerTail C m := by
  have h2 := (hasDerivAt_iff_tendsto_slope.mp hg).mono_left
    (nhdsWithin_mono 0 (fun u (hu : 0 < u) => hu.ne') : 𝓝[>] (0 : ℝ) ≤ 𝓝[≠] 0)
  refine h2.congr' ?_
  filter_upwards [he] with u hu
  rw [hu, slope_def_field, h1, sub_zero, sub_zero]

/-- Near 1 from the left. -/
theorem eventually_Ioo_left {a : ℝ} (ha : a < 1) : ∀ᶠ u in 𝓝[<] (1 : ℝ), a < u ∧ u < 1 := by
  filter_upwards [Ioo_mem_nhdsLT ha] with u hu using hu

theorem eventually_Ioo_right {b : ℝ} (hb : 0 < b) : ∀ᶠ u in 𝓝[>] (0 : ℝ), 0 < u ∧ u < b := by
  filter_upwards [Ioo_mem_nhdsGT hb] with u hu using hu

theorem genC_diag {φ ψ : ℝ → ℝ} {u : ℝ} (hu : 0 < u) : genC φ ψ ![u, u] = ψ (2 * φ u) := by
  have h : ¬ ∃ j, (![u, u] : Fin 2 → ℝ) j = 0 := by
    rintro ⟨j, hj⟩
    fin_cases j <;> exact hu.ne' hj
  rw [genC, if_neg h, Fin.sum_univ_two]
  simp only [Matrix.cons_val_zero, Matrix.cons_val_one]
  rw [two_mul]

theorem clayton_upper_deriv {θ : ℝ} (h : θ ≠ 0) :
    HasDerivAt (fun u : ℝ => (2 * u ^ (-θ) - 1) ^ (-1 / θ)) 2 1 := by
  have h1 : HasDerivAt (fun u : ℝ => u ^ (-θ)) (-θ * 1 ^ (-θ - 1)) 1 :=
    Real.hasDerivAt_rpow_const (Or.inl one_ne_zero)
  have h2 := ((h1.const_mul 2).sub_const 1).rpow_const (p := -1 / θ)
    (Or.inl (by rw [Real.one_rpow]; norm_num))
  refine h2.congr_deriv ?_
  rw [Real.one_rpow, Real.one_rpow]
  norm_num
  field_simp

/-- **C23** Clayton, positive parameter: the reported coefficients are the limits for the function
that `cdf` computes, and lie in the unit interval. -/
theorem clayton_tail {θ : ℝ} (h : θ ≠ 0) (h1 : -1 ≤ θ) :
    ∃ C, Computes .clayton θ 2 C ∧ LowerTail C (claytonLambda θ).1 ∧
      UpperTail C (claytonLambda θ).2 ∧ 0 ≤ (claytonLambda θ).1 ∧ (claytonLambda θ).1 ≤ 1 ∧
      0 ≤ (claytonLambda θ).2 ∧ (claytonLambda θ).2 ≤ 1 := by
  have hadm : Admissible .clayton θ 2 := ⟨le_rfl, h, h1, fun h => absurd rfl h⟩
  refine ⟨_, computes_genC hadm, ?_, ?_, ?_, ?_, le_rfl, zero_le_one⟩
  · rcases lt_or_gt_of_ne h with hn | hp
    · -- eventually zero
      have hl : (claytonLambda θ).1 = 0 := by
        rw [claytonLambda, if_neg (by linarith)]
      rw [hl]
      have hc : Tendsto (fun u : ℝ => u ^ (-θ)) (𝓝[>] 0) (𝓝 0) := by
        have := (Real.continuousAt_rpow_const 0 (-θ) (Or.inr (by linarith))).tendsto
        rw [Real.zero_rpow (by linarith)] at this
        exact this.mono_left nhdsWithin_le_nhds
      have hev := hc.eventually (gt_mem_nhds (by norm_num : (0 : ℝ) < 1 / 2))
      refine (tendsto_const_nhds (x := (0 : ℝ))).congr' ?_
      filter_upwards [hev, self_mem_nhdsWithin] with u hu hpos
      have hpos' : 0 < u := hpos
      rw [genC_diag hpos']
      simp only [Family.psiR, Family.phi, claytonPsiR, claytonPhi, sign_neg hn]
      rw [max_eq_right, Real.zero_rpow, zero_div]
      · exact div_ne_zero (by norm_num) h
      · simp only [SignType.coe_neg, SignType.coe_one]
        linarith
    · have hl : (claytonLambda θ).1 = (2 : ℝ) ^ (-1 / θ) := by
        rw [claytonLambda, if_pos hp]
      rw [hl]
      have hc : Tendsto (fun u : ℝ => (2 - u ^ θ) ^ (-1 / θ)) (𝓝[>] 0) (𝓝 ((2 : ℝ) ^ (-1 / θ))) := by
        have c1 := Real.continuousAt_rpow_const 0 θ (Or.inr hp.le)
        have c2 : ContinuousAt (fun u : ℝ => 2 - u ^ θ) 0 := continuousAt_const.sub c1
        have c3 : ContinuousAt (fun u : ℝ => (2 - u ^ θ) ^ (-1 / θ)) 0 :=
          c2.rpow_const (Or.inl (by rw [Real.zero_rpow hp.ne']; norm_num))
        have := c3.tendsto
        simp only [Real.zero_rpow hp.ne', sub_zero] at this
        exact this.mono_left nhdsWithin_le_nhds
      refine hc.congr' ?_
      filter_upwards [eventually_Ioo_right one_pos] with u hu
      obtain ⟨hu0, hu1⟩ := hu
      rw [genC_diag hu0]
      simp only [Family.psiR, Family.phi, claytonPsiR, claytonPhi, sign_pos hp]
      have hp1 : 0 < u ^ θ := Real.rpow_pos_of_pos hu0 _
      have hp2 : u ^ θ < 1 := Real.rpow_lt_one hu0.le hu1 hp
      have e : (1 : ℝ) + ((1 : SignType) : ℝ) * (2 * (((1 : SignType) : ℝ) * (u ^ (-θ) - 1))) =
          (u ^ θ)⁻¹ * (2 - u ^ θ) := by
        rw [Real.rpow_neg hu0.le]
        simp only [SignType.coe_one]
        field_simp
        ring
      rw [e, max_eq_left (mul_nonneg (by positivity) (by linarith)),
        Real.mul_rpow (by positivity) (by linarith), ← Real.rpow_neg hu0.le, ← Real.rpow_mul hu0.le,
        show -θ * (-1 / θ) = 1 by field_simp, Real.rpow_one, mul_div_assoc, mul_comm,
        div_mul_cancel₀ _ hu0.ne']
  · have hm : (claytonLambda θ).2 = 2 - 2 := by simp [claytonLambda]
    rw [hm]
    refine upperTail_of_deriv (clayton_upper_deriv h) (by norm_num) ?_
    have hc : Tendsto (fun u : ℝ => 2 * u ^ (-θ) - 1) (𝓝[<] 1) (𝓝 1) := by
      have c1 := Real.continuousAt_rpow_const 1 (-θ) (Or.inl one_ne_zero)
      have c2 : ContinuousAt (fun u : ℝ => 2 * u ^ (-θ) - 1) 1 :=
        (continuousAt_const.mul c1).sub continuousAt_const
      have := c2.tendsto
      simp only [Real.one_rpow] at this
      norm_num at this
      exact this.mono_left nhdsWithin_le_nhds
    have hev := hc.eventually (lt_mem_nhds (by norm_num : (0 : ℝ) < 1))
    filter_upwards [hev, eventually_Ioo_left one_pos] with u hu hu2
    rw [genC_diag hu2.1]
    simp only [Family.psiR, Family.phi, claytonPsiR, claytonPhi]
    have hs : (((SignType.sign θ : SignType) : ℝ)) * ((SignType.sign θ : SignType) : ℝ) = 1 := by
      rcases lt_or_gt_of_ne h with hn | hp
      · rw [sign_neg hn]; norm_num
      · rw [sign_pos hp]; norm_num
    have e : (1 : ℝ) + ((SignType.sign θ : SignType) : ℝ) *
        (2 * (((SignType.sign θ : SignType) : ℝ) * (u ^ (-θ) - 1))) = 2 * u ^ (-θ) - 1 := by
      linear_combination (2 * (u ^ (-θ) - 1)) * hs
    rw [e, max_eq_left hu.le]
  · simp only [claytonLambda]
    split_ifs
    · positivity
    · exact le_rfl
  · simp only [claytonLambda]
    split_ifs with hp
    · exact Real.rpow_le_one_of_one_le_of_nonpos (by norm_num)
        (div_nonpos_of_nonpos_of_nonneg (by norm_num) (le_of_lt hp))
    · exact zero_le_one

example := clayton_tail (θ := -1 / 2) (by norm_num) (by norm_num)

theorem gumbel_diag {θ u : ℝ} (h : 1 ≤ θ) (hu : 0 < u) (hu1 : u ≤ 1) :
    genC (gumbelPhi θ) (gumbelPsiR θ) ![u, u] = u ^ ((2 : ℝ) ^ (1 / θ)) := by
  have hl : 0 ≤ -Real.log u := by have := Real.log_nonpos hu.le hu1; linarith
  rw [genC_diag hu]
  simp only [gumbelPhi, gumbelPsiR]
  rw [Real.mul_rpow (by norm_num) (Real.rpow_nonneg hl _), ← Real.rpow_mul hl,
    mul_one_div_cancel (by linarith), Real.rpow_one, Real.rpow_def_of_pos hu]
  congr 1
  ring

/-- **C23** (partial: the reported upper coefficient is wrong, see the last conjunct) Gumbel: the
lower coefficient is the limit, and the upper coefficient of the function that `cdf` computes is
`2 - 2 ^ (1/theta)`; `lambda_` reports a number that is never this limit and always exceeds one. -/
theorem gumbel_tail_partial {θ : ℝ} (h : 1 ≤ θ) :
    ∃ C, Computes .gumbel θ 2 C ∧ LowerTail C (gumbelLambda θ).1 ∧
      UpperTail C (2 - (2 : ℝ) ^ (1 / θ)) ∧
      ¬ UpperTail C (gumbelLambda θ).2 ∧ 1 < (gumbelLambda θ).2 := by
  have hadm : Admissible .gumbel θ 2 := ⟨le_rfl, h⟩
  have h0 : 0 < θ := by linarith
  have hge : 1 < (2 : ℝ) ^ (1 / θ) := Real.one_lt_rpow (by norm_num) (by positivity)
  have hup : UpperTail (genC (Family.phi .gumbel θ) (Family.psiR .gumbel θ))
      (2 - (2 : ℝ) ^ (1 / θ)) := by
    refine upperTail_of_deriv (g := fun u => u ^ ((2 : ℝ) ^ (1 / θ))) ?_ (Real.one_rpow _) ?_
    · have := Real.hasDerivAt_rpow_const (x := 1) (p := (2 : ℝ) ^ (1 / θ)) (Or.inl one_ne_zero)
      rwa [Real.one_rpow, mul_one] at this
    · filter_upwards [eventually_Ioo_left one_pos] with u hu
      exact gumbel_diag h hu.1 hu.2.le
  refine ⟨_, computes_genC hadm, ?_, hup, ?_, ?_⟩
  · have hl : (gumbelLambda θ).1 = (0 : ℝ) ^ ((2 : ℝ) ^ (1 / θ) - 1) := by
      rw [Real.zero_rpow (by linarith)]; rfl
    rw [LowerTail, hl]
    have hc := (Real.continuousAt_rpow_const 0 ((2 : ℝ) ^ (1 / θ) - 1) (Or.inr (by linarith))).tendsto
    refine (hc.mono_left nhdsWithin_le_nhds).congr' ?_
    filter_upwards [eventually_Ioo_right one_pos] with u hu
    simp only [Family.phi, Family.psiR]
    rw [gumbel_diag h hu.1 hu.2.le, Real.rpow_sub hu.1, Real.rpow_one]
  · intro hbad
    have : NeBot (𝓝[<] (1 : ℝ)) := inferInstance
    have he := tendsto_nhds_unique hup hbad
    simp only [gumbelLambda] at he
    linarith
  · simp only [gumbelLambda]
    linarith

example := gumbel_tail_partial (θ := 5 / 2) (by norm_num)

theorem frank_diag_spec (θ u : ℝ) : Spec.frank θ ![u, u] =
    -1 / θ * Real.log (1 + (Real.exp (-θ * u) - 1) ^ 2 / (Real.exp (-θ) - 1)) := by
  simp [Spec.frank, Fin.prod_univ_two, sq]

theorem frank_diag_deriv {θ u : ℝ} (hpos : 0 < 1 + (Real.exp (-θ * u) - 1) ^ 2 / (Real.exp (-θ) - 1)) :
    HasDerivAt (fun u : ℝ => -1 / θ * Real.log (1 + (Real.exp (-θ * u) - 1) ^ 2 / (Real.exp (-θ) - 1)))
      (-1 / θ * (2 * (Real.exp (-θ * u) - 1) * (Real.exp (-θ * u) * (-θ)) / (Real.exp (-θ) - 1) /
        (1 + (Real.exp (-θ * u) - 1) ^ 2 / (Real.exp (-θ) - 1)))) u := by
  have h1 : HasDerivAt (fun x : ℝ => Real.exp (-θ * x) - 1) (Real.exp (-θ * u) * (-θ)) u := by
    have := (((hasDerivAt_id u).const_mul (-θ)).exp.sub_const 1)
    simpa using this
  have h2 := (((h1.pow 2).div_const (Real.exp (-θ) - 1)).const_add 1).log hpos.ne'
  have h3 := h2.const_mul (-1 / θ)
  simpa using h3

/-- **C23** (partial: `cdf` violates it at the lower end, see `frank_lower_tail_fails`) Frank: both
coefficients are zero, for the function that `cdf` computes (upper) and for the closed form of the
Frank copula (lower and upper). -/
theorem frank_tail_partial {θ : ℝ} (h : θ ≠ 0) (h36 : -36 < θ) :
    (∃ C, Computes .frank θ 2 C ∧ UpperTail C (frankLambda θ).2) ∧
    LowerTail (Spec.frank θ) (frankLambda θ).1 ∧ UpperTail (Spec.frank θ) (frankLambda θ).2 := by
  have hem := exp_neg_ne h
  have hup : UpperTail (Spec.frank θ) (frankLambda θ).2 := by
    have hval : 1 + (Real.exp (-θ * 1) - 1) ^ 2 / (Real.exp (-θ) - 1) = Real.exp (-θ) := by
      rw [mul_one, sq, mul_div_assoc, div_self hem]; ring
    have hd := frank_diag_deriv (θ := θ) (u := 1) (by rw [hval]; positivity)
    have hm : (frankLambda θ).2 = 2 - 2 := by simp [frankLambda]
    rw [hm]
    refine upperTail_of_deriv (hd.congr_deriv ?_) ?_ (Eventually.of_forall fun u => frank_diag_spec θ u)
    · rw [hval, mul_one]
      have := Real.exp_ne_zero (-θ)
      field_simp
    · simp only [hval, Real.log_exp]
      field_simp
  refine ⟨⟨_, computes_genC (F := .frank) (θ := θ) (d := 2) ⟨le_rfl, h, h36, fun h => absurd rfl h⟩, ?_⟩,
    ?_, hup⟩
  · refine hup.congr' ?_
    filter_upwards [eventually_Ioo_left (by norm_num : (1 / 100 : ℝ) < 1)] with u hu
    have hu0 : 0 < u := by linarith [hu.1]
    congr 2
    rw [genC_diag hu0, frank_diag_spec]
    simp only [Family.psiR, Family.phi, frankPsiR, frankPhi]
    have hr := frank_ratio_pos h hu0
    rw [show -(2 * -Real.log ((Real.exp (-θ * u) - 1) / (Real.exp (-θ) - 1))) =
        Real.log ((Real.exp (-θ * u) - 1) / (Real.exp (-θ) - 1)) +
          Real.log ((Real.exp (-θ * u) - 1) / (Real.exp (-θ) - 1)) by ring, Real.exp_add,
      Real.exp_log hr]
    rw [show (Real.exp (-θ * u) - 1) / (Real.exp (-θ) - 1) *
        ((Real.exp (-θ * u) - 1) / (Real.exp (-θ) - 1)) * (Real.exp (-θ) - 1) =
        (Real.exp (-θ * u) - 1) ^ 2 / (Real.exp (-θ) - 1) by field_simp]
    ring
  · have hval : 1 + (Real.exp (-θ * 0) - 1) ^ 2 / (Real.exp (-θ) - 1) = 1 := by simp
    have hd := frank_diag_deriv (θ := θ) (u := 0) (by rw [hval]; norm_num)
    refine lowerTail_of_deriv (hd.congr_deriv ?_) (by simp)
      (Eventually.of_forall fun u => frank_diag_spec θ u)
    simp [frankLambda]

example := frank_tail_partial (θ := -7) (by norm_num) (by norm_num)

/-- Violation of **C23**: as computed by the code, `C(u, u) / u` is unbounded near zero for every
positive Frank parameter, although `lambda_` reports lower tail dependence 0. -/
theorem frank_lower_tail_fails {θ : ℝ} (h : 0 < θ) (M : ℝ) :
    ∃ u c : ℝ, 0 < u ∧ u ≤ 1 ∧ archCdf .frank θ 2 (fun (_ : Fin 1) (_ : Fin 2) => .fin u) false =
      .ok (fun _ => .fin c) ∧ M < c / u := by
  have hcont : Tendsto (fun u : ℝ => frankPsiR θ (2 * (u * θ))) (𝓝[>] 0) (𝓝 1) := by
    have h1 := (frankPsiR_hasDerivAt (θ := θ) (s := 0) le_rfl).continuousAt
    have h2 : ContinuousAt (fun u : ℝ => 2 * (u * θ)) 0 := by fun_prop
    have h3 : ContinuousAt (fun u : ℝ => frankPsiR θ (2 * (u * θ))) 0 :=
      ContinuousAt.comp (f := fun u : ℝ => 2 * (u * θ)) (g := frankPsiR θ) (by simpa using h1) h2
    have h4 := h3.tendsto
    simp only [zero_mul, mul_zero, frankPsiR_zero h.ne'] at h4
    exact h4.mono_left nhdsWithin_le_nhds
  have hev := hcont.eventually (lt_mem_nhds (by norm_num : (1 / 2 : ℝ) < 1))
  have hM : (0 : ℝ) < 1 / (2 * (|M| + 1)) := by positivity
  obtain ⟨u, hu1, hu2, hu0, hu3⟩ := (hev.and ((eventually_Ioo_right
    (by norm_num : (0 : ℝ) < 1 / 100)).and (eventually_Ioo_right hM))).exists
  refine ⟨u, frankPsiR θ (2 * (u * θ)), hu0, by linarith [hu2.2], ?_, ?_⟩
  · have hi : frankIpsi θ (.fin u) = .fin (u * θ) := by
      simp only [frankIpsi]
      rw [Fl.fin_mul_fin, if_neg]
      rw [Fl.abs_fin, Fl.fin_lt_fin, not_lt, abs_mul, abs_of_pos hu0]
      exact mul_le_mul_of_nonneg_right hu2.2.le (abs_nonneg θ)
    unfold archCdf
    rw [if_neg (by simp)]
    simp only [Family.psi, Family.ipsi, hi, Bind.bind, Except.bind, Pure.pure, Except.pure,
      Bool.false_eq_true, if_false]
    refine congrArg Except.ok (funext fun i => ?_)
    rw [Fin.sum_univ_two, Fl.fin_add_fin, ← two_mul, frankPsi_fin h.ne' (by linarith) (by positivity)]
  · rw [lt_div_iff₀ hu0]
    have h5 : M * u ≤ |M| * u := mul_le_mul_of_nonneg_right (le_abs_self M) hu0.le
    have h6 : u * (2 * (|M| + 1)) < 1 := by
      rwa [lt_div_iff₀ (by positivity)] at hu3
    nlinarith [abs_nonneg M]

example := frank_lower_tail_fails (θ := 3) (by norm_num) 1000

/-! ### C27 -/

/-- Minkowski's inequality for two coordinates. -/
theorem lp_two {p : ℝ} (hp : 1 ≤ p) {a b c d : ℝ} (ha : 0 ≤ a) (hb : 0 ≤ b) (hc : 0 ≤ c) (hd : 0 ≤ d) :
    ((a + c) ^ p + (b + d) ^ p) ^ (1 / p) ≤ (a ^ p + b ^ p) ^ (1 / p) + (c ^ p + d ^ p) ^ (1 / p) := by
  have := Real.Lp_add_le_of_nonneg (s := (Finset.univ : Finset (Fin 2))) (f := ![a, b]) (g := ![c, d])
    hp (by intro i _; fin_cases i <;> simpa) (by intro i _; fin_cases i <;> simpa)
  simpa [Fin.sum_univ_two] using this

theorem lp_two_smul {p t : ℝ} (hp : 1 ≤ p) (ht : 0 ≤ t) {a b : ℝ} (ha : 0 ≤ a) (hb : 0 ≤ b) :
    ((t * a) ^ p + (t * b) ^ p) ^ (1 / p) = t * (a ^ p + b ^ p) ^ (1 / p) := by
  rw [Real.mul_rpow ht ha, Real.mul_rpow ht hb, ← mul_add,
    Real.mul_rpow (Real.rpow_nonneg ht _) (add_nonneg (Real.rpow_nonneg ha _) (Real.rpow_nonneg hb _)),
    ← Real.rpow_mul ht, mul_one_div_cancel (by linarith), Real.rpow_one]

theorem gumbel_pickands_cdf {θ : ℝ} (h : 1 ≤ θ) {x : Fin 2 → ℝ} (hu0 : 0 < x 0) (hu1 : x 0 < 1)
    (hv0 : 0 < x 1) (hv1 : x 1 < 1) :
    genC (gumbelPhi θ) (gumbelPsiR θ) x = (x 0 * x 1) ^
      (((Real.log (x 1) / Real.log (x 0 * x 1)) ^ θ +
        (1 - Real.log (x 1) / Real.log (x 0 * x 1)) ^ θ) ^ (1 / θ)) := by
  have hz : ¬ ∃ j, x j = 0 := by
    rintro ⟨j, hj⟩
    fin_cases j
    · exact hu0.ne' hj
    · exact hv0.ne' hj
  rw [genC, if_neg hz, Fin.sum_univ_two, Real.rpow_def_of_pos (mul_pos hu0 hv0),
    Real.log_mul hu0.ne' hv0.ne']
  have hs : 0 < -Real.log (x 0) := by have := Real.log_neg hu0 hu1; linarith
  have ht : 0 < -Real.log (x 1) := by have := Real.log_neg hv0 hv1; linarith
  simp only [gumbelPhi, gumbelPsiR]
  set s := -Real.log (x 0)
  set t := -Real.log (x 1)
  have e0 : Real.log (x 0) = -s := by simp [s]
  have e1 : Real.log (x 1) = -t := by simp [t]
  have hst : 0 < s + t := by linarith
  have e2 : -t / (-s + -t) = t / (s + t) := by rw [← neg_add, neg_div_neg_eq]
  have e3 : 1 - t / (s + t) = s / (s + t) := by field_simp; ring
  rw [e0, e1, e2, e3]
  have e4 := lp_two_smul h hst.le (a := t / (s + t)) (b := s / (s + t)) (by positivity) (by positivity)
  rw [mul_div_cancel₀ _ hst.ne', mul_div_cancel₀ _ hst.ne'] at e4
  rw [add_comm (s ^ θ), e4]
  congr 1
  ring

/-- **C27** The function computed by `A` on arrays is a Pickands dependence function, and the
bivariate `cdf` is the extreme value copula of it. (A single number raises, see
`gumbelA_scalar_fails`.) -/
theorem gumbel_pickands {θ : ℝ} (h : 1 ≤ θ) : ∃ A : ℝ → ℝ,
    (∀ l : List ℝ, (∀ w ∈ l, 0 ≤ w ∧ w ≤ 1) →
      gumbelA' θ (.arr (l.map fun w : ℝ => Fl.fin w)) = .ok (.arr (l.map fun w : ℝ => .fin (A w)))) ∧
    A 0 = 1 ∧ A 1 = 1 ∧
    (∀ w, 0 ≤ w → w ≤ 1 → max w (1 - w) ≤ A w ∧ 1 / 2 ≤ A w ∧ A w ≤ 1 ∧ A (1 - w) = A w) ∧
    ConvexOn ℝ (Set.Icc 0 1) A ∧
    ∀ (n : ℕ) (x : Fin n → Fin 2 → ℝ), (∀ i j, 0 < x i j ∧ x i j < 1) →
      archCdf .gumbel θ 2 (fun i j => .fin (x i j)) false =
        .ok fun i => .fin ((x i 0 * x i 1) ^ A (Real.log (x i 1) / Real.log (x i 0 * x i 1))) := by
  have h0 : 0 < θ := by linarith
  have hne : θ ≠ 0 := h0.ne'
  refine ⟨fun w => (w ^ θ + (1 - w) ^ θ) ^ (1 / θ), ?_, ?_, ?_, ?_, ?_, ?_⟩
  · intro l hl
    simp only [gumbelA']
    rw [if_neg hne, List.map_map]
    congr 2
    apply List.map_congr_left
    intro w hw
    obtain ⟨hw0, hw1⟩ := hl w hw
    simp only [Function.comp, Fl.fin.injEq]
    split_ifs with hb
    · rcases hb with rfl | rfl
      · simp [Real.zero_rpow hne]
      · simp [Real.zero_rpow hne]
    · push Not at hb
      have hw0' : 0 < w := lt_of_le_of_ne hw0 (Ne.symm hb.1)
      have hw1' : w < 1 := lt_of_le_of_ne hw1 hb.2
      have hp1 := Real.rpow_pos_of_pos hw0' θ
      have hp2 := Real.rpow_pos_of_pos (by linarith : 0 < 1 - w) θ
      rw [Fl.pow_pos hw0', Fl.fin_sub_fin, Fl.pow_pos (by linarith : 0 < 1 - w), Fl.fin_add_fin,
        Fl.pow_pos (by positivity)]
  · simp [Real.zero_rpow hne]
  · simp [Real.zero_rpow hne]
  · intro w hw0 hw1
    have hw1' : 0 ≤ 1 - w := by linarith
    have hp1 := Real.rpow_nonneg hw0 θ
    have hp2 := Real.rpow_nonneg hw1' θ
    have e1 : w ≤ (w ^ θ + (1 - w) ^ θ) ^ (1 / θ) := by
      calc w = (w ^ θ) ^ (1 / θ) := by rw [← Real.rpow_mul hw0, mul_one_div_cancel hne, Real.rpow_one]
        _ ≤ _ := Real.rpow_le_rpow hp1 (by linarith) (by positivity)
    have e2 : 1 - w ≤ (w ^ θ + (1 - w) ^ θ) ^ (1 / θ) := by
      calc 1 - w = ((1 - w) ^ θ) ^ (1 / θ) := by
            rw [← Real.rpow_mul hw1', mul_one_div_cancel hne, Real.rpow_one]
        _ ≤ _ := Real.rpow_le_rpow hp2 (by linarith) (by positivity)
    refine ⟨max_le e1 e2, by linarith, ?_, ?_⟩
    · have a1 : w ^ θ ≤ w := by
        simpa using Real.rpow_le_rpow_of_exponent_ge_of_imp hw0 hw1 h (by intro _ hh; linarith)
      have a2 : (1 - w) ^ θ ≤ 1 - w := by
        simpa using Real.rpow_le_rpow_of_exponent_ge_of_imp hw1' (by linarith) h
          (by intro _ hh; linarith)
      exact Real.rpow_le_one (by linarith) (by linarith) (by positivity)
    · simp only [sub_sub_cancel]
      rw [add_comm]
  · refine ⟨convex_Icc 0 1, ?_⟩
    intro x hx y hy s t hs ht hst
    have hs1 : 0 ≤ 1 - x := by linarith [hx.2]
    have ht1 : 0 ≤ 1 - y := by linarith [hy.2]
    have e : 1 - (s * x + t * y) = s * (1 - x) + t * (1 - y) := by linear_combination (-1) * hst
    simp only [smul_eq_mul]
    rw [e, ← lp_two_smul h hs hx.1 hs1, ← lp_two_smul h ht hy.1 ht1]
    exact lp_two h (mul_nonneg hs hx.1) (mul_nonneg hs hs1) (mul_nonneg ht hy.1) (mul_nonneg ht ht1)
  · intro n x hx
    rw [computes_genC (F := .gumbel) (θ := θ) (d := 2) ⟨le_rfl, h⟩ n x
      (fun i j => ⟨(hx i j).1.le, (hx i j).2.le⟩)]
    refine congrArg Except.ok (funext fun i => congrArg Fl.fin ?_)
    obtain ⟨hu0, hu1⟩ := hx i 0
    obtain ⟨hv0, hv1⟩ := hx i 1
    exact gumbel_pickands_cdf h hu0 hu1 hv0 hv1

example := gumbel_pickands (θ := 5 / 2) (by norm_num)

/-- Violation of **C27**: for a single number the code assigns into a NumPy scalar. -/
theorem gumbelA_scalar_fails {θ : ℝ} (h : θ ≠ 0) (w : Fl) :
    gumbelA' θ (.scalar w) = .error .typeError := by
  simp [gumbelA', h]

example := gumbelA_scalar_fails (θ := 5 / 2) (by norm_num) (.fin (1 / 3))

end Copulae
