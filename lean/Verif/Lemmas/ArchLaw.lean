import Verif.Lemmas.GumbelTau
import Verif.Lemmas.PdfClayton
import Verif.Lemmas.PdfFrank
import Verif.Props.ArchPdf
import Verif.Props.Frailty

/-!
Existence of the laws with the Archimedean copulas as distribution functions, and their densities.
-/

namespace Copulae

open MeasureTheory Set Filter Topology ProbabilityTheory

theorem Spec.IsLawOf.congr {d : ℕ} {P : Measure (Fin d → ℝ)} {C C' : (Fin d → ℝ) → ℝ} (h : Spec.IsLawOf P C)
    (he : ∀ b : Fin d → ℝ, (∀ j, 0 < b j ∧ b j ≤ 1) → C b = C' b) : Spec.IsLawOf P C' :=
  ⟨h.prob, h.mem, fun b hb => (h.dist b hb).trans (he b hb)⟩

/-- A law on pairs as a law on vectors of length two. -/
theorem law_of_pairLaw {Q : Measure (ℝ × ℝ)} {C : (Fin 2 → ℝ) → ℝ} (h : PairLaw Q fun a b => C ![a, b]) :
    Spec.IsLawOf (Q.map fun p => ![p.1, p.2]) C := by
  have := h.prob
  have hm : Measurable fun p : ℝ × ℝ => (![p.1, p.2] : Fin 2 → ℝ) := by
    rw [measurable_pi_iff]
    intro j
    fin_cases j
    · exact measurable_fst
    · exact measurable_snd
  have hms : MeasurableSet {x : Fin 2 → ℝ | ∀ j, 0 < x j ∧ x j < 1} := (isOpen_cube 2).measurableSet
  refine ⟨Measure.isProbabilityMeasure_map hm.aemeasurable, ?_, fun b hb => ?_⟩
  · rw [ae_map_iff hm.aemeasurable hms]
    filter_upwards [h.mem] with p hp j
    fin_cases j
    · exact hp.1
    · exact hp.2
  · have hbox : MeasurableSet {x : Fin 2 → ℝ | ∀ j, x j ≤ b j} := by
      have : {x : Fin 2 → ℝ | ∀ j, x j ≤ b j} = ⋂ j, {x | x j ≤ b j} := by ext; simp
      rw [this]
      exact MeasurableSet.iInter fun j => measurable_pi_apply j measurableSet_Iic
    have hb' := h.dist (b 0) (b 1) (hb 0).1 (hb 0).2 (hb 1).1 (hb 1).2
    have e : (![b 0, b 1] : Fin 2 → ℝ) = b := by
      funext j
      fin_cases j <;> rfl
    rw [e] at hb'
    rw [Spec.distFn, measureReal_def, Measure.map_apply hm hbox, ← hb', measureReal_def]
    have e2 : (fun p : ℝ × ℝ => (![p.1, p.2] : Fin 2 → ℝ)) ⁻¹' {x | ∀ j, x j ≤ b j} = Iic (b 0) ×ˢ Iic (b 1) := by
      ext p
      simp [Fin.forall_fin_two, Prod.le_def]
    rw [e2]

/-- The density of the law, from a density of one law with the same distribution function. -/
theorem density_of_law {d : ℕ} {P : Measure (Fin d → ℝ)} {C : (Fin d → ℝ) → ℝ} {g h : (Fin d → ℝ) → ℝ}
    (hP : Spec.IsLawOf P C) (hg : Spec.IsLawOf (densityLaw g) C)
    (hgm : AEMeasurable g ((volume : Measure (Fin d → ℝ)).restrict (openCube d))) (h0 : ∀ x ∈ openCube d, 0 ≤ g x)
    (hgh : ∀ x ∈ openCube d, g x = h x) : Spec.HasCubeDensity P h := by
  rw [hP.unique hg]
  have := hg.prob
  have hd := densityLaw_hasDensity hgm h0
  intro s hs
  obtain ⟨a, b⟩ := hd s hs
  have hms : MeasurableSet (s ∩ {u : Fin d → ℝ | ∀ j, 0 < u j ∧ u j < 1}) := hs.inter (isOpen_cube d).measurableSet
  refine ⟨a.congr_fun (fun x hx => hgh x hx.2) hms, ?_⟩
  rw [b]
  exact setIntegral_congr_fun hms fun x hx => hgh x hx.2

theorem genDensity_aemeasurable {d : ℕ} (hd : 1 ≤ d) {ψ : ℕ → ℝ → ℝ}
    (hψd : ∀ k s, 0 < s → HasDerivAt (ψ k) (ψ (k + 1) s) s) {φ φ' : ℝ → ℝ} (hφ : IsInvGen φ φ') :
    AEMeasurable (fun x : Fin d → ℝ => ψ d (∑ j, φ (x j)) * ∏ j, φ' (x j))
      ((volume : Measure (Fin d → ℝ)).restrict (openCube d)) := by
  have hne : (Finset.univ : Finset (Fin d)).Nonempty := ⟨⟨0, hd⟩, Finset.mem_univ _⟩
  have hc : ContinuousOn (fun x : Fin d → ℝ => ψ d (∑ j, φ (x j))) (openCube d) := by
    intro x hx
    have hpos : 0 < ∑ j, φ (x j) := Finset.sum_pos (fun j _ => hφ.pos _ (hx j)) hne
    have h1 : ContinuousAt (fun x : Fin d → ℝ => ∑ j, φ (x j)) x := by
      refine tendsto_finsetSum _ fun j _ => ?_
      exact ContinuousAt.comp (g := φ) (f := fun x : Fin d → ℝ => x j) (hφ.deriv _ (hx j)).continuousAt
        (continuous_apply j).continuousAt
    exact (ContinuousAt.comp (g := ψ d) (f := fun x : Fin d → ℝ => ∑ j, φ (x j)) (hψd d _ hpos).continuousAt
      h1).continuousWithinAt
  have hm := hφ.meas'
  have hp : Measurable fun x : Fin d → ℝ => ∏ j, φ' (x j) := by fun_prop
  exact (hc.aemeasurable (measurableSet_openCube d)).mul hp.aemeasurable

/-! ### Clayton -/

/-- Derivatives of the Clayton generator. -/
noncomputable def claytonPsiK (θ : ℝ) (k : ℕ) (s : ℝ) : ℝ :=
  ((1 : ℝ) ^ k * ∏ i ∈ Finset.range k, (-1 / θ - (i : ℝ))) * (1 + 1 * s) ^ (-1 / θ - k)

theorem claytonPsiK_zero (θ s : ℝ) : claytonPsiK θ 0 s = (1 + s) ^ (-(1 / θ)) := by
  simp [claytonPsiK, neg_div]

theorem claytonPsiK_hasDerivAt (θ : ℝ) (k : ℕ) {s : ℝ} (hs : 0 < s) :
    HasDerivAt (claytonPsiK θ k) (claytonPsiK θ (k + 1) s) s := by
  have h1 : HasDerivAt (fun s : ℝ => 1 + 1 * s) 1 s := by
    simpa using (hasDerivAt_id s).const_add 1
  have h2 := (h1.rpow_const (p := -1 / θ - k) (Or.inl (by linarith))).const_mul
    ((1 : ℝ) ^ k * ∏ i ∈ Finset.range k, (-1 / θ - (i : ℝ)))
  refine h2.congr_deriv ?_
  rw [claytonPsiK, Finset.prod_range_succ]
  push_cast
  rw [show -1 / θ - ((k : ℝ) + 1) = -1 / θ - k - 1 by ring]
  simp only [one_pow]
  ring

theorem isInvGen_clayton {θ : ℝ} (h : 0 < θ) : IsInvGen (fun u => u ^ (-θ) - 1) fun u => -θ * u ^ (-θ - 1) where
  meas := by fun_prop
  meas' := by fun_prop
  deriv u hu := ((Real.hasDerivAt_rpow_const (p := -θ) (Or.inl hu.1.ne')).sub_const 1)
  anti u hu := mul_nonpos_of_nonpos_of_nonneg (by linarith) (Real.rpow_nonneg hu.1.le _)
  pos u hu := by
    have := Real.one_lt_rpow_of_pos_of_lt_one_of_neg hu.1 hu.2 (by linarith : -θ < 0)
    linarith
  top := (tendsto_rpow_neg_nhdsGT_zero (by linarith)).atTop_add (tendsto_const_nhds (x := (-1 : ℝ)))
  cont := ((Real.continuousAt_rpow_const 1 (-θ) (Or.inl one_ne_zero)).sub continuousAt_const).continuousWithinAt
  one := by simp

theorem clayton_sum_spec {θ : ℝ} (h : 0 < θ) {d : ℕ} {b : Fin d → ℝ} (hb : ∀ j, 0 < b j ∧ b j ≤ 1) :
    claytonPsiK θ 0 (∑ j, (b j ^ (-θ) - 1)) = Spec.clayton θ b := by
  have hφ : ∀ j, 0 ≤ b j ^ (-θ) - 1 := fun j => by
    have := Real.one_le_rpow_of_pos_of_le_one_of_nonpos (hb j).1 (hb j).2 (by linarith : -θ ≤ 0)
    linarith
  have hs := Finset.sum_nonneg fun j (_ : j ∈ Finset.univ) => hφ j
  rw [Finset.sum_sub_distrib, Finset.sum_const, Finset.card_univ, Fintype.card_fin, nsmul_eq_mul, mul_one] at hs ⊢
  rw [claytonPsiK_zero, Spec.clayton, max_eq_left (by linarith)]
  congr 1 <;> ring

theorem clayton_mixture {θ : ℝ} (h : 0 < θ) {d : ℕ} (hd : 1 ≤ d) :
    (∀ x ∈ openCube d, 0 ≤ claytonPsiK θ d (∑ j, (x j ^ (-θ) - 1)) * ∏ j, (-θ * x j ^ (-θ - 1))) ∧
    Spec.IsLawOf (densityLaw fun x : Fin d → ℝ =>
      claytonPsiK θ d (∑ j, (x j ^ (-θ) - 1)) * ∏ j, (-θ * x j ^ (-θ - 1))) (Spec.clayton θ) := by
  have : IsProbabilityMeasure (gammaMeasure (1 / θ) 1) := isProbabilityMeasure_gammaMeasure (by positivity) one_pos
  obtain ⟨a, b⟩ := mixture_law hd (gammaMeasure (1 / θ) 1) gamma_pos (ψ := claytonPsiK θ)
    (fun s hs => by rw [gamma_laplace (by positivity) hs, claytonPsiK_zero])
    (fun s hs => by rw [claytonPsiK_zero]; exact Real.rpow_nonneg (by linarith) _)
    (fun k s hs => claytonPsiK_hasDerivAt θ k hs) (isInvGen_clayton h)
  exact ⟨a, b.congr fun b hb => clayton_sum_spec h hb⟩

/-! ### Gumbel -/

theorem isInvGen_gumbel {θ : ℝ} (h : 1 ≤ θ) : IsInvGen (gumbelPhi θ) (gumbelPhi' θ) where
  meas := by
    unfold gumbelPhi
    fun_prop
  meas' := by
    unfold gumbelPhi'
    fun_prop
  deriv u hu := gumbelPhi_hasDerivAt hu.1 hu.2
  anti u hu := by
    unfold gumbelPhi'
    have hl : 0 ≤ -Real.log u := by linarith [Real.log_neg hu.1 hu.2]
    refine div_nonpos_of_nonpos_of_nonneg ?_ hu.1.le
    exact mul_nonpos_of_nonpos_of_nonneg (by linarith) (Real.rpow_nonneg hl _)
  pos u hu := gumbelPhi_pos hu.1 hu.2
  top := by
    unfold gumbelPhi
    exact (tendsto_rpow_atTop (by linarith)).comp (tendsto_neg_atBot_atTop.comp Real.tendsto_log_nhdsGT_zero)
  cont := by
    unfold gumbelPhi
    have h1 : ContinuousAt (fun u : ℝ => -Real.log u) 1 := (Real.continuousAt_log one_ne_zero).neg
    exact (h1.rpow_const (Or.inr (by linarith))).continuousWithinAt
  one := gumbelPhi_one (by linarith)

theorem gumbel_mixture {θ : ℝ} (h : 1 ≤ θ) {d : ℕ} (hd : 1 ≤ d) :
    (∀ x ∈ openCube d, 0 ≤ gumbelDensity θ x) ∧
    Spec.IsLawOf (densityLaw fun x : Fin d → ℝ => gumbelDensity θ x) (Spec.gumbel θ) := by
  obtain ⟨μ, hμ, hpos, hL⟩ := exists_gumbel_frailty h
  obtain ⟨a, b⟩ := mixture_law hd μ hpos (ψ := gumbelPsiK (1 / θ))
    (fun s hs => by rw [hL s hs, gumbelPsiK_zero, gumbelPsiR])
    (fun s hs => by rw [gumbelPsiK_zero]; exact (Real.exp_pos _).le)
    (fun k s hs => gumbelPsiK_hasDerivAt (1 / θ) k hs) (isInvGen_gumbel h)
  exact ⟨a, b.congr fun b hb => by rw [gumbelPsiK_zero]; rfl⟩

/-! ### Frank -/

theorem isInvGen_frank {θ : ℝ} (h : 0 < θ) : IsInvGen (frankPhi θ) (frankPhi' θ) where
  meas := by
    unfold frankPhi
    fun_prop
  meas' := by
    unfold frankPhi'
    fun_prop
  deriv u hu := frankPhi_hasDerivAt h.ne' hu.1
  anti u hu := by
    unfold frankPhi'
    have := Real.one_lt_exp_iff.mpr (mul_pos h hu.1)
    exact div_nonpos_of_nonpos_of_nonneg (by linarith) (by linarith)
  pos u hu := frankPhi_pos h.ne' hu.1 hu.2
  top := by
    unfold frankPhi
    refine tendsto_neg_atBot_atTop.comp (Real.tendsto_log_nhdsGT_zero.comp ?_)
    refine tendsto_nhdsWithin_iff.mpr ⟨?_, ?_⟩
    · have : Continuous fun u : ℝ => (Real.exp (-θ * u) - 1) / (Real.exp (-θ) - 1) := by fun_prop
      have h2 := this.tendsto 0
      simp only [mul_zero, Real.exp_zero, sub_self, zero_div] at h2
      exact h2.mono_left nhdsWithin_le_nhds
    · filter_upwards [self_mem_nhdsWithin] with u hu
      exact frank_ratio_pos h.ne' hu
  cont := (frankPhi_hasDerivAt h.ne' one_pos).continuousAt.continuousWithinAt
  one := by
    rw [frankPhi, mul_one, div_self (exp_neg_ne h.ne'), Real.log_one, neg_zero]

theorem logSeries_prob {θ : ℝ} (h : 0 < θ) : IsProbabilityMeasure (Spec.logSeries θ) := by
  have := logSeries_laplace h le_rfl
  simp only [mul_zero, neg_zero, Real.exp_zero, ENNReal.ofReal_one, lintegral_const, one_mul] at this
  refine ⟨this.trans ?_⟩
  rw [frankPsiR, neg_zero, Real.exp_zero, one_mul, add_sub_cancel, Real.log_exp, neg_neg, div_self h.ne',
    ENNReal.ofReal_one]

theorem frank_mixture {θ : ℝ} (h : 0 < θ) {d : ℕ} (hd : 1 ≤ d) :
    (∀ x ∈ openCube d, 0 ≤ frankDensity θ x) ∧
    Spec.IsLawOf (densityLaw fun x : Fin d → ℝ => frankDensity θ x) (Spec.frank θ) := by
  have := logSeries_prob h
  have h0 : ∀ s, 0 ≤ s → 0 ≤ frankPsiR θ s := by
    intro s hs
    have h1 := frank_one_add_pos (θ := θ) hs
    have h2 : 1 + Real.exp (-s) * (Real.exp (-θ) - 1) ≤ 1 := by
      have := Real.exp_lt_one_iff.mpr (by linarith : -θ < 0)
      nlinarith [Real.exp_pos (-s)]
    rw [frankPsiR]
    exact div_nonneg (by linarith [Real.log_nonpos h1.le h2]) h.le
  obtain ⟨a, b⟩ := mixture_law hd (Spec.logSeries θ) (logSeries_pos θ) (ψ := frankPsiK θ)
    (fun s hs => logSeries_laplace h hs) h0
    (fun k s hs => frankPsiK_hasDerivAt θ k (le_of_lt hs)) (isInvGen_frank h)
  exact ⟨a, b.congr fun b hb => frank_closed_aux h.ne' hd b fun j => (hb j).1⟩

end Copulae
