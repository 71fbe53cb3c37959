import Verif.Lemmas.ArchLaw

/-!
The law of the bivariate Clayton copula with a negative parameter above -1, which vanishes on part of the unit square,
has a density.
-/

namespace Copulae

open MeasureTheory Set Filter Topology

/-- A bivariate density whose sections integrate to the conditional distribution of a sampler. -/
theorem pairDensity_law {g : ℝ × ℝ → ℝ} (hg : Measurable g) {V : ℝ × ℝ → ℝ} (hV : Measurable V) {C : (Fin 2 → ℝ) → ℝ}
    (hC1 : C (fun _ => 1) = 1) (hC : ∀ b : Fin 2 → ℝ, (∀ j, 0 < b j ∧ b j ≤ 1) → 0 ≤ C b)
    (hsec : ∀ u ∈ Ioo (0 : ℝ) 1, ∀ b, 0 < b → b ≤ 1 →
      ∫⁻ v in Ioo 0 b, ENNReal.ofReal (g (u, v)) = volume {w | w ∈ Ioo (0 : ℝ) 1 ∧ V (u, w) ≤ b})
    (hdist : ∀ a b : ℝ, 0 < a → a ≤ 1 → 0 < b → b ≤ 1 →
      volume {p : ℝ × ℝ | p.1 ∈ Ioo (0 : ℝ) 1 ∧ p.2 ∈ Ioo (0 : ℝ) 1 ∧ p.1 ≤ a ∧ V p ≤ b} = ENNReal.ofReal (C ![a, b])) :
    Spec.IsLawOf (densityLaw fun x : Fin 2 → ℝ => g (x 0, x 1)) C := by
  have hid : (densityLaw fun x : Fin 2 → ℝ => g (x 0, x 1)) =
      ((densityLaw fun x : Fin 2 → ℝ => g (x 0, x 1)).restrict (openCube 2)).map fun x => x := by
    rw [densityLaw, restrict_withDensity (measurableSet_openCube 2), Measure.restrict_restrict (measurableSet_openCube 2),
      inter_self, Measure.map_id']
  rw [hid]
  refine isLawOf_map _ (measurableSet_openCube 2) measurable_id (Eventually.of_forall fun x hx => hx) hC1 hC
    fun b hb => ?_
  have hms : MeasurableSet ({u | u ∈ Ioo (0 : ℝ) 1 ∧ u ≤ b 0} ×ˢ {u | u ∈ Ioo (0 : ℝ) 1 ∧ u ≤ b 1}) :=
    (measurableSet_Ioo.inter measurableSet_Iic).prod (measurableSet_Ioo.inter measurableSet_Iic)
  have hbox : {w | w ∈ openCube 2 ∧ ∀ j, w j ≤ b j} = MeasurableEquiv.finTwoArrow ⁻¹'
      ({u | u ∈ Ioo (0 : ℝ) 1 ∧ u ≤ b 0} ×ˢ {u | u ∈ Ioo (0 : ℝ) 1 ∧ u ≤ b 1}) := by
    ext w
    simp only [openCube, mem_ofPred_eq, Fin.forall_fin_two, mem_preimage, mem_prod, MeasurableEquiv.finTwoArrow_apply,
      mem_Ioo]
    tauto
  have hbm : MeasurableSet {w : Fin 2 → ℝ | w ∈ openCube 2 ∧ ∀ j, w j ≤ b j} := by
    rw [hbox]
    exact MeasurableEquiv.finTwoArrow.measurable hms
  simp only [id]
  rw [densityLaw, withDensity_apply _ hbm, Measure.restrict_restrict hbm,
    inter_eq_left.mpr (fun w hw => hw.1), hbox]
  have hpres := volume_preserving_finTwoArrow ℝ
  have key := hpres.setLIntegral_comp_preimage hms (f := fun p => ENNReal.ofReal (g p)) hg.ennreal_ofReal
  have e0 : ∀ x : Fin 2 → ℝ, MeasurableEquiv.finTwoArrow x = (x 0, x 1) := fun x => rfl
  simp only [e0] at key
  rw [key, Measure.volume_eq_prod, ← Measure.prod_restrict, lintegral_prod _ hg.ennreal_ofReal.aemeasurable]
  have hb' : (![b 0, b 1] : Fin 2 → ℝ) = b := by
    funext j
    fin_cases j <;> rfl
  have hd := hdist (b 0) (b 1) (hb 0).1 (hb 0).2 (hb 1).1 (hb 1).2
  rw [hb'] at hd
  rw [← hd]
  have hm2 : MeasurableSet {p : ℝ × ℝ | p.1 ∈ Ioo (0 : ℝ) 1 ∧ p.2 ∈ Ioo (0 : ℝ) 1 ∧ p.1 ≤ b 0 ∧ V p ≤ b 1} := by
    have : {p : ℝ × ℝ | p.1 ∈ Ioo (0 : ℝ) 1 ∧ p.2 ∈ Ioo (0 : ℝ) 1 ∧ p.1 ≤ b 0 ∧ V p ≤ b 1} =
        (Prod.fst ⁻¹' Ioo (0 : ℝ) 1 ∩ Prod.snd ⁻¹' Ioo (0 : ℝ) 1) ∩ (Prod.fst ⁻¹' Iic (b 0) ∩ V ⁻¹' Iic (b 1)) := by
      ext p
      simp only [mem_ofPred_eq, mem_inter_iff, mem_preimage, mem_Iic]
      tauto
    rw [this]
    exact ((measurable_fst measurableSet_Ioo).inter (measurable_snd measurableSet_Ioo)).inter
      ((measurable_fst measurableSet_Iic).inter (hV measurableSet_Iic))
  rw [Measure.volume_eq_prod, Measure.prod_apply hm2]
  have hms1 : MeasurableSet {u | u ∈ Ioo (0 : ℝ) 1 ∧ u ≤ b 0} := measurableSet_Ioo.inter measurableSet_Iic
  rw [← lintegral_indicator hms1]
  refine lintegral_congr fun u => ?_
  by_cases hu : u ∈ {u | u ∈ Ioo (0 : ℝ) 1 ∧ u ≤ b 0}
  · rw [indicator_of_mem hu]
    have e1 : (Prod.mk u ⁻¹' {p : ℝ × ℝ | p.1 ∈ Ioo (0 : ℝ) 1 ∧ p.2 ∈ Ioo (0 : ℝ) 1 ∧ p.1 ≤ b 0 ∧ V p ≤ b 1}) =
        {w | w ∈ Ioo (0 : ℝ) 1 ∧ V (u, w) ≤ b 1} := by
      ext w
      simp only [mem_preimage, mem_ofPred_eq]
      exact ⟨fun h => ⟨h.2.1, h.2.2.2⟩, fun h => ⟨hu.1, h.1, hu.2, h.2⟩⟩
    rw [e1, ← hsec u hu.1 (b 1) (hb 1).1 (hb 1).2]
    refine setLIntegral_congr ?_
    have e2 : {u | u ∈ Ioo (0 : ℝ) 1 ∧ u ≤ b 1} ⊆ Ioc 0 (b 1) := fun v hv => ⟨hv.1.1, hv.2⟩
    have e3 : Ioo 0 (b 1) ⊆ {u | u ∈ Ioo (0 : ℝ) 1 ∧ u ≤ b 1} := fun v hv =>
      ⟨⟨hv.1, lt_of_lt_of_le hv.2 (hb 1).2⟩, hv.2.le⟩
    refine Filter.EventuallyLE.antisymm ?_ e3.eventuallyLE
    exact e2.eventuallyLE.trans Ioo_ae_eq_Ioc.symm.le
  · rw [indicator_of_notMem hu]
    have e1 : (Prod.mk u ⁻¹' {p : ℝ × ℝ | p.1 ∈ Ioo (0 : ℝ) 1 ∧ p.2 ∈ Ioo (0 : ℝ) 1 ∧ p.1 ≤ b 0 ∧ V p ≤ b 1}) = ∅ := by
      ext w
      simp only [mem_preimage, mem_ofPred_eq, mem_empty_iff_false, iff_false]
      exact fun h => hu ⟨h.1, h.2.2.1⟩
    rw [e1, measure_empty]

/-- The density where the copula is positive, and zero elsewhere. -/
noncomputable def claytonNegG (θ : ℝ) (p : ℝ × ℝ) : ℝ :=
  if 0 < p.1 ^ (-θ) + p.2 ^ (-θ) - 1 then
    p.1 ^ (-θ - 1) * ((-1 / θ - 1) * (p.1 ^ (-θ) + p.2 ^ (-θ) - 1) ^ (-1 / θ - 2) * (-θ * p.2 ^ (-θ - 1))) else 0

theorem claytonNegG_measurable (θ : ℝ) : Measurable (claytonNegG θ) := by
  unfold claytonNegG
  refine Measurable.ite ?_ (by fun_prop) measurable_const
  have h : Measurable fun p : ℝ × ℝ => p.1 ^ (-θ) + p.2 ^ (-θ) - 1 := by fun_prop
  exact h measurableSet_Ioi

theorem claytonNegG_nonneg {θ : ℝ} (h1 : -1 < θ) (h : θ < 0) {p : ℝ × ℝ} (hp : 0 < p.1) (hp2 : 0 < p.2) :
    0 ≤ claytonNegG θ p := by
  have e1 : (0 : ℝ) < -1 / θ - 1 := by rw [sub_pos, lt_div_iff_of_neg h]; linarith
  unfold claytonNegG
  split_ifs with hB
  · have := Real.rpow_pos_of_pos hp (-θ - 1)
    have := Real.rpow_pos_of_pos hp2 (-θ - 1)
    have := Real.rpow_pos_of_pos hB (-1 / θ - 2)
    have : 0 < -θ := by linarith
    positivity
  · exact le_rfl

theorem claytonNeg_section {θ : ℝ} (h1 : -1 < θ) (h : θ < 0) {u : ℝ} (hu : u ∈ Ioo (0 : ℝ) 1) {b : ℝ} (hb : 0 < b) :
    ∫⁻ v in Ioo 0 b, ENNReal.ofReal (claytonNegG θ (u, v)) = ENNReal.ofReal (claytonD θ b u) := by
  have e1 : (0 : ℝ) < -1 / θ - 1 := by rw [sub_pos, lt_div_iff_of_neg h]; linarith
  have hn : 0 < -θ := by linarith
  have hu1 : u ^ (-θ) < 1 := Real.rpow_lt_one hu.1.le hu.2 hn
  set v0 := (1 - u ^ (-θ)) ^ (1 / (-θ)) with hv0
  have hv0p : 0 < v0 := Real.rpow_pos_of_pos (by linarith) _
  have hv0r : v0 ^ (-θ) = 1 - u ^ (-θ) := by
    rw [hv0, ← Real.rpow_mul (by linarith), one_div_mul_cancel hn.ne', Real.rpow_one]
  have hB : ∀ v, 0 < v → (0 < u ^ (-θ) + v ^ (-θ) - 1 ↔ v0 < v) := by
    intro v hv
    rw [← Real.rpow_lt_rpow_iff hv0p.le hv.le hn, hv0r]
    constructor <;> intro h <;> linarith
  have hle : ∀ v ∈ Ioc 0 v0, claytonNegG θ (u, v) = 0 := by
    intro v hv
    unfold claytonNegG
    rw [if_neg]
    rw [hB v hv.1]
    exact not_lt.mpr hv.2
  have hD0 : ∀ v, 0 < v → v ≤ v0 → claytonD θ v u = 0 := by
    intro v hv hle
    have : ¬ 0 < u ^ (-θ) + v ^ (-θ) - 1 := by rw [hB v hv]; exact not_lt.mpr hle
    rw [claytonD, max_eq_right (not_lt.mp this), Real.zero_rpow e1.ne', mul_zero]
  rcases le_or_gt b v0 with hbv | hbv
  · rw [hD0 b hb hbv, ENNReal.ofReal_zero]
    rw [setLIntegral_congr_fun (g := fun _ => 0) measurableSet_Ioo fun v hv => by
      rw [hle v ⟨hv.1, by linarith [hv.2]⟩, ENNReal.ofReal_zero]]
    simp
  · have hsplit : Ioo 0 b = Ioc 0 v0 ∪ Ioo v0 b := (Ioc_union_Ioo_eq_Ioo hv0p.le hbv).symm
    have hdisj : Disjoint (Ioc 0 v0) (Ioo v0 b) := by
      rw [Set.disjoint_left]
      intro v hv hv'
      exact absurd hv.2 (not_le.mpr hv'.1)
    rw [hsplit, lintegral_union measurableSet_Ioo hdisj,
      setLIntegral_congr_fun (s := Ioc 0 v0) (g := fun _ => 0) measurableSet_Ioc fun v hv => by
        rw [hle v hv, ENNReal.ofReal_zero], lintegral_zero, zero_add]
    have hcont : ContinuousOn (fun v => claytonD θ v u) (Icc v0 b) := by
      intro v hv
      have hv' : 0 < v := lt_of_lt_of_le hv0p hv.1
      unfold claytonD
      have hc : ContinuousAt (fun t : ℝ => max (u ^ (-θ) + t ^ (-θ) - 1) 0) v :=
        ((continuousAt_const.add (Real.continuousAt_rpow_const v (-θ) (Or.inl hv'.ne'))).sub
          continuousAt_const).max continuousAt_const
      exact (continuousAt_const.mul (hc.rpow_const (Or.inr e1.le))).continuousWithinAt
    have hder : ∀ v ∈ Ioo v0 b, HasDerivAt (fun v => claytonD θ v u) (claytonNegG θ (u, v)) v := by
      intro v hv
      have hv' : 0 < v := lt_trans hv0p hv.1
      have hBv := (hB v hv').mpr hv.1
      have hd : HasDerivAt (fun t : ℝ => u ^ (-θ) + t ^ (-θ) - 1) (-θ * v ^ (-θ - 1)) v :=
        ((Real.hasDerivAt_rpow_const (Or.inl hv'.ne')).const_add _).sub_const _
      have h2 := (hd.rpow_const (p := -1 / θ - 1) (Or.inl hBv.ne')).const_mul (u ^ (-θ - 1))
      have ev : (fun v => claytonD θ v u) =ᶠ[𝓝 v] fun t => u ^ (-θ - 1) * (u ^ (-θ) + t ^ (-θ) - 1) ^ (-1 / θ - 1) := by
        filter_upwards [Tendsto.eventually_const_lt hBv hd.continuousAt] with t ht
        rw [claytonD, max_eq_left ht.le]
      refine (h2.congr_deriv ?_).congr_of_eventuallyEq ev
      unfold claytonNegG
      rw [if_pos hBv, show -1 / θ - 1 - 1 = -1 / θ - 2 by ring]
      ring
    have hnn : ∀ v ∈ Ioo v0 b, 0 ≤ claytonNegG θ (u, v) := fun v hv =>
      claytonNegG_nonneg h1 h hu.1 (lt_trans hv0p hv.1)
    have hint := intervalIntegral.integrableOn_deriv_of_nonneg hcont hder hnn
    have hval := intervalIntegral.integral_eq_sub_of_hasDerivAt_of_le hbv.le hcont hder
      ((intervalIntegrable_iff_integrableOn_Ioc_of_le hbv.le).mpr hint)
    have hint' : IntegrableOn (fun v => claytonNegG θ (u, v)) (Ioo v0 b) := hint.mono_set Ioo_subset_Ioc_self
    rw [← ofReal_integral_eq_lintegral_ofReal hint'
      ((ae_restrict_iff' measurableSet_Ioo).mpr (Eventually.of_forall hnn)), ← integral_Ioc_eq_integral_Ioo,
      ← intervalIntegral.integral_of_le hbv.le, hval, hD0 v0 hv0p le_rfl, sub_zero]

theorem claytonNeg_law {θ : ℝ} (h1 : -1 < θ) (h : θ < 0) :
    Spec.IsLawOf (densityLaw fun x : Fin 2 → ℝ => claytonNegG θ (x 0, x 1)) (Spec.clayton θ) := by
  have hC : ∀ a b, Spec.clayton θ ![a, b] = (max (a ^ (-θ) + b ^ (-θ) - 1) 0) ^ (-1 / θ) := by
    intro a b
    simp only [Spec.clayton, Fin.sum_univ_two, Matrix.cons_val_zero, Matrix.cons_val_one]
    congr 2
    push_cast
    ring
  refine pairDensity_law (claytonNegG_measurable θ) (claytonV_measurable θ) (by simp [Spec.clayton])
    (fun b _ => Real.rpow_nonneg (le_max_right _ _) _) (fun u hu b hb hb1 => ?_) fun a b ha ha1 hb hb1 => ?_
  · rw [claytonNeg_section h1 h hu hb]
    exact (volume_section_le (claytonD_mem h1 h.ne hu hb hb1).2 _
      fun w hw => claytonV_le_iff h1 h.ne hu hw hb hb1).symm
  · rw [hC]
    exact clayton_pair_distribution h1 h.ne ha ha1 hb hb1

end Copulae
