import Verif.Spec.MarginLaw
import Verif.Lemmas.MarginDensity

/-!
The law of a vector with given margins and copula: existence and density.
-/

namespace Copulae.CopulaMeasure

open MeasureTheory Set
open Spec hiding volume
open scoped ENNReal

variable {d : ℕ}

/-- The quantile function, extended by zero. -/
noncomputable def qHat (q : ℝ → ℝ) (u : ℝ) : ℝ := if 0 < u ∧ u < 1 then q u else 0

theorem qHat_eq {q : ℝ → ℝ} {u : ℝ} (h0 : 0 < u) (h1 : u < 1) : qHat q u = q u := if_pos ⟨h0, h1⟩

theorem measurable_qHat {m : Margin} {M : Measure ℝ} {q : ℝ → ℝ} (h : IsMarginLaw m M q) : Measurable (qHat q) := by
  refine measurable_of_Iic fun x => ?_
  have : qHat q ⁻¹' Iic x = (Ioo 0 1 ∩ Iic (M.real (Iic x))) ∪ ((Ioo 0 1)ᶜ ∩ {_u | 0 ≤ x}) := by
    ext u
    simp only [mem_preimage, mem_Iic, mem_union, mem_inter_iff, mem_Ioo, mem_compl_iff, mem_ofPred_eq, qHat]
    by_cases hu : 0 < u ∧ u < 1
    · rw [if_pos hu, h.quantile u hu.1 hu.2]
      simp [hu]
    · rw [if_neg hu]; simp [hu]
  rw [this]
  exact (measurableSet_Ioo.inter measurableSet_Iic).union (measurableSet_Ioo.compl.inter (MeasurableSet.const _))

theorem uniform_ae' {P : Measure (Fin d → ℝ)} (hP : Uniform P) : ∀ᵐ x ∂P, ∀ j, 0 < x j ∧ x j < 1 := by
  rw [ae_all_iff]
  intro j
  have h : ∀ᵐ y ∂(P.map fun u => u j), 0 < y ∧ y < 1 := by
    rw [hP j, ← Measure.restrict_congr_set Ioo_ae_eq_Ioc]
    exact (ae_restrict_iff' measurableSet_Ioo).mpr (Filter.Eventually.of_forall fun x hx => hx)
  exact ae_of_ae_map (measurable_pi_apply j).aemeasurable h

theorem uniform_map_qHat {m : Margin} {M : Measure ℝ} {q : ℝ → ℝ} (h : IsMarginLaw m M q) :
    (volume.restrict (Ioo (0 : ℝ) 1)).map (qHat q) = M := by
  have := h.prob
  have hm := measurable_qHat h
  have : IsProbabilityMeasure (volume.restrict (Ioo (0 : ℝ) 1)) := ⟨by simp⟩
  have : IsProbabilityMeasure ((volume.restrict (Ioo (0 : ℝ) 1)).map (qHat q)) :=
    Measure.isProbabilityMeasure_map hm.aemeasurable
  refine Measure.ext_of_Iic _ _ fun x => ?_
  rw [Measure.map_apply hm measurableSet_Iic, Measure.restrict_congr_set Ioo_ae_eq_Ioc,
    Measure.restrict_apply (hm measurableSet_Iic)]
  have e : (qHat q ⁻¹' Iic x ∩ Ioc 0 1 : Set ℝ) =ᵐ[volume] Ioc 0 (M.real (Iic x)) := by
    have h1 : ∀ᵐ u : ℝ ∂volume, u ≠ 1 := Measure.ae_ne volume 1
    filter_upwards [h1] with u hu
    refine propext ?_
    show (qHat q u ≤ x ∧ 0 < u ∧ u ≤ 1) ↔ (0 < u ∧ u ≤ M.real (Iic x))
    constructor
    · rintro ⟨a, b, c⟩
      have c' := lt_of_le_of_ne c hu
      rw [qHat_eq b c', h.quantile u b c'] at a
      exact ⟨b, a⟩
    · rintro ⟨a, b⟩
      have c : u ≤ 1 := b.trans measureReal_le_one
      have c' := lt_of_le_of_ne c hu
      rw [qHat_eq a c', h.quantile u a c']
      exact ⟨b, a, c⟩
  rw [measure_congr e, Real.volume_Ioc, sub_zero, measureReal_def, ENNReal.ofReal_toReal (measure_ne_top _ _)]

/-- The law of the vector of quantiles. -/
noncomputable def jointLaw (P : Measure (Fin d → ℝ)) (q : Fin d → ℝ → ℝ) : Measure (Fin d → ℝ) :=
  P.map fun u j => qHat (q j) (u j)

variable {m : Fin d → Margin} {M : Fin d → Measure ℝ} {q : Fin d → ℝ → ℝ}

theorem measurable_quantiles (h : ∀ j, IsMarginLaw (m j) (M j) (q j)) :
    Measurable fun (u : Fin d → ℝ) j => qHat (q j) (u j) :=
  measurable_pi_lambda _ fun j => (measurable_qHat (h j)).comp (measurable_pi_apply j)

theorem jointLaw_isJoint {P : Measure (Fin d → ℝ)} [IsProbabilityMeasure P] (hP : Uniform P)
    (h : ∀ j, IsMarginLaw (m j) (M j) (q j)) : IsJoint (jointLaw P q) M (distFn P) := by
  have hm := measurable_quantiles h
  refine ⟨Measure.isProbabilityMeasure_map hm.aemeasurable, fun j => ?_, fun x => ?_⟩
  · rw [jointLaw, Measure.map_map (measurable_pi_apply j) hm, ← uniform_map_qHat (h j),
      Measure.restrict_congr_set Ioo_ae_eq_Ioc, ← hP j,
      Measure.map_map (measurable_qHat (h j)) (measurable_pi_apply j)]
    rfl
  · rw [distFn, distFn, jointLaw, map_measureReal_apply hm (measurableSet_le x)]
    refine measureReal_congr ?_
    filter_upwards [uniform_ae' hP] with u hu
    refine propext ?_
    show (∀ j, qHat (q j) (u j) ≤ x j) ↔ ∀ j, u j ≤ (M j).real (Iic (x j))
    refine forall_congr' fun j => ?_
    rw [qHat_eq (hu j).1 (hu j).2, (h j).quantile _ (hu j).1 (hu j).2]

/-- Without atoms the distribution function of a margin is continuous, so it undoes the quantile function. -/
theorem cdf_quantile_atomless {m : Margin} {M : Measure ℝ} {q : ℝ → ℝ} (h : IsMarginLaw m M q) (hM : ∀ y, M {y} = 0)
    {u : ℝ} (h0 : 0 < u) (h1 : u < 1) : M.real (Iic (q u)) = u := by
  have := h.prob
  have hge : u ≤ M.real (Iic (q u)) := (h.quantile u h0 h1 _).mp le_rfl
  refine le_antisymm ?_ hge
  have hatom : NullSingletonClass M := ⟨hM⟩
  rw [measureReal_congr Iio_ae_eq_Iic.symm]
  have hmono : Monotone fun n : ℕ => Iic (q u - 1 / ((n : ℝ) + 1)) := fun a b hab x hx => by
    have hx' : x ≤ q u - 1 / ((a : ℝ) + 1) := hx
    have : 1 / ((b : ℝ) + 1) ≤ 1 / ((a : ℝ) + 1) := Nat.one_div_le_one_div hab
    exact le_trans hx' (by linarith)
  have hun : ⋃ n : ℕ, Iic (q u - 1 / ((n : ℝ) + 1)) = Iio (q u) := by
    ext x
    simp only [mem_iUnion, mem_Iic, mem_Iio]
    constructor
    · rintro ⟨n, hn⟩
      have : 0 < 1 / ((n : ℝ) + 1) := by positivity
      linarith
    · intro hx
      obtain ⟨n, hn⟩ := exists_nat_one_div_lt (sub_pos.mpr hx)
      exact ⟨n, by linarith⟩
  have ht := tendsto_measure_iUnion_atTop (μ := M) hmono
  rw [hun] at ht
  have ht' := (ENNReal.tendsto_toReal (measure_ne_top M (Iio (q u)))).comp ht
  refine le_of_tendsto ht' (Filter.Eventually.of_forall fun n => ?_)
  have hlt : q u - 1 / ((n : ℝ) + 1) < q u := by
    have : 0 < 1 / ((n : ℝ) + 1) := by positivity
    linarith
  have := mt (h.quantile u h0 h1 (q u - 1 / ((n : ℝ) + 1))).mpr (not_le.mpr hlt)
  exact (not_le.mp this).le

theorem cdf_quantile {m : Margin} {M : Measure ℝ} {q f : ℝ → ℝ} (h : IsMarginLaw m M q) (hf : HasMarginDensity m M f)
    {u : ℝ} (h0 : 0 < u) (h1 : u < 1) : M.real (Iic (q u)) = u :=
  cdf_quantile_atomless h (fun x => by
    rw [hf.density]; exact withDensity_absolutelyContinuous _ _ (measure_singleton x)) h0 h1

/-- The density of a vector with the copula density `c` and the marginal densities `f`. -/
theorem jointLaw_density {P : Measure (Fin d → ℝ)} {c : (Fin d → ℝ) → ℝ} (hc : HasCubeDensity P c)
    (h : ∀ j, IsMarginLaw (m j) (M j) (q j)) {f : Fin d → ℝ → ℝ} (hf : ∀ j, HasMarginDensity (m j) (M j) (f j)) :
    HasDensityOn (jointLaw P q) (inside M)
      fun x => c (fun j => (M j).real (Iic (x j))) * ∏ j, f j (x j) := by
  have hprob := fun j => (h j).prob
  have hm := measurable_quantiles h
  set lam : Measure (Fin d → ℝ) := volume.restrict (Set.pi univ fun _ => Ioo 0 1) with hlam
  have hlam' : lam = Measure.pi fun _ : Fin d => volume.restrict (Ioo (0 : ℝ) 1) := by
    rw [hlam, volume_pi, Measure.restrict_pi_pi]
  have hbox : {u : Fin d → ℝ | ∀ j, 0 < u j ∧ u j < 1} = Set.pi univ fun _ => Ioo 0 1 := by
    ext u; simp [Set.mem_pi]
  have hIoo : MeasurableSet (Set.pi univ fun _ : Fin d => Ioo (0 : ℝ) 1) :=
    MeasurableSet.univ_pi fun _ => measurableSet_Ioo
  have hlae : ∀ᵐ u ∂lam, ∀ j, 0 < u j ∧ u j < 1 :=
    (ae_restrict_iff' hIoo).mpr (Filter.Eventually.of_forall fun u hu j => hu j (mem_univ j))
  -- the quantiles of independent uniforms
  have hpush : lam.map (fun u j => qHat (q j) (u j)) = Measure.pi M := by
    have : ∀ j : Fin d, SigmaFinite ((volume.restrict (Ioo (0 : ℝ) 1)).map (qHat (q j))) := fun j => by
      rw [uniform_map_qHat (h j)]; infer_instance
    rw [hlam', Measure.pi_map_pi fun j => (measurable_qHat (h j)).aemeasurable]
    simp_rw [uniform_map_qHat (h _)]
  -- and back
  set Gf : (Fin d → ℝ) → Fin d → ℝ := fun x j => (M j).real (Iic (x j)) with hGf
  have hGm : Measurable Gf := measurable_pi_lambda _ fun j => by
    have : Monotone fun x => (M j).real (Iic x) := fun a b hab => measureReal_mono (Iic_subset_Iic.mpr hab)
    exact this.measurable.comp (measurable_pi_apply j)
  have hGq : ∀ u : Fin d → ℝ, (∀ j, 0 < u j ∧ u j < 1) → Gf (fun j => qHat (q j) (u j)) = u := fun u hu =>
    funext fun j => by
      simp only [hGf]
      rw [qHat_eq (hu j).1 (hu j).2, cdf_quantile (h j) (hf j) (hu j).1 (hu j).2]
  have hback : (Measure.pi M).map Gf = lam := by
    rw [← hpush, Measure.map_map hGm hm]
    refine (Measure.map_congr (g := id) ?_).trans Measure.map_id
    filter_upwards [hlae] with u hu
    exact hGq u hu
  have hci : Integrable c lam := by
    have := (hc univ MeasurableSet.univ).1
    rwa [univ_inter, hbox] at this
  have hcG : AEStronglyMeasurable (fun x => c (Gf x)) (Measure.pi M) := by
    have h1 := hci.aestronglyMeasurable
    rw [← hback] at h1
    exact h1.comp_measurable hGm
  have hcGi : Integrable (fun x => c (Gf x)) (Measure.pi M) := by
    have h1 := hci
    rw [← hback] at h1
    exact (integrable_map_measure h1.aestronglyMeasurable hGm.aemeasurable).mp h1
  have hsf : ∀ j, SigmaFinite (volume.withDensity fun x => ENNReal.ofReal (f j x)) := fun j => by
    rw [← (hf j).density]; infer_instance
  have hpi : Measure.pi M = (volume : Measure (Fin d → ℝ)).withDensity fun x => ENNReal.ofReal (∏ j, f j (x j)) := by
    have : M = fun j => volume.withDensity fun x => ENNReal.ofReal (f j x) := funext fun j => (hf j).density
    rw [this, pi_withDensity' (fun j x => ENNReal.ofReal (f j x)) fun j => (hf j).meas.ennreal_ofReal]
    congr 1
    funext x
    exact (ENNReal.ofReal_prod_of_nonneg fun j _ => (hf j).nonneg _).symm
  have hpm : Measurable fun x : Fin d → ℝ => ENNReal.ofReal (∏ j, f j (x j)) :=
    (Finset.measurable_prod _ fun j _ => (hf j).meas.comp (measurable_pi_apply j)).ennreal_ofReal
  have hU : MeasurableSet (inside M) := by
    have : inside M = Gf ⁻¹' Set.pi univ fun _ => Ioo 0 1 := by
      ext x; simp [inside, hGf, Set.mem_pi]
    rw [this]
    exact hGm hIoo
  have hUae : ∀ᵐ x ∂(Measure.pi M), x ∈ inside M := by
    rw [← hpush]
    refine (ae_map_iff (p := fun x => x ∈ inside M) hm.aemeasurable hU).mpr ?_
    filter_upwards [hlae] with u hu
    show ∀ j, _
    intro j
    have := congrFun (hGq u hu) j
    simp only [hGf] at this
    rw [this]
    exact hu j
  have hnn : ∀ x : Fin d → ℝ, 0 ≤ ∏ j, f j (x j) := fun x => Finset.prod_nonneg fun j _ => (hf j).nonneg _
  intro s hs
  have hlt : ∀ᵐ x : Fin d → ℝ ∂volume, ENNReal.ofReal (∏ j, f j (x j)) < ∞ :=
    Filter.Eventually.of_forall fun x => ENNReal.ofReal_lt_top
  constructor
  · have h1 := hcGi
    rw [hpi, integrable_withDensity_iff_integrable_smul' hpm hlt] at h1
    refine (h1.integrableOn (s := s ∩ inside M)).congr ?_
    filter_upwards with x
    simp only [smul_eq_mul]
    rw [ENNReal.toReal_ofReal (hnn x), mul_comm]
  · calc (jointLaw P q).real s = P.real ((fun u j => qHat (q j) (u j)) ⁻¹' s) := map_measureReal_apply hm hs
      _ = ∫ u in (fun u j => qHat (q j) (u j)) ⁻¹' s, c u ∂lam := by
        rw [(hc _ (hm hs)).2, hlam, Measure.restrict_restrict (hm hs), hbox]
      _ = ∫ u in (fun u j => qHat (q j) (u j)) ⁻¹' s, c (Gf fun j => qHat (q j) (u j)) ∂lam := by
        refine setIntegral_congr_ae (hm hs) ?_
        filter_upwards [hlae] with u hu _
        rw [hGq u hu]
      _ = ∫ x in s, c (Gf x) ∂(Measure.pi M) := by
        rw [← hpush] at hcG ⊢
        exact (setIntegral_map hs hcG hm.aemeasurable).symm
      _ = ∫ x in s ∩ inside M, c (Gf x) ∂(Measure.pi M) := by
        refine (setIntegral_congr_set ?_).symm
        filter_upwards [hUae] with x hx
        exact propext ⟨fun a => a.1, fun a => ⟨a, hx⟩⟩
      _ = ∫ x in s ∩ inside M, c (Gf x) * ∏ j, f j (x j) := by
        rw [hpi, setIntegral_withDensity_eq_setIntegral_toReal_smul hpm
          (Filter.Eventually.of_forall fun x => ENNReal.ofReal_lt_top) _ (hs.inter hU)]
        refine integral_congr_ae ?_
        filter_upwards with x
        simp only [smul_eq_mul]
        rw [ENNReal.toReal_ofReal (hnn x), mul_comm]

end Copulae.CopulaMeasure
