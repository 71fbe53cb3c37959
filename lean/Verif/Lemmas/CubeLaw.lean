import Mathlib.MeasureTheory.MeasurableSpace.Pi
import Mathlib.MeasureTheory.Constructions.Pi
import Mathlib.MeasureTheory.Integral.IntervalIntegral.FundThmCalculus
import Mathlib.MeasureTheory.Integral.IntegralEqImproper
import Mathlib.Analysis.Calculus.ParametricIntegral
import Verif.Spec.IsCopula
import Verif.Lemmas.CopulaDensity

/-!
Laws on the open cube: they are determined by their distribution function; the mixture of independent coordinates
whose Laplace transform is the generator has the mixed derivative as its density.
-/

namespace Copulae

open MeasureTheory Set Filter Topology
open scoped ENNReal

namespace Spec.IsLawOf

variable {d : ℕ} {P R : Measure (Fin d → ℝ)} {C : (Fin d → ℝ) → ℝ}

theorem rect (h : IsLawOf P C) (b : Fin d → ℝ) :
    P {x | ∀ j, x j ≤ b j} = if ∀ j, 0 < b j then ENNReal.ofReal (C fun j => min (b j) 1) else 0 := by
  have := h.prob
  split_ifs with hb
  · rw [← h.dist _ fun j => ⟨lt_min (hb j) one_pos, min_le_right _ _⟩, distFn, measureReal_def,
      ENNReal.ofReal_toReal (measure_ne_top _ _)]
    refine measure_congr ?_
    filter_upwards [h.mem] with x hx
    refine propext ?_
    change (∀ j, x j ≤ b j) ↔ ∀ j, x j ≤ min (b j) 1
    exact forall_congr' fun j => ⟨fun a => le_min a (hx j).2.le, fun a => a.trans (min_le_left _ _)⟩
  · have hn : P {x | ¬ ∀ j, 0 < x j ∧ x j < 1} = 0 := h.mem
    rw [← nonpos_iff_eq_zero, ← hn]
    refine measure_mono fun x hx hc => hb fun j => (hc j).1.trans_le (hx j)

/-- A law on the open cube is determined by its distribution function. -/
theorem unique (h : IsLawOf P C) (h' : IsLawOf R C) : P = R := by
  have := h.prob
  have := h'.prob
  have hs : ∀ _ : Fin d, IsCountablySpanning (range (Iic : ℝ → Set ℝ)) := fun _ => by
    refine ⟨fun n : ℕ => Iic (n : ℝ), fun n => ⟨n, rfl⟩, ?_⟩
    rw [eq_univ_iff_forall]
    intro x
    obtain ⟨n, hn⟩ := exists_nat_ge x
    exact mem_iUnion.mpr ⟨n, hn⟩
  have hg : (MeasurableSpace.pi : MeasurableSpace (Fin d → ℝ)) = MeasurableSpace.generateFrom
      (Set.pi univ '' Set.pi univ fun _ : Fin d => range (Iic : ℝ → Set ℝ)) :=
    (generateFrom_eq_pi (fun _ => by rw [← borel_eq_generateFrom_Iic ℝ, ← BorelSpace.measurable_eq]) hs).symm
  refine ext_of_generate_finite _ hg (IsPiSystem.pi fun _ => isPiSystem_Iic) ?_ (by simp)
  rintro s ⟨t, ht, rfl⟩
  choose b hb using fun j => ht j (mem_univ j)
  have e : Set.pi univ t = {x | ∀ j, x j ≤ b j} := by
    ext x
    simp only [Set.mem_pi, mem_univ, true_imp_iff, ← hb]
    rfl
  rw [e, h.rect, h'.rect]

end Spec.IsLawOf

/-- Laws of samplers: a vector computed from a random source whose distribution function is `C`. -/
theorem isLawOf_map {d : ℕ} {Ω : Type*} [MeasurableSpace Ω] (m : Measure Ω) {E : Set Ω} (hE : MeasurableSet E)
    {T : Ω → Fin d → ℝ} (hT : Measurable T) {C : (Fin d → ℝ) → ℝ}
    (hmem : ∀ᵐ w ∂m, w ∈ E → ∀ j, 0 < T w j ∧ T w j < 1) (hC1 : C (fun _ => 1) = 1)
    (hC : ∀ b : Fin d → ℝ, (∀ j, 0 < b j ∧ b j ≤ 1) → 0 ≤ C b)
    (hdist : ∀ b : Fin d → ℝ, (∀ j, 0 < b j ∧ b j ≤ 1) →
      m {w | w ∈ E ∧ ∀ j, T w j ≤ b j} = ENNReal.ofReal (C b)) :
    Spec.IsLawOf ((m.restrict E).map T) C := by
  have hbox : ∀ b : Fin d → ℝ, MeasurableSet {x : Fin d → ℝ | ∀ j, x j ≤ b j} := fun b => by
    have : {x : Fin d → ℝ | ∀ j, x j ≤ b j} = ⋂ j, {x | x j ≤ b j} := by ext; simp
    rw [this]
    exact MeasurableSet.iInter fun j => measurable_pi_apply j measurableSet_Iic
  have hval : ∀ b : Fin d → ℝ, (∀ j, 0 < b j ∧ b j ≤ 1) →
      (m.restrict E).map T {x | ∀ j, x j ≤ b j} = ENNReal.ofReal (C b) := by
    intro b hb
    rw [Measure.map_apply hT (hbox b), Measure.restrict_apply (hT (hbox b)), ← hdist b hb, inter_comm]
    rfl
  have hmem' : ∀ᵐ x ∂((m.restrict E).map T), ∀ j, 0 < x j ∧ x j < 1 := by
    have hms : MeasurableSet {x : Fin d → ℝ | ∀ j, 0 < x j ∧ x j < 1} := by
      have : {x : Fin d → ℝ | ∀ j, 0 < x j ∧ x j < 1} = ⋂ j, {x | x j ∈ Ioo (0 : ℝ) 1} := by ext; simp
      rw [this]
      exact MeasurableSet.iInter fun j => measurable_pi_apply j measurableSet_Ioo
    rw [ae_map_iff hT.aemeasurable hms, ae_restrict_iff' hE]
    exact hmem
  refine ⟨⟨?_⟩, hmem', fun b hb => ?_⟩
  · have h1 := hval (fun _ => 1) fun _ => ⟨one_pos, le_rfl⟩
    rw [hC1, ENNReal.ofReal_one] at h1
    rw [← h1]
    refine measure_congr ?_
    filter_upwards [hmem'] with x hx
    refine propext ?_
    change True ↔ ∀ j, x j ≤ 1
    exact ⟨fun _ j => (hx j).2.le, fun _ => trivial⟩
  · rw [Spec.distFn, measureReal_def, hval b hb, ENNReal.toReal_ofReal (hC b hb)]

/-! ### Derivatives of Laplace transforms -/

theorem pow_mul_exp_neg_le (k : ℕ) {x s : ℝ} (hx : 0 ≤ x) (hs : 0 < s) :
    x ^ k * Real.exp (-(x * s)) ≤ k.factorial / s ^ k := by
  have h := Real.pow_div_factorial_le_exp (x * s) (by positivity) k
  rw [div_le_iff₀ (by positivity), mul_pow] at h
  rw [Real.exp_neg, ← div_eq_mul_inv, div_le_div_iff₀ (Real.exp_pos _) (by positivity)]
  linarith

/-- Moments of a mixture are the derivatives of its Laplace transform. -/
theorem laplace_moments (μ : Measure ℝ) [IsFiniteMeasure μ] (hpos : ∀ᵐ x ∂μ, 0 < x) {ψ : ℕ → ℝ → ℝ}
    (h0 : ∀ s, 0 < s → ∫ x, Real.exp (-(x * s)) ∂μ = ψ 0 s)
    (hd : ∀ k s, 0 < s → HasDerivAt (ψ k) (ψ (k + 1) s) s) (k : ℕ) {s : ℝ} (hs : 0 < s) :
    Integrable (fun x => x ^ k * Real.exp (-(x * s))) μ ∧
      ∫ x, x ^ k * Real.exp (-(x * s)) ∂μ = (-1) ^ k * ψ k s := by
  have hint : ∀ (k : ℕ) (s : ℝ), 0 < s → Integrable (fun x => x ^ k * Real.exp (-(x * s))) μ := by
    intro k s hs
    refine Integrable.of_bound (C := k.factorial / s ^ k) (Measurable.aestronglyMeasurable (by fun_prop)) ?_
    filter_upwards [hpos] with x hx
    rw [Real.norm_eq_abs, abs_of_nonneg (by positivity)]
    exact pow_mul_exp_neg_le k hx.le hs
  refine ⟨hint k s hs, ?_⟩
  induction k generalizing s with
  | zero => simp [h0 s hs]
  | succ k ih =>
    have hder : HasDerivAt (fun s => ∫ x, x ^ k * Real.exp (-(x * s)) ∂μ)
        (∫ x, -(x ^ (k + 1) * Real.exp (-(x * s))) ∂μ) s := by
      refine (hasDerivAt_integral_of_dominated_loc_of_deriv_le (s := Ioi (s / 2)) (x₀ := s)
        (F := fun s x => x ^ k * Real.exp (-(x * s))) (F' := fun s x => -(x ^ (k + 1) * Real.exp (-(x * s))))
        (bound := fun _ => (k + 1).factorial / (s / 2) ^ (k + 1)) (Ioi_mem_nhds (by linarith))
        (Eventually.of_forall fun t => Measurable.aestronglyMeasurable (by fun_prop)) (hint k s hs)
        (Measurable.aestronglyMeasurable (by fun_prop)) ?_ (integrable_const _) ?_).2
      · filter_upwards [hpos] with x hx t ht
        have ht' : s / 2 < t := ht
        rw [Real.norm_eq_abs, abs_neg, abs_of_nonneg (by positivity)]
        refine le_trans ?_ (pow_mul_exp_neg_le (k + 1) hx.le (by linarith : 0 < s / 2))
        have : -(x * t) ≤ -(x * (s / 2)) := by nlinarith
        gcongr
      · refine Eventually.of_forall fun x t _ => ?_
        have h1 : HasDerivAt (fun t : ℝ => -(x * t)) (-x) t := by
          exact ((hasDerivAt_id t).const_mul x).neg.congr_deriv (by simp)
        refine (h1.exp.const_mul (x ^ k)).congr_deriv ?_
        ring
    have h2 : HasDerivAt (fun s => ∫ x, x ^ k * Real.exp (-(x * s)) ∂μ) ((-1) ^ k * ψ (k + 1) s) s := by
      refine ((hd k s hs).const_mul ((-1) ^ k)).congr_of_eventuallyEq ?_
      filter_upwards [Ioi_mem_nhds hs] with t ht
      exact ih ht
    have h3 := hder.unique h2
    rw [integral_neg] at h3
    rw [pow_succ]
    linarith

theorem laplace_lintegral (μ : Measure ℝ) [IsFiniteMeasure μ] (hpos : ∀ᵐ x ∂μ, 0 < x) {ψ : ℕ → ℝ → ℝ}
    (h0 : ∀ s, 0 < s → ∫⁻ x, ENNReal.ofReal (Real.exp (-(x * s))) ∂μ = ENNReal.ofReal (ψ 0 s))
    (hψ : ∀ s, 0 < s → 0 ≤ ψ 0 s)
    (hd : ∀ k s, 0 < s → HasDerivAt (ψ k) (ψ (k + 1) s) s) (k : ℕ) {s : ℝ} (hs : 0 < s) :
    0 ≤ (-1) ^ k * ψ k s ∧
    ∫⁻ x, ENNReal.ofReal (x ^ k * Real.exp (-(x * s))) ∂μ = ENNReal.ofReal ((-1) ^ k * ψ k s) := by
  have h1 : ∀ s, 0 < s → ∫ x, Real.exp (-(x * s)) ∂μ = ψ 0 s := by
    intro s hs
    rw [integral_eq_lintegral_of_nonneg_ae (Eventually.of_forall fun x => (Real.exp_pos _).le)
      (Measurable.aestronglyMeasurable (by fun_prop)), h0 s hs, ENNReal.toReal_ofReal (hψ s hs)]
  obtain ⟨hi, he⟩ := laplace_moments μ hpos h1 hd k hs
  have hnn : 0 ≤ᵐ[μ] fun x => x ^ k * Real.exp (-(x * s)) := by
    filter_upwards [hpos] with x hx
    positivity
  rw [← he]
  exact ⟨integral_nonneg_of_ae hnn, (ofReal_integral_eq_lintegral_ofReal hi hnn).symm⟩

/-! ### The density of a mixture -/

/-- The conditions on the inverse generator: decreasing from infinity at zero to zero at one. -/
structure IsInvGen (φ φ' : ℝ → ℝ) : Prop where
  meas : Measurable φ
  meas' : Measurable φ'
  deriv : ∀ u ∈ Ioo (0 : ℝ) 1, HasDerivAt φ (φ' u) u
  anti : ∀ u ∈ Ioo (0 : ℝ) 1, φ' u ≤ 0
  pos : ∀ u ∈ Ioo (0 : ℝ) 1, 0 < φ u
  top : Tendsto φ (𝓝[>] 0) atTop
  cont : ContinuousWithinAt φ (Iio 1) 1
  one : φ 1 = 0

theorem IsInvGen.nonneg {φ φ' : ℝ → ℝ} (h : IsInvGen φ φ') {b : ℝ} (hb : 0 < b) (hb1 : b ≤ 1) : 0 ≤ φ b := by
  rcases hb1.eq_or_lt with rfl | hlt
  · exact h.one.ge
  · exact (h.pos b ⟨hb, hlt⟩).le

/-- One coordinate given the frailty. -/
theorem IsInvGen.lintegral {φ φ' : ℝ → ℝ} (h : IsInvGen φ φ') {v b : ℝ} (hv : 0 < v) (hb : 0 < b) (hb1 : b ≤ 1) :
    ∫⁻ x in Ioo 0 1 ∩ Iic b, ENNReal.ofReal (v * -φ' x * Real.exp (-(v * φ x))) =
      ENNReal.ofReal (Real.exp (-(v * φ b))) := by
  have hder : ∀ x ∈ Ioo (0 : ℝ) 1, HasDerivAt (fun x => Real.exp (-(v * φ x))) (v * -φ' x * Real.exp (-(v * φ x))) x := by
    intro x hx
    refine (((h.deriv x hx).const_mul v).neg.exp).congr_deriv ?_
    simp only [Pi.neg_apply]
    ring
  have hlim0 : Tendsto (fun x => Real.exp (-(v * φ x))) (𝓝[>] 0) (𝓝 0) :=
    Real.tendsto_exp_neg_atTop_nhds_zero.comp (h.top.const_mul_atTop hv)
  have hlimb : Tendsto (fun x => Real.exp (-(v * φ x))) (𝓝[<] b) (𝓝 (Real.exp (-(v * φ b)))) := by
    have : ContinuousWithinAt φ (Iio b) b := by
      rcases hb1.eq_or_lt with rfl | hlt
      · exact h.cont
      · exact (h.deriv b ⟨hb, hlt⟩).continuousAt.continuousWithinAt
    exact (Real.continuous_exp.continuousAt.tendsto.comp ((this.tendsto.const_mul v).neg))
  have hsub : ∀ x ∈ Ioo 0 b, x ∈ Ioo (0 : ℝ) 1 := fun x hx => ⟨hx.1, hx.2.trans_le hb1⟩
  have hnn : ∀ x ∈ Ioo 0 b, 0 ≤ v * -φ' x * Real.exp (-(v * φ x)) := fun x hx =>
    mul_nonneg (mul_nonneg hv.le (by linarith [h.anti x (hsub x hx)])) (Real.exp_pos _).le
  set G : ℝ → ℝ := fun x => if x ≤ 0 then 0 else if b ≤ x then Real.exp (-(v * φ b)) else Real.exp (-(v * φ x)) with hG
  have hGe : ∀ x ∈ Ioo 0 b, G x = Real.exp (-(v * φ x)) := fun x hx => by
    simp only [hG, if_neg (not_le.mpr hx.1), if_neg (not_le.mpr hx.2)]
  have hGd : ∀ x ∈ Ioo 0 b, HasDerivAt G (v * -φ' x * Real.exp (-(v * φ x))) x := fun x hx =>
    (hder x (hsub x hx)).congr_of_eventuallyEq (by
      filter_upwards [Ioo_mem_nhds hx.1 hx.2] with y hy using hGe y hy)
  have hG0 : G 0 = 0 := by simp [hG]
  have hGb : G b = Real.exp (-(v * φ b)) := by simp [hG, not_le.mpr hb]
  have hGc : ContinuousOn G (Icc 0 b) := by
    intro x hx
    rcases hx.1.eq_or_lt with rfl | h0
    · have : ContinuousWithinAt G (Ioi 0) 0 := by
        rw [ContinuousWithinAt, hG0]
        refine hlim0.congr' ?_
        filter_upwards [Ioo_mem_nhdsGT hb] with y hy using (hGe y hy).symm
      exact (continuousWithinAt_Ioi_iff_Ici.mp this).mono Icc_subset_Ici_self
    · rcases hx.2.eq_or_lt with rfl | h1
      · have : ContinuousWithinAt G (Iio x) x := by
          rw [ContinuousWithinAt, hGb]
          refine hlimb.congr' ?_
          filter_upwards [Ioo_mem_nhdsLT hb] with y hy using (hGe y hy).symm
        exact (continuousWithinAt_Iio_iff_Iic.mp this).mono Icc_subset_Iic_self
      · exact (hGd x ⟨h0, h1⟩).continuousAt.continuousWithinAt
  have hi : IntegrableOn (fun x => v * -φ' x * Real.exp (-(v * φ x))) (Ioc 0 b) :=
    intervalIntegral.integrableOn_deriv_of_nonneg hGc hGd hnn
  have hval := intervalIntegral.integral_eq_sub_of_hasDerivAt_of_le hb.le hGc hGd
    ((intervalIntegrable_iff_integrableOn_Ioc_of_le hb.le).mpr hi)
  rw [hG0, hGb, sub_zero, intervalIntegral.integral_of_le hb.le] at hval
  have hset : (Ioo (0 : ℝ) 1 ∩ Iic b : Set ℝ) =ᵐ[volume] Ioo 0 b := by
    have e1 : (Ioo (0 : ℝ) 1 ∩ Iic b : Set ℝ) =ᵐ[volume] (Ioc (0 : ℝ) 1 ∩ Iic b : Set ℝ) :=
      Ioo_ae_eq_Ioc.inter (ae_eq_refl _)
    have e2 : Ioc (0 : ℝ) 1 ∩ Iic b = Ioc 0 b := by
      ext x
      simp only [mem_inter_iff, mem_Ioc, mem_Iic]
      exact ⟨fun hx => ⟨hx.1.1, hx.2⟩, fun hx => ⟨⟨hx.1, hx.2.trans hb1⟩, hx.2⟩⟩
    rw [e2] at e1
    exact e1.trans Ioo_ae_eq_Ioc.symm
  rw [Measure.restrict_congr_set hset, ← hval, integral_Ioc_eq_integral_Ioo,
    ofReal_integral_eq_lintegral_ofReal (hi.mono_set Ioo_subset_Ioc_self)]
  exact (ae_restrict_iff' measurableSet_Ioo).mpr (Eventually.of_forall hnn)

/-- The open cube. -/
def openCube (d : ℕ) : Set (Fin d → ℝ) := {u | ∀ j, 0 < u j ∧ u j < 1}

theorem openCube_eq (d : ℕ) : openCube d = Set.pi univ fun _ => Ioo (0 : ℝ) 1 := by
  ext x; simp [openCube]

theorem measurableSet_openCube (d : ℕ) : MeasurableSet (openCube d) := by
  rw [openCube_eq]
  exact MeasurableSet.univ_pi fun _ => measurableSet_Ioo

/-- The law with the mixed derivative as its density. -/
noncomputable def densityLaw {d : ℕ} (g : (Fin d → ℝ) → ℝ) : Measure (Fin d → ℝ) :=
  ((volume : Measure (Fin d → ℝ)).restrict (openCube d)).withDensity fun x => ENNReal.ofReal (g x)

theorem mixture_law {d : ℕ} (hd : 1 ≤ d) (μ : Measure ℝ) [IsProbabilityMeasure μ] (hpos : ∀ᵐ x ∂μ, 0 < x)
    {ψ : ℕ → ℝ → ℝ} (h0 : ∀ s, 0 ≤ s → ∫⁻ x, ENNReal.ofReal (Real.exp (-(x * s))) ∂μ = ENNReal.ofReal (ψ 0 s))
    (hψ : ∀ s, 0 ≤ s → 0 ≤ ψ 0 s) (hψd : ∀ k s, 0 < s → HasDerivAt (ψ k) (ψ (k + 1) s) s)
    {φ φ' : ℝ → ℝ} (hφ : IsInvGen φ φ') :
    (∀ x ∈ openCube d, 0 ≤ ψ d (∑ j, φ (x j)) * ∏ j, φ' (x j)) ∧
    Spec.IsLawOf (densityLaw fun x : Fin d → ℝ => ψ d (∑ j, φ (x j)) * ∏ j, φ' (x j))
      fun x => ψ 0 (∑ j, φ (x j)) := by
  have hne : (Finset.univ : Finset (Fin d)).Nonempty := ⟨⟨0, hd⟩, Finset.mem_univ _⟩
  have hsum : ∀ x ∈ openCube d, 0 < ∑ j, φ (x j) := fun x hx =>
    Finset.sum_pos (fun j _ => hφ.pos _ (hx j)) hne
  have hL := fun s hs => laplace_lintegral μ hpos (fun s hs => h0 s (le_of_lt hs)) (fun s hs => hψ s (le_of_lt hs))
    hψd d (s := s) hs
  have hdens : ∀ x ∈ openCube d, 0 ≤ ψ d (∑ j, φ (x j)) * ∏ j, φ' (x j) ∧
      ENNReal.ofReal (ψ d (∑ j, φ (x j)) * ∏ j, φ' (x j)) =
        ∫⁻ v, ∏ j, ENNReal.ofReal (v * -φ' (x j) * Real.exp (-(v * φ (x j)))) ∂μ := by
    intro x hx
    have hp : 0 ≤ ∏ j, -φ' (x j) := Finset.prod_nonneg fun j _ => by linarith [hφ.anti _ (hx j)]
    have e : ψ d (∑ j, φ (x j)) * ∏ j, φ' (x j) = ((-1) ^ d * ψ d (∑ j, φ (x j))) * ∏ j, -φ' (x j) := by
      have : ∏ j, -φ' (x j) = (-1) ^ d * ∏ j, φ' (x j) := by
        rw [Finset.prod_neg, Finset.card_univ, Fintype.card_fin]
      have h1 : ((-1 : ℝ) ^ d) * (-1) ^ d = 1 := by rw [← mul_pow]; simp
      rw [this]
      linear_combination (-ψ d (∑ j, φ (x j)) * ∏ j, φ' (x j)) * h1
    obtain ⟨k1, k2⟩ := hL _ (hsum x hx)
    rw [e]
    refine ⟨mul_nonneg k1 hp, ?_⟩
    rw [ENNReal.ofReal_mul k1, ← k2, ← lintegral_mul_const _ (by fun_prop)]
    refine lintegral_congr_ae ?_
    filter_upwards [hpos] with v hv
    rw [← ENNReal.ofReal_mul (by positivity), ← ENNReal.ofReal_prod_of_nonneg fun j _ =>
      mul_nonneg (mul_nonneg hv.le (by linarith [hφ.anti _ (hx j)])) (Real.exp_pos _).le]
    congr 1
    rw [Finset.prod_mul_distrib, Finset.prod_mul_distrib, Finset.prod_const, Finset.card_univ, Fintype.card_fin,
      ← Real.exp_sum, Finset.sum_neg_distrib, Finset.mul_sum]
    ring
  refine ⟨fun x hx => (hdens x hx).1, ?_⟩
  have hbox : ∀ b : Fin d → ℝ, (∀ j, 0 < b j ∧ b j ≤ 1) →
      (densityLaw fun x : Fin d → ℝ => ψ d (∑ j, φ (x j)) * ∏ j, φ' (x j)) {x | ∀ j, x j ≤ b j} =
        ENNReal.ofReal (ψ 0 (∑ j, φ (b j))) := by
    intro b hb
    have hS : {x : Fin d → ℝ | ∀ j, x j ≤ b j} = Set.pi univ fun j => Iic (b j) := by
      ext x; simp only [mem_ofPred_eq, Set.mem_pi, mem_univ, true_imp_iff, mem_Iic]
    have hm : MeasurableSet {x : Fin d → ℝ | ∀ j, x j ≤ b j} := by
      rw [hS]; exact MeasurableSet.univ_pi fun _ => measurableSet_Iic
    rw [densityLaw, withDensity_apply _ hm, Measure.restrict_restrict hm]
    have e1 : {x : Fin d → ℝ | ∀ j, x j ≤ b j} ∩ openCube d = Set.pi univ fun j => Ioo 0 1 ∩ Iic (b j) := by
      rw [hS, openCube_eq, inter_comm, ← pi_inter_distrib]
    rw [setLIntegral_congr_fun (hm.inter (measurableSet_openCube d)) fun x hx => (hdens x hx.2).2, e1]
    rw [lintegral_lintegral_swap (by
      refine Measurable.aemeasurable ?_
      have := hφ.meas
      have := hφ.meas'
      fun_prop)]
    rw [← h0 _ (Finset.sum_nonneg fun j _ => hφ.nonneg (hb j).1 (hb j).2)]
    refine lintegral_congr_ae ?_
    filter_upwards [hpos] with v hv
    have hmv : ∀ _ : Fin d, Measurable fun x => ENNReal.ofReal (v * -φ' x * Real.exp (-(v * φ x))) := fun _ => by
      have := hφ.meas
      have := hφ.meas'
      fun_prop
    rw [volume_pi, Measure.restrict_pi_pi, CopulaMeasure.lintegral_pi_prod _ hmv]
    rw [Finset.prod_congr rfl fun j _ => hφ.lintegral hv (hb j).1 (hb j).2,
      ← ENNReal.ofReal_prod_of_nonneg fun j _ => (Real.exp_pos _).le, ← Real.exp_sum, Finset.sum_neg_distrib,
      Finset.mul_sum]
  have hmem : ∀ᵐ x ∂(densityLaw fun x : Fin d → ℝ => ψ d (∑ j, φ (x j)) * ∏ j, φ' (x j)), ∀ j, 0 < x j ∧ x j < 1 :=
    (withDensity_absolutelyContinuous _ _).ae_le (ae_restrict_mem (measurableSet_openCube d))
  refine ⟨⟨?_⟩, hmem, fun b hb => ?_⟩
  · have h1 := hbox (fun _ => 1) fun _ => ⟨one_pos, le_rfl⟩
    simp only [hφ.one, Finset.sum_const_zero] at h1
    rw [← h0 0 le_rfl] at h1
    simp only [mul_zero, neg_zero, Real.exp_zero, ENNReal.ofReal_one, lintegral_const, measure_univ, one_mul] at h1
    rw [← h1]
    refine measure_congr ?_
    filter_upwards [hmem] with x hx
    refine propext ?_
    change True ↔ ∀ j, x j ≤ 1
    exact ⟨fun _ j => (hx j).2.le, fun _ => trivial⟩
  · rw [Spec.distFn, measureReal_def, hbox b hb,
      ENNReal.toReal_ofReal (hψ _ (Finset.sum_nonneg fun j _ => hφ.nonneg (hb j).1 (hb j).2))]

/-- A law given by a density has that density. -/
theorem densityLaw_hasDensity {d : ℕ} {g : (Fin d → ℝ) → ℝ} [IsFiniteMeasure (densityLaw g)]
    (hg : AEMeasurable g ((volume : Measure (Fin d → ℝ)).restrict (openCube d))) (h0 : ∀ x ∈ openCube d, 0 ≤ g x) :
    Spec.HasCubeDensity (densityLaw g) g := by
  have hnn : 0 ≤ᵐ[(volume : Measure (Fin d → ℝ)).restrict (openCube d)] g :=
    (ae_restrict_iff' (measurableSet_openCube d)).mpr (Eventually.of_forall h0)
  have hi : IntegrableOn g (openCube d) := by
    refine ⟨hg.aestronglyMeasurable, ?_⟩
    rw [hasFiniteIntegral_iff_ofReal hnn]
    have := measure_lt_top (densityLaw g) univ
    rwa [densityLaw, withDensity_apply _ MeasurableSet.univ, Measure.restrict_univ] at this
  intro s hs
  have hi' : IntegrableOn g (s ∩ openCube d) := hi.mono_set inter_subset_right
  refine ⟨hi', ?_⟩
  rw [measureReal_def, densityLaw, withDensity_apply _ hs, Measure.restrict_restrict hs]
  have hnn' : 0 ≤ᵐ[(volume : Measure (Fin d → ℝ)).restrict (s ∩ openCube d)] g :=
    ae_mono (Measure.restrict_mono inter_subset_right le_rfl) hnn
  exact (integral_eq_lintegral_of_nonneg_ae hnn' hi'.aestronglyMeasurable).symm

end Copulae
