import Mathlib.Analysis.SpecialFunctions.Gaussian.GaussianIntegral
import Mathlib.Analysis.SpecialFunctions.ImproperIntegrals
import Verif.Lemmas.StableDensity

/-!
Limits of integrals of `W exp (-W)` when `W` approaches a power of the variable.
-/

namespace Copulae

open MeasureTheory Set Real Topology Filter

theorem powExp_integral {c e : ℝ} (hc : 0 < c) (he : 0 < e ∨ e < -1) :
    ∫ s in Ioi (0 : ℝ), c * s ^ e * exp (-(c * s ^ e)) = |1 / e| * c ^ (-(1 / e)) * Gamma (1 + 1 / e) := by
  have hne : e ≠ 0 := by rcases he with h | h <;> linarith
  have hne' : 1 / e ≠ 0 := one_div_ne_zero hne
  have hpos : 0 < 1 + 1 / e := by
    rcases he with h | h
    · positivity
    · have h1 : e * (1 / e) = 1 := mul_one_div_cancel hne
      by_contra hcon
      push Not at hcon
      nlinarith
  rw [← integral_comp_rpow_Ioi _ hne']
  have e1 : ∀ u ∈ Ioi (0 : ℝ), (|1 / e| * u ^ (1 / e - 1)) • (c * (u ^ (1 / e)) ^ e * exp (-(c * (u ^ (1 / e)) ^ e))) =
      |1 / e| * c * (u ^ (1 + 1 / e - 1) * exp (-(c * u))) := fun u hu => by
    have hu : 0 < u := hu
    rw [← rpow_mul hu.le, one_div_mul_cancel hne, rpow_one, smul_eq_mul, show 1 + 1 / e - 1 = (1 / e - 1) + 1 by ring,
      rpow_add_one hu.ne']
    ring
  rw [setIntegral_congr_fun measurableSet_Ioi e1, integral_const_mul, integral_rpow_mul_exp_neg_mul_Ioi hpos hc,
    one_div c, inv_rpow hc.le, ← rpow_neg hc.le, show -(1 + 1 / e) = -(1 / e) - 1 by ring, rpow_sub_one hc.ne']
  field_simp

theorem mul_exp_neg_le_half {v : ℝ} : v * exp (-v) ≤ 2 * exp (-(v / 2)) := by
  have h := mul_exp_neg_le (v / 2)
  have e : v * exp (-v) = 2 * (v / 2 * exp (-(v / 2))) * exp (-(v / 2)) := by
    rw [show -v = -(v / 2) + -(v / 2) by ring, exp_add]
    ring
  rw [e]
  nlinarith [exp_pos (-(v / 2))]

theorem powExp_tendsto {l : Filter ℝ} [l.IsCountablyGenerated] {W : ℝ → ℝ → ℝ} {L : ℝ → ℝ} {c e k : ℝ} (hc : 0 < c)
    (hk : 0 < k) (he : 0 < e ∨ e < -1) (hL : Tendsto L l atTop) (hm : ∀ y, Measurable (W y))
    (hlow : 0 < e → ∀ᶠ y in l, ∀ s ∈ Ioo 0 (L y), k * s ^ e ≤ W y s)
    (hup : e < -1 → ∀ᶠ y in l, ∀ s ∈ Ioo 0 (L y), 0 ≤ W y s ∧ W y s ≤ k * s ^ e)
    (hlim : ∀ s, 0 < s → Tendsto (fun y => W y s) l (𝓝 (c * s ^ e))) :
    Tendsto (fun y => ∫ s in (0)..(L y), W y s * exp (-W y s)) l
      (𝓝 (|1 / e| * c ^ (-(1 / e)) * Gamma (1 + 1 / e))) := by
  rw [← powExp_integral hc he]
  have hset : ∀ᶠ y in l, ∫ s in (0)..(L y), W y s * exp (-W y s) =
      ∫ s in Ioi (0 : ℝ), (Iio (L y)).indicator (fun s => W y s * exp (-W y s)) s := by
    filter_upwards [hL.eventually_gt_atTop 0] with y hy
    rw [intervalIntegral.integral_of_le hy.le, setIntegral_indicator measurableSet_Iio, Ioi_inter_Iio,
      integral_Ioc_eq_integral_Ioo]
  refine Tendsto.congr' (EventuallyEq.symm hset) ?_
  have hlim' : ∀ᵐ s ∂volume.restrict (Ioi (0 : ℝ)),
      Tendsto (fun y => (Iio (L y)).indicator (fun s => W y s * exp (-W y s)) s) l
        (𝓝 (c * s ^ e * exp (-(c * s ^ e)))) := by
    refine (ae_restrict_iff' measurableSet_Ioi).mpr (Eventually.of_forall fun s hs => ?_)
    have h := hlim s hs
    refine Tendsto.congr' ?_ (h.mul ((continuous_exp.tendsto _).comp h.neg))
    filter_upwards [hL.eventually_gt_atTop s] with y hy
    rw [indicator_of_mem (show s ∈ Iio (L y) from hy)]
    rfl
  have hmeas : ∀ᶠ y in l, AEStronglyMeasurable ((Iio (L y)).indicator (fun s => W y s * exp (-W y s)))
      (volume.restrict (Ioi (0 : ℝ))) :=
    Eventually.of_forall fun y => (((hm y).mul (measurable_exp.comp (hm y).neg)).indicator
      measurableSet_Iio).aestronglyMeasurable
  rcases he with he | he
  · refine tendsto_integral_filter_of_dominated_convergence (fun s => 2 * exp (-(k / 2) * s ^ e)) hmeas ?_ ?_ hlim'
    · filter_upwards [hlow he] with y hy
      refine (ae_restrict_iff' measurableSet_Ioi).mpr (Eventually.of_forall fun s hs => ?_)
      by_cases hsL : s < L y
      · rw [indicator_of_mem (show s ∈ Iio (L y) from hsL)]
        have h := hy s ⟨hs, hsL⟩
        have hp : 0 < k * s ^ e := mul_pos hk (rpow_pos_of_pos hs _)
        rw [norm_of_nonneg (mul_nonneg (hp.le.trans h) (exp_pos _).le)]
        refine mul_exp_neg_le_half.trans (mul_le_mul_of_nonneg_left (exp_le_exp.mpr ?_) (by norm_num))
        nlinarith
      · rw [indicator_of_notMem (show s ∉ Iio (L y) from hsL), norm_zero]
        positivity
    · have := integrableOn_rpow_mul_exp_neg_mul_rpow (s := 0) (by norm_num) he (half_pos hk)
      simp only [rpow_zero, one_mul] at this
      exact this.const_mul 2
  · refine tendsto_integral_filter_of_dominated_convergence (fun s => if s ≤ 1 then 1 else k * s ^ e) hmeas ?_ ?_ hlim'
    · filter_upwards [hup he] with y hy
      refine (ae_restrict_iff' measurableSet_Ioi).mpr (Eventually.of_forall fun s hs => ?_)
      by_cases hsL : s < L y
      · rw [indicator_of_mem (show s ∈ Iio (L y) from hsL)]
        obtain ⟨h0, h1⟩ := hy s ⟨hs, hsL⟩
        rw [norm_of_nonneg (mul_nonneg h0 (exp_pos _).le)]
        split_ifs
        · exact mul_exp_neg_le _
        · refine (mul_le_of_le_one_right h0 (exp_le_one_iff.mpr (by linarith))).trans h1
      · rw [indicator_of_notMem (show s ∉ Iio (L y) from hsL), norm_zero]
        have : 0 < k * s ^ e := mul_pos hk (rpow_pos_of_pos hs _)
        split_ifs <;> linarith
    · rw [← Ioc_union_Ioi_eq_Ioi (zero_le_one (α := ℝ))]
      refine IntegrableOn.union ?_ ?_
      · have h1 : IntegrableOn (fun _ : ℝ => (1 : ℝ)) (Ioc 0 1) volume := integrableOn_const (by simp)
        refine h1.congr_fun (fun s hs => ?_) measurableSet_Ioc
        simp only [if_pos hs.2]
      · have h1 : IntegrableOn (fun s : ℝ => k * s ^ e) (Ioi 1) volume :=
          (integrableOn_Ioi_rpow_of_lt he zero_lt_one).const_mul k
        refine h1.congr_fun (fun s hs => ?_) measurableSet_Ioi
        have : ¬ s ≤ 1 := not_le.mpr hs
        simp only [if_neg this]

end Copulae
