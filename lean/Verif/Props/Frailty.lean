import Mathlib.Analysis.SpecialFunctions.Log.Deriv
import Mathlib.Analysis.Convex.SpecificFunctions.Basic
import Verif.Model.ArchRandom
import Verif.Lemmas.Frailty
import Verif.Lemmas.ArchFamilies
import Verif.Spec.Copula
import Verif.Props.ArchCdf

/-!
C58: samplers in dimensions other than two, which divide exponential variates by a random frailty.
The uniforms are the coordinates of a point of the unit cube with Lebesgue measure and the frailty is an
independent variate with law `μ`.

Clayton is right with the standard gamma law it draws from. Frank is right if the frailty has the
logarithmic series law (`frank_random_frailty_partial`), but the generator of that law is wrong: for a
parameter above 3 it returns a uniform variate, for a parameter up to 3 it returns NaN with positive
probability.
-/

namespace Copulae

open MeasureTheory Set ProbabilityTheory

/-- The coordinates `U (r j) x`, built from independent uniforms `r j` and a frailty `x` with law `μ`,
are in (0, 1) and have joint distribution function `C`. -/
structure IsFrailtySampler {d : ℕ} (C : (Fin d → ℝ) → ℝ) (μ : Measure ℝ) (U : ℝ → ℝ → ℝ) : Prop where
  meas : Measurable fun p : ℝ × ℝ => U p.1 p.2
  mem : ∀ r ∈ Ioo (0 : ℝ) 1, ∀ x > (0 : ℝ), U r x ∈ Ioo (0 : ℝ) 1
  dist : ∀ b : Fin d → ℝ, (∀ j, 0 < b j ∧ b j ≤ 1) →
    (μ.prod (volume : Measure (Fin d → ℝ)))
      {p | (∀ j, p.2 j ∈ Ioo (0 : ℝ) 1) ∧ ∀ j, U (p.2 j) p.1 ≤ b j} = ENNReal.ofReal (C b)

theorem claytonPsiR_le_iff {θ t b : ℝ} (hθ : 0 < θ) (ht : 0 < t) (hb : 0 < b) :
    claytonPsiR θ t ≤ b ↔ b ^ (-θ) - 1 ≤ t := by
  unfold claytonPsiR
  rw [_root_.sign_pos hθ, SignType.coe_one, one_mul, max_eq_left (by linarith)]
  have h1 : (b ^ (-θ)) ^ (-1 / θ) = b := by
    rw [← Real.rpow_mul hb.le, show -θ * (-1 / θ) = 1 by field_simp, Real.rpow_one]
  conv_lhs => rw [← h1]
  rw [Real.rpow_le_rpow_iff_of_neg (by linarith) (Real.rpow_pos_of_pos hb _)
    (div_neg_of_neg_of_pos (by norm_num) hθ)]
  constructor <;> intro h <;> linarith

/-- C58, Clayton: for every parameter from 1e-7 on, every dimension other than two, all uniforms in
(0, 1) and all positive frailties, `random` returns finite values in (0, 1) which have the Clayton
copula as joint distribution when the frailties are standard gamma with shape 1/θ. -/
theorem clayton_random_frailty {θ : ℝ} (hθ : 1 / 10 ^ 7 ≤ θ) {d : ℕ} (hd : d ≠ 2) :
    ∃ U : ℝ → ℝ → ℝ, IsFrailtySampler (d := d) (Spec.clayton θ) (gammaMeasure (1 / θ) 1) U ∧
      ∀ (n : ℕ) (r : Fin n → Fin d → ℝ) (g : Fin n → ℝ), (∀ i j, r i j ∈ Ioo (0 : ℝ) 1) →
        (∀ i, 0 < g i) →
        claytonRandom θ (fun i j => .fin (r i j)) (fun i => .fin (g i))
          = .ok fun i j => .fin (U (r i j) (g i)) := by
  have h0 : 0 < θ := lt_of_lt_of_le (by norm_num) hθ
  have harg : ∀ r ∈ Ioo (0 : ℝ) 1, ∀ x > (0 : ℝ), 0 < -Real.log r / x := fun r hr x hx =>
    div_pos (by linarith [Real.log_neg hr.1 hr.2]) hx
  have : IsProbabilityMeasure (gammaMeasure (1 / θ) 1) :=
    isProbabilityMeasure_gammaMeasure (by positivity) one_pos
  have hU : Measurable fun p : ℝ × ℝ => claytonPsiR θ (-Real.log p.1 / p.2) := by
    unfold claytonPsiR
    fun_prop
  refine ⟨fun r x => claytonPsiR θ (-Real.log r / x), ⟨hU, fun r hr x hx => ?_, fun b hb => ?_⟩,
    fun n r g hr hg => ?_⟩
  · have ht := harg r hr x hx
    unfold claytonPsiR
    rw [_root_.sign_pos h0, SignType.coe_one, one_mul, max_eq_left (by linarith)]
    exact ⟨Real.rpow_pos_of_pos (by linarith) _, Real.rpow_lt_one_of_one_lt_of_neg (by linarith)
      (div_neg_of_neg_of_pos (by norm_num) h0)⟩
  · have hφ : ∀ j, 0 ≤ b j ^ (-θ) - 1 := fun j => by
      have := Real.one_le_rpow_of_pos_of_le_one_of_nonpos (hb j).1 (hb j).2 (by linarith : -θ ≤ 0)
      linarith
    have hm : Measurable (claytonPsiR θ) := by
      unfold claytonPsiR
      fun_prop
    rw [frailty_distribution (gammaMeasure (1 / θ) 1) gamma_pos
      (fun s hs => gamma_laplace (by positivity) hs) hm hφ
      fun j t ht => claytonPsiR_le_iff h0 ht (hb j).1]
    congr 1
    unfold Spec.clayton
    rw [Finset.sum_sub_distrib, Finset.sum_const, Finset.card_univ, Fintype.card_fin, nsmul_eq_mul,
      mul_one]
    have hs : (0 : ℝ) ≤ ∑ j, b j ^ (-θ) - d + 1 := by
      have := Finset.sum_nonneg fun j (_ : j ∈ Finset.univ) => hφ j
      rw [Finset.sum_sub_distrib, Finset.sum_const, Finset.card_univ, Fintype.card_fin,
        nsmul_eq_mul, mul_one] at this
      linarith
    rw [max_eq_left hs]
    congr 1
    · ring
    · ring
  · unfold claytonRandom
    rw [if_neg (by rw [abs_of_pos h0]; linarith), dif_neg hd, claytonPsi_ok h0.ne']
    simp only [bind, Except.bind, pure, Except.pure]
    refine congrArg Except.ok (funext fun i => funext fun j => ?_)
    have ht := harg (r i j) (hr i j) (g i) (hg i)
    rw [Fl.log_pos (hr i j).1, Fl.neg_fin, Fl.fin_div_fin' _ (hg i).ne']
    have hp : 0 < max (1 + (SignType.sign θ : ℝ) * (-Real.log (r i j) / g i)) 0 := by
      rw [_root_.sign_pos h0, SignType.coe_one, one_mul]
      exact lt_max_of_lt_left (by linarith)
    simp only [fl_sign, Fl.fin_mul_fin, Fl.fin_add_fin, Fl.maximum_fin, Fl.pow_pos hp]
    rfl

/-! ## Frank -/

/-- The logarithmic series law with parameter `1 - exp (-θ)`: mass `p^k / (k θ)` at `k = 1, 2, ...`. -/
noncomputable def Spec.logSeries (θ : ℝ) : Measure ℝ :=
  Measure.sum fun k : ℕ =>
    ENNReal.ofReal ((1 - Real.exp (-θ)) ^ (k + 1) / (k + 1) / θ) • Measure.dirac ((k : ℝ) + 1)

theorem logSeries_laplace {θ s : ℝ} (hθ : 0 < θ) (hs : 0 ≤ s) :
    ∫⁻ x, ENNReal.ofReal (Real.exp (-(x * s))) ∂(Spec.logSeries θ)
      = ENNReal.ofReal (frankPsiR θ s) := by
  have hp0 : 0 < 1 - Real.exp (-θ) := by
    have := Real.exp_lt_one_iff.mpr (by linarith : -θ < 0)
    linarith
  have hp1 : 1 - Real.exp (-θ) < 1 := by linarith [Real.exp_pos (-θ)]
  have hq0 : 0 < (1 - Real.exp (-θ)) * Real.exp (-s) := mul_pos hp0 (Real.exp_pos _)
  have hq1 : (1 - Real.exp (-θ)) * Real.exp (-s) < 1 := by
    have : Real.exp (-s) ≤ 1 := Real.exp_le_one_iff.mpr (by linarith)
    nlinarith [Real.exp_pos (-s)]
  have hsum := (Real.hasSum_pow_div_log_of_abs_lt_one (by rwa [abs_of_pos hq0])).div_const θ
  rw [Spec.logSeries, lintegral_sum_measure]
  have e : ∀ k : ℕ, ∫⁻ x, ENNReal.ofReal (Real.exp (-(x * s)))
      ∂(ENNReal.ofReal ((1 - Real.exp (-θ)) ^ (k + 1) / (k + 1) / θ) • Measure.dirac ((k : ℝ) + 1))
      = ENNReal.ofReal (((1 - Real.exp (-θ)) * Real.exp (-s)) ^ (k + 1) / (k + 1) / θ) := by
    intro k
    rw [lintegral_smul_measure, lintegral_dirac' _ (by fun_prop), smul_eq_mul,
      ← ENNReal.ofReal_mul (by positivity)]
    congr 1
    rw [mul_pow, ← Real.exp_nat_mul]
    push_cast
    rw [show ((k : ℝ) + 1) * -s = -(((k : ℝ) + 1) * s) by ring]
    ring
  simp only [e]
  rw [← ENNReal.ofReal_tsum_of_nonneg (fun k => by positivity) hsum.summable, hsum.tsum_eq]
  congr 1
  unfold frankPsiR
  congr 2
  ring_nf

theorem logSeries_pos (θ : ℝ) : ∀ᵐ x ∂(Spec.logSeries θ), 0 < x := by
  rw [Spec.logSeries, Measure.ae_sum_iff' measurableSet_Ioi]
  intro k
  refine Measure.ae_smul_measure ?_ _
  rw [ae_dirac_iff measurableSet_Ioi]
  positivity

theorem frank_p {θ : ℝ} (hθ : 0 < θ) : 0 < 1 - Real.exp (-θ) ∧ 1 - Real.exp (-θ) < 1 := by
  have := Real.exp_lt_one_iff.mpr (by linarith : -θ < 0)
  exact ⟨by linarith, by linarith [Real.exp_pos (-θ)]⟩

theorem frankPhi_exp {θ b : ℝ} (hθ : 0 < θ) (hb : 0 < b) :
    Real.exp (-frankPhi θ b) = (1 - Real.exp (-θ * b)) / (1 - Real.exp (-θ)) := by
  rw [frankPhi, neg_neg, Real.exp_log (frank_ratio_pos hθ.ne' hb), ← neg_div_neg_eq]
  congr 1 <;> ring

theorem frankPsiR_le_iff {θ t b : ℝ} (hθ : 0 < θ) (hb : 0 < b) (ht : 0 < t) :
    frankPsiR θ t ≤ b ↔ frankPhi θ b ≤ t := by
  obtain ⟨hp0, hp1⟩ := frank_p hθ
  have hpos := frank_one_add_pos (θ := θ) ht.le
  rw [← neg_le_neg_iff, ← neg_le_neg_iff (b := frankPhi θ b), ← Real.exp_le_exp (x := -t),
    frankPhi_exp hθ hb, le_div_iff₀ hp0, frankPsiR,
    neg_div, neg_neg, le_div_iff₀ hθ, Real.le_log_iff_exp_le hpos,
    show -b * θ = -θ * b by ring]
  constructor <;> intro h <;> nlinarith

/-- The value returned for a uniform `r` and a frailty `x`. -/
noncomputable def frankFrailtyU (θ r x : ℝ) : ℝ := frankPsiR θ (-Real.log r / x)

theorem frankFrailtyU_mem {θ r x : ℝ} (hθ : 0 < θ) (hr : r ∈ Ioo (0 : ℝ) 1) (hx : 0 < x) :
    frankFrailtyU θ r x ∈ Ioo (0 : ℝ) 1 := by
  have ht : 0 < -Real.log r / x := div_pos (by linarith [Real.log_neg hr.1 hr.2]) hx
  obtain ⟨hp0, hp1⟩ := frank_p hθ
  have hpos := frank_one_add_pos (θ := θ) ht.le
  have he : Real.exp (-(-Real.log r / x)) < 1 := Real.exp_lt_one_iff.mpr (by linarith)
  have he0 := Real.exp_pos (-(-Real.log r / x))
  unfold frankFrailtyU frankPsiR
  constructor
  · refine div_pos (neg_pos.mpr (Real.log_neg hpos ?_)) hθ
    nlinarith
  · rw [div_lt_one hθ, neg_lt, Real.lt_log_iff_exp_lt hpos]
    nlinarith

/-- `random` of a Frank copula with a positive parameter, in any dimension but two. -/
theorem frankRandom_fin {θ : ℝ} (hθ : 1 / 10 ^ 7 ≤ θ) {d : ℕ} (hd : d ≠ 2) {n : ℕ}
    (r : Fin n → Fin d → ℝ) (g : Fin n → ℝ) (hr : ∀ i j, r i j ∈ Ioo (0 : ℝ) 1)
    (hg : ∀ i, 0 < g i) :
    frankRandom θ (fun i j => .fin (r i j)) (fun i => .fin (g i))
      = fun i j => .fin (frankFrailtyU θ (r i j) (g i)) := by
  have h0 : 0 < θ := lt_of_lt_of_le (by norm_num) hθ
  obtain ⟨hp0, hp1⟩ := frank_p h0
  have hne : log1mexp (.fin θ) ≠ Fl.fin 0 := by
    rw [log1mexp_fin h0]
    intro h
    have := Real.log_neg hp0 hp1
    simp only [Fl.fin.injEq] at h
    linarith
  unfold frankRandom
  rw [if_neg (by rw [abs_of_pos h0]; linarith), dif_neg hd, if_neg hne]
  refine funext fun i => funext fun j => ?_
  have ht : 0 < -Real.log (r i j) / g i :=
    div_pos (by linarith [Real.log_neg (hr i j).1 (hr i j).2]) (hg i)
  rw [Fl.log_pos (hr i j).1, Fl.neg_fin, Fl.fin_div_fin' _ (hg i).ne',
    frankPsi_fin h0.ne' (by linarith) ht.le]
  rfl

theorem frank_frailty_dist {θ : ℝ} (h0 : 0 < θ) {d : ℕ} (μ : Measure ℝ) [SFinite μ]
    (hpos : ∀ᵐ x ∂μ, 0 < x) {ψ : ℝ → ℝ}
    (hL : ∀ s, 0 ≤ s → ∫⁻ x, ENNReal.ofReal (Real.exp (-(x * s))) ∂μ = ENNReal.ofReal (ψ s))
    (b : Fin d → ℝ) (hb : ∀ j, 0 < b j ∧ b j ≤ 1) :
    (μ.prod (volume : Measure (Fin d → ℝ)))
      {p | (∀ j, p.2 j ∈ Ioo (0 : ℝ) 1) ∧ ∀ j, frankFrailtyU θ (p.2 j) p.1 ≤ b j}
      = ENNReal.ofReal (ψ (∑ j, frankPhi θ (b j))) := by
  have hm : Measurable (frankPsiR θ) := by
    unfold frankPsiR
    fun_prop
  refine frailty_distribution μ hpos hL hm (fun j => ?_)
    fun j t ht => frankPsiR_le_iff h0 (hb j).1 ht
  have h1 : Real.exp (-frankPhi θ (b j)) ≤ 1 := by
    rw [frankPhi_exp h0 (hb j).1, div_le_one (frank_p h0).1]
    have : Real.exp (-θ) ≤ Real.exp (-θ * b j) := Real.exp_le_exp.mpr (by nlinarith [(hb j).2])
    linarith
  rw [Real.exp_le_one_iff] at h1
  linarith

/-- C58, Frank, given frailties with the logarithmic series law. That `random_log_series_ln1p` draws
from this law is false, see below. -/
theorem frank_random_frailty_partial {θ : ℝ} (hθ : 1 / 10 ^ 7 ≤ θ) {d : ℕ} (hd : d ≠ 2) (hd1 : 1 ≤ d) :
    ∃ U : ℝ → ℝ → ℝ, IsFrailtySampler (d := d) (Spec.frank θ) (Spec.logSeries θ) U ∧
      ∀ (n : ℕ) (r : Fin n → Fin d → ℝ) (g : Fin n → ℝ), (∀ i j, r i j ∈ Ioo (0 : ℝ) 1) →
        (∀ i, 0 < g i) →
        frankRandom θ (fun i j => .fin (r i j)) (fun i => .fin (g i))
          = fun i j => .fin (U (r i j) (g i)) := by
  have h0 : 0 < θ := lt_of_lt_of_le (by norm_num) hθ
  have : SFinite (Spec.logSeries θ) := by
    unfold Spec.logSeries
    infer_instance
  have hU : Measurable fun p : ℝ × ℝ => frankFrailtyU θ p.1 p.2 := by
    unfold frankFrailtyU frankPsiR
    fun_prop
  refine ⟨frankFrailtyU θ, ⟨hU, fun r hr x hx => frankFrailtyU_mem h0 hr hx, fun b hb => ?_⟩,
    fun n r g hr hg => frankRandom_fin hθ hd r g hr hg⟩
  rw [frank_frailty_dist h0 (Spec.logSeries θ) (logSeries_pos θ)
    (fun s hs => logSeries_laplace h0 hs) b hb]
  congr 1
  exact frank_closed_aux h0.ne' hd1 b fun j => (hb j).1

example := frank_random_frailty_partial (θ := 2) (by norm_num) (d := 3) (by norm_num) (by norm_num)

/-- The frailty generator for a parameter above 3 (`alpha = -θ < -3`) returns its uniforms
unchanged: its loop is never entered. -/
theorem logSeriesLarge_uniform {θ : ℝ} (hθ : 3 < θ) {n : ℕ} (u : Fin n → ℝ) (hu : ∀ i, u i < 1)
    (fuel : ℕ) : logSeriesLarge (-θ) (fuel + 1) u = some u := by
  have hp : 3 < - -θ / Real.log (1 - (Real.exp (-θ) - 1)) := by
    have he := Real.exp_pos (-θ)
    have he1 : Real.exp (-θ) < 1 := Real.exp_lt_one_iff.mpr (by linarith)
    have hl0 : 0 < Real.log (1 - (Real.exp (-θ) - 1)) := Real.log_pos (by linarith)
    have hl1 : Real.log (1 - (Real.exp (-θ) - 1)) < 1 := by
      linarith [Real.log_le_sub_one_of_pos (by linarith : 0 < 1 - (Real.exp (-θ) - 1))]
    rw [neg_neg, lt_div_iff₀ hl0]
    nlinarith
  unfold logSeriesLarge logSeriesLoop
  rw [if_neg]
  rintro ⟨i, hi⟩
  have := hu i
  linarith

example := logSeriesLarge_uniform (θ := 5) (by norm_num) (n := 2) ![1 / 3, 1 / 2] (by intro i; fin_cases i <;> norm_num) 7

/-- C58 fails for Frank with a parameter above 3: with the uniform frailty that the code draws, every
coordinate is at most `b` with probability more than `b`, so not even the margins are uniform. -/
theorem frank_random_large_fails {θ : ℝ} (hθ : 3 < θ) {d : ℕ} (k : Fin d) {b : ℝ} (hb : 0 < b)
    (hb1 : b < 1) :
    ENNReal.ofReal b < ((volume.restrict (Ioo (0 : ℝ) 1)).prod (volume : Measure (Fin d → ℝ)))
      {p | (∀ j, p.2 j ∈ Ioo (0 : ℝ) 1) ∧ frankFrailtyU θ (p.2 k) p.1 ≤ b} := by
  have h0 : 0 < θ := by linarith
  obtain ⟨hp0, hp1⟩ := frank_p h0
  set μ := (volume.restrict (Ioo (0 : ℝ) 1) : Measure ℝ) with hμ
  have hpos : ∀ᵐ x ∂μ, 0 < x := by
    rw [hμ, ae_restrict_iff' measurableSet_Ioo]
    exact Filter.Eventually.of_forall fun x hx => hx.1
  have hprob : ∀ s, 0 ≤ s → ∫⁻ x, ENNReal.ofReal (Real.exp (-(x * s))) ∂μ ≠ ⊤ := by
    intro s hs
    have : ∫⁻ x, ENNReal.ofReal (Real.exp (-(x * s))) ∂μ ≤ ∫⁻ _, 1 ∂μ := by
      refine lintegral_mono_ae (hpos.mono fun x hx => ?_)
      rw [← ENNReal.ofReal_one]
      refine ENNReal.ofReal_le_ofReal (Real.exp_le_one_iff.mpr ?_)
      have := mul_nonneg hx.le hs
      linarith
    refine ne_top_of_le_ne_top ?_ this
    rw [lintegral_one, hμ, Measure.restrict_apply_univ, Real.volume_Ioo]
    exact ENNReal.ofReal_ne_top
  have hd := frank_frailty_dist (d := d) h0 μ hpos
    (ψ := fun s => (∫⁻ x, ENNReal.ofReal (Real.exp (-(x * s))) ∂μ).toReal)
    (fun s hs => (ENNReal.ofReal_toReal (hprob s hs)).symm)
    (Function.update (fun _ => 1) k b) fun j => by
      by_cases h : j = k
      · subst h; rw [Function.update_self]; exact ⟨hb, hb1.le⟩
      · rw [Function.update_of_ne h]; exact ⟨one_pos, le_rfl⟩
  have hphi : ∑ j, frankPhi θ (Function.update (fun _ => (1 : ℝ)) k b j) = frankPhi θ b := by
    rw [Finset.sum_eq_single k]
    · rw [Function.update_self]
    · intro j _ h
      rw [Function.update_of_ne h, frankPhi, mul_one, div_self (exp_neg_ne h0.ne'), Real.log_one,
        neg_zero]
    · intro h; exact absurd (Finset.mem_univ k) h
  have hφ0 : 0 ≤ frankPhi θ b := by
    have h1 : Real.exp (-frankPhi θ b) ≤ 1 := by
      rw [frankPhi_exp h0 hb, div_le_one hp0]
      have : Real.exp (-θ) ≤ Real.exp (-θ * b) := Real.exp_le_exp.mpr (by nlinarith)
      linarith
    rw [Real.exp_le_one_iff] at h1
    linarith
  have hlow : Real.exp (-frankPhi θ b) ≤
      (∫⁻ x, ENNReal.ofReal (Real.exp (-(x * frankPhi θ b))) ∂μ).toReal := by
    rw [← ENNReal.ofReal_le_iff_le_toReal (hprob _ hφ0)]
    have : ∫⁻ _, ENNReal.ofReal (Real.exp (-frankPhi θ b)) ∂μ ≤
        ∫⁻ x, ENNReal.ofReal (Real.exp (-(x * frankPhi θ b))) ∂μ := by
      refine lintegral_mono_ae ?_
      refine (ae_restrict_iff' measurableSet_Ioo).mpr (Filter.Eventually.of_forall fun x hx =>
        ENNReal.ofReal_le_ofReal (Real.exp_le_exp.mpr ?_))
      nlinarith [hx.1, hx.2]
    refine le_trans (le_of_eq ?_) this
    rw [lintegral_const, hμ, Measure.restrict_apply_univ, Real.volume_Ioo, sub_zero,
      ENNReal.ofReal_one, mul_one]
  have hstrict : b < Real.exp (-frankPhi θ b) := by
    rw [frankPhi_exp h0 hb, lt_div_iff₀ hp0]
    have := strictConvexOn_exp.2 (mem_univ (0 : ℝ)) (mem_univ (-θ)) (by linarith)
      (by linarith : 0 < 1 - b) hb (by ring)
    simp only [smul_eq_mul, mul_zero, zero_add, Real.exp_zero, mul_one] at this
    rw [show b * -θ = -θ * b by ring] at this
    nlinarith
  have hset : {p : ℝ × (Fin d → ℝ) | (∀ j, p.2 j ∈ Ioo (0 : ℝ) 1) ∧
        ∀ j, frankFrailtyU θ (p.2 j) p.1 ≤ Function.update (fun _ => (1 : ℝ)) k b j} ⊆
      {p | (∀ j, p.2 j ∈ Ioo (0 : ℝ) 1) ∧ frankFrailtyU θ (p.2 k) p.1 ≤ b} := by
    rintro p ⟨h1, h2⟩
    refine ⟨h1, ?_⟩
    have := h2 k
    rwa [Function.update_self] at this
  refine lt_of_lt_of_le ?_ (measure_mono hset)
  rw [hd, hphi, ENNReal.ofReal_lt_ofReal_iff (by linarith [Real.exp_pos (-frankPhi θ b)])]
  linarith

example := frank_random_large_fails (θ := 5) (by norm_num) (d := 3) 0 (b := 1 / 2) (by norm_num) (by norm_num)

theorem logSeriesSmall_nan {θ u1 u2 : ℝ} (hθ : 0 < θ) (h1 : 0 < u1) (h2 : u2 ∈ Ioo (0 : ℝ) 1)
    (h : u1 < (1 - Real.exp (-(u2 * θ))) ^ 2) : logSeriesSmall (-θ) u1 u2 = .nan := by
  have hp : 0 < u2 * θ := mul_pos h2.1 hθ
  have he1 : Real.exp (-(u2 * θ)) < 1 := Real.exp_lt_one_iff.mpr (by linarith)
  have he0 := Real.exp_pos (-(u2 * θ))
  have hle : Real.exp (-θ) ≤ Real.exp (-(u2 * θ)) := Real.exp_le_exp.mpr (by nlinarith [h2.2])
  set q := 1 - Real.exp (-(u2 * θ)) with hq
  have hq0 : 0 < q := by linarith
  have hq1 : q < 1 := by linarith
  have hlog : Real.log q < 0 := Real.log_neg hq0 hq1
  have harg : u2 * -θ = -(u2 * θ) := by ring
  have hqq : -(Real.exp (-(u2 * θ)) - 1) = q := by rw [hq]; ring
  have hlq : (if u2 * -θ > -(69314718055994530942 / 10 ^ 20)
      then Fl.log (-(Fl.expm1 (.fin (u2 * -θ))))
      else Fl.log1p (-(Fl.exp (.fin (u2 * -θ))))) = .fin (Real.log q) := by
    rw [harg]
    split
    · rw [Fl.expm1_fin, Fl.neg_fin, hqq, Fl.log_pos hq0]
    · rw [Fl.exp_fin, Fl.neg_fin, Fl.log1p_pos (by linarith), hq]
      rfl
  unfold logSeriesSmall
  simp only [hlq]
  rw [harg, hqq]
  have hlt : u1 < q * q := by rw [← sq]; exact h
  rw [if_neg, if_neg, if_pos hlt, Fl.fin_div_fin' _ hlog.ne, Fl.log_neg (div_neg_of_pos_of_neg h1 hlog)]
  · rfl
  · rintro ⟨-, h⟩
    rw [← harg, hlq] at h
    have := Fl.fin.inj h
    linarith
  · rintro (h | ⟨h, -⟩)
    · nlinarith
    · exact h hlt

/-- C58 fails for Frank with a parameter up to 3: the frailty generator returns NaN with positive
probability ... -/
theorem frank_random_small_fails {θ : ℝ} (hθ : 0 < θ) :
    0 < volume {p : ℝ × ℝ | p.1 ∈ Ioo (0 : ℝ) 1 ∧ p.2 ∈ Ioo (0 : ℝ) 1 ∧
      logSeriesSmall (-θ) p.1 p.2 = .nan} := by
  set c := (1 - Real.exp (-(1 / 2 * θ))) ^ 2 with hc
  have he : Real.exp (-(1 / 2 * θ)) < 1 := Real.exp_lt_one_iff.mpr (by linarith)
  have he0 := Real.exp_pos (-(1 / 2 * θ))
  have hc0 : 0 < c := by
    rw [hc]
    have : 0 < 1 - Real.exp (-(1 / 2 * θ)) := by linarith
    positivity
  have hc1 : c < 1 := by rw [hc]; nlinarith
  have hsub : Ioo 0 c ×ˢ Ioo (1 / 2 : ℝ) 1 ⊆ {p : ℝ × ℝ | p.1 ∈ Ioo (0 : ℝ) 1 ∧
      p.2 ∈ Ioo (0 : ℝ) 1 ∧ logSeriesSmall (-θ) p.1 p.2 = .nan} := by
    rintro ⟨x, y⟩ ⟨hx, hy⟩
    simp only [mem_Ioo] at hx hy
    have hy' : y ∈ Ioo (0 : ℝ) 1 := ⟨by linarith [hy.1], hy.2⟩
    refine ⟨⟨hx.1, by linarith [hx.2]⟩, hy', logSeriesSmall_nan hθ hx.1 hy' ?_⟩
    refine lt_of_lt_of_le hx.2 ?_
    rw [hc]
    refine pow_le_pow_left₀ (by linarith) ?_ 2
    have : Real.exp (-(y * θ)) ≤ Real.exp (-(1 / 2 * θ)) := Real.exp_le_exp.mpr (by nlinarith [hy.1])
    linarith
  refine lt_of_lt_of_le ?_ (measure_mono hsub)
  rw [Measure.volume_eq_prod, Measure.prod_prod, Real.volume_Ioo, Real.volume_Ioo]
  refine ENNReal.mul_pos ?_ ?_ <;> simp [hc0]
  norm_num

example := frank_random_small_fails (θ := 2) (by norm_num)

/-- ... and a NaN frailty makes the whole row NaN. -/
theorem frank_random_nan_row {θ : ℝ} (hθ : 1 / 10 ^ 7 ≤ θ) {d : ℕ} (hd : d ≠ 2) {n : ℕ}
    (r : Fin n → Fin d → Fl) (g : Fin n → Fl) (i : Fin n) (hi : g i = .nan) (j : Fin d) :
    frankRandom θ r g i j = .nan := by
  have h0 : 0 < θ := lt_of_lt_of_le (by norm_num) hθ
  obtain ⟨hp0, hp1⟩ := frank_p h0
  have hne : log1mexp (.fin θ) ≠ Fl.fin 0 := by
    rw [log1mexp_fin h0]
    intro h
    have := Real.log_neg hp0 hp1
    simp only [Fl.fin.injEq] at h
    linarith
  unfold frankRandom
  rw [if_neg (by rw [abs_of_pos h0]; linarith), dif_neg hd, if_neg hne, hi]
  have hdiv : ∀ x : Fl, x / Fl.nan = .nan := fun x => by cases x <;> rfl
  rw [hdiv, frankPsi, if_neg (by linarith), if_neg (by linarith), if_neg h0.ne', if_neg]
  · have hs : ∀ x : Fl, Fl.nan - x = .nan := fun x => by cases x <;> rfl
    rw [hs]
    rfl
  · rw [log1mexp_fin h0]
    exact fun h => h

example : ∃ U : ℝ → ℝ → ℝ,
    IsFrailtySampler (d := 5) (Spec.clayton 2) (gammaMeasure (1 / 2) 1) U :=
  let ⟨U, h, _⟩ := clayton_random_frailty (θ := 2) (by norm_num) (d := 5) (by norm_num)
  ⟨U, h⟩

end Copulae
