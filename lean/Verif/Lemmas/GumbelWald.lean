import Verif.Lemmas.GumbelLik

/-!
The log-density of Gumbel copulas is a criterion to which the argument of Wald applies.
-/

namespace Copulae

open MeasureTheory ProbabilityTheory Spec CopulaMeasure Finset

variable {d : ℕ} {θ : ℝ}

/-- The coefficients of the polynomial in the Gumbel density, times the power of the parameter. -/
noncomputable def gumbelC (d : ℕ) (θ : ℝ) (k : ℕ) : ℝ := θ ^ d * gumbelA d (1 / θ) k

theorem gumbelA_self (d : ℕ) (α : ℝ) : gumbelA d α d = α ^ d := by
  induction d with
  | zero => rw [gumbelA_zero_zero]; simp
  | succ d ih =>
    rw [gumbelA_succ, gumbelA_eq_zero α (by omega), ih]
    ring

theorem gumbelC_self (h : 1 ≤ θ) : gumbelC d θ d = 1 := by
  have : 0 < θ := by linarith
  rw [gumbelC, gumbelA_self, ← mul_pow, mul_one_div_cancel this.ne', one_pow]

theorem gumbelC_nonneg (h : 1 ≤ θ) (k : ℕ) : 0 ≤ gumbelC d θ k := by
  have h0 : 0 < θ := by linarith
  exact mul_nonneg (by positivity) (gumbelA_nonneg (by positivity) (by rw [div_le_one h0]; exact h) d k)

theorem gumbelC_continuousAt (h : 0 < θ) (k : ℕ) : ContinuousAt (fun t => gumbelC d t k) θ := by
  have h1 : Continuous fun α => gumbelA d α k := by unfold gumbelA; fun_prop
  exact (continuousAt_id.pow d).mul (h1.continuousAt.comp (continuousAt_const.div continuousAt_id h.ne'))

theorem gumbelC_le (d : ℕ) : ∃ K : ℝ, 1 ≤ K ∧ ∀ θ, 1 ≤ θ → ∀ k ≤ d, gumbelC d θ k ≤ K * θ ^ d := by
  have h1 : ∀ k, ContinuousOn (fun α => gumbelA d α k) (Set.Icc 0 1) := fun k => by unfold gumbelA; fun_prop
  have h2 : ∀ k, ∃ K : ℝ, ∀ α ∈ Set.Icc (0 : ℝ) 1, gumbelA d α k ≤ K := fun k => by
    obtain ⟨K, hK⟩ := (isCompact_Icc.image_of_continuousOn (h1 k)).bddAbove
    exact ⟨K, fun α hα => hK ⟨α, hα, rfl⟩⟩
  choose K hK using h2
  refine ⟨1 + ∑ k ∈ range (d + 1), |K k|, by linarith [sum_nonneg fun k (_ : k ∈ range (d + 1)) => abs_nonneg (K k)], fun θ h k hk => ?_⟩
  have h0 : 0 < θ := by linarith
  have h3 := hK k (1 / θ) ⟨by positivity, by rw [div_le_one h0]; exact h⟩
  have h4 : |K k| ≤ ∑ k ∈ range (d + 1), |K k| := single_le_sum (f := fun k => |K k|) (fun k _ => abs_nonneg _) (by simp; omega)
  rw [gumbelC, mul_comm]
  refine mul_le_mul_of_nonneg_right ?_ (by positivity)
  have := le_abs_self (K k)
  linarith

/-- An upper bound for the log-densities with parameters between `p` and `q`, whose coefficients are at most `c`. -/
noncomputable def gumbelUp (p q : ℝ) (c : ℕ → ℝ) (u : Fin d → ℝ) : ℝ :=
  -Real.exp (lnorm q (logLog u)) + ∑ j, negLog u j + (p - 1) * (∑ j, logLog u j - d * lnorm q (logLog u)) - d * lnorm q (logLog u) +
    lpoly c (fun k => k) d (lnorm p (logLog u))

/-- The log-density of the Gumbel copula. -/
noncomputable def gumbelLL (θ : ℝ) (u : Fin d → ℝ) : ℝ := gumbelUp θ θ (gumbelC d θ) u

theorem measurable_gumbelUp (p q : ℝ) (c : ℕ → ℝ) : Measurable (gumbelUp (d := d) p q c) := by
  unfold gumbelUp
  have h1 := measurable_lnorm (d := d) q
  have h2 : Measurable fun u : Fin d → ℝ => ∑ j, negLog u j := Finset.measurable_fun_sum _ fun j _ => measurable_negLog j
  have h3 : Measurable fun u : Fin d → ℝ => ∑ j, logLog u j := Finset.measurable_fun_sum _ fun j _ => measurable_logLog j
  exact (((((Real.measurable_exp.comp h1).neg).add h2).add ((h3.sub (h1.const_mul _)).const_mul _)).sub (h1.const_mul _)).add
    ((measurable_lpoly _ _ _).comp (measurable_lnorm p))

theorem abs_sum_sub_le (f g : Fin d → ℝ) : |∑ j, f j - ∑ j, g j| ≤ ∑ j, |f j - g j| := by
  rw [← sum_sub_distrib]
  exact abs_sum_le_sum_abs _ _

theorem gumbelUp_lip (hd : 0 < d) {p q : ℝ} (hp : 1 ≤ p) (hq : 1 ≤ q) {c : ℕ → ℝ} (hc : ∀ k, 0 ≤ c k) (hcd : 0 < c d) :
    LogitLip (2 + (p - 1) * (1 + d) + 2 * d) (gumbelUp (d := d) p q c) := by
  intro u hu v hv
  have hS := logitDist_nonneg u v
  have e1 : |Real.exp (lnorm q (logLog u)) - Real.exp (lnorm q (logLog v))| ≤ logitDist u v := by
    refine (exp_lnorm_lip hd hq _ _).trans ?_
    simp only [exp_logLog hu, exp_logLog hv]
    exact negLog_lip u v
  have e2 := (abs_sum_sub_le (negLog u) (negLog v)).trans (negLog_lip u v)
  have e3 := (abs_sum_sub_le (logLog u) (logLog v)).trans (logLog_lip hu hv)
  have e4 := (lnorm_lip hd (by linarith : 0 < q) (logLog u) (logLog v)).trans (logLog_lip hu hv)
  have e5 := (lnorm_lip hd (by linarith : 0 < p) (logLog u) (logLog v)).trans (logLog_lip hu hv)
  have e6 := lpoly_lip hc hcd (e := fun k => (k : ℝ)) (fun k hk => by rw [abs_of_nonneg (Nat.cast_nonneg k)]; exact_mod_cast hk)
    (lnorm p (logLog u)) (lnorm p (logLog v))
  have hd0 : (0 : ℝ) ≤ d := Nat.cast_nonneg d
  have e7 := mul_le_mul_of_nonneg_left e5 hd0
  have e8 := mul_le_mul_of_nonneg_left e4 hd0
  unfold gumbelUp
  generalize Real.exp (lnorm q (logLog u)) = A at *
  generalize Real.exp (lnorm q (logLog v)) = A' at *
  generalize lpoly c (fun k => (k : ℝ)) d (lnorm p (logLog u)) = B at *
  generalize lpoly c (fun k => (k : ℝ)) d (lnorm p (logLog v)) = B' at *
  generalize lnorm q (logLog u) = w at *
  generalize lnorm q (logLog v) = w' at *
  generalize ∑ j, negLog u j = x at *
  generalize ∑ j, negLog v j = x' at *
  generalize ∑ j, logLog u j = y at *
  generalize ∑ j, logLog v j = y' at *
  generalize logitDist u v = S at *
  rw [abs_le] at e1 e2 e3 e4
  have e9 := abs_le.mp (e6.trans e7)
  have g1 : (p - 1) * ((y - d * w) - (y' - d * w')) ≤ (p - 1) * (S + d * S) :=
    mul_le_mul_of_nonneg_left (by nlinarith [mul_le_mul_of_nonneg_left e4.1 hd0]) (by linarith)
  have g2 : (p - 1) * ((y' - d * w') - (y - d * w)) ≤ (p - 1) * (S + d * S) :=
    mul_le_mul_of_nonneg_left (by nlinarith [mul_le_mul_of_nonneg_left e4.2 hd0]) (by linarith)
  have g3 := mul_le_mul_of_nonneg_left e4.1 hd0
  have g4 := mul_le_mul_of_nonneg_left e4.2 hd0
  rw [abs_le]
  constructor <;> nlinarith

theorem gumbelLL_lip (hd : 0 < d) (h : 1 ≤ θ) : ∃ L, LogitLip L (gumbelLL (d := d) θ) :=
  ⟨_, gumbelUp_lip hd h h (gumbelC_nonneg h) (by rw [gumbelC_self h]; exact one_pos)⟩

theorem sum_logLog_le (h : 0 < θ) (a : Fin d → ℝ) : ∑ j, a j ≤ d * lnorm θ a := by
  refine (sum_le_sum fun j _ => le_lnorm h a j).trans (le_of_eq ?_)
  simp

theorem gumbelLL_le (hd : 0 < d) {p q t : ℝ} (hp : 1 ≤ p) (hpt : p ≤ t) (htq : t ≤ q) {c : ℕ → ℝ}
    (hct : ∀ k ≤ d, gumbelC d t k ≤ c k) (u : Fin d → ℝ) : gumbelLL t u ≤ gumbelUp p q c u := by
  have ht : 1 ≤ t := hp.trans hpt
  have w1 := lnorm_anti hd (by linarith : 0 < t) htq (logLog u)
  have w2 := lnorm_anti hd (by linarith : 0 < p) hpt (logLog u)
  have h1 : lpoly (gumbelC d t) (fun k => (k : ℝ)) d (lnorm t (logLog u)) ≤ lpoly c (fun k => (k : ℝ)) d (lnorm p (logLog u)) := by
    refine Real.log_le_log (lpoly_pos (gumbelC_nonneg ht) (by rw [gumbelC_self ht]; exact one_pos) _ _) (sum_le_sum fun k hk => ?_)
    have hk' : k ≤ d := by simpa [Nat.lt_succ_iff] using hk
    refine mul_le_mul (hct k hk') ?_ (Real.exp_pos _).le ((gumbelC_nonneg ht k).trans (hct k hk'))
    rw [Real.exp_le_exp]
    exact mul_le_mul_of_nonneg_left w2 (Nat.cast_nonneg k)
  have h2 := Real.exp_le_exp.mpr w1
  have h3 := sum_logLog_le (by linarith : 0 < t) (logLog u)
  have hd0 : (0 : ℝ) ≤ d := Nat.cast_nonneg d
  have h4 := mul_le_mul_of_nonneg_left w1 hd0
  unfold gumbelLL gumbelUp
  have h5 : (t - 1) * (∑ j, logLog u j - d * lnorm t (logLog u)) ≤ (p - 1) * (∑ j, logLog u j - d * lnorm t (logLog u)) := by nlinarith
  have h6 : (p - 1) * (∑ j, logLog u j - d * lnorm t (logLog u)) ≤ (p - 1) * (∑ j, logLog u j - d * lnorm q (logLog u)) :=
    mul_le_mul_of_nonneg_left (by linarith) (by linarith)
  linarith

/-- The bounds converge to the log-density. -/
theorem gumbelUp_tendsto (hd : 0 < d) (h : 1 ≤ θ) {p q e : ℕ → ℝ} (hp : Filter.Tendsto p Filter.atTop (nhds θ))
    (hq : Filter.Tendsto q Filter.atTop (nhds θ)) (he : Filter.Tendsto e Filter.atTop (nhds 0)) (u : Fin d → ℝ) :
    Filter.Tendsto (fun n => gumbelUp (p n) (q n) (fun k => gumbelC d θ k + e n) u) Filter.atTop (nhds (gumbelLL θ u)) := by
  have h0 : 0 < θ := by linarith
  have hw := lnorm_continuousAt hd h0 (logLog u)
  have w1 : Filter.Tendsto (fun n => lnorm (p n) (logLog u)) Filter.atTop (nhds (lnorm θ (logLog u))) := hw.tendsto.comp hp
  have w2 : Filter.Tendsto (fun n => lnorm (q n) (logLog u)) Filter.atTop (nhds (lnorm θ (logLog u))) := hw.tendsto.comp hq
  have w3 : Filter.Tendsto (fun n => lpoly (fun k => gumbelC d θ k + e n) (fun k => (k : ℝ)) d (lnorm (p n) (logLog u))) Filter.atTop
      (nhds (lpoly (gumbelC d θ) (fun k => (k : ℝ)) d (lnorm θ (logLog u)))) := by
    unfold lpoly
    refine Filter.Tendsto.log ?_ (lpoly_pos (gumbelC_nonneg h) (by rw [gumbelC_self h]; exact one_pos) _ _).ne'
    refine tendsto_finsetSum _ fun k _ => ?_
    have g1 : Filter.Tendsto (fun n => gumbelC d θ k + e n) Filter.atTop (nhds (gumbelC d θ k)) := by simpa using he.const_add (gumbelC d θ k)
    exact g1.mul ((Real.continuous_exp.tendsto _).comp (w1.const_mul _))
  unfold gumbelLL gumbelUp
  refine Filter.Tendsto.add (Filter.Tendsto.sub (Filter.Tendsto.add (Filter.Tendsto.add ?_ tendsto_const_nhds) ?_) (w2.const_mul _)) w3
  · exact ((Real.continuous_exp.tendsto _).comp w2).neg
  · exact (hp.sub_const 1).mul (tendsto_const_nhds.sub (w2.const_mul _))

/-- Near each parameter the log-densities are bounded by a function whose mean is close to that of the log-density. -/
theorem gumbel_local (hd : 0 < d) (h : 1 ≤ θ) {P : Measure (Fin d → ℝ)} [IsProbabilityMeasure P] (hU : Uniform P) {m : ℝ}
    (hm : ∫ u, gumbelLL θ u ∂P < m) :
    ∃ r, 0 < r ∧ ∃ φ : (Fin d → ℝ) → ℝ, Measurable φ ∧ (∃ L, LogitLip L φ) ∧
      (∀ t, 1 ≤ t → |t - θ| < r → ∀ u ∈ cube d, gumbelLL t u ≤ φ u) ∧ ∫ u, φ u ∂P < m := by
  have h0 : 0 < θ := by linarith
  have hd0 : (0 : ℝ) ≤ d := Nat.cast_nonneg d
  obtain ⟨e, he⟩ : ∃ e : ℕ → ℝ, e = fun n : ℕ => 1 / ((n : ℝ) + 1) := ⟨_, rfl⟩
  have he0 : ∀ n, 0 < e n := fun n => by rw [he]; positivity
  have he1 : ∀ n, e n ≤ 1 := fun n => by
    rw [he]
    simp only
    rw [div_le_one (by positivity)]
    linarith [Nat.cast_nonneg (α := ℝ) n]
  have het : Filter.Tendsto e Filter.atTop (nhds 0) := he ▸ tendsto_one_div_add_atTop_nhds_zero_nat
  obtain ⟨p, hp⟩ : ∃ p : ℕ → ℝ, p = fun n => max 1 (θ - e n) := ⟨_, rfl⟩
  obtain ⟨q, hq⟩ : ∃ q : ℕ → ℝ, q = fun n => θ + e n := ⟨_, rfl⟩
  have hp1 : ∀ n, 1 ≤ p n := fun n => by rw [hp]; exact le_max_left _ _
  have hp2 : ∀ n, p n ≤ θ := fun n => by rw [hp]; exact max_le h (by linarith [he0 n])
  have hq1 : ∀ n, 1 ≤ q n := fun n => by rw [hq]; simp only; linarith [he0 n]
  have hpt : Filter.Tendsto p Filter.atTop (nhds θ) := by
    have := (tendsto_const_nhds (x := (1 : ℝ)) (f := Filter.atTop (α := ℕ))).max (het.const_sub θ)
    rw [sub_zero, max_eq_right h] at this
    rw [hp]
    exact this
  have hqt : Filter.Tendsto q Filter.atTop (nhds θ) := by
    rw [hq]
    simpa using het.const_add θ
  obtain ⟨φ, hφ⟩ : ∃ φ : ℕ → (Fin d → ℝ) → ℝ, φ = fun n => gumbelUp (p n) (q n) fun k => gumbelC d θ k + e n := ⟨_, rfl⟩
  have hφm : ∀ n, Measurable (φ n) := fun n => by rw [hφ]; exact measurable_gumbelUp _ _ _
  have hφL : ∀ n, LogitLip (2 + (p n - 1) * (1 + d) + 2 * d) (φ n) := fun n => by
    rw [hφ]
    exact gumbelUp_lip hd (hp1 n) (hq1 n) (fun k => add_nonneg (gumbelC_nonneg h k) (he0 n).le)
      (add_pos_of_nonneg_of_pos (gumbelC_nonneg h d) (he0 n))
  have hφt : ∀ u, Filter.Tendsto (fun n => φ n u) Filter.atTop (nhds (gumbelLL θ u)) := fun u => by
    rw [hφ]
    exact gumbelUp_tendsto hd h hpt hqt het u
  obtain ⟨B, hB⟩ := (hφt fun _ => 1 / 2).abs.bddAbove_range
  have hI : Filter.Tendsto (fun n => ∫ u, φ n u ∂P) Filter.atTop (nhds (∫ u, gumbelLL θ u ∂P)) := by
    refine tendsto_integral_of_dominated_convergence (fun u => B + (2 + (θ - 1) * (1 + d) + 2 * d) * logitDist u fun _ => 1 / 2)
      (fun n => (hφm n).aestronglyMeasurable) ((logitBound_memLp hU _ _ _).integrable one_le_two) (fun n => ?_)
      (ae_of_all _ hφt)
    filter_upwards [uniform_ae' hU] with u hu
    rw [Real.norm_eq_abs]
    have h1 := (hφL n).bound hu
    have h2 : |φ n fun _ => 1 / 2| ≤ B := hB ⟨n, rfl⟩
    have h3 : 0 ≤ 2 + (p n - 1) * (1 + d) + 2 * d := by
      have := mul_nonneg (by linarith [hp1 n] : 0 ≤ p n - 1) (by positivity : 0 ≤ 1 + (d : ℝ))
      positivity
    rw [abs_of_nonneg h3] at h1
    have h4 : 2 + (p n - 1) * (1 + d) + 2 * d ≤ 2 + (θ - 1) * (1 + d) + 2 * d := by nlinarith [hp2 n]
    have h5 := mul_le_mul_of_nonneg_right h4 (logitDist_nonneg u fun _ => 1 / 2)
    linarith
  obtain ⟨n, hn⟩ := (hI.eventually_lt_const hm).exists
  have hc : ∀ᶠ t in nhds θ, ∀ k ∈ range (d + 1), gumbelC d t k < gumbelC d θ k + e n := by
    rw [Filter.eventually_all_finset]
    exact fun k _ => (gumbelC_continuousAt h0 k).tendsto.eventually_lt_const (by linarith [he0 n])
  obtain ⟨r, hr, hr'⟩ := Metric.eventually_nhds_iff.mp hc
  refine ⟨min r (e n), lt_min hr (he0 n), φ n, hφm n, ⟨_, hφL n⟩, fun t ht htr u _ => ?_, hn⟩
  have h1 := hr' (show dist t θ < r by rw [Real.dist_eq]; exact htr.trans_le (min_le_left _ _))
  have h2 := abs_lt.mp (htr.trans_le (min_le_right _ _))
  rw [hφ]
  refine gumbelLL_le hd (hp1 n) ?_ ?_ (fun k hk => (h1 k (by simp; omega)).le) u
  · rw [hp]
    exact max_le ht (by linarith)
  · rw [hq]
    simp only
    linarith

/-! ### The density -/

theorem sum_gumbelPhi {u : Fin d → ℝ} (hu : u ∈ cube d) (θ : ℝ) : ∑ j, gumbelPhi θ (u j) = ∑ j, Real.exp (θ * logLog u j) := by
  refine sum_congr rfl fun j _ => ?_
  rw [mul_comm, Real.exp_mul, exp_logLog hu, negLog]
  rfl

theorem gumbelDensity_exp (hd : 0 < d) (h : 1 ≤ θ) {u : Fin d → ℝ} (hu : u ∈ cube d) : gumbelDensity θ u = Real.exp (gumbelLL θ u) := by
  have h0 : 0 < θ := by linarith
  have e1 : (∑ j, gumbelPhi θ (u j)) ^ (1 / θ) = Real.exp (lnorm θ (logLog u)) := by
    rw [sum_gumbelPhi hu, Real.rpow_def_of_pos (sumExp_pos hd _ _), lnorm, mul_comm]
  have e2 : (∑ j, gumbelPhi θ (u j)) ^ d = Real.exp (d * (θ * lnorm θ (logLog u))) := by
    rw [sum_gumbelPhi hu, ← exp_mul_lnorm hd h0, ← Real.exp_nat_mul]
  have e3 : ∏ j, ((-Real.log (u j)) ^ (θ - 1) / u j) = Real.exp ((θ - 1) * ∑ j, logLog u j + ∑ j, negLog u j) := by
    rw [mul_sum, ← sum_add_distrib, Real.exp_sum]
    refine prod_congr rfl fun j _ => ?_
    rw [Real.exp_add, mul_comm (θ - 1), Real.exp_mul, exp_logLog hu, negLog, Real.exp_neg, Real.exp_log (hu j).1]
    rfl
  have e4 : θ ^ d * gumbelP d (1 / θ) (Real.exp (lnorm θ (logLog u))) =
      Real.exp (lpoly (gumbelC d θ) (fun k => (k : ℝ)) d (lnorm θ (logLog u))) := by
    rw [lpoly, Real.exp_log (lpoly_pos (gumbelC_nonneg h) (by rw [gumbelC_self h]; exact one_pos) _ _), gumbelP, mul_sum]
    refine sum_congr rfl fun k _ => ?_
    rw [gumbelC, Real.exp_nat_mul]
    ring
  rw [gumbelDensity_eq, e1, e2, e3]
  have e5 : Real.exp (-Real.exp (lnorm θ (logLog u))) * θ ^ d * Real.exp ((θ - 1) * ∑ j, logLog u j + ∑ j, negLog u j) *
      (gumbelP d (1 / θ) (Real.exp (lnorm θ (logLog u))) / Real.exp (d * (θ * lnorm θ (logLog u)))) =
      Real.exp (-Real.exp (lnorm θ (logLog u))) * Real.exp ((θ - 1) * ∑ j, logLog u j + ∑ j, negLog u j) *
      Real.exp (-(d * (θ * lnorm θ (logLog u)))) * (θ ^ d * gumbelP d (1 / θ) (Real.exp (lnorm θ (logLog u)))) := by
    rw [Real.exp_neg (d * _)]
    ring
  rw [e5, e4, ← Real.exp_add, ← Real.exp_add, ← Real.exp_add, gumbelLL, gumbelUp]
  congr 1
  ring

theorem gumbelLL_one (hd : 0 < d) {u : Fin d → ℝ} (hu : u ∈ cube d) : gumbelLL 1 u = 0 := by
  have h := gumbelDensity_exp hd le_rfl hu
  rw [gumbelDensity_one hd hu] at h
  exact (Real.exp_eq_one_iff _).mp h.symm

theorem gumbel_densityOf (h : 1 ≤ θ) (h2 : 2 ≤ d) {P : Measure (Fin d → ℝ)} [IsProbabilityMeasure P]
    (hP : IsLawOf P (Family.copula .gumbel θ)) :
    ∃ g, DensityOf (MeasureTheory.volume.restrict {u : Fin d → ℝ | ∀ j, 0 < u j ∧ u j < 1}) P g ∧
      ∀ u ∈ cube d, g u = Real.exp (gumbelLL θ u) := by
  obtain ⟨g, hg, hden⟩ := gumbel_pdf_density h h2
  refine ⟨g, densityOf_cube (hden P hP), fun u hu => ?_⟩
  have h1 := (hg 1 (fun _ => u) fun _ => hu).1
  have h3 := (gumbel_pdfComputes h h2 1 (fun _ => u) fun _ => hu).1
  have h4 := congrFun (Except.ok.inj (h1.symm.trans h3)) 0
  rw [← gumbelDensity_exp (by omega) h hu]
  exact Fl.fin.inj h4

/-! ### Large parameters -/

theorem gumbelLL_tail (h2 : 2 ≤ d) {K : ℝ} (hK : 1 ≤ K) (h : 1 ≤ θ) (hc : ∀ k ≤ d, gumbelC d θ k ≤ K * θ ^ d) (u : Fin d → ℝ) :
    gumbelLL θ u ≤ (Real.log K + d * Real.log θ) + (∑ j, negLog u j + lpoly (fun _ => 1) (fun k => (k : ℝ) - d) d (logLog u ⟨0, by omega⟩) +
      |logLog u ⟨0, by omega⟩ - logLog u ⟨1, by omega⟩|) - θ * |logLog u ⟨0, by omega⟩ - logLog u ⟨1, by omega⟩| := by
  have h0 : 0 < θ := by linarith
  have hab : (⟨0, by omega⟩ : Fin d) ≠ ⟨1, by omega⟩ := by simp
  generalize (⟨0, _⟩ : Fin d) = a at hab ⊢
  generalize (⟨1, _⟩ : Fin d) = b at hab ⊢
  generalize hw : lnorm θ (logLog u) = w
  have hle : ∀ j, logLog u j ≤ w := fun j => hw ▸ le_lnorm h0 _ j
  have h3 : ∑ j, logLog u j - d * w ≤ -|logLog u a - logLog u b| := by
    have g1 : (w - logLog u a) + (w - logLog u b) ≤ ∑ j, (w - logLog u j) := by
      rw [← sum_pair hab (f := fun j => w - logLog u j)]
      exact sum_le_sum_of_subset_of_nonneg (subset_univ _) fun j _ _ => by linarith [hle j]
    rw [sum_sub_distrib] at g1
    simp only [sum_const, card_univ, Fintype.card_fin, nsmul_eq_mul] at g1
    have := hle a
    have := hle b
    rcases abs_cases (logLog u a - logLog u b) with ⟨e, _⟩ | ⟨e, _⟩ <;> rw [e] <;> linarith
  have h4 : lpoly (gumbelC d θ) (fun k => (k : ℝ)) d w - d * w ≤
      Real.log K + d * Real.log θ + lpoly (fun _ => 1) (fun k => (k : ℝ) - d) d (logLog u a) := by
    have p1 := lpoly_pos (gumbelC_nonneg (d := d) h) (by rw [gumbelC_self h]; exact one_pos) (fun k => (k : ℝ)) w
    have p2 := lpoly_pos (d := d) (c := fun _ => 1) (fun _ => zero_le_one) one_pos (fun k => (k : ℝ) - d) (logLog u a)
    have hKθ : 0 < K * θ ^ d := by positivity
    have g1 : ∑ k ∈ range (d + 1), gumbelC d θ k * Real.exp (k * w) ≤
        Real.exp (d * w) * (K * θ ^ d * ∑ k ∈ range (d + 1), 1 * Real.exp (((k : ℝ) - d) * logLog u a)) := by
      rw [mul_sum, mul_sum]
      refine sum_le_sum fun k hk => ?_
      have hk' : k ≤ d := by simpa [Nat.lt_succ_iff] using hk
      have hk'' : (k : ℝ) - d ≤ 0 := by
        have : (k : ℝ) ≤ d := by exact_mod_cast hk'
        linarith
      have e1 : Real.exp (k * w) ≤ Real.exp (d * w) * Real.exp (((k : ℝ) - d) * logLog u a) := by
        rw [← Real.exp_add, Real.exp_le_exp]
        nlinarith [mul_le_mul_of_nonpos_left (hle a) hk'']
      calc gumbelC d θ k * Real.exp (k * w) ≤ (K * θ ^ d) * (Real.exp (d * w) * Real.exp (((k : ℝ) - d) * logLog u a)) :=
            mul_le_mul (hc k hk') e1 (Real.exp_pos _).le hKθ.le
        _ = _ := by ring
    have g2 := Real.log_le_log p1 g1
    rw [Real.log_mul (Real.exp_pos _).ne' (mul_pos hKθ p2).ne', Real.log_exp, Real.log_mul hKθ.ne' p2.ne',
      Real.log_mul (by linarith) (by positivity), Real.log_pow] at g2
    unfold lpoly
    linarith
  have h5 := mul_le_mul_of_nonneg_left h3 (by linarith : 0 ≤ θ - 1)
  have h6 := Real.exp_pos w
  unfold gumbelLL gumbelUp
  rw [hw]
  nlinarith

theorem gumbel_tail (h2 : 2 ≤ d) {P : Measure (Fin d → ℝ)} [IsProbabilityMeasure P] (hU : Uniform P) {g : (Fin d → ℝ) → ℝ}
    (hg : DensityOf (MeasureTheory.volume.restrict {u : Fin d → ℝ | ∀ j, 0 < u j ∧ u j < 1}) P g) :
    ∃ (D H : (Fin d → ℝ) → ℝ) (a : ℝ → ℝ) (b : ℝ), 0 ≤ b ∧ Measurable D ∧ (∃ L, LogitLip L D) ∧ Measurable H ∧ (∃ L, LogitLip L H) ∧
    0 < ∫ u, D u ∂P ∧ (∀ κ, 0 < κ → ∃ b', ∀ θ, b' ≤ θ → a θ ≤ κ * θ) ∧
    ∀ θ, b ≤ θ → ∀ u ∈ cube d, gumbelLL θ u ≤ a θ + H u - θ * D u := by
  have hd : 0 < d := by omega
  have hd1 : (0 : ℝ) < d := by exact_mod_cast hd
  have hae := uniform_ae' hU
  obtain ⟨K, hK, hKc⟩ := gumbelC_le d
  have hDL : LogitLip 1 fun u : Fin d → ℝ => |logLog u ⟨0, by omega⟩ - logLog u ⟨1, by omega⟩| := by
    intro u hu v hv
    have hab : (⟨0, by omega⟩ : Fin d) ≠ ⟨1, by omega⟩ := by simp
    generalize (⟨0, _⟩ : Fin d) = a at hab ⊢
    generalize (⟨1, _⟩ : Fin d) = b at hab ⊢
    have h3 : |logLog u a - logLog v a| + |logLog u b - logLog v b| ≤ ∑ j, |logLog u j - logLog v j| := by
      rw [← sum_pair hab (f := fun j => |logLog u j - logLog v j|)]
      exact sum_le_sum_of_subset_of_nonneg (subset_univ _) fun j _ _ => abs_nonneg _
    have h4 := abs_abs_sub_abs_le (logLog u a - logLog u b) (logLog v a - logLog v b)
    have h5 : |logLog u a - logLog u b - (logLog v a - logLog v b)| ≤ |logLog u a - logLog v a| + |logLog u b - logLog v b| := by
      rw [show logLog u a - logLog u b - (logLog v a - logLog v b) = (logLog u a - logLog v a) - (logLog u b - logLog v b) by ring]
      exact abs_sub _ _
    have := logLog_lip hu hv
    linarith
  have hDm : Measurable fun u : Fin d → ℝ => |logLog u ⟨0, by omega⟩ - logLog u ⟨1, by omega⟩| :=
    measurable_abs.comp ((measurable_logLog _).sub (measurable_logLog _))
  refine ⟨_, _, fun θ => Real.log K + d * Real.log θ, 1, zero_le_one, hDm, ⟨1, hDL⟩, ?_, ⟨1 + d + 1, ?_⟩, ?_, fun κ hκ => ?_,
    fun θ h u _ => gumbelLL_tail h2 hK h (hKc θ h) u⟩
  · exact ((Finset.measurable_fun_sum _ fun j _ => measurable_negLog j).add
      ((measurable_lpoly _ _ _).comp (measurable_logLog _))).add hDm
  · intro u hu v hv
    have e1 := (abs_sum_sub_le (negLog u) (negLog v)).trans (negLog_lip u v)
    have e2 := lpoly_lip (d := d) (c := fun _ => 1) (e := fun k => (k : ℝ) - d) (fun _ => zero_le_one) one_pos (fun k hk => by
      have : (k : ℝ) ≤ d := by exact_mod_cast hk
      rw [abs_of_nonpos (by linarith)]
      linarith [Nat.cast_nonneg (α := ℝ) k]) (logLog u ⟨0, hd⟩) (logLog v ⟨0, hd⟩)
    have e3 := hDL u hu v hv
    have e4 : |logLog u ⟨0, hd⟩ - logLog v ⟨0, hd⟩| ≤ logitDist u v :=
      (single_le_sum (f := fun j => |logLog u j - logLog v j|) (fun j _ => abs_nonneg _) (mem_univ _)).trans (logLog_lip hu hv)
    have e5 := mul_le_mul_of_nonneg_left e4 hd1.le
    have e6 := abs_le.mp (e2.trans e5)
    rw [abs_le] at e1 e3
    rw [abs_le]
    constructor <;> linarith
  · have hDi := (hDL.memLp hU hDm).integrable one_le_two
    rw [integral_pos_iff_support_of_nonneg (fun u => abs_nonneg _) hDi]
    refine (lt_of_lt_of_eq one_pos ?_)
    symm
    rw [← prob_compl_eq_zero_iff (measurableSet_support hDm)]
    have hne := coords_ne hg (a := (⟨0, by omega⟩ : Fin d)) (b := ⟨1, by omega⟩) (by simp)
    rw [ae_iff] at hne
    have hae' := ae_iff.mp hae
    refine measure_mono_null (t := {u | ¬ ∀ j, 0 < u j ∧ u j < 1} ∪ {u | ¬ u ⟨0, by omega⟩ ≠ u ⟨1, by omega⟩}) (fun u hu => ?_)
      (measure_union_null hae' hne)
    by_contra hcon
    simp only [Set.mem_union, not_or] at hcon
    obtain ⟨c1, c2⟩ := hcon
    have c1' : ∀ j, 0 < u j ∧ u j < 1 := not_not.mp c1
    have c2' : u ⟨0, by omega⟩ ≠ u ⟨1, by omega⟩ := not_not.mp c2
    refine hu ?_
    rw [Function.mem_support]
    refine abs_ne_zero.mpr (sub_ne_zero.mpr fun e => c2' ?_)
    have e' := Real.log_injOn_pos (negLog_pos c1' _) (negLog_pos c1' _) e
    exact Real.log_injOn_pos (c1' _).1 (c1' _).1 (neg_injective e')
  · obtain ⟨b, hb⟩ := log_small hd1 (half_pos hκ)
    refine ⟨max 1 (max b (2 * Real.log K / κ)), fun θ h => ?_⟩
    have g1 : 1 ≤ θ := (le_max_left _ _).trans h
    have g2 := hb θ ((le_max_left _ _).trans ((le_max_right _ _).trans h))
    have g3 := ((le_max_right _ _).trans ((le_max_right _ _).trans h) : 2 * Real.log K / κ ≤ θ)
    rw [div_le_iff₀ hκ] at g3
    have hd2 : (1 : ℝ) ≤ d := by exact_mod_cast hd
    have g4 : Real.log θ ≤ Real.log (1 + d * θ) := Real.log_le_log (by linarith) (by nlinarith)
    have g5 := mul_le_mul_of_nonneg_left g4 hd1.le
    linarith

/-- The log-density of the Gumbel copula as a criterion for data from a Gumbel copula. -/
theorem gumbel_contrast {θ₀ : ℝ} (hθ : 1 ≤ θ₀) (h2 : 2 ≤ d) {P : Measure (Fin d → ℝ)} [IsProbabilityMeasure P]
    (hP : IsLawOf P (Family.copula .gumbel θ₀)) (hU : Uniform P) : WaldContrast P (gumbelLL (d := d)) 1 θ₀ := by
  have hd : 0 < d := by omega
  have hae := uniform_ae' hU
  obtain ⟨g, hg, hgl⟩ := gumbel_densityOf hθ h2 hP
  have hint : ∀ θ, 1 ≤ θ → Integrable (gumbelLL (d := d) θ) P := fun θ h => by
    obtain ⟨L, hL⟩ := gumbelLL_lip hd h
    exact (hL.memLp hU (measurable_gumbelUp _ _ _)).integrable one_le_two
  have hadm : ∀ {θ : ℝ}, 1 ≤ θ → Copulae.Admissible .gumbel θ d := fun {θ} h => ⟨h2, h⟩
  refine ⟨measurable_gumbelUp _ _ _, gumbelLL_lip hd hθ, fun θ h hne => gumbel_local hd h hU ?_, gumbel_tail h2 hU hg⟩
  obtain ⟨P', hP'⟩ := arch_law_exists (hadm h)
  have := hP'.prob
  obtain ⟨g', hg', hgl'⟩ := gumbel_densityOf h h2 hP'
  exact log_mean_lt hg hg' (arch_laws_differ (hadm hθ) (hadm h) hP hP' fun e => hne e.2.symm) (hint _ hθ) (hint _ h)
    (hae.mono fun u hu => hgl u hu) (hae.mono fun u hu => hgl' u hu)

end Copulae
