import Verif.Lemmas.GumbelWald
import Verif.Lemmas.FrankLik
import Verif.Lemmas.ClaytonRanks

/-!
Data from a law with a known density: no copula of a family that does not contain the law has as large a likelihood as the law.
-/

namespace Copulae

open MeasureTheory ProbabilityTheory Spec CopulaMeasure Finset

variable {d n : ℕ} {P : Measure (Fin d → ℝ)} [IsProbabilityMeasure P] {f₀ : (Fin d → ℝ) → ℝ}

/-- The law `P` has uniform margins and the log-density `f₀`, which is Lipschitz in the logarithms of the coordinates and their complements. -/
structure CubeLog (P : Measure (Fin d → ℝ)) (f₀ : (Fin d → ℝ) → ℝ) : Prop where
  margins : Uniform P
  meas : Measurable f₀
  lip : ∃ L, LogitLip L f₀
  dens : ∃ g, DensityOf (MeasureTheory.volume.restrict {u : Fin d → ℝ | ∀ j, 0 < u j ∧ u j < 1}) P g ∧ ∀ u ∈ cube d, g u = Real.exp (f₀ u)

/-- The same for a law that is not that of independent components. -/
structure LogDensity (P : Measure (Fin d → ℝ)) (f₀ : (Fin d → ℝ) → ℝ) : Prop extends CubeLog P f₀ where
  dep : P ≠ iid d unif

theorem CubeLog.integrable (h : CubeLog P f₀) : Integrable f₀ P := by
  obtain ⟨L, hL⟩ := h.lip
  exact (hL.memLp h.margins h.meas).integrable one_le_two

/-- The mean log-density is greater than that of any other density. -/
theorem CubeLog.mean_lt (h : CubeLog P f₀) {P' : Measure (Fin d → ℝ)} [IsProbabilityMeasure P'] (hne : P ≠ P') {f : (Fin d → ℝ) → ℝ}
    (hi : Integrable f P) {g' : (Fin d → ℝ) → ℝ}
    (hg' : DensityOf (MeasureTheory.volume.restrict {u : Fin d → ℝ | ∀ j, 0 < u j ∧ u j < 1}) P' g') (he : ∀ u ∈ cube d, g' u = Real.exp (f u)) :
    ∫ u, f u ∂P < ∫ u, f₀ u ∂P := by
  obtain ⟨g, hg, hgl⟩ := h.dens
  have hae := uniform_ae' h.margins
  exact log_mean_lt hg hg' hne h.integrable hi (hae.mono fun u hu => hgl u hu) (hae.mono fun u hu => he u hu)

theorem LogDensity.mean_pos (h : LogDensity P f₀) : 0 < ∫ u, f₀ u ∂P := by
  have := h.mean_lt h.dep (f := fun _ => 0) (integrable_const 0) indep_densityOf fun u _ => by rw [Real.exp_zero]
  simpa using this

theorem LogLip.logit {φ : (Fin d → ℝ) → ℝ} {L : ℝ} (h : LogLip L φ) (hL : 0 ≤ L) : LogitLip L φ := fun u hu v hv =>
  (h u hu v hv).trans (mul_le_mul_of_nonneg_left (sum_le_sum fun _ _ => le_add_of_nonneg_right (abs_nonneg _)) hL)

/-- The mean difference of two coordinates, on a scale that is injective, is positive. -/
theorem diff_mean_pos (h : CubeLog P f₀) {ρ : ℝ → ℝ} (hρ : ∀ s t, 0 < s ∧ s < 1 → 0 < t ∧ t < 1 → ρ s = ρ t → s = t) {a b : Fin d} (hab : a ≠ b)
    (hm : Measurable fun u : Fin d → ℝ => |ρ (u a) - ρ (u b)|) (hi : Integrable (fun u : Fin d → ℝ => |ρ (u a) - ρ (u b)|) P) :
    0 < ∫ u, |ρ (u a) - ρ (u b)| ∂P := by
  obtain ⟨g, hg, -⟩ := h.dens
  rw [integral_pos_iff_support_of_nonneg (fun u => abs_nonneg _) hi]
  refine lt_of_lt_of_eq one_pos ?_
  symm
  rw [← prob_compl_eq_zero_iff (measurableSet_support hm)]
  have hne := coords_ne hg hab
  rw [ae_iff] at hne
  refine measure_mono_null (t := {u | ¬ ∀ j, 0 < u j ∧ u j < 1} ∪ {u | ¬ u a ≠ u b}) (fun u hu => ?_)
    (measure_union_null (ae_iff.mp (uniform_ae' h.margins)) hne)
  by_contra hcon
  simp only [Set.mem_union, not_or] at hcon
  obtain ⟨c1, c2⟩ := hcon
  have c1' : ∀ j, 0 < u j ∧ u j < 1 := not_not.mp c1
  have c2' : u a ≠ u b := not_not.mp c2
  exact hu (Function.mem_support.mpr (abs_ne_zero.mpr (sub_ne_zero.mpr fun e => c2' (hρ _ _ (c1' a) (c1' b) e))))

/-! ### Criteria that are Lipschitz in the parameter -/

/-- A criterion that is zero at the parameter zero and whose mean is nowhere as large as that of the log-density. -/
structure Worse (P : Measure (Fin d → ℝ)) (f₀ : (Fin d → ℝ) → ℝ) (f : ℝ → (Fin d → ℝ) → ℝ) : Prop where
  zero : ∀ u, f 0 u = 0
  meas : ∀ θ, 0 ≤ θ → Measurable (f θ)
  lip : ∀ θ, 0 ≤ θ → ∃ L, LogLip L (f θ)
  par : ∃ L, 0 ≤ L ∧ ∀ θ θ', 0 ≤ θ → 0 ≤ θ' → ∀ u ∈ cube d, |f θ u - f θ' u| ≤ L * |θ - θ'| * logEnv u
  less : ∀ θ, 0 < θ → ∫ u, f θ u ∂P < ∫ u, f₀ u ∂P
  tail : ∃ (D : (Fin d → ℝ) → ℝ) (a : ℝ → ℝ) (C b : ℝ), 0 ≤ C ∧ 0 ≤ b ∧ Measurable D ∧ (∃ L, LogLip L D) ∧ 0 < ∫ u, D u ∂P ∧
    (∀ κ, 0 < κ → ∃ b', ∀ θ, b' ≤ θ → a θ ≤ κ * θ) ∧ ∀ θ, b ≤ θ → ∀ u ∈ cube d, f θ u ≤ a θ + C * logEnv u - θ * D u

theorem Worse.integrable (h : LogDensity P f₀) {f : ℝ → (Fin d → ℝ) → ℝ} (hf : Worse P f₀ f) {θ : ℝ} (hθ : 0 ≤ θ) : Integrable (f θ) P := by
  obtain ⟨L, hL⟩ := hf.lip θ hθ
  exact (hL.memLp h.margins (hf.meas θ hθ)).integrable one_le_two

/-- There is a gap between the means. -/
theorem Worse.gap (h : LogDensity P f₀) {f : ℝ → (Fin d → ℝ) → ℝ} (hf : Worse P f₀ f) :
    ∃ c, 0 < c ∧ c < ∫ u, f₀ u ∂P ∧ ∀ θ, 0 ≤ θ → ∫ u, f θ u ∂P < c := by
  have hm := h.mean_pos
  generalize hM : ∫ u, f₀ u ∂P = m at hm ⊢
  obtain ⟨L, hL0, hL⟩ := hf.par
  obtain ⟨D, a, C, b₀, hC, hb₀, hDm, ⟨LD, hDL⟩, hD, ha, htail⟩ := hf.tail
  have hae := uniform_ae' h.margins
  have hDi : Integrable D P := (hDL.memLp h.margins hDm).integrable one_le_two
  have hE := logEnv_integrable h.margins
  obtain ⟨E, hEe⟩ : ∃ E, E = ∫ u, logEnv u ∂P := ⟨_, rfl⟩
  have hE0 : 0 ≤ E := hEe ▸ integral_nonneg fun u => logEnv_nonneg u
  obtain ⟨T, hT⟩ : ∃ T, T = ∫ u, D u ∂P := ⟨_, rfl⟩
  rw [← hT] at hD
  obtain ⟨b₁, hb₁⟩ := ha (T / 2) (by positivity)
  obtain ⟨b, hb⟩ : ∃ b, b = max (max b₀ b₁) (2 * (C * E) / T) := ⟨_, rfl⟩
  have hb0 : b₀ ≤ b := hb ▸ (le_max_left _ _).trans (le_max_left _ _)
  have hb1 : b₁ ≤ b := hb ▸ (le_max_right _ _).trans (le_max_left _ _)
  have hb2 : 2 * (C * E) / T ≤ b := hb ▸ le_max_right _ _
  have hbig : ∀ θ, b ≤ θ → ∫ u, f θ u ∂P ≤ 0 := fun θ hθ => by
    have hθ0 : 0 ≤ θ := hb₀.trans (hb0.trans hθ)
    have h1 : ∫ u, f θ u ∂P ≤ ∫ u, (a θ + C * logEnv u - θ * D u) ∂P :=
      integral_mono_ae (hf.integrable h hθ0) (((integrable_const _).add (hE.const_mul C)).sub (hDi.const_mul θ))
        (hae.mono fun u hu => htail θ (hb0.trans hθ) u hu)
    have h2 : ∫ u, (a θ + C * logEnv u - θ * D u) ∂P = a θ + C * E - θ * T := by
      have i1 : Integrable (fun u => a θ + C * logEnv u) P := (integrable_const _).add (hE.const_mul C)
      rw [integral_sub i1 (hDi.const_mul θ), integral_add (integrable_const _) (hE.const_mul C),
        integral_const_mul, integral_const_mul, integral_const, hEe, hT]
      simp
    have h3 := hb₁ θ (hb1.trans hθ)
    have h4 := hb2.trans hθ
    rw [div_le_iff₀ hD] at h4
    linarith
  have hcont : ContinuousOn (fun θ => ∫ u, f θ u ∂P) (Set.Icc 0 b) := by
    have hlip : ∀ s ∈ Set.Icc 0 b, ∀ t ∈ Set.Icc 0 b, |∫ u, f s u ∂P - ∫ u, f t u ∂P| ≤ (L * E) * |s - t| := fun s hs t ht => by
      rw [← integral_sub (hf.integrable h hs.1) (hf.integrable h ht.1)]
      refine abs_integral_le_integral_abs.trans ?_
      refine (integral_mono_ae ((hf.integrable h hs.1).sub (hf.integrable h ht.1)).abs (hE.const_mul (L * |s - t|))
        (hae.mono fun u hu => hL s t hs.1 ht.1 u hu)).trans (le_of_eq ?_)
      rw [integral_const_mul, ← hEe]
      ring
    refine (LipschitzOnWith.of_dist_le_mul (K := ⟨L * E, mul_nonneg hL0 hE0⟩) fun s hs t ht => ?_).continuousOn
    rw [Real.dist_eq, Real.dist_eq]
    exact hlip s hs t ht
  have hb00 : 0 ≤ b := hb₀.trans hb0
  obtain ⟨θm, hθm, hmax⟩ := isCompact_Icc.exists_isMaxOn ⟨0, le_rfl, hb00⟩ hcont
  have hFm : ∫ u, f θm u ∂P < m := by
    rcases hθm.1.eq_or_lt with e | e
    · rw [← e]
      simpa [hf.zero] using hm
    · rw [← hM]
      exact hf.less θm e
  have hk : max (∫ u, f θm u ∂P) 0 < m := max_lt hFm hm
  refine ⟨(max (∫ u, f θm u ∂P) 0 + m) / 2, by linarith [le_max_right (∫ u, f θm u ∂P) 0], by linarith, fun θ hθ => ?_⟩
  rcases le_total θ b with hle | hle
  · have : ∫ u, f θ u ∂P ≤ ∫ u, f θm u ∂P := hmax ⟨hθ, hle⟩
    linarith [le_max_left (∫ u, f θm u ∂P) 0]
  · linarith [hbig θ hle, le_max_right (∫ u, f θm u ∂P) 0]

theorem Worse.away (h : LogDensity P f₀) {f : ℝ → (Fin d → ℝ) → ℝ} (hf : Worse P f₀ f) {δ : ℝ} (hδ : 0 < δ) :
    ∃ N : ℕ, ∀ n, N ≤ n → iid n P {y | ¬ (NoTies y ∧ ∀ θ, 0 ≤ θ → ∑ i, f θ (unitRanks y i) < ∑ i, f₀ (unitRanks y i))} ≤ ENNReal.ofReal δ := by
  obtain ⟨c, hc0, hcm, hc⟩ := hf.gap h
  obtain ⟨L, hL0, hL⟩ := hf.par
  obtain ⟨D, a, C, b₀, hC, hb₀, hDm, hDL, hD, ha, htail⟩ := hf.tail
  have henv : ∀ u : Fin d → ℝ, 1 ≤ logEnv u := fun u => by
    rw [logEnv]
    linarith [sum_nonneg fun (j : Fin d) (_ : j ∈ univ) => sq_nonneg (Real.log (u j))]
  let F : ℝ → (Fin d → ℝ) → ℝ := fun t u => if t < 0 then -t * c else f t u
  have Fneg : ∀ {t : ℝ} (u : Fin d → ℝ), t < 0 → F t u = -t * c := fun u ht => if_pos ht
  have Fpos : ∀ {t : ℝ} (u : Fin d → ℝ), 0 ≤ t → F t u = f t u := fun u ht => if_neg (not_lt.mpr ht)
  have hmix : ∀ s t : ℝ, s < 0 → 0 ≤ t → ∀ u ∈ cube d, |F s u - F t u| ≤ (L + c) * |s - t| * logEnv u := fun s t hs ht u hu => by
    rw [Fneg u hs, Fpos u ht]
    have h1 := hL t 0 ht le_rfl u hu
    rw [hf.zero, sub_zero, sub_zero, abs_of_nonneg ht] at h1
    have h2 : |s - t| = t - s := by rw [abs_of_neg (by linarith)]; ring
    rw [h2]
    have h3 : |-s * c - f t u| ≤ -s * c + |f t u| := by
      refine (abs_sub _ _).trans (le_of_eq ?_)
      rw [abs_of_nonneg (mul_nonneg (by linarith) hc0.le)]
    have h4 := henv u
    have h5 : -s * c ≤ -s * c * logEnv u := le_mul_of_one_le_right (mul_nonneg (by linarith) hc0.le) h4
    have h6 : 0 ≤ c * t * logEnv u := mul_nonneg (mul_nonneg hc0.le ht) (by linarith)
    have h7 : 0 ≤ L * -s * logEnv u := mul_nonneg (mul_nonneg hL0 (by linarith)) (by linarith)
    nlinarith
  have hCon : Contrast P F (-1) (-1) := by
    refine ⟨le_rfl, fun t _ => ?_, fun t _ => ?_, fun b => ⟨L + c, by linarith, fun s t _ _ _ _ u hu => ?_⟩, fun t ht hne => ?_, ?_⟩
    · rcases lt_or_ge t 0 with h0 | h0
      · rw [show F t = fun _ => -t * c from funext fun u => Fneg u h0]
        exact measurable_const
      · rw [show F t = f t from funext fun u => Fpos u h0]
        exact hf.meas t h0
    · rcases lt_or_ge t 0 with h0 | h0
      · refine ⟨0, fun u _ v _ => ?_⟩
        rw [Fneg u h0, Fneg v h0, sub_self, abs_zero, zero_mul]
      · rw [show F t = f t from funext fun u => Fpos u h0]
        exact hf.lip t h0
    · rcases lt_or_ge s 0 with hs | hs <;> rcases lt_or_ge t 0 with ht | ht
      · rw [Fneg u hs, Fneg u ht, show -s * c - -t * c = -(c * (s - t)) by ring, abs_neg, abs_mul, abs_of_pos hc0]
        have h1 : c * |s - t| ≤ (L + c) * |s - t| := mul_le_mul_of_nonneg_right (by linarith) (abs_nonneg _)
        exact h1.trans (le_mul_of_one_le_right (by positivity) (henv u))
      · exact hmix s t hs ht u hu
      · rw [abs_sub_comm, abs_sub_comm s]
        exact hmix t s ht hs u hu
      · rw [Fpos u hs, Fpos u ht]
        refine (hL s t hs ht u hu).trans ?_
        have : L * |s - t| ≤ (L + c) * |s - t| := mul_le_mul_of_nonneg_right (by linarith) (abs_nonneg _)
        exact mul_le_mul_of_nonneg_right this (logEnv_nonneg u)
    · have e1 : ∫ u, F (-1) u ∂P = c := by
        simp only [Fneg _ (show (-1 : ℝ) < 0 by norm_num)]
        simp
      rw [e1]
      rcases lt_or_ge t 0 with h0 | h0
      · simp only [Fneg _ h0]
        have h1 : -1 < t := lt_of_le_of_ne ht (Ne.symm hne)
        simp only [integral_const, probReal_univ, smul_eq_mul, one_mul]
        nlinarith
      · simp only [Fpos _ h0]
        exact hc t h0
    · exact ⟨D, a, C, b₀, hC, hb₀, hDm, hDL, hD, ha, fun t ht u hu => by rw [Fpos u (hb₀.trans ht)]; exact htail t ht u hu⟩
  obtain ⟨N1, hN1⟩ := hCon.near h.margins one_pos (half_pos hδ)
  obtain ⟨L₀, hL₀⟩ := h.lip
  obtain ⟨N2, hN2⟩ := logit_mean_likely h.margins h.meas hL₀ (sub_pos.mpr hcm) (half_pos hδ)
  refine ⟨N1 + N2 + 1, fun n hn => ?_⟩
  have hn0 : (0 : ℝ) < n := by exact_mod_cast (by omega : 0 < n)
  refine (measure_mono (fun y hy => ?_)).trans ((measure_union_le _ _).trans ((add_le_add (hN1 n (by omega)) (hN2 n (by omega))).trans
    (le_of_eq (by rw [← ENNReal.ofReal_add (by positivity) (by positivity), add_halves]))))
  by_contra hcon
  simp only [Set.mem_union, not_or] at hcon
  obtain ⟨c1, c2⟩ := hcon
  obtain ⟨t0, t1⟩ := not_not.mp c1
  have t2 := (abs_lt.mp (not_not.mp c2).2).1
  refine hy ⟨t0, fun θ hθ => ?_⟩
  have t3 : c < (∑ i, f₀ (unitRanks y i)) / n := by linarith
  rw [lt_div_iff₀ hn0] at t3
  by_contra hge
  rw [not_lt] at hge
  have t4 := t1 θ (by linarith) (by
    simp only [Fneg _ (show (-1 : ℝ) < 0 by norm_num), Fpos _ hθ, sum_const, card_univ, Fintype.card_fin, nsmul_eq_mul]
    linarith)
  rw [abs_lt] at t4
  linarith [t4.2]

/-! ### Gumbel copulas -/

theorem gumbel_away (h2 : 2 ≤ d) (h : LogDensity P f₀) (hne : ∀ θ, 1 < θ → ∀ P', IsLawOf P' (Family.copula (d := d) .gumbel θ) → P ≠ P')
    {δ : ℝ} (hδ : 0 < δ) :
    ∃ N : ℕ, ∀ n, N ≤ n → iid n P {y | ¬ (NoTies y ∧ ∀ θ, 1 ≤ θ → ∑ i, gumbelLL θ (unitRanks y i) < ∑ i, f₀ (unitRanks y i))} ≤
      ENNReal.ofReal δ := by
  have hd : 0 < d := by omega
  obtain ⟨g, hg, hgl⟩ := h.dens
  have hint : ∀ θ, 1 ≤ θ → Integrable (gumbelLL (d := d) θ) P := fun θ h' => by
    obtain ⟨L, hL⟩ := gumbelLL_lip hd h'
    exact (hL.memLp h.margins (measurable_gumbelUp _ _ _)).integrable one_le_two
  have hless : ∀ θ, 1 ≤ θ → ∫ u, gumbelLL θ u ∂P < ∫ u, f₀ u ∂P := fun θ h' => by
    obtain ⟨P', hP'⟩ := arch_law_exists (show Copulae.Admissible .gumbel θ d from ⟨h2, h'⟩)
    have := hP'.prob
    obtain ⟨g', hg', hgl'⟩ := gumbel_densityOf h' h2 hP'
    refine h.mean_lt ?_ (hint θ h') hg' hgl'
    rcases h'.eq_or_lt with rfl | h'
    · rw [IsLawOf.unique hP' (indep_gumbel indep_isLaw)]
      exact h.dep
    · exact hne θ h' P' hP'
  let F : ℝ → (Fin d → ℝ) → ℝ := fun t => if t ≤ -1 then f₀ else gumbelLL (max t 1)
  have Fneg : F (-1) = f₀ := if_pos le_rfl
  have Fpos : ∀ {t : ℝ}, -1 < t → F t = gumbelLL (max t 1) := fun ht => if_neg (not_le.mpr ht)
  have hW : WaldContrast P F (-1) (-1) := by
    refine ⟨by rw [Fneg]; exact h.meas, by rw [Fneg]; exact h.lip, fun θ ht hne => ?_, ?_⟩
    · have h1 : -1 < θ := lt_of_le_of_ne ht (Ne.symm hne)
      obtain ⟨r, hr, φ, a1, a2, a3, a4⟩ := gumbel_local hd (le_max_right θ 1) h.margins (hless _ (le_max_right θ 1))
      refine ⟨min r (θ + 1), lt_min hr (by linarith), φ, a1, a2, fun t _ hlt u hu => ?_, by rw [Fneg]; exact a4⟩
      have h3 := hlt.trans_le (min_le_right _ _)
      rw [Fpos (by linarith [(abs_lt.mp h3).1])]
      refine a3 _ (le_max_right _ _) (lt_of_le_of_lt ?_ (hlt.trans_le (min_le_left _ _))) u hu
      exact abs_max_sub_max_le_abs t θ 1
    · obtain ⟨D, H, a, b, b1, b2, b3, b4, b5, b6, b7, b8⟩ := gumbel_tail h2 h.margins hg
      refine ⟨D, H, a, max b 1, b1.trans (le_max_left _ _), b2, b3, b4, b5, b6, b7, fun θ ht u hu => ?_⟩
      have h1 : 1 ≤ θ := (le_max_right _ _).trans ht
      rw [Fpos (by linarith), max_eq_left h1]
      exact b8 θ ((le_max_left _ _).trans ht) u hu
  obtain ⟨N, hN⟩ := hW.near h.margins one_pos hδ
  refine ⟨N, fun n hn => (measure_mono fun y hy => ?_).trans (hN n hn)⟩
  rintro ⟨t0, t1⟩
  refine hy ⟨t0, fun θ hθ => ?_⟩
  by_contra hge
  rw [not_lt] at hge
  have t2 := t1 θ (by linarith) (by rw [Fneg, Fpos (by linarith), max_eq_left hθ]; exact hge)
  rw [abs_lt] at t2
  linarith [t2.2]

/-! ### Clayton copulas -/

theorem clayton_far (h2 : 2 ≤ d) (h : CubeLog P f₀) :
    ∃ (D : (Fin d → ℝ) → ℝ) (a : ℝ → ℝ) (C b : ℝ), 0 ≤ C ∧ 0 ≤ b ∧ Measurable D ∧ (∃ L, LogLip L D) ∧ 0 < ∫ u, D u ∂P ∧
      (∀ κ, 0 < κ → ∃ b', ∀ θ, b' ≤ θ → a θ ≤ κ * θ) ∧ ∀ θ, b ≤ θ → ∀ u ∈ cube d, claytonLL θ u ≤ a θ + C * logEnv u - θ * D u := by
  have hd1 : (0 : ℝ) < d := by exact_mod_cast (by omega : 0 < d)
  have hDL : LogLip 1 fun u : Fin d → ℝ => |Real.log (u ⟨0, by omega⟩) - Real.log (u ⟨1, by omega⟩)| := by
    intro u _ v _
    have hab : (⟨0, by omega⟩ : Fin d) ≠ ⟨1, by omega⟩ := by simp
    generalize (⟨0, _⟩ : Fin d) = a at hab ⊢
    generalize (⟨1, _⟩ : Fin d) = b at hab ⊢
    have h3 : |Real.log (u a) - Real.log (v a)| + |Real.log (u b) - Real.log (v b)| ≤ ∑ j, |Real.log (u j) - Real.log (v j)| := by
      rw [← sum_pair hab (f := fun j => |Real.log (u j) - Real.log (v j)|)]
      exact sum_le_sum_of_subset_of_nonneg (subset_univ _) fun j _ _ => abs_nonneg _
    have h4 := abs_abs_sub_abs_le (Real.log (u a) - Real.log (u b)) (Real.log (v a) - Real.log (v b))
    have h5 : |Real.log (u a) - Real.log (u b) - (Real.log (v a) - Real.log (v b))| ≤
        |Real.log (u a) - Real.log (v a)| + |Real.log (u b) - Real.log (v b)| := by
      rw [show Real.log (u a) - Real.log (u b) - (Real.log (v a) - Real.log (v b)) =
        (Real.log (u a) - Real.log (v a)) - (Real.log (u b) - Real.log (v b)) by ring]
      exact abs_sub _ _
    linarith
  have hDm : Measurable fun u : Fin d → ℝ => |Real.log (u ⟨0, by omega⟩) - Real.log (u ⟨1, by omega⟩)| :=
    measurable_abs.comp ((Real.measurable_log.comp (measurable_pi_apply _)).sub (Real.measurable_log.comp (measurable_pi_apply _)))
  exact ⟨fun u => |Real.log (u ⟨0, by omega⟩) - Real.log (u ⟨1, by omega⟩)|, fun θ => d * Real.log (1 + d * θ), d + 1, 1, by positivity,
    zero_le_one, hDm, ⟨1, hDL⟩, diff_mean_pos h (fun s t hs ht e => Real.log_injOn_pos hs.1 ht.1 e) (by simp) hDm
      ((hDL.memLp h.margins hDm).integrable one_le_two), fun κ hκ => log_small hd1 hκ, fun θ h u hu => claytonLL_tail h2 h hu⟩

theorem clayton_worse (h2 : 2 ≤ d) (h : LogDensity P f₀) (hne : ∀ θ, 0 < θ → ∀ P', IsLawOf P' (Family.copula (d := d) .clayton θ) → P ≠ P') :
    Worse P f₀ claytonLL := by
  refine ⟨claytonLL_zero, fun θ _ => measurable_claytonLL θ, fun θ h => ⟨_, claytonLL_logLip h⟩,
    ⟨(d : ℝ) * d + (d + 1) + d * (d + 1) + d, by positivity, fun s t hs ht u hu => claytonLL_par hs ht hu⟩, fun θ h' => ?_, clayton_far h2 h.toCubeLog⟩
  · obtain ⟨P', hP'⟩ := arch_law_exists (show Copulae.Admissible .clayton θ d from ⟨h2, h'.ne', by linarith, fun _ => h'⟩)
    have := hP'.prob
    obtain ⟨g', hg', hgl'⟩ := clayton_densityOf h' h2 hP'
    exact h.mean_lt (hne θ h' P' hP') (((claytonLL_logLip h'.le).memLp h.margins (measurable_claytonLL θ)).integrable one_le_two) hg' hgl'

/-! ### Frank copulas -/

theorem frank_worse {P : Measure (Fin 2 → ℝ)} [IsProbabilityMeasure P] {f₀ : (Fin 2 → ℝ) → ℝ} (h : LogDensity P f₀)
    (hne : ∀ θ, 0 < θ → ∀ P', IsLawOf P' (Family.copula (d := 2) .frank θ) → P ≠ P') : Worse P f₀ frankLL := by
  refine ⟨frankLL_zero, fun θ _ => measurable_frankLL θ, fun θ h => ⟨_, frankLL_logLip h⟩,
    ⟨7, by norm_num, fun s t hs ht u hu => (frankLL_par hs ht hu).trans ?_⟩, fun θ h' => ?_, ?_⟩
  · have : 1 ≤ logEnv u := by
      rw [logEnv]
      linarith [sum_nonneg fun (j : Fin 2) (_ : j ∈ univ) => sq_nonneg (Real.log (u j))]
    exact le_mul_of_one_le_right (by positivity) this
  · obtain ⟨P', hP'⟩ := arch_law_exists (show Copulae.Admissible .frank θ 2 from ⟨le_refl 2, h'.ne', by linarith, fun _ => h'⟩)
    have := hP'.prob
    obtain ⟨g', hg', hgl'⟩ := frank_densityOf h' hP'
    exact h.mean_lt (hne θ h' P' hP') (((frankLL_logLip h'.le).memLp h.margins (measurable_frankLL θ)).integrable one_le_two) hg' hgl'
  · have hDL : LogLip 1 fun u : Fin 2 → ℝ => |u 0 - u 1| := by
      intro u hu v hv
      rw [Fin.sum_univ_two, one_mul]
      have g0 := abs_sub_le_log (hu 0).1 (hu 0).2 (hv 0).1 (hv 0).2
      have g1 := abs_sub_le_log (hu 1).1 (hu 1).2 (hv 1).1 (hv 1).2
      have h4 := abs_abs_sub_abs_le (u 0 - u 1) (v 0 - v 1)
      have h5 : |u 0 - u 1 - (v 0 - v 1)| ≤ |u 0 - v 0| + |u 1 - v 1| := by
        rw [show u 0 - u 1 - (v 0 - v 1) = (u 0 - v 0) - (u 1 - v 1) by ring]
        exact abs_sub _ _
      linarith
    have hDm : Measurable fun u : Fin 2 → ℝ => |u 0 - u 1| :=
      measurable_abs.comp ((measurable_pi_apply _).sub (measurable_pi_apply _))
    exact ⟨fun u => |u 0 - u 1|, fun θ => 2 * Real.log (1 + 2 * θ), 0, 1, le_rfl, zero_le_one, hDm, ⟨1, hDL⟩,
      diff_mean_pos h.toCubeLog (ρ := id) (fun s t _ _ e => e) (by simp) hDm ((hDL.memLp h.margins hDm).integrable one_le_two),
      fun κ hκ => log_small two_pos hκ, fun θ h u hu => by simpa using frankLL_tail h hu⟩

end Copulae
