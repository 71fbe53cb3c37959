import Verif.Lemmas.LogScores

/-!
Estimators that maximise a mean over the pseudo-observations: if the mean of the criterion under the law of the data is largest at one
parameter, then, with a probability that tends to one, every parameter whose criterion is at least that of the true one is near it.
-/

namespace Copulae

open MeasureTheory ProbabilityTheory Spec CopulaMeasure Filter

variable {d : ℕ}

/-- The sum of the squared logarithms, plus one. -/
noncomputable def logEnv (u : Fin d → ℝ) : ℝ := 1 + ∑ j, Real.log (u j) ^ 2

/-- Lipschitz in the logarithms of the coordinates, on the open cube. -/
def LogLip (L : ℝ) (φ : (Fin d → ℝ) → ℝ) : Prop :=
  ∀ u ∈ cube d, ∀ v ∈ cube d, |φ u - φ v| ≤ L * ∑ j, |Real.log (u j) - Real.log (v j)|

variable {P : Measure (Fin d → ℝ)} [IsProbabilityMeasure P]

theorem logEnv_integrable (hP : Uniform P) : Integrable (fun u => logEnv u) P :=
  (integrable_const _).add (integrable_finsetSum _ fun j _ => (log_sq_mean hP j).1)

theorem logEnv_nonneg (u : Fin d → ℝ) : 0 ≤ logEnv u := by unfold logEnv; positivity

theorem abs_le_sq_half (t : ℝ) : |t| ≤ (1 + t ^ 2) := by
  rcases abs_cases t with ⟨h, _⟩ | ⟨h, _⟩ <;> rw [h] <;> nlinarith [sq_nonneg (t - 1), sq_nonneg (t + 1)]

omit [IsProbabilityMeasure P] in
theorem log_memLp (hP : Uniform P) (j : Fin d) : MemLp (fun u : Fin d → ℝ => Real.log (u j)) 2 P :=
  (memLp_two_iff_integrable_sq (f := fun u : Fin d → ℝ => Real.log (u j))
    (Real.measurable_log.comp (measurable_pi_apply j)).aestronglyMeasurable).mpr (log_sq_mean hP j).1

theorem logBound_memLp (hP : Uniform P) (a b c : ℝ) :
    MemLp (fun u : Fin d → ℝ => a + b * ∑ j, |Real.log (u j) - c|) 2 P := by
  have h1 : ∀ j : Fin d, MemLp (fun u : Fin d → ℝ => |Real.log (u j) - c|) 2 P := fun j => by
    have h := MemLp.sub (f := fun u : Fin d → ℝ => Real.log (u j)) (g := fun _ => c) (log_memLp hP j) (memLp_const c)
    exact MemLp.abs h
  have h2 : MemLp (fun u : Fin d → ℝ => ∑ j, |Real.log (u j) - c|) 2 P :=
    memLp_finsetSum (f := fun (j : Fin d) (u : Fin d → ℝ) => |Real.log (u j) - c|) _ fun j _ => h1 j
  exact MemLp.add (f := fun _ => a) (g := fun u : Fin d → ℝ => b * ∑ j, |Real.log (u j) - c|) (memLp_const a) (h2.const_mul b)

theorem LogLip.memLp (hP : Uniform P) {φ : (Fin d → ℝ) → ℝ} {L : ℝ} (hm : Measurable φ) (h : LogLip L φ) : MemLp φ 2 P := by
  obtain ⟨v, hv⟩ : ∃ v : Fin d → ℝ, v = fun _ => 1 / 2 := ⟨_, rfl⟩
  refine (logBound_memLp hP |φ v| |L| (Real.log (1 / 2))).mono hm.aestronglyMeasurable ?_
  filter_upwards [uniform_ae' hP] with u hu
  have h1 := h u hu v fun _ => by rw [hv]; norm_num
  have hs : 0 ≤ ∑ j, |Real.log (u j) - Real.log (1 / 2)| := Finset.sum_nonneg fun j _ => abs_nonneg _
  have h0 : 0 ≤ |φ v| + |L| * ∑ j, |Real.log (u j) - Real.log (1 / 2)| := add_nonneg (abs_nonneg _) (mul_nonneg (abs_nonneg _) hs)
  rw [Real.norm_eq_abs, Real.norm_eq_abs, abs_of_nonneg h0]
  have h2 : |φ u| ≤ |φ u - φ v| + |φ v| := by
    simpa using abs_add_le (φ u - φ v) (φ v)
  have h3 := mul_le_mul_of_nonneg_right (le_abs_self L) hs
  have h4 : ∑ j, |Real.log (u j) - Real.log (v j)| = ∑ j, |Real.log (u j) - Real.log (1 / 2)| := by rw [hv]
  rw [h4] at h1
  linarith

omit [IsProbabilityMeasure P] in
theorem rank_sum_near {φ : (Fin d → ℝ) → ℝ} {L : ℝ} (h : LogLip L φ) {n : ℕ} (hn : 0 < n) {y : Fin n → Fin d → ℝ} (hy : NoTies y)
    (hc : ∀ i j, 0 < y i j ∧ y i j < 1) {ε m : ℝ} (hε : 0 < ε)
    (hs : ∑ i, ∑ j, |Real.log (unitRanks y i j) - Real.log (y i j)| ≤ ε / (2 * (|L| + 1)) * n)
    (hm : |(∑ i, φ (y i)) / n - m| < ε / 2) : |(∑ i, φ (unitRanks y i)) / n - m| < ε := by
  have hn0 : (0 : ℝ) < n := by exact_mod_cast hn
  have h1 : |∑ i, φ (unitRanks y i) - ∑ i, φ (y i)| ≤ |L| * (ε / (2 * (|L| + 1)) * n) := by
    rw [← Finset.sum_sub_distrib]
    refine (Finset.abs_sum_le_sum_abs _ _).trans ?_
    refine (Finset.sum_le_sum fun i _ => (h _ (unitRanks_mem hy i) _ (hc i)).trans
      (mul_le_mul_of_nonneg_right (le_abs_self L) (Finset.sum_nonneg fun j _ => abs_nonneg _))).trans ?_
    rw [← Finset.mul_sum]
    exact mul_le_mul_of_nonneg_left hs (abs_nonneg _)
  have h2 : |L| * (ε / (2 * (|L| + 1)) * n) < ε / 2 * n := by
    have hl : |L| / (|L| + 1) < 1 := by rw [div_lt_one (by positivity)]; linarith
    have h3 : 0 < ε / 2 * n := by positivity
    have : |L| * (ε / (2 * (|L| + 1)) * n) = ε / 2 * n * (|L| / (|L| + 1)) := by
      generalize |L| + 1 = q
      rw [mul_comm 2 q, ← div_div]
      ring
    rw [this]
    exact mul_lt_of_lt_one_right h3 hl
  have h3 : |(∑ i, φ (unitRanks y i)) / n - (∑ i, φ (y i)) / n| < ε / 2 := by
    rw [← sub_div, abs_div, abs_of_pos hn0, div_lt_iff₀ hn0]
    exact h1.trans_lt h2
  have h4 := abs_sub_le ((∑ i, φ (unitRanks y i)) / n) ((∑ i, φ (y i)) / n) m
  linarith

/-- The mean over the pseudo-observations of a function that is Lipschitz in the logarithms is close to its mean under the law. -/
theorem rank_mean_likely (hP : Uniform P) {φ : (Fin d → ℝ) → ℝ} {L : ℝ} (hm : Measurable φ) (h : LogLip L φ) {ε δ : ℝ} (hε : 0 < ε)
    (hδ : 0 < δ) : ∃ N : ℕ, ∀ n, N ≤ n → iid n P {y | ¬ (NoTies y ∧ |(∑ i, φ (unitRanks y i)) / n - ∫ u, φ u ∂P| < ε)} ≤
      ENNReal.ofReal δ := by
  obtain ⟨N1, hN1⟩ := mean_close_sq (h.memLp hP hm) (half_pos hε) (half_pos hδ)
  obtain ⟨N2, hN2⟩ := log_ranks_likely hP (ε := ε / (2 * (|L| + 1))) (by positivity) (half_pos hδ)
  refine ⟨N1 + N2 + 1, fun n hn => ?_⟩
  have hsub : {y : Fin n → Fin d → ℝ | ¬ (NoTies y ∧ |(∑ i, φ (unitRanks y i)) / n - ∫ u, φ u ∂P| < ε)} ⊆
      {y | ε / 2 ≤ |(∑ i, φ (y i)) / n - ∫ u, φ u ∂P|} ∪ {y | ¬ (NoTies y ∧ (∀ i j, 0 < y i j ∧ y i j < 1) ∧
      ∑ i, ∑ j, |Real.log (unitRanks y i j) - Real.log (y i j)| ≤ ε / (2 * (|L| + 1)) * n)} := by
    intro y hy
    by_contra hcon
    simp only [Set.mem_union, not_or] at hcon
    obtain ⟨a1, a2⟩ := hcon
    obtain ⟨t2, t3, t4⟩ := not_not.mp a2
    exact hy ⟨t2, rank_sum_near h (by omega) t2 t3 hε t4 (not_le.mp a1)⟩
  refine (measure_mono hsub).trans ((measure_union_le _ _).trans
    ((add_le_add (hN1 n (by omega)) (hN2 n (by omega))).trans (le_of_eq ?_)))
  rw [← ENNReal.ofReal_add (by positivity) (by positivity), add_halves]

/-- The same for finitely many functions at once. -/
theorem rank_means_likely (hP : Uniform P) {ι : Type} (s : Finset ι) {φ : ι → (Fin d → ℝ) → ℝ}
    (h : ∀ a ∈ s, Measurable (φ a) ∧ ∃ L, LogLip L (φ a)) {ε δ : ℝ} (hε : 0 < ε) (hδ : 0 < δ) :
    ∃ N : ℕ, ∀ n, N ≤ n → iid n P {y | ¬ (NoTies y ∧ ∀ a ∈ s, |(∑ i, φ a (unitRanks y i)) / n - ∫ u, φ a u ∂P| < ε)} ≤
      ENNReal.ofReal δ := by
  classical
  have hc : 0 < δ / (s.card + 1) := by positivity
  have key : ∀ a, ∃ N : ℕ, a ∈ s → ∀ n, N ≤ n → iid n P {y | ¬ (NoTies y ∧ |(∑ i, φ a (unitRanks y i)) / n - ∫ u, φ a u ∂P| < ε)} ≤
      ENNReal.ofReal (δ / (s.card + 1)) := fun a => by
    by_cases ha : a ∈ s
    · obtain ⟨hm, L, hL⟩ := h a ha
      obtain ⟨N, hN⟩ := rank_mean_likely hP hm hL hε hc
      exact ⟨N, fun _ => hN⟩
    · exact ⟨0, fun hh => absurd hh ha⟩
  choose N hN using key
  refine ⟨∑ a ∈ s, N a, fun n hn => ?_⟩
  have b0 : iid n P {y | ¬ NoTies y} = 0 := ae_iff.mp (noTies_ae (n := n) (atomless_of_uniform hP))
  refine (measure_mono (t := {y | ¬ NoTies y} ∪ ⋃ a ∈ s, {y | ¬ (NoTies y ∧ |(∑ i, φ a (unitRanks y i)) / n - ∫ u, φ a u ∂P| < ε)})
    fun y hy => ?_).trans ((measure_union_le _ _).trans ?_)
  · by_contra hcon
    simp only [Set.mem_union, not_or, Set.mem_iUnion, not_exists] at hcon
    obtain ⟨a1, a2⟩ := hcon
    exact hy ⟨not_not.mp a1, fun a ha => (not_not.mp (a2 a ha)).2⟩
  · rw [b0, zero_add]
    refine (measure_biUnion_finset_le _ _).trans ?_
    refine (Finset.sum_le_sum fun a ha => hN a ha n (le_trans (Finset.single_le_sum (fun _ _ => Nat.zero_le _) ha) hn)).trans ?_
    rw [Finset.sum_const, nsmul_eq_mul, ← ENNReal.ofReal_natCast, ← ENNReal.ofReal_mul (by positivity)]
    refine ENNReal.ofReal_le_ofReal ?_
    have : (s.card : ℝ) * (δ / (s.card + 1)) = δ * (s.card / (s.card + 1)) := by ring
    rw [this]
    have hl : (s.card : ℝ) / (s.card + 1) ≤ 1 := by rw [div_le_one (by positivity)]; linarith
    nlinarith

/-- The mean of `logEnv` over pseudo-observations is bounded. -/
theorem logEnv_ranks {n : ℕ} (hn : 0 < n) {y : Fin n → Fin d → ℝ} (hy : NoTies y) :
    (∑ i, logEnv (unitRanks y i)) / n ≤ 1 + 64 * d := by
  have hn0 : (0 : ℝ) < n := by exact_mod_cast hn
  have hn1 : (1 : ℝ) ≤ n := by exact_mod_cast hn
  have s1 : ∑ i, ∑ j, Real.log (unitRanks y i j) ^ 2 ≤ d * (32 * (n + 1)) := by
    rw [Finset.sum_comm]
    have : ∀ j : Fin d, ∑ i, Real.log (unitRanks y i j) ^ 2 ≤ 32 * (n + 1) := fun j => by
      rw [sum_scores hy j fun t => Real.log t ^ 2]
      exact sum_log_sq n
    refine (Finset.sum_le_sum fun j _ => this j).trans (le_of_eq ?_)
    simp
  rw [div_le_iff₀ hn0]
  simp only [logEnv, Finset.sum_add_distrib, Finset.sum_const, Finset.card_univ, Fintype.card_fin, nsmul_eq_mul, mul_one]
  have hd0 : (0 : ℝ) ≤ d := Nat.cast_nonneg d
  nlinarith

/-- A criterion for a real parameter from `lo` upwards that is largest, in the mean under `P`, at `θ₀`. -/
structure Contrast (P : Measure (Fin d → ℝ)) (f : ℝ → (Fin d → ℝ) → ℝ) (lo θ₀ : ℝ) : Prop where
  low : lo ≤ θ₀
  meas : ∀ θ, lo ≤ θ → Measurable (f θ)
  lip : ∀ θ, lo ≤ θ → ∃ L, LogLip L (f θ)
  par : ∀ b, ∃ L, 0 ≤ L ∧ ∀ θ θ', lo ≤ θ → θ ≤ b → lo ≤ θ' → θ' ≤ b → ∀ u ∈ cube d, |f θ u - f θ' u| ≤ L * |θ - θ'| * logEnv u
  best : ∀ θ, lo ≤ θ → θ ≠ θ₀ → ∫ u, f θ u ∂P < ∫ u, f θ₀ u ∂P
  tail : ∃ (D : (Fin d → ℝ) → ℝ) (a : ℝ → ℝ) (C b : ℝ), 0 ≤ C ∧ 0 ≤ b ∧ Measurable D ∧ (∃ L, LogLip L D) ∧ 0 < ∫ u, D u ∂P ∧
    (∀ κ, 0 < κ → ∃ b', ∀ θ, b' ≤ θ → a θ ≤ κ * θ) ∧ ∀ θ, b ≤ θ → ∀ u ∈ cube d, f θ u ≤ a θ + C * logEnv u - θ * D u

/-- Every parameter whose criterion on the pseudo-observations is at least that of `θ₀` is near `θ₀`. -/
theorem Contrast.near (hP : Uniform P) {f : ℝ → (Fin d → ℝ) → ℝ} {lo θ₀ : ℝ} (h : Contrast P f lo θ₀) {ε δ : ℝ} (hε : 0 < ε)
    (hδ : 0 < δ) : ∃ N : ℕ, ∀ n, N ≤ n → iid n P {y | ¬ (NoTies y ∧ ∀ θ, lo ≤ θ →
      ∑ i, f θ₀ (unitRanks y i) ≤ ∑ i, f θ (unitRanks y i) → |θ - θ₀| < ε)} ≤ ENNReal.ofReal δ := by
  classical
  obtain ⟨D, a, C, b₀, hC, hb₀, hDm, hDL, hD, ha, htail⟩ := h.tail
  obtain ⟨m, hm⟩ : ∃ m, m = ∫ u, f θ₀ u ∂P := ⟨_, rfl⟩
  obtain ⟨T, hT⟩ : ∃ T, T = ∫ u, D u ∂P := ⟨_, rfl⟩
  rw [← hT] at hD
  obtain ⟨W, hW⟩ : ∃ W : ℝ, W = 1 + 64 * d := ⟨_, rfl⟩
  have hW0 : 0 < W := by rw [hW]; positivity
  obtain ⟨b₁, hb₁⟩ := ha (T / 4) (by positivity)
  obtain ⟨b, hb⟩ : ∃ b, b = max (max b₀ b₁) (max θ₀ (4 * (C * W - m + 2) / T)) := ⟨_, rfl⟩
  have hb0 : b₀ ≤ b := hb ▸ (le_max_left _ _).trans (le_max_left _ _)
  have hb1 : b₁ ≤ b := hb ▸ (le_max_right _ _).trans (le_max_left _ _)
  have hb3 : 4 * (C * W - m + 2) / T ≤ b := hb ▸ (le_max_right _ _).trans (le_max_right _ _)
  obtain ⟨L, hL0, hL⟩ := h.par b
  have hint : ∀ θ, lo ≤ θ → Integrable (f θ) P := fun θ hθ => by
    obtain ⟨L, hL⟩ := h.lip θ hθ
    exact (hL.memLp hP (h.meas θ hθ)).integrable one_le_two
  obtain ⟨K, hK⟩ : ∃ K : Set ℝ, K = {θ | θ ∈ Set.Icc lo b ∧ ε ≤ |θ - θ₀|} := ⟨_, rfl⟩
  have hKc : IsCompact K := by
    rw [hK]
    exact isCompact_Icc.inter_right (isClosed_le continuous_const (continuous_abs.comp (continuous_id.sub continuous_const)))
  have hIc : ContinuousOn (fun θ => ∫ u, f θ u ∂P) K := by
    have hlip : ∀ θ ∈ K, ∀ θ' ∈ K, |∫ u, f θ u ∂P - ∫ u, f θ' u ∂P| ≤ (L * ∫ u, logEnv u ∂P) * |θ - θ'| := by
      intro θ hθ θ' hθ'
      rw [hK] at hθ hθ'
      rw [← integral_sub (hint θ hθ.1.1) (hint θ' hθ'.1.1)]
      refine (abs_integral_le_integral_abs).trans ?_
      calc ∫ u, |f θ u - f θ' u| ∂P ≤ ∫ u, L * |θ - θ'| * logEnv u ∂P := by
            refine integral_mono_ae ((hint θ hθ.1.1).sub (hint θ' hθ'.1.1)).abs ((logEnv_integrable hP).const_mul _) ?_
            filter_upwards [uniform_ae' hP] with u hu
            exact hL θ θ' hθ.1.1 hθ.1.2 hθ'.1.1 hθ'.1.2 u hu
        _ = (L * ∫ u, logEnv u ∂P) * |θ - θ'| := by rw [integral_const_mul]; ring
    have hJ : 0 ≤ L * ∫ u, logEnv u ∂P := mul_nonneg hL0 (integral_nonneg fun u => logEnv_nonneg u)
    exact (LipschitzOnWith.of_dist_le_mul (K := ⟨_, hJ⟩) fun θ hθ θ' hθ' => hlip θ hθ θ' hθ').continuousOn
  obtain ⟨κ, hκ, hgap⟩ : ∃ κ, 0 < κ ∧ ∀ θ ∈ K, ∫ u, f θ u ∂P ≤ m - 4 * κ := by
    rcases K.eq_empty_or_nonempty with hE | hN
    · exact ⟨1, one_pos, fun θ hθ => by rw [hE] at hθ; exact hθ.elim⟩
    · obtain ⟨θ', hθ', hmax⟩ := hKc.exists_isMaxOn hN hIc
      have hne : θ' ≠ θ₀ := by
        rintro rfl
        rw [hK] at hθ'
        have := hθ'.2
        rw [sub_self, abs_zero] at this
        linarith
      have hlt := h.best θ' (by rw [hK] at hθ'; exact hθ'.1.1) hne
      rw [← hm] at hlt
      exact ⟨(m - ∫ u, f θ' u ∂P) / 4, by linarith, fun θ hθ => by have := hmax hθ; simp only [Set.mem_ofPred_eq] at this; linarith⟩
  obtain ⟨t, htK, htf, hcov⟩ := hKc.finite_cover_balls (e := κ / (L * W + 1)) (by positivity)
  obtain ⟨N, hN⟩ := rank_means_likely hP (ι := Option ℝ) (insert none (insert (some θ₀) (htf.toFinset.image some)))
    (φ := fun o => o.elim D f) (fun o ho => by
      simp only [Finset.mem_insert, Finset.mem_image] at ho
      rcases ho with rfl | rfl | ⟨θ, hθ, rfl⟩
      · exact ⟨hDm, hDL⟩
      · exact ⟨h.meas θ₀ h.low, h.lip θ₀ h.low⟩
      · have : lo ≤ θ := by
          have := htK (htf.mem_toFinset.mp hθ)
          rw [hK] at this
          exact this.1.1
        exact ⟨h.meas θ this, h.lip θ this⟩)
    (ε := min (min 1 κ) (T / 4)) (by positivity) hδ
  refine ⟨N + 1, fun n hn => (measure_mono fun y hy => ?_).trans (hN n (by omega))⟩
  intro hg
  have hn0 : (0 : ℝ) < n := by exact_mod_cast (by omega : 0 < n)
  refine hy ⟨hg.1, fun θ hθ hle => ?_⟩
  obtain ⟨hy1, hy2⟩ := hg
  have hmem := unitRanks_mem hy1
  have hW1 := logEnv_ranks (by omega : 0 < n) hy1
  rw [← hW] at hW1
  have g1 : |(∑ i, D (unitRanks y i)) / n - T| < T / 4 := by
    rw [hT] at *
    exact (hy2 none (by simp)).trans_le (min_le_right _ _)
  have g2 : |(∑ i, f θ₀ (unitRanks y i)) / n - m| < min 1 κ := by
    rw [hm]
    exact (hy2 (some θ₀) (by simp)).trans_le (min_le_left _ _)
  have g2a := abs_lt.mp (g2.trans_le (min_le_left _ _))
  have g2b := abs_lt.mp (g2.trans_le (min_le_right _ _))
  have hle' := div_le_div_of_nonneg_right hle hn0.le
  have hθb : θ ≤ b := by
    by_contra hlt
    push Not at hlt
    have hθ0 : 0 ≤ θ := hb₀.trans (hb0.trans hlt.le)
    have h1 : (∑ i, f θ (unitRanks y i)) / n ≤ a θ + C * W - θ * (3 * T / 4) := by
      have h2 : ∑ i, f θ (unitRanks y i) ≤ n * a θ + C * ∑ i, logEnv (unitRanks y i) - θ * ∑ i, D (unitRanks y i) := by
        refine (Finset.sum_le_sum fun i _ => htail θ (hb0.trans hlt.le) _ (hmem i)).trans (le_of_eq ?_)
        rw [Finset.sum_sub_distrib, Finset.sum_add_distrib, ← Finset.mul_sum, ← Finset.mul_sum]
        simp
      have h3 := div_le_div_of_nonneg_right h2 hn0.le
      have h4 : (n * a θ + C * ∑ i, logEnv (unitRanks y i) - θ * ∑ i, D (unitRanks y i)) / n =
          a θ + C * ((∑ i, logEnv (unitRanks y i)) / n) - θ * ((∑ i, D (unitRanks y i)) / n) := by
        field_simp
      rw [h4] at h3
      have g1' := (abs_lt.mp g1).1
      nlinarith [mul_le_mul_of_nonneg_left hW1 hC]
    have h5 := hb₁ θ (hb1.trans hlt.le)
    have h6 : C * W - m + 2 < θ * T / 4 := by
      have := hb3.trans_lt hlt
      rw [div_lt_iff₀ hD] at this
      linarith
    nlinarith
  by_contra hfar
  push Not at hfar
  have hθK : θ ∈ K := by rw [hK]; exact ⟨⟨hθ, hθb⟩, hfar⟩
  obtain ⟨c, hc, hcd⟩ : ∃ c ∈ t, θ ∈ Metric.ball c (κ / (L * W + 1)) := by
    simpa using hcov hθK
  have hcK := htK hc
  have g3 : |(∑ i, f c (unitRanks y i)) / n - ∫ u, f c u ∂P| < κ :=
    (hy2 (some c) (by simp [hc])).trans_le ((min_le_left _ _).trans (min_le_right _ _))
  have g4 := hgap c hcK
  rw [Metric.mem_ball, Real.dist_eq] at hcd
  have hcK' := hcK
  rw [hK] at hcK'
  have g5 : (∑ i, f θ (unitRanks y i)) / n - (∑ i, f c (unitRanks y i)) / n ≤ κ := by
    rw [← sub_div, ← Finset.sum_sub_distrib]
    have h2 : ∑ i, (f θ (unitRanks y i) - f c (unitRanks y i)) ≤ L * |θ - c| * ∑ i, logEnv (unitRanks y i) := by
      rw [Finset.mul_sum]
      exact Finset.sum_le_sum fun i _ => (le_abs_self _).trans (hL θ c hθ hθb hcK'.1.1 hcK'.1.2 _ (hmem i))
    have h3 := div_le_div_of_nonneg_right h2 hn0.le
    rw [mul_div_assoc] at h3
    have h4 : L * |θ - c| * ((∑ i, logEnv (unitRanks y i)) / n) ≤ L * (κ / (L * W + 1)) * W := by
      refine mul_le_mul (mul_le_mul_of_nonneg_left hcd.le hL0) hW1 ?_ (by positivity)
      exact div_nonneg (Finset.sum_nonneg fun i _ => logEnv_nonneg _) hn0.le
    have h5 : L * (κ / (L * W + 1)) * W ≤ κ := by
      have : L * (κ / (L * W + 1)) * W = κ * (L * W / (L * W + 1)) := by ring
      rw [this]
      have hl : L * W / (L * W + 1) ≤ 1 := by rw [div_le_one (by positivity)]; linarith
      nlinarith
    linarith
  have g3' := abs_lt.mp g3
  linarith

end Copulae
