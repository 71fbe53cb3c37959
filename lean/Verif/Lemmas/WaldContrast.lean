import Verif.Lemmas.Contrast
import Verif.Lemmas.RadSym

/-!
Estimators that maximise a mean over the pseudo-observations, for criteria that may be infinite at both ends of the unit interval and that
are bounded, near each parameter, by a function whose mean is close to that of the criterion (the argument of Wald).
-/

namespace Copulae

open MeasureTheory ProbabilityTheory Spec CopulaMeasure Filter

variable {d : ℕ}

/-- The distance in the logarithms of the coordinates and of their complements. -/
noncomputable def logitDist (u v : Fin d → ℝ) : ℝ :=
  ∑ j, (|Real.log (u j) - Real.log (v j)| + |Real.log (1 - u j) - Real.log (1 - v j)|)

/-- Lipschitz in that distance, on the open cube. -/
def LogitLip (L : ℝ) (φ : (Fin d → ℝ) → ℝ) : Prop := ∀ u ∈ cube d, ∀ v ∈ cube d, |φ u - φ v| ≤ L * logitDist u v

theorem logitDist_nonneg (u v : Fin d → ℝ) : 0 ≤ logitDist u v := by unfold logitDist; positivity

variable {P : Measure (Fin d → ℝ)} [IsProbabilityMeasure P]

theorem reflected_prob : IsProbabilityMeasure (reflected P) :=
  Measure.isProbabilityMeasure_map measurable_reflect.aemeasurable

theorem unitRanks_reflect {n : ℕ} (y : Fin n → Fin d → ℝ) (i : Fin n) (j : Fin d) :
    unitRanks (fun i => reflect (y i)) i j = 1 - unitRanks y i j := by
  have hn : (n : ℝ) + 1 ≠ 0 := by positivity
  have h := rankdata_average_reflect (fun k => y k j) 1 i
  have h' : ((rankdata .average (fun k => (1 : ℝ) - y k j) i : ℚ) : ℝ) = n + 1 - ((rankdata .average (fun k => y k j) i : ℚ) : ℝ) := by
    rw [h]
    push_cast
    ring
  unfold unitRanks
  show ((rankdata .average (fun k => (1 : ℝ) - y k j) i : ℚ) : ℝ) / (n + 1) = _
  rw [h']
  field_simp

omit [IsProbabilityMeasure P] in
theorem logCompl_memLp (hP : Uniform P) (j : Fin d) : MemLp (fun u : Fin d → ℝ => Real.log (1 - u j)) 2 P := by
  have h := log_memLp (P := reflected P) (uniform_reflected hP) j
  exact h.comp_measurePreserving (⟨measurable_reflect, rfl⟩ : MeasurePreserving reflect P (reflected P))

theorem logitBound_memLp (hP : Uniform P) (a b : ℝ) (v : Fin d → ℝ) : MemLp (fun u : Fin d → ℝ => a + b * logitDist u v) 2 P := by
  have h1 : ∀ j : Fin d, MemLp (fun u : Fin d → ℝ => |Real.log (u j) - Real.log (v j)| + |Real.log (1 - u j) - Real.log (1 - v j)|) 2 P :=
    fun j => by
      have h := MemLp.sub (f := fun u : Fin d → ℝ => Real.log (u j)) (g := fun _ => Real.log (v j)) (log_memLp hP j) (memLp_const _)
      have h' := MemLp.sub (f := fun u : Fin d → ℝ => Real.log (1 - u j)) (g := fun _ => Real.log (1 - v j)) (logCompl_memLp hP j)
        (memLp_const _)
      exact MemLp.add (MemLp.abs h) (MemLp.abs h')
  have h2 : MemLp (fun u : Fin d → ℝ => logitDist u v) 2 P :=
    memLp_finsetSum (f := fun (j : Fin d) (u : Fin d → ℝ) => |Real.log (u j) - Real.log (v j)| + |Real.log (1 - u j) - Real.log (1 - v j)|) _
      fun j _ => h1 j
  exact MemLp.add (f := fun _ => a) (g := fun u : Fin d → ℝ => b * logitDist u v) (memLp_const a) (h2.const_mul b)

theorem LogitLip.bound {φ : (Fin d → ℝ) → ℝ} {L : ℝ} (h : LogitLip L φ) {u : Fin d → ℝ} (hu : u ∈ cube d) :
    |φ u| ≤ |φ fun _ => 1 / 2| + |L| * logitDist u fun _ => 1 / 2 := by
  have h1 := h u hu (fun _ => 1 / 2) fun _ => by norm_num
  have h2 : |φ u| ≤ |φ u - φ fun _ => 1 / 2| + |φ fun _ => 1 / 2| := by simpa using abs_add_le (φ u - φ fun _ => 1 / 2) (φ fun _ => 1 / 2)
  have h3 := mul_le_mul_of_nonneg_right (le_abs_self L) (logitDist_nonneg u fun _ => 1 / 2)
  linarith

theorem LogitLip.memLp (hP : Uniform P) {φ : (Fin d → ℝ) → ℝ} {L : ℝ} (hm : Measurable φ) (h : LogitLip L φ) : MemLp φ 2 P := by
  refine (logitBound_memLp hP |φ fun _ => 1 / 2| |L| fun _ => 1 / 2).mono hm.aestronglyMeasurable ?_
  filter_upwards [uniform_ae' hP] with u hu
  have h0 : 0 ≤ |φ fun _ => 1 / 2| + |L| * logitDist u fun _ => 1 / 2 :=
    add_nonneg (abs_nonneg _) (mul_nonneg (abs_nonneg _) (logitDist_nonneg _ _))
  rw [Real.norm_eq_abs, Real.norm_eq_abs, abs_of_nonneg h0]
  exact h.bound hu

/-- The pseudo-observations are close to the observations in that distance, in the mean. -/
theorem logit_ranks_likely (hP : Uniform P) {ε δ : ℝ} (hε : 0 < ε) (hδ : 0 < δ) :
    ∃ N : ℕ, ∀ n, N ≤ n → iid n P {y | ¬ (NoTies y ∧ (∀ i j, 0 < y i j ∧ y i j < 1) ∧
      ∑ i, logitDist (unitRanks y i) (y i) ≤ ε * n)} ≤ ENNReal.ofReal δ := by
  have := reflected_prob (P := P)
  obtain ⟨N1, hN1⟩ := log_ranks_likely hP (half_pos hε) (half_pos hδ)
  obtain ⟨N2, hN2⟩ := log_ranks_likely (uniform_reflected hP) (half_pos hε) (half_pos hδ)
  refine ⟨N1 + N2, fun n hn => ?_⟩
  refine (measure_mono (t := {y | ¬ (NoTies y ∧ (∀ i j, 0 < y i j ∧ y i j < 1) ∧
      ∑ i, ∑ j, |Real.log (unitRanks y i j) - Real.log (y i j)| ≤ ε / 2 * n)} ∪ {y | (fun i => reflect (y i)) ∈ {y : Fin n → Fin d → ℝ |
      ¬ (NoTies y ∧ (∀ i j, 0 < y i j ∧ y i j < 1) ∧ ∑ i, ∑ j, |Real.log (unitRanks y i j) - Real.log (y i j)| ≤ ε / 2 * n)}})
    fun y hy => ?_).trans ((measure_union_le _ _).trans ?_)
  · by_contra hcon
    simp only [Set.mem_union, not_or] at hcon
    obtain ⟨a1, a2⟩ := hcon
    obtain ⟨b1, b2, b3⟩ := not_not.mp a1
    obtain ⟨-, -, c3⟩ := not_not.mp a2
    refine hy ⟨b1, b2, ?_⟩
    simp only [unitRanks_reflect] at c3
    simp only [logitDist, Finset.sum_add_distrib]
    have c3' : ∑ i, ∑ j, |Real.log (1 - unitRanks y i j) - Real.log (1 - y i j)| ≤ ε / 2 * n := c3
    linarith
  · have h2 := hN2 n (by omega)
    rw [← iid_reflect] at h2
    have h3 := (Measure.le_map_apply (μ := iid n P) (f := fun y i => reflect (y i)) (measurable_pi_lambda _ fun i =>
      measurable_reflect.comp (measurable_pi_apply i)).aemeasurable _).trans h2
    refine (add_le_add (hN1 n (by omega)) h3).trans (le_of_eq ?_)
    rw [← ENNReal.ofReal_add (by positivity) (by positivity), add_halves]

theorem logit_mean_likely (hP : Uniform P) {φ : (Fin d → ℝ) → ℝ} {L : ℝ} (hm : Measurable φ) (h : LogitLip L φ) {ε δ : ℝ} (hε : 0 < ε)
    (hδ : 0 < δ) : ∃ N : ℕ, ∀ n, N ≤ n → iid n P {y | ¬ (NoTies y ∧ |(∑ i, φ (unitRanks y i)) / n - ∫ u, φ u ∂P| < ε)} ≤
      ENNReal.ofReal δ := by
  obtain ⟨N1, hN1⟩ := mean_close_sq (h.memLp hP hm) (half_pos hε) (half_pos hδ)
  obtain ⟨N2, hN2⟩ := logit_ranks_likely hP (ε := ε / (2 * (|L| + 1))) (by positivity) (half_pos hδ)
  refine ⟨N1 + N2 + 1, fun n hn => ?_⟩
  have hn0 : (0 : ℝ) < n := by exact_mod_cast (by omega : 0 < n)
  have hsub : {y : Fin n → Fin d → ℝ | ¬ (NoTies y ∧ |(∑ i, φ (unitRanks y i)) / n - ∫ u, φ u ∂P| < ε)} ⊆
      {y | ε / 2 ≤ |(∑ i, φ (y i)) / n - ∫ u, φ u ∂P|} ∪ {y | ¬ (NoTies y ∧ (∀ i j, 0 < y i j ∧ y i j < 1) ∧
      ∑ i, logitDist (unitRanks y i) (y i) ≤ ε / (2 * (|L| + 1)) * n)} := by
    intro y hy
    by_contra hcon
    simp only [Set.mem_union, not_or] at hcon
    obtain ⟨a1, a2⟩ := hcon
    obtain ⟨t2, t3, t4⟩ := not_not.mp a2
    have a1' : |(∑ i, φ (y i)) / n - ∫ u, φ u ∂P| < ε / 2 := not_le.mp a1
    refine hy ⟨t2, ?_⟩
    have h1 : |∑ i, φ (unitRanks y i) - ∑ i, φ (y i)| ≤ |L| * (ε / (2 * (|L| + 1)) * n) := by
      rw [← Finset.sum_sub_distrib]
      refine (Finset.abs_sum_le_sum_abs _ _).trans ?_
      refine (Finset.sum_le_sum fun i _ => (h _ (unitRanks_mem t2 i) _ (t3 i)).trans
        (mul_le_mul_of_nonneg_right (le_abs_self L) (logitDist_nonneg _ _))).trans ?_
      rw [← Finset.mul_sum]
      exact mul_le_mul_of_nonneg_left t4 (abs_nonneg _)
    have h2 : |L| * (ε / (2 * (|L| + 1)) * n) < ε / 2 * n := by
      have hl : |L| / (|L| + 1) < 1 := by rw [div_lt_one (by positivity)]; linarith
      have h3 : 0 < ε / 2 * n := by positivity
      have : |L| * (ε / (2 * (|L| + 1)) * n) = ε / 2 * n * (|L| / (|L| + 1)) := by
        generalize |L| + 1 = q
        rw [mul_comm 2 q, ← div_div]
        ring
      rw [this]
      nlinarith
    have h3 : |(∑ i, φ (unitRanks y i)) / n - (∑ i, φ (y i)) / n| < ε / 2 := by
      rw [← sub_div, abs_div, abs_of_pos hn0, div_lt_iff₀ hn0]
      linarith
    have h4 := abs_sub_le ((∑ i, φ (unitRanks y i)) / n) ((∑ i, φ (y i)) / n) (∫ u, φ u ∂P)
    linarith
  refine (measure_mono hsub).trans ((measure_union_le _ _).trans
    ((add_le_add (hN1 n (by omega)) (hN2 n (by omega))).trans (le_of_eq ?_)))
  rw [← ENNReal.ofReal_add (by positivity) (by positivity), add_halves]

theorem logit_means_likely (hP : Uniform P) {ι : Type} (s : Finset ι) {φ : ι → (Fin d → ℝ) → ℝ}
    (h : ∀ a ∈ s, Measurable (φ a) ∧ ∃ L, LogitLip L (φ a)) {ε δ : ℝ} (hε : 0 < ε) (hδ : 0 < δ) :
    ∃ N : ℕ, ∀ n, N ≤ n → iid n P {y | ¬ (NoTies y ∧ ∀ a ∈ s, |(∑ i, φ a (unitRanks y i)) / n - ∫ u, φ a u ∂P| < ε)} ≤
      ENNReal.ofReal δ := by
  classical
  have hc : 0 < δ / (s.card + 1) := by positivity
  have key : ∀ a, ∃ N : ℕ, a ∈ s → ∀ n, N ≤ n → iid n P {y | ¬ (NoTies y ∧ |(∑ i, φ a (unitRanks y i)) / n - ∫ u, φ a u ∂P| < ε)} ≤
      ENNReal.ofReal (δ / (s.card + 1)) := fun a => by
    by_cases ha : a ∈ s
    · obtain ⟨hm, L, hL⟩ := h a ha
      obtain ⟨N, hN⟩ := logit_mean_likely hP hm hL hε hc
      exact ⟨N, fun _ => hN⟩
    · exact ⟨0, fun hh => absurd hh ha⟩
  choose N hN using key
  refine ⟨∑ a ∈ s, N a, fun n hn => ?_⟩
  have b0 : iid n P {y | ¬ NoTies y} = 0 := ae_iff.mp (noTies_ae (n := n) (atomless_of_uniform hP))
  refine (measure_mono (t := {y | ¬ NoTies y} ∪ ⋃ a ∈ s, {y | ¬ (NoTies y ∧ |(∑ i, φ a (unitRanks y i)) / n - ∫ u, φ a u ∂P| < ε)})
    fun y hy => ?_).trans ((measure_union_le _ _).trans ?_)
  · by_contra hcon
    simp only [Set.mem_union, not_or, Set.mem_iUnion, not_exists] at hcon
    obtain ⟨a1, a2⟩ := hcon
    exact hy ⟨not_not.mp a1, fun a ha => (not_not.mp (a2 a ha)).2⟩
  · rw [b0, zero_add]
    refine (measure_biUnion_finset_le _ _).trans ?_
    refine (Finset.sum_le_sum fun a ha => hN a ha n (le_trans (Finset.single_le_sum (fun _ _ => Nat.zero_le _) ha) hn)).trans ?_
    rw [Finset.sum_const, nsmul_eq_mul, ← ENNReal.ofReal_natCast, ← ENNReal.ofReal_mul (by positivity)]
    refine ENNReal.ofReal_le_ofReal ?_
    have : (s.card : ℝ) * (δ / (s.card + 1)) = δ * (s.card / (s.card + 1)) := by ring
    rw [this]
    have hl : (s.card : ℝ) / (s.card + 1) ≤ 1 := by rw [div_le_one (by positivity)]; linarith
    nlinarith

/-- A criterion for a real parameter from `lo` upwards that is largest, in the mean under `P`, at `θ₀`, with bounds near every other
parameter and for large ones. -/
structure WaldContrast (P : Measure (Fin d → ℝ)) (f : ℝ → (Fin d → ℝ) → ℝ) (lo θ₀ : ℝ) : Prop where
  meas : Measurable (f θ₀)
  lip : ∃ L, LogitLip L (f θ₀)
  local_ : ∀ θ, lo ≤ θ → θ ≠ θ₀ → ∃ r, 0 < r ∧ ∃ φ : (Fin d → ℝ) → ℝ, Measurable φ ∧ (∃ L, LogitLip L φ) ∧
    (∀ t, lo ≤ t → |t - θ| < r → ∀ u ∈ cube d, f t u ≤ φ u) ∧ ∫ u, φ u ∂P < ∫ u, f θ₀ u ∂P
  tail : ∃ (D H : (Fin d → ℝ) → ℝ) (a : ℝ → ℝ) (b : ℝ), 0 ≤ b ∧ Measurable D ∧ (∃ L, LogitLip L D) ∧ Measurable H ∧ (∃ L, LogitLip L H) ∧
    0 < ∫ u, D u ∂P ∧ (∀ κ, 0 < κ → ∃ b', ∀ θ, b' ≤ θ → a θ ≤ κ * θ) ∧ ∀ θ, b ≤ θ → ∀ u ∈ cube d, f θ u ≤ a θ + H u - θ * D u

/-- Every parameter whose criterion on the pseudo-observations is at least that of `θ₀` is near `θ₀`. -/
theorem WaldContrast.near (hP : Uniform P) {f : ℝ → (Fin d → ℝ) → ℝ} {lo θ₀ : ℝ} (h : WaldContrast P f lo θ₀) {ε δ : ℝ} (hε : 0 < ε)
    (hδ : 0 < δ) : ∃ N : ℕ, ∀ n, N ≤ n → iid n P {y | ¬ (NoTies y ∧ ∀ θ, lo ≤ θ →
      ∑ i, f θ₀ (unitRanks y i) ≤ ∑ i, f θ (unitRanks y i) → |θ - θ₀| < ε)} ≤ ENNReal.ofReal δ := by
  classical
  obtain ⟨D, H, a, b₀, hb₀, hDm, hDL, hHm, hHL, hD, ha, htail⟩ := h.tail
  obtain ⟨m, hm⟩ : ∃ m, m = ∫ u, f θ₀ u ∂P := ⟨_, rfl⟩
  obtain ⟨T, hT⟩ : ∃ T, T = ∫ u, D u ∂P := ⟨_, rfl⟩
  obtain ⟨W, hW⟩ : ∃ W, W = ∫ u, H u ∂P := ⟨_, rfl⟩
  rw [← hT] at hD
  obtain ⟨b₁, hb₁⟩ := ha (T / 4) (by positivity)
  obtain ⟨b, hb⟩ : ∃ b, b = max (max b₀ b₁) (4 * (W - m + 3) / T) := ⟨_, rfl⟩
  have hb0 : b₀ ≤ b := hb ▸ (le_max_left _ _).trans (le_max_left _ _)
  have hb1 : b₁ ≤ b := hb ▸ (le_max_right _ _).trans (le_max_left _ _)
  have hb3 : 4 * (W - m + 3) / T ≤ b := hb ▸ le_max_right _ _
  obtain ⟨K, hK⟩ : ∃ K : Set ℝ, K = {θ | θ ∈ Set.Icc lo b ∧ ε ≤ |θ - θ₀|} := ⟨_, rfl⟩
  have hKc : IsCompact K := by
    rw [hK]
    exact isCompact_Icc.inter_right (isClosed_le continuous_const (continuous_abs.comp (continuous_id.sub continuous_const)))
  have hK1 : ∀ θ ∈ K, lo ≤ θ ∧ θ ≠ θ₀ := fun θ hθ => by
    rw [hK] at hθ
    refine ⟨hθ.1.1, ?_⟩
    rintro rfl
    have := hθ.2
    rw [sub_self, abs_zero] at this
    linarith
  have hloc : ∀ θ, ∃ (r : ℝ) (φ : (Fin d → ℝ) → ℝ), θ ∈ K → 0 < r ∧ Measurable φ ∧ (∃ L, LogitLip L φ) ∧
    (∀ t, lo ≤ t → |t - θ| < r → ∀ u ∈ cube d, f t u ≤ φ u) ∧ ∫ u, φ u ∂P < m := fun θ => by
    by_cases hθ : θ ∈ K
    · obtain ⟨r, h1, φ, h2, h3, h4, h5⟩ := h.local_ θ (hK1 θ hθ).1 (hK1 θ hθ).2
      exact ⟨r, φ, fun _ => ⟨h1, h2, h3, h4, hm ▸ h5⟩⟩
    · exact ⟨0, 0, fun hh => absurd hh hθ⟩
  choose r φ hφ using hloc
  obtain ⟨t, htK, hcov⟩ := hKc.elim_nhds_subcover (fun θ => Metric.ball θ (r θ)) fun θ hθ => Metric.ball_mem_nhds _ (hφ θ hθ).1
  obtain ⟨κ, hκ, hgap⟩ : ∃ κ, 0 < κ ∧ ∀ θ ∈ t, ∫ u, φ θ u ∂P ≤ m - 2 * κ := by
    rcases t.eq_empty_or_nonempty with hE | hN
    · exact ⟨1, one_pos, fun θ hθ => by rw [hE] at hθ; simp at hθ⟩
    · obtain ⟨θ', hθ', hmax⟩ := t.exists_max_image (fun θ => ∫ u, φ θ u ∂P) hN
      have := (hφ θ' (htK θ' hθ')).2.2.2.2
      exact ⟨(m - ∫ u, φ θ' u ∂P) / 2, by linarith, fun θ hθ => by have := hmax θ hθ; linarith⟩
  obtain ⟨N, hN⟩ := logit_means_likely hP (ι := Option (Option (Option ℝ))) (insert none (insert (some none) (insert (some (some none))
      (t.image fun θ => some (some (some θ))))))
    (φ := fun o => o.elim D fun o => o.elim H fun o => o.elim (f θ₀) φ) (fun o ho => by
      simp only [Finset.mem_insert, Finset.mem_image] at ho
      rcases ho with rfl | rfl | rfl | ⟨θ, hθ, rfl⟩
      · exact ⟨hDm, hDL⟩
      · exact ⟨hHm, hHL⟩
      · exact ⟨h.meas, h.lip⟩
      · exact ⟨(hφ θ (htK θ hθ)).2.1, (hφ θ (htK θ hθ)).2.2.1⟩)
    (ε := min (min 1 κ) (T / 4)) (by positivity) hδ
  refine ⟨N + 1, fun n hn => (measure_mono fun y hy => ?_).trans (hN n (by omega))⟩
  intro hg
  have hn0 : (0 : ℝ) < n := by exact_mod_cast (by omega : 0 < n)
  refine hy ⟨hg.1, fun θ hθ hle => ?_⟩
  obtain ⟨hy1, hy2⟩ := hg
  have hmem := unitRanks_mem hy1
  have g1 : |(∑ i, D (unitRanks y i)) / n - T| < T / 4 := by
    have := hy2 none (by simp)
    simp only [Option.elim] at this
    rw [← hT] at this
    exact this.trans_le (min_le_right _ _)
  have g0 : |(∑ i, H (unitRanks y i)) / n - W| < 1 := by
    have := hy2 (some none) (by simp)
    simp only [Option.elim] at this
    rw [← hW] at this
    exact this.trans_le ((min_le_left _ _).trans (min_le_left _ _))
  have g2 : |(∑ i, f θ₀ (unitRanks y i)) / n - m| < min 1 κ := by
    have := hy2 (some (some none)) (by simp)
    simp only [Option.elim] at this
    rw [← hm] at this
    exact this.trans_le (min_le_left _ _)
  have g2a := abs_lt.mp (g2.trans_le (min_le_left _ _))
  have g2b := abs_lt.mp (g2.trans_le (min_le_right _ _))
  have hle' := div_le_div_of_nonneg_right hle hn0.le
  have hθb : θ ≤ b := by
    by_contra hlt
    push Not at hlt
    have hθ0 : 0 ≤ θ := hb₀.trans (hb0.trans hlt.le)
    have h1 : (∑ i, f θ (unitRanks y i)) / n ≤ a θ + (W + 1) - θ * (3 * T / 4) := by
      have h2 : ∑ i, f θ (unitRanks y i) ≤ n * a θ + ∑ i, H (unitRanks y i) - θ * ∑ i, D (unitRanks y i) := by
        refine (Finset.sum_le_sum fun i _ => htail θ (hb0.trans hlt.le) _ (hmem i)).trans (le_of_eq ?_)
        rw [Finset.sum_sub_distrib, Finset.sum_add_distrib, ← Finset.mul_sum]
        simp
      have h3 := div_le_div_of_nonneg_right h2 hn0.le
      have h4 : (n * a θ + ∑ i, H (unitRanks y i) - θ * ∑ i, D (unitRanks y i)) / n =
          a θ + (∑ i, H (unitRanks y i)) / n - θ * ((∑ i, D (unitRanks y i)) / n) := by
        field_simp
      rw [h4] at h3
      have g1' := (abs_lt.mp g1).1
      have g0' := (abs_lt.mp g0).2
      nlinarith
    have h5 := hb₁ θ (hb1.trans hlt.le)
    have h6 : W - m + 3 < θ * T / 4 := by
      have := hb3.trans_lt hlt
      rw [div_lt_iff₀ hD] at this
      linarith
    nlinarith
  by_contra hfar
  push Not at hfar
  have hθK : θ ∈ K := by rw [hK]; exact ⟨⟨hθ, hθb⟩, hfar⟩
  obtain ⟨c, hc, hcd⟩ : ∃ c ∈ t, θ ∈ Metric.ball c (r c) := by
    simpa using hcov hθK
  rw [Metric.mem_ball, Real.dist_eq] at hcd
  have g3 : |(∑ i, φ c (unitRanks y i)) / n - ∫ u, φ c u ∂P| < κ := by
    have := hy2 (some (some (some c))) (by simp [hc])
    simp only [Option.elim] at this
    exact this.trans_le ((min_le_left _ _).trans (min_le_right _ _))
  have g4 := hgap c hc
  have g5 : (∑ i, f θ (unitRanks y i)) / n ≤ (∑ i, φ c (unitRanks y i)) / n :=
    div_le_div_of_nonneg_right (Finset.sum_le_sum fun i _ => (hφ c (htK c hc)).2.2.2.1 θ hθ hcd _ (hmem i)) hn0.le
  have g3' := abs_lt.mp g3
  linarith

end Copulae
