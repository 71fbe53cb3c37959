import Verif.Lemmas.ClaytonLik
import Verif.Lemmas.GaussMlFit

/-!
Clayton copulas with a negative parameter have a small likelihood on data from a Clayton copula with a positive parameter; the
likelihood of all Clayton copulas on the pseudo-observations of such data.
-/

namespace Copulae

open MeasureTheory ProbabilityTheory Spec CopulaMeasure Finset

variable {d n : ℕ}

/-- `pdf(u, log=True)` of one row for a negative parameter. -/
noncomputable def claytonNegRow (θ : ℝ) (x : Fin 2 → ℝ) : Fl :=
  if ¬ (∑ j, (1 - x j ^ (-θ))) < 1 then .ninf else claytonLogNeg θ (fun j => Fl.fin (x j))

theorem rpow_eq_exp_negLog {u : Fin d → ℝ} (hu : u ∈ cube d) (θ : ℝ) (j : Fin d) : u j ^ (-θ) = Real.exp (θ * negLog u j) := by
  rw [Real.rpow_def_of_pos (hu j).1, negLog]
  congr 1
  ring

theorem claytonNegRow_or {θ : ℝ} (h1 : -1 ≤ θ) (h : θ < 0) {x : Fin 2 → ℝ} (hx : x ∈ cube 2) :
    claytonNegRow θ x = .ninf ∨ ∃ r, claytonNegRow θ x = .fin r := by
  unfold claytonNegRow
  by_cases ht : ∑ j, (1 - x j ^ (-θ)) < 1
  · rw [if_neg (not_not.mpr ht)]
    rcases h1.eq_or_lt with rfl | h1
    · exact .inl (claytonLogNeg_one hx ht)
    · exact .inr ⟨_, claytonLogNeg_fin h1 h hx ht⟩
  · rw [if_pos ht]
    exact .inl rfl

theorem claytonNegRow_le {θ : ℝ} (h1 : -(1 / 2) ≤ θ) (h : θ < 0) {x : Fin 2 → ℝ} (hx : x ∈ cube 2) {r : ℝ}
    (hr : claytonNegRow θ x = .fin r) : r ≤ -θ * ∑ j, negLog x j := by
  unfold claytonNegRow at hr
  by_cases ht : ∑ j, (1 - x j ^ (-θ)) < 1
  · rw [if_neg (not_not.mpr ht), claytonLogNeg_fin (by linarith) h hx ht] at hr
    rw [← Fl.fin.inj hr]
    have hlog : ∑ j, Real.log (x j) = -∑ j, negLog x j := by simp [negLog]
    rw [hlog]
    have e : Real.log (1 - ∑ j, (1 - x j ^ (-θ))) ≤ θ * ∑ j, negLog x j := by
      have hp : 0 < 1 - ∑ j, (1 - x j ^ (-θ)) := by linarith
      rw [← Real.log_exp (θ * ∑ j, negLog x j)]
      refine Real.log_le_log hp ?_
      rw [Fin.sum_univ_two, Fin.sum_univ_two, mul_add, Real.exp_add, rpow_eq_exp_negLog hx, rpow_eq_exp_negLog hx]
      have a0 : Real.exp (θ * negLog x 0) ≤ 1 := Real.exp_le_one_iff.mpr (mul_nonpos_of_nonpos_of_nonneg h.le (negLog_nonneg hx 0))
      have a1 : Real.exp (θ * negLog x 1) ≤ 1 := Real.exp_le_one_iff.mpr (mul_nonpos_of_nonpos_of_nonneg h.le (negLog_nonneg hx 1))
      nlinarith
    have hc : 0 ≤ -(2 + 1 / θ) := by
      have : 1 / θ ≤ -2 := by
        rw [div_le_iff_of_neg h]
        linarith
      linarith
    have h3 := mul_le_mul_of_nonneg_left e hc
    have h4 : Real.log (1 + θ) ≤ 0 := Real.log_nonpos (by linarith) (by linarith)
    have h5 : -(2 + 1 / θ) * (θ * ∑ j, negLog x j) = -(2 * θ + 1) * ∑ j, negLog x j := by
      have := h.ne
      field_simp
    rw [h5] at h3
    nlinarith
  · rw [if_pos ht] at hr
    exact absurd hr (by simp)

theorem claytonNegRow_ninf {θ a : ℝ} (ha : 0 < a) (h : θ ≤ -a) {x : Fin 2 → ℝ} (hx : x ∈ cube 2)
    (hb : ∀ j, Real.log 2 / a ≤ negLog x j) : claytonNegRow θ x = .ninf := by
  unfold claytonNegRow
  refine if_pos (not_lt.mpr ?_)
  have key : ∀ j, x j ^ (-θ) ≤ 1 / 2 := fun j => by
    rw [rpow_eq_exp_negLog hx, show (1 / 2 : ℝ) = Real.exp (-Real.log 2) by rw [Real.exp_neg, Real.exp_log two_pos]; norm_num]
    refine Real.exp_le_exp.mpr ?_
    have h1 := hb j
    rw [div_le_iff₀ ha] at h1
    have h2 := mul_le_mul_of_nonneg_right h (negLog_nonneg hx j)
    linarith
  rw [Fin.sum_univ_two]
  linarith [key 0, key 1]

theorem sum_ninf_or {v : Fin n → Fl} {c : Fin n → ℝ} (h : ∀ i, v i = .ninf ∨ ∃ r, v i = .fin r) (hc : ∀ i r, v i = .fin r → r ≤ c i) :
    ∑ i, v i = .ninf ∨ ∃ r, ∑ i, v i = .fin r ∧ r ≤ ∑ i, c i := by
  by_cases hi : ∃ i, v i = .ninf
  · exact .inl (sum_ninf h hi)
  · push Not at hi
    choose r hr using fun i => (h i).resolve_left (hi i)
    refine .inr ⟨∑ i, r i, ?_, sum_le_sum fun i _ => hc i _ (hr i)⟩
    simp only [hr, Fl.sum_fin]

/-- Negative parameters are excluded by points near the origin and by a large likelihood elsewhere. -/
theorem clayton_neg_excluded {θ a W L : ℝ} (h1 : -1 ≤ θ) (h : θ < 0) (ha : 0 < a) (ha2 : a ≤ 1 / 2) {r : Fin n → Fin 2 → ℝ}
    (hr : ∀ i, r i ∈ cube 2) (hW : ∑ i, ∑ j, negLog (r i) j ≤ W) (hL : a * W < L) (hi : ∃ i, ∀ j, Real.log 2 / a ≤ negLog (r i) j) :
    ¬ Fl.fin L ≤ ∑ i, claytonNegRow θ (r i) := by
  rcases le_total (-a) θ with hle | hle
  · rcases sum_ninf_or (fun i => claytonNegRow_or h1 h (hr i)) (c := fun i => -θ * ∑ j, negLog (r i) j)
      (fun i q hq => claytonNegRow_le (by linarith) h (hr i) hq) with e | ⟨q, e, hq⟩
    · rw [e]; exact Fl.not_fin_le_ninf
    · rw [e]
      intro hcon
      have hcon' : L ≤ q := by simpa using hcon
      rw [← mul_sum] at hq
      have hW0 : 0 ≤ ∑ i, ∑ j, negLog (r i) j := sum_nonneg fun i _ => sum_nonneg fun j _ => negLog_nonneg (hr i) j
      nlinarith
  · obtain ⟨i, hi⟩ := hi
    rw [sum_ninf (fun i => claytonNegRow_or h1 h (hr i)) ⟨i, claytonNegRow_ninf ha hle (hr i) hi⟩]
    exact Fl.not_fin_le_ninf

/-- Whatever Clayton copula gives the data `r` at least the likelihood of the parameter `θ₀` has a parameter within `ε` of it. -/
def ClaytonGood (θ₀ ε : ℝ) (r : Fin n → Fin d → ℝ) : Prop :=
  ∀ (θ : ℝ) (v : Fl), (d = 2 → -1 ≤ θ) → (d ≠ 2 → 0 ≤ θ) →
    (do let w ← archPdf .clayton θ d (fun i j => .fin (r i j)) true; sumLog w) = .ok v →
    .fin (∑ i, claytonLL θ₀ (r i)) ≤ v → |θ - θ₀| < ε

theorem archPdf_clayton_sum {θ : ℝ} (h : 0 ≤ θ) (hn : 2 ≤ n) {r : Fin n → Fin d → ℝ} (hr : ∀ i, r i ∈ cube d) :
    (do let w ← archPdf .clayton θ d (fun i j => .fin (r i j)) true; sumLog w) = .ok (.fin (∑ i, claytonLL θ (r i))) := by
  rcases h.eq_or_lt with rfl | h
  · have hv : ∀ i, validRow fun j => Fl.fin (r i j) := fun i => validRow_fin fun j => ⟨(hr i j).1.le, (hr i j).2.le⟩
    have e : archPdf .clayton 0 d (fun i j => .fin (r i j)) true = .ok fun _ => .fin 0 := by
      simp only [archPdf, claytonPdf]
      rw [if_neg (by simp), if_neg (not_not.mpr ⟨⟨0, by omega⟩, hv _⟩)]
      simp only [hv, if_true]
    rw [e]
    simp only [bind, Except.bind]
    rw [sumLog_ok (v := fun _ => 0) (by omega)]
    simp [claytonLL_zero]
  · rw [(clayton_pdfComputes h n r hr).2]
    simp only [bind, Except.bind]
    have : (fun i => Fl.log (Fl.fin (Real.exp (∑ j ∈ range (d - 1), Real.log (1 + θ * ((j : ℝ) + 1)) -
        (1 + θ) * ∑ j, Real.log (r i j) - (d + 1 / θ) * Real.log (1 + ∑ j, (r i j ^ (-θ) - 1)))))) =
        fun i => .fin (claytonLL θ (r i)) := by
      funext i
      rw [Fl.log_pos (Real.exp_pos _), Real.log_exp, claytonLL_eq h (hr i)]
    rw [this, sumLog_ok (by omega)]

theorem archPdf_clayton_neg {θ : ℝ} (h : θ < 0) (hn : 2 ≤ n) {r : Fin n → Fin 2 → ℝ} (hr : ∀ i, r i ∈ cube 2) :
    (do let w ← archPdf .clayton θ 2 (fun i j => .fin (r i j)) true; sumLog w) = .ok (∑ i, claytonNegRow θ (r i)) := by
  simp only [archPdf]
  rw [claytonPdf_neg h r hr]
  simp only [bind, Except.bind, if_true, sumLog]
  rw [if_neg (by omega)]
  rfl

/-- Points near the origin, as a function that is Lipschitz in the logarithms. -/
noncomputable def cornerFn (c : ℝ) (u : Fin 2 → ℝ) : ℝ := max 0 (min (negLog u 0) (negLog u 1) - c)

theorem cornerFn_logLip (c : ℝ) : LogLip 1 (cornerFn c) := by
  intro u _ v _
  have h0 := negLog_abs u v 0
  have h1 := negLog_abs u v 1
  rw [one_mul, Fin.sum_univ_two, ← h0, ← h1]
  unfold cornerFn
  have h2 : |max 0 (min (negLog u 0) (negLog u 1) - c) - max 0 (min (negLog v 0) (negLog v 1) - c)| ≤
      |min (negLog u 0) (negLog u 1) - min (negLog v 0) (negLog v 1)| := by
    rw [max_comm, max_comm 0]
    refine (abs_max_sub_max_le_abs _ _ _).trans (le_of_eq ?_)
    rw [sub_sub_sub_cancel_right]
  refine h2.trans ((abs_min_sub_min_le_max _ _ _ _).trans (max_le ?_ ?_))
  · linarith [abs_nonneg (negLog u 1 - negLog v 1)]
  · linarith [abs_nonneg (negLog u 0 - negLog v 0)]

theorem measurable_cornerFn (c : ℝ) : Measurable (cornerFn c) :=
  measurable_const.max (((measurable_negLog 0).min (measurable_negLog 1)).sub_const c)

theorem cornerFn_mean_pos {θ₀ c : ℝ} (hθ : 0 < θ₀) (hc : 0 ≤ c) {P : Measure (Fin 2 → ℝ)} [IsProbabilityMeasure P]
    (hP : IsLawOf P (Family.copula .clayton θ₀)) (hU : Uniform P) : 0 < ∫ u, cornerFn c u ∂P := by
  have hi := ((cornerFn_logLip c).memLp hU (measurable_cornerFn c)).integrable one_le_two
  have hnn : 0 ≤ cornerFn c := fun u => le_max_left _ _
  rw [integral_pos_iff_support_of_nonneg hnn hi, pos_iff_ne_zero]
  intro h0
  obtain ⟨g, hg, hden⟩ := clayton_pdf_density hθ (le_refl 2)
  obtain ⟨V, hV⟩ : ∃ V : Set (Fin 2 → ℝ), V = {u | ∀ j, u j ∈ Set.Ioo 0 (Real.exp (-c))} := ⟨_, rfl⟩
  have hVo : IsOpen V := by
    rw [hV, show {u : Fin 2 → ℝ | ∀ j, u j ∈ Set.Ioo 0 (Real.exp (-c))} = Set.univ.pi fun _ => Set.Ioo 0 (Real.exp (-c)) by
      ext u; simp [Set.mem_pi]]
    exact isOpen_set_pi Set.finite_univ fun _ _ => isOpen_Ioo
  have hVc : ∀ u ∈ V, ∀ j, 0 < u j ∧ u j < 1 := fun u hu j => by
    rw [hV] at hu
    exact ⟨(hu j).1, (hu j).2.trans_le (Real.exp_le_one_iff.mpr (by linarith))⟩
  refine mass_pos (hden P hP) hVo ⟨fun _ => Real.exp (-c) / 2, ?_⟩ hVc (fun u hu => ?_) (measure_mono_null (fun u hu => ?_) h0)
  · rw [hV]
    exact fun j => ⟨by positivity, half_lt_self (Real.exp_pos _)⟩
  · have h1 := (hg 1 (fun _ => u) fun _ => hVc u hu).1
    have h3 := (clayton_pdfComputes hθ (d := 2) 1 (fun _ => u) fun _ => hVc u hu).1
    have h4 := Fl.fin.inj (congrFun (Except.ok.inj (h1.symm.trans h3)) 0)
    rw [h4]
    exact Real.exp_pos _
  · have key : ∀ j, c < negLog u j := fun j => by
      have h1 := hVc u hu j
      rw [hV] at hu
      have := Real.log_lt_log h1.1 (hu j).2
      rw [Real.log_exp] at this
      rw [negLog]
      linarith
    rw [Function.mem_support, cornerFn]
    have : 0 < min (negLog u 0) (negLog u 1) - c := sub_pos.mpr (lt_min (key 0) (key 1))
    exact (lt_max_of_lt_right this).ne'

/-- The pseudo-observations of data from a Clayton copula with a positive parameter. -/
theorem clayton_ranks_likely {θ₀ : ℝ} (hθ : 0 < θ₀) (h2 : 2 ≤ d) {P : Measure (Fin d → ℝ)} [IsProbabilityMeasure P]
    (hP : IsLawOf P (Family.copula .clayton θ₀)) (hU : Uniform P) {ε δ : ℝ} (hε : 0 < ε) (hδ : 0 < δ) :
    ∃ N : ℕ, ∀ n, N ≤ n → iid n P {y | ¬ (NoTies y ∧ ClaytonGood θ₀ ε (unitRanks y))} ≤ ENNReal.ofReal δ := by
  have hC := clayton_contrast hθ h2 hP hU
  obtain ⟨N1, hN1⟩ := hC.near hU hε (half_pos hδ)
  by_cases hd : d = 2
  · subst hd
    obtain ⟨m, hm⟩ : ∃ m, m = ∫ u, claytonLL θ₀ u ∂P := ⟨_, rfl⟩
    have hm0 : 0 < m := by
      have := hC.best 0 le_rfl hθ.ne
      simpa [claytonLL_zero, ← hm] using this
    obtain ⟨a, ha⟩ : ∃ a : ℝ, a = min (1 / 2) (m / (2 * (3 * 129))) := ⟨_, rfl⟩
    have ha0 : 0 < a := by rw [ha]; positivity
    have ha2 : a ≤ 1 / 2 := ha ▸ min_le_left _ _
    have ham : a * (3 * 129) ≤ m / 2 := by
      have := ha ▸ min_le_right (1 / 2) (m / (2 * (3 * 129)))
      linarith
    have hlog : 0 ≤ Real.log 2 / a := div_nonneg (Real.log_nonneg (by norm_num)) ha0.le
    have hφ := cornerFn_mean_pos hθ hlog hP hU
    obtain ⟨N2, hN2⟩ := rank_mean_likely hU (measurable_claytonLL θ₀) (claytonLL_logLip hθ.le) (ε := m / 2) (δ := δ / 4) (by positivity) (by positivity)
    obtain ⟨N3, hN3⟩ := rank_mean_likely hU (measurable_cornerFn (Real.log 2 / a)) (cornerFn_logLip _) (δ := δ / 4) hφ (by positivity)
    refine ⟨N1 + N2 + N3 + 2, fun n hn => ?_⟩
    have hn0 : (0 : ℝ) < n := by exact_mod_cast (by omega : 0 < n)
    refine (measure_mono (t := {y | ¬ (NoTies y ∧ ∀ θ, 0 ≤ θ →
      ∑ i, claytonLL θ₀ (unitRanks y i) ≤ ∑ i, claytonLL θ (unitRanks y i) → |θ - θ₀| < ε)} ∪
      ({y | ¬ (NoTies y ∧ |(∑ i, claytonLL θ₀ (unitRanks y i)) / n - ∫ u, claytonLL θ₀ u ∂P| < m / 2)} ∪
      {y | ¬ (NoTies y ∧ |(∑ i, cornerFn (Real.log 2 / a) (unitRanks y i)) / n - ∫ u, cornerFn (Real.log 2 / a) u ∂P| <
        ∫ u, cornerFn (Real.log 2 / a) u ∂P)})) fun y hy => ?_).trans ((measure_union_le _ _).trans ((add_le_add (hN1 n (by omega))
        ((measure_union_le _ _).trans (add_le_add (hN2 n (by omega)) (hN3 n (by omega))))).trans (le_of_eq ?_)))
    · by_contra hcon
      simp only [Set.mem_union, not_or] at hcon
      obtain ⟨c1, c2, c3⟩ := hcon
      obtain ⟨t0, t1⟩ := not_not.mp c1
      have t2 := (not_not.mp c2).2
      have t3 := (not_not.mp c3).2
      have hr := unitRanks_mem t0
      rw [← hm] at t2
      refine hy ⟨t0, fun θ v h1 _ hv hle => ?_⟩
      rcases le_or_gt 0 θ with h0 | h0
      · rw [archPdf_clayton_sum h0 (by omega) hr] at hv
        rw [← Except.ok.inj hv] at hle
        exact t1 θ h0 (by simpa using hle)
      · rw [archPdf_clayton_neg h0 (by omega) hr] at hv
        rw [← Except.ok.inj hv] at hle
        refine absurd hle (clayton_neg_excluded (W := 3 * 129 * n) (h1 rfl) h0 ha0 ha2 hr ?_ ?_ ?_)
        · have hW := logEnv_ranks (by omega : 0 < n) t0
          rw [div_le_iff₀ hn0] at hW
          refine (sum_le_sum fun i _ => negLog_sum_le (unitRanks y i)).trans ?_
          rw [← mul_sum]
          push_cast at hW ⊢
          nlinarith
        · have := (abs_lt.mp t2).1
          have h3 : m / 2 < (∑ i, claytonLL θ₀ (unitRanks y i)) / n := by linarith
          rw [lt_div_iff₀ hn0] at h3
          nlinarith
        · by_contra hno
          push Not at hno
          have hz : ∑ i, cornerFn (Real.log 2 / a) (unitRanks y i) = 0 := sum_eq_zero fun i _ => by
            obtain ⟨j, hj⟩ := hno i
            refine max_eq_left (sub_nonpos.mpr (le_trans ?_ hj.le))
            fin_cases j
            · exact min_le_left _ _
            · exact min_le_right _ _
          rw [hz, zero_div, zero_sub, abs_neg, abs_of_pos hφ] at t3
          exact lt_irrefl _ t3
    · rw [← ENNReal.ofReal_add (by positivity) (by positivity), ← ENNReal.ofReal_add (by positivity) (by positivity)]
      congr 1
      ring
  · refine ⟨N1 + 2, fun n hn => (measure_mono fun y hy => ?_).trans ((hN1 n (by omega)).trans (ENNReal.ofReal_le_ofReal (by linarith)))⟩
    intro hg
    refine hy ⟨hg.1, fun θ v _ h1 hv hle => ?_⟩
    rw [archPdf_clayton_sum (h1 hd) (by omega) (unitRanks_mem hg.1)] at hv
    rw [← Except.ok.inj hv] at hle
    exact hg.2 θ (h1 hd) (by simpa using hle)

end Copulae
