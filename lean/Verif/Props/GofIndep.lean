import Verif.Model.GofIndep
import Verif.Props.GofParPower

/-!
C168: `gof_copula` with the class `IndepCopula` is a test of independence.
-/

namespace Copulae

open MeasureTheory ProbabilityTheory Spec CopulaMeasure

variable {d n : ℕ} {G : Gen}

theorem indepGofCdf_eq (u : Fin n → Fin d → ℝ) (i : Fin n) : indepGofCdf () u i = .fin (∏ j, u i j) := by
  simp only [indepGofCdf, indepCdf, ne_eq, not_true_eq_false, if_false, Bool.false_eq_true, Fl.prod_fin]

theorem indep_tauFit : TauFit (fun (_ : Unit) {n} (u : Fin n → Fin d → ℝ) => indepGofFit u) (fun c {_} u => indepGofCdf c u)
    (fun _ => iid d unif) (kendallTau (iid d unif)) (iid d unif) (fun _ _ => True) where
  mono := fun _ _ => trivial
  close := fun ε hε => ⟨1, one_pos, fun _ _ => {
    prob := inferInstance
    unif := iid_unif_uniform d
    cdf_eq := fun u hu i => by
      rw [indepGofCdf_eq, indep_isLaw.dist (u i) fun j => ⟨(hu i j).1, (hu i j).2.le⟩]
    dist := fun w _ => by rw [sub_self, abs_zero]; exact hε.le
    tau := fun a b _ => by rw [sub_self, abs_zero]; exact hε.le }⟩
  fits := fun _ _ => ⟨1, one_pos, 0, fun _ _ _ _ _ => ⟨(), rfl, trivial⟩⟩

theorem indep_fitsAt (τ : Fin d → Fin d → ℝ) :
    FitsAt (fun (_ : Unit) {n} (u : Fin n → Fin d → ℝ) => indepGofFit u) (fun _ (_ : Unit) => True) τ :=
  fun _ _ => ⟨1, one_pos, 0, fun _ _ _ _ _ => ⟨(), rfl, trivial⟩⟩

/-- **C168** The statistic of `gof_copula(IndepCopula, ...)` per observation, for independent rows with continuous margins and any copula
`P`: it converges to the mean squared distance of the distribution function of `P` from the product. -/
theorem gof_indep_statistic {Q P : Measure (Fin d → ℝ)} [IsProbabilityMeasure Q] [IsProbabilityMeasure P] (hP : Uniform P)
    (hQ : Atomless Q) (hc : HasCopula Q P) {ε δ : ℝ} (hε : 0 < ε) (hδ : 0 < δ) :
    ∃ N : ℕ, ∀ n, N ≤ n → iid n Q {x | ¬ ∀ (ties fitTies : String) (t t' : TieMethod), parseTies ties = .ok t →
      parseTies fitTies = .ok t' → ∃ s, gofFit indepGofFit indepGofCdf x ties fitTies = .ok ((), .fin s) ∧ 0 ≤ s ∧
        |s / n - ∫ w, (distFn P w - distFn (iid d unif) w) ^ 2 ∂P| ≤ ε} ≤ ENNReal.ofReal δ := by
  obtain ⟨N, hN⟩ := gof_stat_law hP (iid_unif_uniform d) hQ hc indep_tauFit (indep_fitsAt _) hε hδ
  refine ⟨N, fun n hn => (measure_mono fun x hx => ?_).trans (hN n hn)⟩
  intro hg
  refine hx fun ties fitTies t t' ht ht' => ?_
  obtain ⟨⟨⟩, s, h1, -, h2, h3⟩ := hg.2 () ties fitTies t t' ht ht'
  exact ⟨s, h1, h2, h3⟩

/-- **C168** For independent columns the statistic per observation tends to 0. -/
theorem gof_indep_null {Q : Measure (Fin d → ℝ)} [IsProbabilityMeasure Q] (hQ : Atomless Q) (hc : HasCopula Q (iid d unif)) {ε δ : ℝ}
    (hε : 0 < ε) (hδ : 0 < δ) : ∃ N : ℕ, ∀ n, N ≤ n → iid n Q {x | ¬ ∀ (ties fitTies : String) (t t' : TieMethod),
      parseTies ties = .ok t → parseTies fitTies = .ok t' → ∃ s, gofFit indepGofFit indepGofCdf x ties fitTies = .ok ((), .fin s) ∧
        0 ≤ s ∧ s / n ≤ ε} ≤ ENNReal.ofReal δ := by
  obtain ⟨N, hN⟩ := gof_indep_statistic (iid_unif_uniform d) hQ hc hε hδ
  refine ⟨N, fun n hn => (measure_mono fun x hx => ?_).trans (hN n hn)⟩
  intro hg
  refine hx fun ties fitTies t t' ht ht' => ?_
  obtain ⟨s, h1, h2, h3⟩ := hg ties fitTies t t' ht ht'
  refine ⟨s, h1, h2, ?_⟩
  simp only [sub_self, ne_eq, OfNat.ofNat_ne_zero, not_false_eq_true, zero_pow, integral_zero, sub_zero] at h3
  exact (le_abs_self _).trans h3

/-! ### Dependence is found -/

/-- A Clayton copula with a negative parameter is below the product. -/
theorem clayton_neg_lt {θ : ℝ} (hθ : θ < 0) {w : Fin 2 → ℝ} (hw : ∀ j, 0 < w j ∧ w j < 1) : Spec.clayton θ w < ∏ j, w j := by
  have ht : 0 < -θ := by linarith
  have hne : θ ≠ 0 := hθ.ne
  have hinv : 0 < -1 / θ := div_pos_of_neg_of_neg (by norm_num) hθ
  have hp : 0 < w 0 * w 1 := mul_pos (hw 0).1 (hw 1).1
  have h0 := Real.rpow_lt_one (hw 0).1.le (hw 0).2 ht
  have h1 := Real.rpow_lt_one (hw 1).1.le (hw 1).2 ht
  have e : w 0 * w 1 = ((w 0 * w 1) ^ (-θ)) ^ (-1 / θ) := by
    rw [← Real.rpow_mul hp.le, show -θ * (-1 / θ) = 1 by field_simp, Real.rpow_one]
  rw [Fin.prod_univ_two, e]
  unfold Spec.clayton
  rw [Fin.sum_univ_two]
  refine Real.rpow_lt_rpow (le_max_right _ _) (max_lt ?_ (Real.rpow_pos_of_pos hp _)) hinv
  rw [Real.mul_rpow (hw 0).1.le (hw 1).1.le]
  push_cast
  nlinarith

theorem choice_prob (m : Choice d) (hm : m.Ok) {P : Measure (Fin d → ℝ)} (hP : m.HasLaw P) : IsProbabilityMeasure P := by
  obtain ⟨P', hp, hP'⟩ := choice_law m hm
  cases m with
  | arch F' θ' => exact (show IsLawOf P _ from hP).prob
  | gaussian s S => rw [show P = _ from hP, ← show P' = _ from hP']; exact hp
  | student s S ν => rw [show P = _ from hP, ← show P' = _ from hP']; exact hp
  | indep => rw [show P = _ from hP, ← show P' = _ from hP']; exact hp

/-- The law of a copula of the library with dependent components differs from independence where there are data. -/
theorem choice_gap_indep {f : EllFns} (hn : f.Normal) (ht : f.Student) (h2 : 2 ≤ d) (m : Choice d) (hm : m.Ok) (htr : ¬ m.Trivial)
    {P : Measure (Fin d → ℝ)} (hP : m.HasLaw P) : P {w | gap P (iid d unif) w ≠ 0} ≠ 0 := by
  have := choice_prob m hm hP
  by_cases hc : ∀ θ, m = .arch .clayton θ → 0 < θ
  · have hne : P ≠ iid d unif := choice_laws_differ h2 m .indep hm trivial hP rfl (by
      cases m with
      | indep => exact absurd trivial htr
      | _ => exact id) fun h => htr h.1
    obtain ⟨g, hg, hg0⟩ := choice_density hn ht h2 m hm hc hP
    exact gap_mass (choice_uniform m hm hP) (iid_unif_uniform d) hg hg0 hne
  · push Not at hc
    obtain ⟨θ, rfl, hθ⟩ := hc
    have h0 : θ < 0 := lt_of_le_of_ne hθ hm.1.2.1
    obtain rfl : d = 2 := by
      by_contra hd
      exact absurd (hm.1.2.2.2 hd) (not_lt.mpr hθ)
    have hl : IsLawOf P (Spec.clayton θ) := hP
    have hall : ∀ᵐ w ∂P, gap P (iid 2 unif) w ≠ 0 := by
      filter_upwards [hl.mem] with w hw
      have hw' : ∀ j, 0 < w j ∧ w j ≤ 1 := fun j => ⟨(hw j).1, (hw j).2.le⟩
      show distFn P w - distFn (iid 2 unif) w ≠ 0
      rw [hl.dist w hw', indep_isLaw.dist w hw']
      exact (sub_neg.mpr (clayton_neg_lt h0 hw)).ne
    have hone : P {w | gap P (iid 2 unif) w ≠ 0} = 1 := by
      rw [← measure_univ (μ := P)]
      exact measure_congr (Filter.eventuallyEq_univ.mpr hall)
    rw [hone]
    exact one_ne_zero

variable [MeasurableSpace G.S] {R : Measure G.S}

/-- **C168** `gof_copula(IndepCopula, ...)` on data of any copula of the library with dependent components, with any continuous margins: the
p-value is the least there is, and the statistic grows like the number of observations. -/
theorem gof_indep_rejects {f : EllFns} (hn : f.Normal) (ht : f.Student) (hR : IsIdeal G R) (h2 : 2 ≤ d) (m : Choice d) (hm : m.Ok)
    (htr : ¬ m.Trivial) {Q P : Measure (Fin d → ℝ)} [IsProbabilityMeasure Q] (hP : m.HasLaw P) (hQ : Atomless Q) (hc : HasCopula Q P)
    {reps : ℤ} (hr : 1 ≤ reps) {δ : ℝ} (hδ : 0 < δ) :
    ∃ κ : ℝ, 0 < κ ∧ ∃ N : ℕ, ∀ n, N ≤ n → ∀ (ties fitTies : String) (t t' : TieMethod), parseTies ties = .ok t →
      parseTies fitTies = .ok t' → iid n Q {x | ¬ Likely R (gofIndep x reps ties fitTies) δ fun r =>
        (∃ s : ℝ, r.2.1 = .fin s ∧ κ * n ≤ s) ∧ r.2.2 = 0.5 / (reps + 1)} ≤ ENNReal.ofReal δ := by
  have := choice_prob m hm hP
  have hRp : IsProbabilityMeasure R := hR.prob
  have hmis := misfit_pos (choice_uniform m hm hP) (iid_unif_uniform d) (choice_gap_indep hn ht h2 m hm htr hP)
  obtain ⟨N, hN⟩ := gof_run_rejects (G := G) hRp (choice_uniform m hm hP) (iid_unif_uniform d) hQ hc indep_tauFit (indep_fitsAt _)
    hmis one_pos (random := fun _ n => indepRandomG n d none) (fun _ _ => inferInstance) (fun _ _ n => randomUniform_draws hR n d) hr
    one_pos hδ
  refine ⟨_, half_pos hmis, N, fun n hnN ties fitTies t t' h1 h2 => le_trans (measure_mono ?_) (hN n hnN () ties fitTies t t' h1 h2)⟩
  intro x hx hg
  refine hx (le_trans (measure_mono ?_) hg)
  rintro s hs ⟨r, s', hrun, -, hv, hp⟩
  exact hs ⟨r, s', hrun, hv, hp⟩

/-- **C168** The same with worker processes, whichever worker takes which replication. -/
theorem gof_indep_rejects_par {f : EllFns} (hn : f.Normal) (ht : f.Student) (hR : IsIdeal G R) (h2 : 2 ≤ d) (m : Choice d) (hm : m.Ok)
    (htr : ¬ m.Trivial) {Q P : Measure (Fin d → ℝ)} [IsProbabilityMeasure Q] (hP : m.HasLaw P) (hQ : Atomless Q) (hc : HasCopula Q P)
    {reps : ℤ} (hr : 1 ≤ reps) {δ : ℝ} (hδ : 0 < δ) :
    ∃ N : ℕ, ∀ n, N ≤ n → ∀ (ties fitTies : String) (t t' : TieMethod), parseTies ties = .ok t →
      parseTies fitTies = .ok t' → iid n Q {x | ¬ R {s | ¬ ∀ who : ℕ → ℕ, ∃ v, (gofRunPar who indepGofFit indepGofCdf
        (fun _ => (Sampler.indep : Sampler G d).random n none) x reps ties fitTies).exec s = (.ok ((), v, 0.5 / (reps + 1)), s)} ≤
          ENNReal.ofReal δ} ≤ ENNReal.ofReal δ := by
  obtain ⟨κ, hκ, N, hN⟩ := gof_indep_rejects hn ht hR h2 m hm htr hP hQ hc hr hδ
  refine ⟨N, fun n hnN ties fitTies t t' h1 h2 => le_trans (measure_mono ?_) (hN n hnN ties fitTies t t' h1 h2)⟩
  intro x hx hg
  refine hx (le_trans (measure_mono ?_) hg)
  rintro s hs ⟨⟨⟨⟩, v, p⟩, s', hrun, -, hp⟩
  obtain rfl : p = 0.5 / (reps + 1) := hp
  exact hs fun who => ⟨v, gofPar_least who (by omega) hrun⟩

/-! ### Cases -/

theorem iid_unif_atomless (d : ℕ) : Atomless (iid d unif) := atomless_of_uniform (iid_unif_uniform d)

example {P : Measure (Fin 3 → ℝ)} (hP : IsLawOf P (Family.copula .gumbel 2)) {δ : ℝ} (hδ : 0 < δ) := by
  have := hP.prob
  have hu := arch_uniform (F := .gumbel) (θ := 2) ⟨by norm_num, (by norm_num : (1 : ℝ) ≤ 2)⟩ hP
  exact gof_indep_statistic hu (atomless_of_uniform hu) (hasCopula_self _) one_pos hδ

example {δ : ℝ} (hδ : 0 < δ) := gof_indep_null (iid_unif_atomless 3) (hasCopula_self _) one_pos hδ

/-- Data of a Clayton copula with the parameter -1/2. -/
example (seeded : ℕ → ℕ → Answers) {P : Measure (Fin 2 → ℝ)} (hP : IsLawOf P (Family.copula .clayton (-1 / 2))) {δ : ℝ} (hδ : 0 < δ) := by
  have := hP.prob
  have ha : Copulae.Admissible .clayton (-1 / 2) 2 := ⟨by norm_num, by norm_num, by norm_num, fun h => absurd rfl h⟩
  have hu := arch_uniform ha hP
  exact gof_indep_rejects exactEll_ok.1 exactEll_ok.2 (idealGen_isIdeal seeded) le_rfl (.arch .clayton (-1 / 2))
    ⟨ha, Or.inr ⟨rfl, by norm_num, by norm_num⟩⟩ (by simp [Choice.Trivial]) hP (atomless_of_uniform hu) (hasCopula_self _)
    (reps := 1000) (by norm_num) hδ

/-- Data of a Gumbel copula in three dimensions. -/
example (seeded : ℕ → ℕ → Answers) {P : Measure (Fin 3 → ℝ)} (hP : IsLawOf P (Family.copula .gumbel 2)) {δ : ℝ} (hδ : 0 < δ) := by
  have := hP.prob
  have ha : Copulae.Admissible .gumbel 2 3 := ⟨by norm_num, (by norm_num : (1 : ℝ) ≤ 2)⟩
  have hu := arch_uniform ha hP
  exact gof_indep_rejects_par exactEll_ok.1 exactEll_ok.2 (idealGen_isIdeal seeded) (by norm_num) (.arch .gumbel 2)
    ⟨ha, (by norm_num : (1 : ℝ) ≤ 2)⟩ (by norm_num [Choice.Trivial]) hP (atomless_of_uniform hu) (hasCopula_self _)
    (reps := 1000) (by norm_num) hδ

end Copulae
