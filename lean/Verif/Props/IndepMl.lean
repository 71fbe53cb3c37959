import Verif.Lemmas.ExchLaw
import Verif.Model.IndepLogLik
import Verif.Props.ModelRows

/-!
**C164** Maximum likelihood tells independence from dependence.
-/

namespace Copulae

open MeasureTheory ProbabilityTheory Spec CopulaMeasure

variable {n d : ℕ} {G : Gen} [MeasurableSpace G.S] {R : Measure G.S} {P Q : Measure (Fin d → ℝ)}

namespace Spec

/-- The parameter with which a class is the independence copula; for Frank copulas it is a limit that is not allowed itself. -/
def indepParam : Family → ℝ
  | .clayton => 0
  | .frank => 0
  | .gumbel => 1

/-- The log-likelihood of the independence copula is zero. Clayton copulas with parameter zero and Gumbel copulas with parameter one have
it, and every object of the three classes that has at least as much, and every object left by a successful fit by maximum likelihood that
reports at least as much, has nearly the parameter of independence. -/
def FindsIndep (env : FitEnv) (ε : ℝ) {n d : ℕ} (x : Fin n → Fin d → ℝ) : Prop :=
  ∀ (ties : String) (t : TieMethod), parseTies ties = .ok t → indepLogLikPobs x ties = .ok (.fin 0) ∧
    (∀ F : Family, F ≠ .frank → ∀ st : ArchState, st.dim = d → st.theta = .fin (indepParam F) →
      logLikPobs env (.arch F st) x ties = .ok (.fin 0)) ∧
    (∀ (F : Family) (st : ArchState) (v : Fl), Spec.Admissible F st.dim st.theta → logLikPobs env (.arch F st) x ties = .ok v → .fin 0 ≤ v →
      ∃ θ, st.theta = .fin θ ∧ |θ - indepParam F| < ε) ∧
    ∀ (F : Family) (opt : List Fl → OptTree) (o o' : FitObj) (st : ArchState) (x0 : Option ParamArg) (method : String) (k : ℝ)
      (sm : FitSummary), o.cop = .arch F st → Spec.Admissible F st.dim st.theta → (∀ p, (opt p).Honest []) →
      pyLower method = "ml".toList → 0 < k → o.fitPobs env opt x x0 method ties (.fin k) = (o', .ok ()) → o'.smry = some sm →
      sm.success = some true → .fin 0 ≤ sm.logLik → ∃ (st' : ArchState) (θ : ℝ), o'.cop = .arch F st' ∧ st'.theta = .fin θ ∧
        |θ - indepParam F| < ε

end Spec

/-! ### The criteria under independence -/

theorem indep_cubeLog : CubeLog (iid d unif) fun _ => 0 :=
  ⟨iid_unif_uniform d, measurable_const, ⟨0, fun u _ v _ => by simp⟩, _, indep_densityOf, fun u _ => Real.exp_zero.symm⟩

theorem indep_differs (h2 : 2 ≤ d) {F : Family} {θ : ℝ} (hp : PosParam F θ) {P' : Measure (Fin d → ℝ)} (hP' : IsLawOf P' (F.copula θ)) :
    iid d unif ≠ P' := by
  have hg1 : Copulae.Admissible .gumbel 1 d := ⟨h2, le_refl (1 : ℝ)⟩
  refine arch_laws_differ hg1 (posParam_admissible h2 hp) (indep_gumbel indep_isLaw) hP' fun e => ?_
  obtain ⟨rfl, rfl⟩ := e
  exact lt_irrefl (1 : ℝ) hp

theorem clayton_indep_contrast (h2 : 2 ≤ d) : Contrast (iid d unif) (claytonLL (d := d)) 0 0 := by
  have hI := indep_cubeLog (d := d)
  refine ⟨le_rfl, fun θ _ => measurable_claytonLL θ, fun θ h => ⟨_, claytonLL_logLip h⟩, fun b => ?_, fun θ h hne => ?_, clayton_far h2 hI⟩
  · exact ⟨(d : ℝ) * d + (d + 1) + d * (d + 1) + d, by positivity, fun s t hs _ ht _ u hu => claytonLL_par hs ht hu⟩
  · have h0 : 0 < θ := lt_of_le_of_ne h (Ne.symm hne)
    have hp : PosParam .clayton θ := h0
    obtain ⟨P', hP'⟩ := arch_law_exists (posParam_admissible h2 hp)
    have := hP'.prob
    obtain ⟨g', hg', hgl'⟩ := clayton_densityOf h0 h2 hP'
    have := hI.mean_lt (indep_differs h2 hp hP') (((claytonLL_logLip h).memLp hI.margins (measurable_claytonLL θ)).integrable one_le_two) hg' hgl'
    simpa [claytonLL_zero] using this

theorem frank_indep_contrast (h2 : 2 ≤ d) : Contrast (iid d unif) (frankDD (d := d)) 0 0 := by
  have hI := indep_cubeLog (d := d)
  have hK := frankK_nonneg h2
  refine ⟨le_rfl, fun θ _ => measurable_frankDD h2 θ, fun θ h => ⟨_, frankDD_logLip h2 h⟩, fun b => ?_, fun θ h hne => ?_, frankDD_far h2 hI⟩
  · refine ⟨d + frankK d * (d + 1) + d, by positivity, fun s t hs _ ht _ u hu => (frankDD_par h2 hs ht hu).trans ?_⟩
    have : 1 ≤ logEnv u := by
      rw [logEnv]
      linarith [Finset.sum_nonneg fun (j : Fin d) (_ : j ∈ Finset.univ) => sq_nonneg (Real.log (u j))]
    exact le_mul_of_one_le_right (by positivity) this
  · have h0 : 0 < θ := lt_of_le_of_ne h (Ne.symm hne)
    have hp : PosParam .frank θ := h0
    obtain ⟨P', hP'⟩ := arch_law_exists (posParam_admissible h2 hp)
    have := hP'.prob
    obtain ⟨g', hg', hgl'⟩ := frankDD_densityOf h2 h0 hP'
    have := hI.mean_lt (indep_differs h2 hp hP') (((frankDD_logLip h2 h).memLp hI.margins (measurable_frankDD h2 θ)).integrable one_le_two)
      hg' hgl'
    simpa [frankDD_zero h2] using this

/-- Clayton copulas of two dimensions with a parameter well below zero have no density at some of the data. -/
theorem clayton_neg_indep {a δ : ℝ} (ha : 0 < a) (hδ : 0 < δ) : ∃ N : ℕ, ∀ n, N ≤ n → iid n (iid 2 unif) {y | ¬ (NoTies y ∧ ∀ θ, -1 ≤ θ →
    θ ≤ -a → ∑ i, claytonNegRow θ (unitRanks y i) = .ninf)} ≤ ENNReal.ofReal δ := by
  have hI := indep_cubeLog (d := 2)
  have hφ := corner_pos hI (c := Real.log 2 / a) (div_nonneg (Real.log_nonneg (by norm_num)) ha.le)
  obtain ⟨N, hN⟩ := rank_mean_likely hI.margins (measurable_cornerFn (Real.log 2 / a)) (cornerFn_logLip _) (δ := δ) hφ hδ
  refine ⟨N, fun n hn => (measure_mono fun y hy => ?_).trans (hN n hn)⟩
  intro hg
  obtain ⟨t0, t3⟩ := hg
  have hr := unitRanks_mem t0
  refine hy ⟨t0, fun θ h1 hle => ?_⟩
  have hi : ∃ i, ∀ j, Real.log 2 / a ≤ negLog (unitRanks y i) j := by
    by_contra hno
    push Not at hno
    have hz : ∑ i, cornerFn (Real.log 2 / a) (unitRanks y i) = 0 := Finset.sum_eq_zero fun i _ => by
      obtain ⟨j, hj⟩ := hno i
      refine max_eq_left (sub_nonpos.mpr (le_trans ?_ hj.le))
      fin_cases j
      · exact min_le_left _ _
      · exact min_le_right _ _
    rw [hz, zero_div, zero_sub, abs_neg, abs_of_pos hφ] at t3
    exact lt_irrefl _ t3
  obtain ⟨i, hi⟩ := hi
  exact sum_ninf (fun i => claytonNegRow_or h1 (by linarith) (hr i)) ⟨i, claytonNegRow_ninf ha hle (hr i) hi⟩

/-- On pseudo-observations `r`: every copula of the class with a log-likelihood of at least zero is nearly the independence copula. -/
def IndepClose (F : Family) (ε : ℝ) (r : Fin n → Fin d → ℝ) : Prop :=
  ∀ (θ : ℝ) (v : Fl), Spec.Admissible F d (.fin θ) → (do let w ← archPdf F θ d (fun i j => .fin (r i j)) true; sumLog w) = .ok v →
    .fin 0 ≤ v → |θ - indepParam F| < ε

theorem indepClose_clayton (h2 : 2 ≤ d) {ε δ : ℝ} (hε : 0 < ε) (hδ : 0 < δ) : ∃ N : ℕ, ∀ n, N ≤ n →
    iid n (iid d unif) {y | ¬ (NoTies y ∧ IndepClose .clayton ε (unitRanks y))} ≤ ENNReal.ofReal δ := by
  obtain ⟨N1, hN1⟩ := (clayton_indep_contrast h2).near (iid_unif_uniform d) hε (half_pos hδ)
  by_cases hd : d = 2
  · subst hd
    obtain ⟨N2, hN2⟩ := clayton_neg_indep hε (half_pos hδ)
    refine ⟨N1 + N2 + 2, fun n hn => ?_⟩
    refine (measure_mono (fun y hy => ?_)).trans ((measure_union_le _ _).trans ((add_le_add (hN1 n (by omega)) (hN2 n (by omega))).trans
      (le_of_eq (by rw [← ENNReal.ofReal_add (by positivity) (by positivity), add_halves]))))
    by_contra hcon
    simp only [Set.mem_union, not_or] at hcon
    obtain ⟨c1, c2⟩ := hcon
    obtain ⟨t0, t1⟩ := not_not.mp c1
    have t2 := (not_not.mp c2).2
    have hr := unitRanks_mem t0
    refine hy ⟨t0, fun θ v had hv hle => ?_⟩
    show |θ - 0| < ε
    rcases le_or_gt 0 θ with h0 | h0
    · rw [archPdf_clayton_sum h0 (by omega) hr] at hv
      rw [← Except.ok.inj hv] at hle
      exact t1 θ h0 (by simpa [claytonLL_zero] using hle)
    · rcases lt_or_ge (-ε) θ with h3 | h3
      · rw [sub_zero, abs_lt]
        exact ⟨h3, h0.trans hε⟩
      · have h1 : -1 ≤ θ := by
          have := had.1 rfl
          simpa using this
        rw [archPdf_clayton_neg h0 (by omega) hr, t2 θ h1 h3] at hv
        rw [← Except.ok.inj hv] at hle
        exact absurd hle Fl.not_fin_le_ninf
  · refine ⟨N1 + 2, fun n hn => (measure_mono fun y hy => ?_).trans ((hN1 n (by omega)).trans (ENNReal.ofReal_le_ofReal (by linarith)))⟩
    intro hg
    refine hy ⟨hg.1, fun θ v had hv hle => ?_⟩
    have h0 : 0 ≤ θ := by
      have := had.2 (by omega)
      simpa using this
    rw [archPdf_clayton_sum h0 (by omega) (unitRanks_mem hg.1)] at hv
    rw [← Except.ok.inj hv] at hle
    exact hg.2 θ h0 (by simpa [claytonLL_zero] using hle)

theorem indepClose_frank (h2 : 2 ≤ d) {ε δ : ℝ} (hε : 0 < ε) (hδ : 0 < δ) : ∃ N : ℕ, ∀ n, N ≤ n →
    iid n (iid d unif) {y | ¬ (NoTies y ∧ IndepClose .frank ε (unitRanks y))} ≤ ENNReal.ofReal δ := by
  obtain ⟨N, hN⟩ := (frank_indep_contrast h2).near (iid_unif_uniform d) hε hδ
  refine ⟨N + 2, fun n hn => (measure_mono fun y hy => ?_).trans (hN n (by omega))⟩
  intro hg
  refine hy ⟨hg.1, fun θ v _ hv hle => ?_⟩
  rcases le_or_gt θ 0 with h0 | h0
  · rw [archPdf_frankDD_nan h2 h0 (by omega)] at hv
    rw [← Except.ok.inj hv] at hle
    exact absurd hle Fl.not_le_nan
  · rw [archPdf_frankDD_sum h2 h0 (by omega) (unitRanks_mem hg.1)] at hv
    rw [← Except.ok.inj hv] at hle
    exact hg.2 θ h0.le (by simpa [frankDD_zero h2] using hle)

theorem gumbelLL_one_sum (h2 : 2 ≤ d) {r : Fin n → Fin d → ℝ} (hr : ∀ i, r i ∈ cube d) : ∑ i, gumbelLL 1 (r i) = 0 :=
  Finset.sum_eq_zero fun i _ => gumbelLL_one (by omega) (hr i)

theorem indepClose_gumbel (h2 : 2 ≤ d) {ε δ : ℝ} (hε : 0 < ε) (hδ : 0 < δ) : ∃ N : ℕ, ∀ n, N ≤ n →
    iid n (iid d unif) {y | ¬ (NoTies y ∧ IndepClose .gumbel ε (unitRanks y))} ≤ ENNReal.ofReal δ := by
  obtain ⟨N, hN⟩ := gumbel_ranks_likely le_rfl h2 (indep_gumbel indep_isLaw) (iid_unif_uniform d) hε hδ
  refine ⟨N, fun n hn => (measure_mono fun y hy => ?_).trans (hN n hn)⟩
  intro hg
  refine hy ⟨hg.1, fun θ v _ hv hle => hg.2 θ v hv ?_⟩
  rw [gumbelLL_one_sum h2 (unitRanks_mem hg.1)]
  exact hle

theorem indepClose_likely (h2 : 2 ≤ d) {ε δ : ℝ} (hε : 0 < ε) (hδ : 0 < δ) : ∃ N : ℕ, ∀ n, N ≤ n →
    iid n (iid d unif) {y | ¬ (NoTies y ∧ ∀ F, IndepClose F ε (unitRanks y))} ≤ ENNReal.ofReal δ := by
  obtain ⟨N1, hN1⟩ := indepClose_clayton h2 hε (δ := δ / 3) (by positivity)
  obtain ⟨N2, hN2⟩ := indepClose_frank h2 hε (δ := δ / 3) (by positivity)
  obtain ⟨N3, hN3⟩ := indepClose_gumbel h2 hε (δ := δ / 3) (by positivity)
  refine ⟨N1 + N2 + N3, fun n hn => ?_⟩
  refine (measure_mono (fun y hy => ?_)).trans ((measure_union_le _ _).trans ((add_le_add (hN1 n (by omega)) ((measure_union_le _ _).trans
    (add_le_add (hN2 n (by omega)) (hN3 n (by omega))))).trans (le_of_eq (by
      rw [← ENNReal.ofReal_add (by positivity) (by positivity), ← ENNReal.ofReal_add (by positivity) (by positivity)]
      congr 1
      ring))))
  by_contra hcon
  simp only [Set.mem_union, not_or] at hcon
  obtain ⟨c1, c2, c3⟩ := hcon
  refine hy ⟨(not_not.mp c1).1, fun F => ?_⟩
  cases F with
  | clayton => exact (not_not.mp c1).2
  | frank => exact (not_not.mp c2).2
  | gumbel => exact (not_not.mp c3).2

/-! ### `log_lik` and `fit` -/

theorem indepLogLik_zero (hn : 2 ≤ n) {x : Fin n → Fin d → ℝ} {ties : String} {t : TieMethod} (ht : parseTies ties = .ok t) :
    indepLogLikPobs x ties = .ok (.fin 0) := by
  simp only [indepLogLikPobs, pobsMat, ht, bind, Except.bind, pure, Except.pure, arrayLogLik, indepPdf, ne_eq, not_true_eq_false, if_false,
    if_true]
  rw [sumLog_ok (v := fun _ => 0) (by omega)]
  simp

theorem findsIndep_of_close {env : FitEnv} (he : ArchLogPdf env) (h2 : 2 ≤ d) {ε : ℝ} (hn : 2 ≤ n) {x r : Fin n → Fin d → ℝ}
    (hr : ∀ i, r i ∈ cube d) (hg : ∀ F, IndepClose F ε r) (hu : ∀ (ties : String) (t : TieMethod), parseTies ties = .ok t →
      ∃ u, pobsMat x ties = .ok u ∧ ∀ i j, ((u i j : ℚ) : ℝ) = r i j) : FindsIndep env ε x := by
  intro ties t ht
  obtain ⟨u, hpu, hur⟩ := hu ties t ht
  have hru : (fun i j => Fl.fin ((u i j : ℚ) : ℝ)) = fun i j => Fl.fin (r i j) := by funext i j; rw [hur]
  have hlik : ∀ (F : Family) (st : ArchState), logLik env (.arch F st) u false ties = env.logPdfSum (.arch F st) n d u := fun F st => by
    simp only [logLik, logLikCut, maybePobs, bind, Except.bind, Bool.false_eq_true, if_false]
  have k2 : ∀ (F : Family) (st : ArchState) (v : Fl), Spec.Admissible F st.dim st.theta → logLik env (.arch F st) u false ties = .ok v →
      .fin 0 ≤ v → ∃ θ, st.theta = .fin θ ∧ |θ - indepParam F| < ε := by
    intro F st v ha hv hle
    rw [hlik] at hv
    by_cases hf : ∃ θ, st.theta = .fin θ
    · obtain ⟨θ, hf⟩ := hf
      rw [ArchLogPdf.finite he F st θ n d u hf, hru] at hv
      have hd : d = st.dim := by
        by_contra hne
        obtain ⟨e, h⟩ := archPdf_dim (F := F) (θ := θ) hne (fun i j => Fl.fin (r i j)) true
        rw [h] at hv
        simp [bind, Except.bind] at hv
      rw [← hd] at hv ha
      rw [hf] at ha
      exact ⟨θ, hf, hg F θ v ha hv hle⟩
    · push Not at hf
      rw [ArchLogPdf.other he F st n d u hf (by omega) hv] at hle
      exact absurd hle Fl.not_le_nan
  refine ⟨indepLogLik_zero hn ht, fun F hF st hd hst => ?_, fun F st v ha hv hle => ?_, ?_⟩
  · rw [logLikPobs_of_pobs _ hpu, hlik, ArchLogPdf.finite he F st _ n d u hst, hru, hd]
    cases F with
    | clayton =>
      refine (archPdf_clayton_sum le_rfl hn hr).trans ?_
      simp [claytonLL_zero]
    | frank => exact absurd rfl hF
    | gumbel => exact (archPdf_gumbel_sum le_rfl h2 hn hr).trans (by rw [gumbelLL_one_sum h2 hr])
  · rw [logLikPobs_of_pobs _ hpu] at hv
    exact k2 F st v ha hv hle
  intro F opt o o' st x0 method k sm ho hst hopt hml hk hfit hsm hsucc hle
  rw [FitObj.fitPobs, hpu] at hfit
  simp only at hfit
  obtain ⟨sm', q1, -, -, q2⟩ := fit_ml_summary_partial hopt hml hfit
  rw [hsm] at q1
  obtain rfl := Option.some.inj q1
  obtain ⟨-, L, q3, q4, -⟩ := q2 hsucc (fun hc => by rw [hc] at hle; exact absurd hle Fl.not_fin_le_ninf)
  obtain ⟨st', he', hd', ha'⟩ := fit_admissible env opt o u x0 method ties false (.fin k) ho hst
  rw [hfit] at he'
  rw [← hd'] at ha'
  have he'' : o'.cop = .arch F st' := he'
  rw [he''] at q3
  have hL : .fin 0 ≤ L := by
    rw [q4] at hle
    cases L with
    | nan => exact absurd hle (by rw [Fl.nan_mul]; exact Fl.not_le_nan)
    | ninf =>
      rw [Fl.ninf_mul_fin, Fl.infSign_neg (by linarith)] at hle
      exact absurd hle Fl.not_fin_le_ninf
    | fin l =>
      rw [Fl.fin_mul_fin] at hle
      have hle' : 0 ≤ l * k := by simpa using hle
      simpa using nonneg_of_mul_nonneg_left hle' hk
    | pinf => trivial
  obtain ⟨θ, ht', hθ'⟩ := k2 F st' L ha' q3 hL
  exact ⟨st', θ, he'', ht', hθ'⟩

/-- **C164** Independent rows of independent components with continuous margins, from any source: with a probability that tends to one,
every object of the three classes with at least the log-likelihood of the independence copula, and every successful fit that reports at least
as much, has nearly the parameter of independence. -/
theorem indep_ml_rows {env : FitEnv} (he : ArchLogPdf env) (h2 : 2 ≤ d) [IsProbabilityMeasure Q] (hQ : Atomless Q)
    (hc : HasCopula Q (iid d unif)) {ε δ : ℝ} (hε : 0 < ε) (hδ : 0 < δ) :
    ∃ N : ℕ, ∀ n, N ≤ n → iid n Q {x | ¬ FindsIndep env ε x} ≤ ENNReal.ofReal δ := by
  have : IsProbabilityMeasure (iid d unif) := indep_isLaw.prob
  obtain ⟨N, hN⟩ := indepClose_likely h2 hε hδ
  refine ⟨N + 2, fun n hn => (measure_mono fun x hx => ?_).trans
    (pobs_ranks_rows hQ hc (E := fun r => ∀ F, IndepClose F ε r) (hN n (by omega)))⟩
  rintro ⟨r, hr, hg, hu⟩
  exact hx (findsIndep_of_close he h2 (by omega) hr hg hu)

/-- **C164**, data from `IndepCopula.random`, alone or inside a marginal copula with continuous margins. -/
theorem indep_ml_simulated (hR : IsIdeal G R) {env : FitEnv} (he : ArchLogPdf env) (h2 : 2 ≤ d) {c' : Sampler G d}
    (h : WithMargins Sampler.indep c') {ε δ : ℝ} (hε : 0 < ε) (hδ : 0 < δ) :
    ∃ N : ℕ, ∀ n, N ≤ n → Likely R (c'.random n none) δ fun m => ∃ x : Fin n → Fin d → ℝ, m = matFl x ∧ FindsIndep env ε x := by
  have : IsProbabilityMeasure (iid d unif) := indep_isLaw.prob
  obtain ⟨N, hN⟩ := indepClose_likely h2 hε hδ
  refine ⟨N + 2, fun n hn => (pobs_ranks_likely hR (iid_unif_uniform d) (c := Sampler.indep)
    (fun n => randomUniform_draws hR n d) h (E := fun _ r => ∀ F, IndepClose F ε r) (hN n (by omega))).mono ?_⟩
  rintro m ⟨x, rfl, r, hr, hg, hu⟩
  exact ⟨x, rfl, findsIndep_of_close he h2 (by omega) hr hg hu⟩

/-- **C164** Rows with the copula of a class with positive dependence: with a probability that tends to one, `log_lik` of that copula is
greater than that of the independence copula. -/
theorem dependence_wins {env : FitEnv} (he : ArchLogPdf env) {F₀ : Family} {θ₀ : ℝ} (h2 : 2 ≤ d) (hp : PosParam F₀ θ₀)
    [IsProbabilityMeasure Q] (hP : IsLawOf P (F₀.copula θ₀)) (hQ : Atomless Q) (hc : HasCopula Q P) {st₀ : ArchState} (hd₀ : st₀.dim = d)
    (ht₀ : st₀.theta = .fin θ₀) {δ : ℝ} (hδ : 0 < δ) :
    ∃ N : ℕ, ∀ n, N ≤ n → iid n Q {x | ¬ ∀ (ties : String) (t : TieMethod), parseTies ties = .ok t →
      ∃ L : ℝ, logLikPobs env (.arch F₀ st₀) x ties = .ok (.fin L) ∧ indepLogLikPobs x ties = .ok (.fin 0) ∧ 0 < L} ≤ ENNReal.ofReal δ := by
  have := hP.prob
  obtain ⟨ε, hε, hεg⟩ : ∃ ε : ℝ, 0 < ε ∧ (F₀ = .gumbel → ε ≤ θ₀ - 1) := by
    cases F₀ with
    | gumbel =>
      have : (1 : ℝ) < θ₀ := hp
      exact ⟨θ₀ - 1, by linarith, fun _ => le_rfl⟩
    | clayton => exact ⟨1, one_pos, fun h => by cases h⟩
    | frank => exact ⟨1, one_pos, fun h => by cases h⟩
  obtain ⟨-, hs⟩ := logDensity_of_family h2 hp hP
  obtain ⟨N, hN⟩ := chosen_likely h2 hp hP hε hδ
  refine ⟨N + 2, fun n hn => (measure_mono fun x hx => ?_).trans
    (pobs_ranks_rows hQ hc (E := Chosen F₀ θ₀ ε) (hN n (by omega)))⟩
  rintro ⟨r, hr, hg, hu⟩
  refine hx fun ties t ht => ?_
  obtain ⟨u, hpu, hur⟩ := hu ties t ht
  obtain ⟨k1, -⟩ := logLik_chosen he (by omega) u hur (hs n (by omega) r hr) hg ties
  refine ⟨∑ i, famLL F₀ θ₀ (r i), by rw [logLikPobs_of_pobs _ hpu, k1 st₀ hd₀ ht₀], indepLogLik_zero (by omega) ht, ?_⟩
  by_contra hle
  have h1 := hg .gumbel 1 (.fin 0) (by simp [Spec.Admissible])
    ((archPdf_gumbel_sum le_rfl h2 (by omega) hr).trans (by rw [gumbelLL_one_sum h2 hr])) (by simpa using hle)
  have h3 := hεg h1.1.symm
  have h4 := (abs_lt.mp h1.2).1
  linarith

/-! ### The hypotheses can be met -/

/-- Independent components of standard exponential or other continuous margins are covered; here the uniform ones, in four dimensions. -/
example : ∃ N : ℕ, ∀ n, N ≤ n → iid n (iid 4 unif) {x | ¬ FindsIndep archMlEnv (1 / 100) x} ≤ ENNReal.ofReal (1 / 1000) := by
  have : IsProbabilityMeasure (iid 4 unif) := indep_isLaw.prob
  exact indep_ml_rows archMlEnv_ok (by norm_num) (atomless_of_uniform (iid_unif_uniform 4)) (hasCopula_self _) (by norm_num) (by norm_num)

/-- Data from `IndepCopula(2).random`. -/
example (seeded : ℕ → ℕ → Answers) :=
  indep_ml_simulated (idealGen_isIdeal seeded) archMlEnv_ok (d := 2) le_rfl (.inl rfl) (ε := 1 / 100) (δ := 1 / 1000) (by norm_num)
    (by norm_num)

/-- Frank data in three dimensions. -/
example : ∃ P : Measure (Fin 3 → ℝ), IsLawOf P (Family.copula .frank 2) ∧ ∃ N : ℕ, ∀ n, N ≤ n → iid n P {x | ¬ ∀ (ties : String)
    (t : TieMethod), parseTies ties = .ok t → ∃ L : ℝ, logLikPobs archMlEnv (.arch .frank ⟨3, .fin 2, .ninf, .pinf⟩) x ties = .ok (.fin L) ∧
      indepLogLikPobs x ties = .ok (.fin 0) ∧ 0 < L} ≤ ENNReal.ofReal (1 / 1000) := by
  have hp : PosParam .frank 2 := show (0 : ℝ) < 2 by norm_num
  have ha := posParam_admissible (d := 3) (by norm_num) hp
  obtain ⟨P, hP⟩ := arch_law_exists ha
  have := hP.prob
  exact ⟨P, hP, dependence_wins archMlEnv_ok (by norm_num) hp hP (atomless_of_uniform (arch_uniform ha hP)) (hasCopula_self P) rfl rfl
    (by norm_num)⟩

end Copulae
