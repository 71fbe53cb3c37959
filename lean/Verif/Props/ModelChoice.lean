import Verif.Props.FamilyLikelihood

/-!
**C163** Maximum likelihood over the three Archimedean classes finds family and parameter.
-/

namespace Copulae

open MeasureTheory ProbabilityTheory Spec CopulaMeasure

variable {d : ℕ} {G : Gen} [MeasurableSpace G.S] {R : Measure G.S} {n : ℕ} {P : Measure (Fin d → ℝ)} [IsProbabilityMeasure P]

/-- Frank copulas of every dimension: a contrast for the parameter. -/
theorem frankDD_contrast (h2 : 2 ≤ d) {θ₀ : ℝ} (hθ : 0 < θ₀) (hP : IsLawOf P (Family.copula .frank θ₀)) : Contrast P frankDD 0 θ₀ := by
  have hadm : ∀ {θ : ℝ}, 0 < θ → Copulae.Admissible .frank θ d := fun {θ} h => ⟨h2, h.ne', by linarith, fun _ => h⟩
  have hU := arch_uniform (hadm hθ) hP
  have hK := frankK_nonneg h2
  obtain ⟨hf, -⟩ := logDensity_of_family h2 (show PosParam .frank θ₀ from hθ) hP
  have hf' : LogDensity P (frankDD θ₀) := hf
  have hint : ∀ θ, 0 ≤ θ → Integrable (frankDD θ) P := fun θ h =>
    ((frankDD_logLip h2 h).memLp hU (measurable_frankDD h2 θ)).integrable one_le_two
  refine ⟨hθ.le, fun θ _ => measurable_frankDD h2 θ, fun θ h => ⟨_, frankDD_logLip h2 h⟩, fun b => ?_, fun θ h hne => ?_, frankDD_far h2 hf'.toCubeLog⟩
  · refine ⟨d + frankK d * (d + 1) + d, by positivity, fun s t hs _ ht _ u hu => (frankDD_par h2 hs ht hu).trans ?_⟩
    have : 1 ≤ logEnv u := by
      rw [logEnv]
      linarith [Finset.sum_nonneg fun (j : Fin d) (_ : j ∈ Finset.univ) => sq_nonneg (Real.log (u j))]
    exact le_mul_of_one_le_right (by positivity) this
  · rcases h.eq_or_lt with rfl | h
    · have h0 : ∫ u, frankDD 0 u ∂P = 0 := by
        simp only [frankDD_zero h2, integral_zero]
      rw [h0]
      exact hf'.mean_pos
    · obtain ⟨P', hP'⟩ := arch_law_exists (hadm h)
      have := hP'.prob
      obtain ⟨g', hg', hgl'⟩ := frankDD_densityOf h2 h hP'
      exact hf'.mean_lt (arch_laws_differ (hadm hθ) (hadm h) hP hP' fun e => hne e.2.symm) (hint θ h.le) hg' hgl'

/-- Every copula of the class that gives the data at least the likelihood of the truth has nearly the true parameter. -/
def ParamClose (F₀ : Family) (θ₀ ε : ℝ) (r : Fin n → Fin d → ℝ) : Prop :=
  ∀ (θ : ℝ) (v : Fl), Spec.Admissible F₀ d (.fin θ) → (do let w ← archPdf F₀ θ d (fun i j => .fin (r i j)) true; sumLog w) = .ok v →
    .fin (∑ i, famLL F₀ θ₀ (r i)) ≤ v → |θ - θ₀| < ε

theorem paramClose_likely (h2 : 2 ≤ d) {F₀ : Family} {θ₀ : ℝ} (hp : PosParam F₀ θ₀) (hP : IsLawOf P (F₀.copula θ₀)) {ε δ : ℝ} (hε : 0 < ε)
    (hδ : 0 < δ) : ∃ N : ℕ, ∀ n, N ≤ n → iid n P {y | ¬ (NoTies y ∧ ParamClose F₀ θ₀ ε (unitRanks y))} ≤ ENNReal.ofReal δ := by
  have hU := arch_uniform (posParam_admissible h2 hp) hP
  cases F₀ with
  | clayton =>
    obtain ⟨N, hN⟩ := clayton_ranks_likely hp h2 hP hU hε hδ
    refine ⟨N, fun n hn => le_trans (measure_mono fun y hy => ?_) (hN n hn)⟩
    refine fun hg => hy ⟨hg.1, fun θ v ha hv hle => hg.2 θ v (fun hd => ?_) (fun hd => ?_) hv hle⟩
    · have := ha.1 hd
      simpa using this
    · have := ha.2 (by omega)
      simpa using this
  | gumbel =>
    obtain ⟨N, hN⟩ := gumbel_ranks_likely (le_of_lt hp) h2 hP hU hε hδ
    refine ⟨N, fun n hn => le_trans (measure_mono fun y hy => ?_) (hN n hn)⟩
    exact fun hg => hy ⟨hg.1, fun θ v _ hv hle => hg.2 θ v hv hle⟩
  | frank =>
    obtain ⟨N, hN⟩ := (frankDD_contrast h2 hp hP).near hU hε hδ
    refine ⟨N + 2, fun n hn => (measure_mono fun y hy => ?_).trans (hN n (by omega))⟩
    intro hg
    refine hy ⟨hg.1, fun θ v _ hv hle => ?_⟩
    rcases le_or_gt θ 0 with h0 | h0
    · rw [archPdf_frankDD_nan h2 h0 (by omega)] at hv
      rw [← Except.ok.inj hv] at hle
      exact absurd hle Fl.not_le_nan
    · rw [archPdf_frankDD_sum h2 h0 (by omega) (unitRanks_mem hg.1)] at hv
      rw [← Except.ok.inj hv] at hle
      have hle' : ∑ i, frankDD θ₀ (unitRanks y i) ≤ ∑ i, frankDD θ (unitRanks y i) := by simpa [famLL] using hle
      exact hg.2 θ h0.le hle'

/-- Every copula of the three classes that gives the data at least the likelihood of the truth is of the true class and has nearly the true
parameter. -/
def Chosen (F₀ : Family) (θ₀ ε : ℝ) (r : Fin n → Fin d → ℝ) : Prop :=
  ∀ (F : Family) (θ : ℝ) (v : Fl), Spec.Admissible F d (.fin θ) → (do let w ← archPdf F θ d (fun i j => .fin (r i j)) true; sumLog w) = .ok v →
    .fin (∑ i, famLL F₀ θ₀ (r i)) ≤ v → F = F₀ ∧ |θ - θ₀| < ε

theorem chosen_likely (h2 : 2 ≤ d) {F₀ : Family} {θ₀ : ℝ} (hp : PosParam F₀ θ₀) (hP : IsLawOf P (F₀.copula θ₀)) {ε δ : ℝ} (hε : 0 < ε)
    (hδ : 0 < δ) : ∃ N : ℕ, ∀ n, N ≤ n → iid n P {y | ¬ (NoTies y ∧ Chosen F₀ θ₀ ε (unitRanks y))} ≤ ENNReal.ofReal δ := by
  have ha := posParam_admissible h2 hp
  obtain ⟨hf, -⟩ := logDensity_of_family h2 hp hP
  have each : ∀ F : Family, ∃ N : ℕ, ∀ n, N ≤ n → iid n P {y | ¬ (NoTies y ∧ (F ≠ F₀ → Beaten F (famLL F₀ θ₀) (unitRanks y)))} ≤
      ENNReal.ofReal (δ / 4) := fun F => by
    by_cases hF : F ≠ F₀
    · obtain ⟨N, hN⟩ := beaten_likely h2 hf F (fun θ hθ P' hP' => arch_laws_differ ha hθ hP hP' fun e => hF e.1.symm)
        (δ := δ / 4) (by positivity)
      refine ⟨N, fun n hn => le_trans (measure_mono fun y hy => ?_) (hN n hn)⟩
      exact fun hg => hy ⟨hg.1, fun _ => hg.2⟩
    · refine ⟨0, fun n _ => le_trans (measure_mono (t := {y | ¬ NoTies y}) fun y hy hg => hy ⟨hg, fun h1 => absurd h1 hF⟩) ?_⟩
      rw [ae_iff.mp (noTies_ae (n := n) (atomless_of_uniform hf.margins))]
      exact bot_le
  obtain ⟨N0, hN0⟩ := paramClose_likely h2 hp hP hε (δ := δ / 4) (by positivity)
  obtain ⟨N1, hN1⟩ := each .clayton
  obtain ⟨N2, hN2⟩ := each .frank
  obtain ⟨N3, hN3⟩ := each .gumbel
  refine ⟨N0 + N1 + N2 + N3, fun n hn => ?_⟩
  refine (measure_mono (fun y hy => ?_)).trans ((measure_union_le _ _).trans ((add_le_add (hN0 n (by omega)) ((measure_union_le _ _).trans
    (add_le_add (hN1 n (by omega)) ((measure_union_le _ _).trans (add_le_add (hN2 n (by omega)) (hN3 n (by omega))))))).trans
    (le_of_eq (by
      rw [← ENNReal.ofReal_add (by positivity) (by positivity), ← ENNReal.ofReal_add (by positivity) (by positivity),
        ← ENNReal.ofReal_add (by positivity) (by positivity)]
      congr 1
      ring))))
  by_contra hcon
  simp only [Set.mem_union, not_or] at hcon
  obtain ⟨c0, c1, c2, c3⟩ := hcon
  obtain ⟨t0, t1⟩ := not_not.mp c0
  refine hy ⟨t0, fun F θ v hF hv hle => ?_⟩
  by_cases hFF : F = F₀
  · subst hFF
    exact ⟨rfl, t1 θ v hF hv hle⟩
  · have hb : Beaten F (famLL F₀ θ₀) (unitRanks y) := by
      cases F with
      | clayton => exact (not_not.mp c1).2 hFF
      | frank => exact (not_not.mp c2).2 hFF
      | gumbel => exact (not_not.mp c3).2 hFF
    exact absurd hle (hb θ v hF hv)

/-- On pseudo-observations: what `log_lik` of the truth is, and of which objects it is at least as great. -/
theorem logLik_chosen {env : FitEnv} (he : ArchLogPdf env) {F₀ : Family} {θ₀ ε : ℝ} (hn : 2 ≤ n) (u : Fin n → Fin d → ℚ)
    {r : Fin n → Fin d → ℝ} (hr : ∀ i j, ((u i j : ℚ) : ℝ) = r i j)
    (h₀ : (do let w ← archPdf F₀ θ₀ d (fun i j => .fin (r i j)) true; sumLog w) = .ok (.fin (∑ i, famLL F₀ θ₀ (r i))))
    (hg : Chosen F₀ θ₀ ε r) (ties : String) :
    (∀ st : ArchState, st.dim = d → st.theta = .fin θ₀ → logLik env (.arch F₀ st) u false ties = .ok (.fin (∑ i, famLL F₀ θ₀ (r i)))) ∧
    ∀ (F : Family) (st : ArchState) (v : Fl), Spec.Admissible F st.dim st.theta → logLik env (.arch F st) u false ties = .ok v →
      .fin (∑ i, famLL F₀ θ₀ (r i)) ≤ v → F = F₀ ∧ ∃ θ, st.theta = .fin θ ∧ |θ - θ₀| < ε := by
  have hru : (fun i j => Fl.fin ((u i j : ℚ) : ℝ)) = fun i j => Fl.fin (r i j) := by funext i j; rw [hr]
  have hlik : ∀ (F : Family) (st : ArchState), logLik env (.arch F st) u false ties = env.logPdfSum (.arch F st) n d u := fun F st => by
    simp only [logLik, logLikCut, maybePobs, bind, Except.bind, Bool.false_eq_true, if_false]
  refine ⟨fun st hd ht => ?_, fun F st v ha hv hle => ?_⟩
  · rw [hlik, ArchLogPdf.finite he F₀ st θ₀ n d u ht, hru, hd]
    exact h₀
  · rw [hlik] at hv
    by_cases hf : ∃ θ, st.theta = .fin θ
    · obtain ⟨θ, hf⟩ := hf
      rw [ArchLogPdf.finite he F st θ n d u hf, hru] at hv
      have hd : d = st.dim := by
        by_contra hne
        obtain ⟨e, h⟩ := archPdf_dim (F := F) (θ := θ) hne (fun i j => Fl.fin (r i j)) true
        rw [h] at hv
        simp [bind, Except.bind] at hv
      rw [← hd] at hv ha
      rw [hf] at ha
      obtain ⟨k1, k2⟩ := hg F θ v ha hv hle
      exact ⟨k1, θ, hf, k2⟩
    · push Not at hf
      rw [ArchLogPdf.other he F st n d u hf (by omega) hv] at hle
      exact absurd hle Fl.not_le_nan

namespace Spec

/-- Whatever object of the three classes has at least the log-likelihood `L` of the truth, and whatever successful fit by maximum likelihood
reports at least `scale` times as much, is of the true class with nearly the true parameter. -/
def PicksModel (env : FitEnv) (F₀ : Family) (θ₀ ε : ℝ) (st₀ : ArchState) {n d : ℕ} (x : Fin n → Fin d → ℝ) : Prop :=
  ∀ (ties : String) (t : TieMethod), parseTies ties = .ok t →
    ∃ L : ℝ, logLikPobs env (.arch F₀ st₀) x ties = .ok (.fin L) ∧
      (∀ (F : Family) (st : ArchState) (v : Fl), Spec.Admissible F st.dim st.theta → logLikPobs env (.arch F st) x ties = .ok v → .fin L ≤ v →
        F = F₀ ∧ ∃ θ, st.theta = .fin θ ∧ |θ - θ₀| < ε) ∧
      ∀ (F : Family) (opt : List Fl → OptTree) (o o' : FitObj) (st : ArchState) (x0 : Option ParamArg) (method : String) (k : ℝ)
        (sm : FitSummary), o.cop = .arch F st → Spec.Admissible F st.dim st.theta → (∀ p, (opt p).Honest []) →
        pyLower method = "ml".toList → 0 < k → o.fitPobs env opt x x0 method ties (.fin k) = (o', .ok ()) → o'.smry = some sm →
        sm.success = some true → .fin (L * k) ≤ sm.logLik →
        F = F₀ ∧ ∃ (st' : ArchState) (θ : ℝ), o'.cop = .arch F₀ st' ∧ st'.theta = .fin θ ∧ |θ - θ₀| < ε

end Spec

/-- On data whose pseudo-observations are `r`. -/
theorem picksModel_of_chosen {env : FitEnv} (he : ArchLogPdf env) {F₀ : Family} {θ₀ ε : ℝ} (hn : 2 ≤ n) {st₀ : ArchState} (hd₀ : st₀.dim = d)
    (ht₀ : st₀.theta = .fin θ₀) {x r : Fin n → Fin d → ℝ}
    (h₀ : (do let w ← archPdf F₀ θ₀ d (fun i j => .fin (r i j)) true; sumLog w) = .ok (.fin (∑ i, famLL F₀ θ₀ (r i))))
    (hg : Chosen F₀ θ₀ ε r) (hu : ∀ (ties : String) (t : TieMethod), parseTies ties = .ok t →
      ∃ u, pobsMat x ties = .ok u ∧ ∀ i j, ((u i j : ℚ) : ℝ) = r i j) : PicksModel env F₀ θ₀ ε st₀ x := by
  intro ties t ht
  obtain ⟨u, hpu, hur⟩ := hu ties t ht
  obtain ⟨k1, k2⟩ := logLik_chosen he hn u hur h₀ hg ties
  refine ⟨∑ i, famLL F₀ θ₀ (r i), by rw [logLikPobs_of_pobs _ hpu, k1 st₀ hd₀ ht₀], fun F st v ha hv hle => ?_, ?_⟩
  · rw [logLikPobs_of_pobs _ hpu] at hv
    exact k2 F st v ha hv hle
  intro F opt o o' st x0 method k sm ho hst hopt hml hk hfit hsm hsucc hle
  rw [FitObj.fitPobs, hpu] at hfit
  simp only at hfit
  obtain ⟨sm', q1, -, -, q2⟩ := fit_ml_summary_partial hopt hml hfit
  rw [hsm] at q1
  obtain rfl := Option.some.inj q1
  obtain ⟨-, L, q3, q4, -⟩ := q2 hsucc (fun hc => by rw [hc] at hle; exact absurd hle Fl.not_fin_le_ninf)
  obtain ⟨st', he', hd', ha'⟩ := fit_admissible env opt o u x0 method ties false (.fin k) ho hst
  rw [hfit] at he'
  rw [← hd'] at ha'
  have he'' : o'.cop = .arch F st' := he'
  rw [he''] at q3
  have hL : .fin (∑ i, famLL F₀ θ₀ (r i)) ≤ L := by
    rw [q4] at hle
    cases L with
    | nan => exact absurd hle (by rw [Fl.nan_mul]; exact Fl.not_le_nan)
    | ninf =>
      rw [Fl.ninf_mul_fin, Fl.infSign_neg (by linarith)] at hle
      exact absurd hle Fl.not_fin_le_ninf
    | fin l =>
      rw [Fl.fin_mul_fin] at hle
      have hle' : (∑ i, famLL F₀ θ₀ (r i)) * k ≤ l * k := by simpa using hle
      simpa using le_of_mul_le_mul_right hle' hk
    | pinf => trivial
  obtain ⟨hF, θ, ht', hθ'⟩ := k2 F st' L ha' q3 hL
  exact ⟨hF, st', θ, hF ▸ he'', ht', hθ'⟩

/-- **C163** Data with the law of a Clayton, Frank or Gumbel copula with positive dependence, alone or with any continuous margins: with a
probability that tends to one, `log_lik` of that copula is a finite number, every object of the three classes that reaches it is of the
same class and has a parameter within `ε`, and so is and has every object that `fit(method='ml')` leaves behind when it succeeds and reports
at least `scale` times that number. -/
theorem model_choice (hR : IsIdeal G R) {env : FitEnv} (he : ArchLogPdf env) {F₀ : Family} {θ₀ : ℝ} (h2 : 2 ≤ d) (hp : PosParam F₀ θ₀)
    (hP : IsLawOf P (F₀.copula θ₀)) {c c' : Sampler G d} (hdr : ∀ n, Draws R (c.random n none) matFl (iid n P)) (h : WithMargins c c')
    {st₀ : ArchState} (hd₀ : st₀.dim = d) (ht₀ : st₀.theta = .fin θ₀) {ε δ : ℝ} (hε : 0 < ε) (hδ : 0 < δ) :
    ∃ N : ℕ, ∀ n, N ≤ n → Likely R (c'.random n none) δ fun m => ∃ x : Fin n → Fin d → ℝ, m = matFl x ∧ PicksModel env F₀ θ₀ ε st₀ x := by
  have hU := arch_uniform (posParam_admissible h2 hp) hP
  obtain ⟨-, hs⟩ := logDensity_of_family h2 hp hP
  obtain ⟨N, hN⟩ := chosen_likely h2 hp hP hε hδ
  refine ⟨N + 2, fun n hn => (pobs_ranks_likely hR hU hdr h (E := fun _ r => Chosen F₀ θ₀ ε r) (hN n (by omega))).mono ?_⟩
  rintro m ⟨x, rfl, r, hr, hg, hu⟩
  exact ⟨x, rfl, picksModel_of_chosen he (by omega) hd₀ ht₀ (hs n (by omega) r hr) hg hu⟩

/-- **C163**, data from `random`: for Clayton and Gumbel copulas in every dimension and for bivariate Frank copulas, with the parameters
from which `random` draws the copula itself. -/
theorem model_choice_simulated (hR : IsIdeal G R) {env : FitEnv} (he : ArchLogPdf env) {F₀ : Family} {θ₀ : ℝ} (h2 : 2 ≤ d)
    (hp : DrawParam d F₀ θ₀) {c c' : Sampler G d} (hc : SamplesFrom F₀ θ₀ c) (h : WithMargins c c') {st₀ : ArchState} (hd₀ : st₀.dim = d)
    (ht₀ : st₀.theta = .fin θ₀) {ε δ : ℝ} (hε : 0 < ε) (hδ : 0 < δ) :
    ∃ N : ℕ, ∀ n, N ≤ n → Likely R (c'.random n none) δ fun m => ∃ x : Fin n → Fin d → ℝ, m = matFl x ∧ PicksModel env F₀ θ₀ ε st₀ x := by
  have ha := posParam_admissible h2 (drawParam_pos hp)
  obtain ⟨P, hP⟩ := arch_law_exists ha
  have := hP.prob
  exact model_choice hR he h2 (drawParam_pos hp) hP (fun n => samplesFrom_draws hR ha (fun e => by
    subst e
    have : (1 : ℝ) / 10 ^ 7 ≤ θ₀ := hp
    have : (0 : ℝ) < 1 / 10 ^ 7 := by norm_num
    intro e
    linarith) hP hc n) h hd₀ ht₀ hε hδ

/-- **C163** Choosing among fits: if the fits of a list have the same positive scale, all succeeded, and one of them reports at least
`scale` times the log-likelihood of the truth, then the one with the greatest log-likelihood is of the true class and has a parameter
within `ε`. A fit is given by its class, the object it leaves behind and its summary. -/
theorem model_choice_best {env : FitEnv} {F₀ : Family} {θ₀ ε : ℝ} {st₀ : ArchState} {x : Fin n → Fin d → ℝ} (h : PicksModel env F₀ θ₀ ε st₀ x)
    {ties : String} {t : TieMethod} (ht : parseTies ties = .ok t) {k : ℝ} (hk : 0 < k) {fits : List (Family × FitObj × FitSummary)}
    (hfits : ∀ p ∈ fits, ∃ (opt : List Fl → OptTree) (o : FitObj) (st : ArchState) (x0 : Option ParamArg) (method : String),
      o.cop = .arch p.1 st ∧ Spec.Admissible p.1 st.dim st.theta ∧ (∀ q, (opt q).Honest []) ∧ pyLower method = "ml".toList ∧
      o.fitPobs env opt x x0 method ties (.fin k) = (p.2.1, .ok ()) ∧ p.2.1.smry = some p.2.2 ∧ p.2.2.success = some true)
    (hgood : ∀ L : ℝ, logLikPobs env (.arch F₀ st₀) x ties = .ok (.fin L) → ∃ p ∈ fits, .fin (L * k) ≤ p.2.2.logLik)
    {best : Family × FitObj × FitSummary} (hb : best ∈ fits) (hmax : ∀ p ∈ fits, p.2.2.logLik ≤ best.2.2.logLik) :
    best.1 = F₀ ∧ ∃ (st' : ArchState) (θ : ℝ), best.2.1.cop = .arch F₀ st' ∧ st'.theta = .fin θ ∧ |θ - θ₀| < ε := by
  obtain ⟨L, hL, -, hall⟩ := h ties t ht
  obtain ⟨p, hpm, hp⟩ := hgood L hL
  obtain ⟨opt, o, st, x0, method, h1, h2, h3, h4, h5, h6, h7⟩ := hfits best hb
  exact hall best.1 opt o best.2.1 st x0 method k best.2.2 h1 h2 h3 h4 hk h5 h6 h7 (flLe_trans hp (hmax p hpm))

/-! ### The hypotheses can be met -/

/-- Clayton data in four dimensions. -/
example (seeded : ℕ → ℕ → Answers) :=
  model_choice_simulated (idealGen_isIdeal seeded) archMlEnv_ok (F₀ := .clayton) (θ₀ := 2) (d := 4) (by norm_num)
    (show (1 : ℝ) / 10 ^ 7 ≤ 2 by norm_num) (c := Sampler.clayton 2) ⟨rfl, by norm_num⟩ (.inl rfl) (st₀ := ⟨4, .fin 2, .fin 0, .pinf⟩) rfl rfl
    (ε := 1 / 100) (δ := 1 / 1000) (by norm_num) (by norm_num)

/-- Frank data in two dimensions. -/
example (seeded : ℕ → ℕ → Answers) (ls : ℝ → (n : ℕ) → Rnd (idealGen seeded) (Fin n → Fl)) :=
  model_choice_simulated (idealGen_isIdeal seeded) archMlEnv_ok (F₀ := .frank) (θ₀ := 5) (d := 2) (by norm_num)
    (show 2 = 2 ∧ (1 : ℝ) / 10 ^ 7 ≤ 5 from ⟨rfl, by norm_num⟩) (c := Sampler.frank ls 5) ⟨rfl, ⟨ls, rfl⟩, by norm_num⟩ (.inl rfl)
    (st₀ := ⟨2, .fin 5, .ninf, .pinf⟩) rfl rfl (ε := 1 / 100) (δ := 1 / 1000) (by norm_num) (by norm_num)

end Copulae
