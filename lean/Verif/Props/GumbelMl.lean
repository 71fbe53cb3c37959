import Verif.Lemmas.GumbelWald
import Verif.Props.ClaytonMl

/-!
**C161** Maximum likelihood recovers the parameter of a Gumbel copula, in every dimension.
-/

namespace Copulae

open MeasureTheory ProbabilityTheory Spec CopulaMeasure

variable {d : ℕ} {G : Gen} [MeasurableSpace G.S] {R : Measure G.S} {n : ℕ}

/-- Whatever Gumbel copula gives the data `r` at least the likelihood of the parameter `θ₀` has a parameter within `ε` of it. -/
def GumbelGood (θ₀ ε : ℝ) (r : Fin n → Fin d → ℝ) : Prop :=
  ∀ (θ : ℝ) (v : Fl), (do let w ← archPdf .gumbel θ d (fun i j => .fin (r i j)) true; sumLog w) = .ok v →
    .fin (∑ i, gumbelLL θ₀ (r i)) ≤ v → |θ - θ₀| < ε

theorem archPdf_gumbel_sum {θ : ℝ} (h : 1 ≤ θ) (h2 : 2 ≤ d) (hn : 2 ≤ n) {r : Fin n → Fin d → ℝ} (hr : ∀ i, r i ∈ cube d) :
    (do let w ← archPdf .gumbel θ d (fun i j => .fin (r i j)) true; sumLog w) = .ok (.fin (∑ i, gumbelLL θ (r i))) := by
  rw [(gumbel_pdfComputes h h2 n r hr).2]
  simp only [bind, Except.bind]
  have : (fun i => Fl.log (Fl.fin (gumbelDensity θ (r i)))) = fun i => .fin (gumbelLL θ (r i)) := by
    funext i
    rw [gumbelDensity_exp (by omega) h (hr i), Fl.log_pos (Real.exp_pos _), Real.log_exp]
  rw [this, sumLog_ok (by omega)]

/-- Parameters below one: `pdf` raises. -/
theorem archPdf_gumbel_below {θ : ℝ} (h : θ < 1) (r : Fin n → Fin d → Fl) (log : Bool) :
    ∃ e, archPdf .gumbel θ d r log = .error e := by
  simp only [archPdf, gumbelPdf]
  rw [if_neg (by simp), if_neg h.ne]
  rcases eq_or_ne θ 0 with h0 | h0
  · exact ⟨_, if_pos h0⟩
  · rw [if_neg h0]
    refine ⟨_, if_pos ?_⟩
    rintro ⟨a, b⟩
    rw [one_div_pos] at a
    rw [div_le_one a] at b
    linarith

theorem gumbel_ranks_likely {θ₀ : ℝ} (hθ : 1 ≤ θ₀) (h2 : 2 ≤ d) {P : Measure (Fin d → ℝ)} [IsProbabilityMeasure P]
    (hP : IsLawOf P (Family.copula .gumbel θ₀)) (hU : Uniform P) {ε δ : ℝ} (hε : 0 < ε) (hδ : 0 < δ) :
    ∃ N : ℕ, ∀ n, N ≤ n → iid n P {y | ¬ (NoTies y ∧ GumbelGood θ₀ ε (unitRanks y))} ≤ ENNReal.ofReal δ := by
  obtain ⟨N, hN⟩ := (gumbel_contrast hθ h2 hP hU).near hU hε hδ
  refine ⟨N + 2, fun n hn => (measure_mono fun y hy => ?_).trans (hN n (by omega))⟩
  intro hg
  refine hy ⟨hg.1, fun θ v hv hle => ?_⟩
  rcases lt_or_ge θ 1 with h0 | h0
  · obtain ⟨e, he⟩ := archPdf_gumbel_below h0 (fun i j => Fl.fin (unitRanks y i j)) true
    rw [he] at hv
    simp [bind, Except.bind] at hv
  · rw [archPdf_gumbel_sum h0 h2 (by omega) (unitRanks_mem hg.1)] at hv
    rw [← Except.ok.inj hv] at hle
    exact hg.2 θ h0 (by simpa using hle)

/-- The summed log-densities of a Gumbel copula are those of the method `pdf` (gumbel.py:185-220, base.py:165-166). Without a parameter and
with an infinite one `pdf` raises: `gumbel_poly` refuses `alpha = 1 / inf = 0` (gumbel.py:377). -/
structure Spec.GumbelLogPdf (env : FitEnv) : Prop where
  finite : ∀ (st : ArchState) (θ : ℝ) (n d : ℕ) (u : Fin n → Fin d → ℚ), st.theta = .fin θ → env.logPdfSum (.arch .gumbel st) n d u =
    (do let v ← archPdf .gumbel θ st.dim (fun i j => .fin ((u i j : ℚ) : ℝ)) true; sumLog v)
  other : ∀ (st : ArchState) (n d : ℕ) (u : Fin n → Fin d → ℚ), (∀ θ, st.theta ≠ .fin θ) →
    ∃ e, env.logPdfSum (.arch .gumbel st) n d u = .error e

/-- The parameter of the copula from which `random` draws: up to `1 + 1e-5 + 1e-8` the components are drawn independently
(gumbel.py:232-237). -/
noncomputable def Spec.gumbelDrawn (θ : ℝ) : ℝ := if 1 + (1 / 10 ^ 8 + 1 / 10 ^ 5) < θ then θ else 1

theorem gumbelDrawn_self {θ : ℝ} (h : θ = 1 ∨ 1 + (1 / 10 ^ 8 + 1 / 10 ^ 5) < θ) : gumbelDrawn θ = θ := by
  unfold gumbelDrawn
  rcases h with rfl | h
  · exact if_neg (by norm_num)
  · exact if_pos h

theorem one_le_gumbelDrawn (θ : ℝ) : 1 ≤ gumbelDrawn θ := by
  unfold gumbelDrawn
  split_ifs with h
  · exact le_trans (by norm_num) h.le
  · exact le_rfl

theorem gumbelDrawn_near {θ : ℝ} (h : 1 ≤ θ) : |gumbelDrawn θ - θ| ≤ 1 / 10 ^ 8 + 1 / 10 ^ 5 := by
  unfold gumbelDrawn
  split_ifs with h1
  · rw [sub_self, abs_zero]
    norm_num
  · rw [abs_le]
    constructor <;> linarith

/-- `random` of a Gumbel copula returns independent observations of a Gumbel copula. -/
theorem gumbel_samples (hR : IsIdeal G R) (θ₀ : ℝ) (h2 : 2 ≤ d) :
    ∃ P : Measure (Fin d → ℝ), IsLawOf P (Family.copula .gumbel (gumbelDrawn θ₀)) ∧ Uniform P ∧
      ∀ n, Draws R ((Sampler.gumbel gumbelFrail θ₀ : Sampler G d).random n none) matFl (iid n P) := by
  have hpr := hR.prob
  have ha : Copulae.Admissible .gumbel (gumbelDrawn θ₀) d := ⟨h2, one_le_gumbelDrawn θ₀⟩
  by_cases h : 1 + (1 / 10 ^ 8 + 1 / 10 ^ 5) < θ₀
  · rw [gumbelDrawn_self (.inr h)] at ha ⊢
    obtain ⟨P, hP⟩ := arch_law_exists ha
    exact ⟨P, hP, arch_uniform ha hP, fun n => samplesFrom_draws hR ha (fun h => by cases h) hP
      (show SamplesFrom .gumbel θ₀ (Sampler.gumbel gumbelFrail θ₀ : Sampler G d) from ⟨rfl, h⟩) n⟩
  · have e : gumbelDrawn θ₀ = 1 := if_neg h
    rw [e] at ha ⊢
    have hP : IsLawOf (iid d unif) (Family.copula .gumbel 1) := indep_gumbel indep_isLaw
    refine ⟨_, hP, arch_uniform ha hP, fun n => ?_⟩
    by_cases h7 : θ₀ - 1 < 1 / 10 ^ 7
    · have hs := ((randomUniform_draws hR n d).seq (randomUniform_draws hR n d)).map_pure (fun p => p.2)
        (g := fun p => p.2) (e' := matFl) measurable_snd (Filter.Eventually.of_forall fun p => rfl)
      rw [show (fun p : (Fin n → Fin d → ℝ) × (Fin n → Fin d → ℝ) => p.2) = Prod.snd from rfl, ← Measure.snd, Measure.snd_prod] at hs
      refine hs.congr fun s => ?_
      show (gumbelRandomG gumbelFrail θ₀ n d none : Rnd G _).exec s = _
      unfold gumbelRandomG
      simp only [if_pos h7]
      rfl
    · refine (randomUniform_draws hR n d).congr fun s => ?_
      show (gumbelRandomG gumbelFrail θ₀ n d none : Rnd G _).exec s = _
      unfold gumbelRandomG
      simp only [if_neg h7, if_pos (show |θ₀ - 1| ≤ 1 / 10 ^ 8 + 1 / 10 ^ 5 by rw [abs_of_nonneg (by linarith)]; linarith)]
      rfl

/-- What `log_lik` says about Gumbel copula objects, on pseudo-observations `r`. -/
theorem logLik_gumbel {env : FitEnv} (he : GumbelLogPdf env) (h2 : 2 ≤ d) (hn : 2 ≤ n) (u : Fin n → Fin d → ℚ) {r : Fin n → Fin d → ℝ}
    (hr : ∀ i j, ((u i j : ℚ) : ℝ) = r i j) (hu : ∀ i j, 0 < r i j ∧ r i j < 1) {θ₀ ε : ℝ} (hθ : 1 ≤ θ₀) (hg : GumbelGood θ₀ ε r)
    (ties : String) :
    (∀ st : ArchState, st.dim = d → st.theta = .fin θ₀ →
      logLik env (.arch .gumbel st) u false ties = .ok (.fin (∑ i, gumbelLL θ₀ (r i)))) ∧
    ∀ (st : ArchState) (v : Fl), logLik env (.arch .gumbel st) u false ties = .ok v →
      .fin (∑ i, gumbelLL θ₀ (r i)) ≤ v → ∃ θ, st.theta = .fin θ ∧ |θ - θ₀| < ε := by
  have hru : (fun i j => Fl.fin ((u i j : ℚ) : ℝ)) = fun i j => Fl.fin (r i j) := by funext i j; rw [hr]
  have hlik : ∀ st : ArchState, logLik env (.arch .gumbel st) u false ties = env.logPdfSum (.arch .gumbel st) n d u := fun st => by
    simp only [logLik, logLikCut, maybePobs, bind, Except.bind, Bool.false_eq_true, if_false]
  refine ⟨fun st hd ht => ?_, fun st v hv hle => ?_⟩
  · rw [hlik, he.finite st θ₀ n d u ht, hru, hd]
    exact archPdf_gumbel_sum hθ h2 hn hu
  · rw [hlik] at hv
    by_cases hf : ∃ θ, st.theta = .fin θ
    · obtain ⟨θ, hf⟩ := hf
      refine ⟨θ, hf, ?_⟩
      rw [he.finite st θ n d u hf, hru] at hv
      have hd : st.dim = d := by
        by_contra hne
        simp only [archPdf, gumbelPdf] at hv
        rw [if_pos (fun e => hne e.symm)] at hv
        simp [bind, Except.bind] at hv
      rw [hd] at hv
      exact hg θ v hv hle
    · push Not at hf
      obtain ⟨e, h⟩ := he.other st n d u hf
      rw [h] at hv
      cases hv

/-- **C161** Data simulated from a Gumbel copula with the parameter `θ₀`, alone or with any continuous margins: with a probability that
tends to one, every Gumbel copula object whose `log_lik` of the data (with the default conversion to pseudo-observations, for every way of
ranking ties) is at least that of the copula from which `random` draws has a parameter within `ε` of that copula's. The `log_lik` of that
copula is a finite number. -/
theorem gumbel_likelihood_drawn (hR : IsIdeal G R) {env : FitEnv} (he : GumbelLogPdf env) {θ₀ : ℝ} (h2 : 2 ≤ d)
    {st₀ : ArchState} (hd₀ : st₀.dim = d) (ht₀ : st₀.theta = .fin (gumbelDrawn θ₀)) {c' : Sampler G d} (h : WithMargins (Sampler.gumbel gumbelFrail θ₀) c')
    {ε δ : ℝ} (hε : 0 < ε) (hδ : 0 < δ) :
    ∃ N : ℕ, ∀ n, N ≤ n → Likely R (c'.random n none) δ fun m => ∃ x : Fin n → Fin d → ℝ, m = matFl x ∧
      ∀ (ties : String) (t : TieMethod), parseTies ties = .ok t →
        ∃ L : ℝ, logLikPobs env (.arch .gumbel st₀) x ties = .ok (.fin L) ∧
          ∀ (st : ArchState) (v : Fl), logLikPobs env (.arch .gumbel st) x ties = .ok v →
            .fin L ≤ v → ∃ θ, st.theta = .fin θ ∧ |θ - gumbelDrawn θ₀| < ε := by
  have h0 := one_le_gumbelDrawn θ₀
  obtain ⟨P, hP, hU, hdr⟩ := gumbel_samples hR θ₀ h2
  have := hP.prob
  obtain ⟨N, hN⟩ := gumbel_ranks_likely h0 h2 hP hU hε hδ
  refine ⟨N + 2, fun n hn => (pobs_ranks_likely hR hU hdr h (E := fun _ r => GumbelGood (gumbelDrawn θ₀) ε r) (hN n (by omega))).mono ?_⟩
  rintro m ⟨x, rfl, r, hr, hg, hu⟩
  refine ⟨x, rfl, fun ties t ht => ?_⟩
  obtain ⟨u, hpu, hur⟩ := hu ties t ht
  obtain ⟨k1, k2⟩ := logLik_gumbel he h2 (by omega) u hur hr h0 hg ties
  refine ⟨∑ i, gumbelLL (gumbelDrawn θ₀) (r i), by rw [logLikPobs_of_pobs _ hpu, k1 st₀ hd₀ ht₀], fun st v hv hle => ?_⟩
  rw [logLikPobs_of_pobs _ hpu] at hv
  exact k2 st v hv hle

/-- **C161**, `fit`: under the same circumstances, every call of `fit(method='ml')` on a Gumbel copula object, from every starting value
and with every optimiser that reports values it has seen, which succeeds and reports a log-likelihood of at least `scale` times that of the
copula from which `random` draws, leaves the object with a parameter within `ε` of that copula's. -/
theorem gumbel_ml_drawn (hR : IsIdeal G R) {env : FitEnv} (he : GumbelLogPdf env) {θ₀ : ℝ} (h2 : 2 ≤ d)
    {st₀ : ArchState} (hd₀ : st₀.dim = d) (ht₀ : st₀.theta = .fin (gumbelDrawn θ₀)) {c' : Sampler G d} (h : WithMargins (Sampler.gumbel gumbelFrail θ₀) c')
    {ε δ : ℝ} (hε : 0 < ε) (hδ : 0 < δ) :
    ∃ N : ℕ, ∀ n, N ≤ n → Likely R (c'.random n none) δ fun m => ∃ x : Fin n → Fin d → ℝ, m = matFl x ∧
      ∀ (ties : String) (t : TieMethod), parseTies ties = .ok t →
        ∃ L : ℝ, logLikPobs env (.arch .gumbel st₀) x ties = .ok (.fin L) ∧
          ∀ (opt : List Fl → OptTree) (o o' : FitObj) (st : ArchState) (x0 : Option ParamArg) (method : String) (k : ℝ) (sm : FitSummary),
            o.cop = .arch .gumbel st → Spec.Admissible .gumbel st.dim st.theta → (∀ p, (opt p).Honest []) →
            pyLower method = "ml".toList → 0 < k → o.fitPobs env opt x x0 method ties (.fin k) = (o', .ok ()) → o'.smry = some sm →
            sm.success = some true → .fin (L * k) ≤ sm.logLik →
            ∃ (st' : ArchState) (θ : ℝ), o'.cop = .arch .gumbel st' ∧ st'.theta = .fin θ ∧ |θ - gumbelDrawn θ₀| < ε := by
  have h0 := one_le_gumbelDrawn θ₀
  obtain ⟨P, hP, hU, hdr⟩ := gumbel_samples hR θ₀ h2
  have := hP.prob
  obtain ⟨N, hN⟩ := gumbel_ranks_likely h0 h2 hP hU hε hδ
  refine ⟨N + 2, fun n hn => (pobs_ranks_likely hR hU hdr h (E := fun _ r => GumbelGood (gumbelDrawn θ₀) ε r) (hN n (by omega))).mono ?_⟩
  rintro m ⟨x, rfl, r, hr, hg, hu⟩
  refine ⟨x, rfl, fun ties t ht => ?_⟩
  obtain ⟨u, hpu, hur⟩ := hu ties t ht
  obtain ⟨k1, k2⟩ := logLik_gumbel he h2 (by omega) u hur hr h0 hg ties
  refine ⟨∑ i, gumbelLL (gumbelDrawn θ₀) (r i), by rw [logLikPobs_of_pobs _ hpu, k1 st₀ hd₀ ht₀], ?_⟩
  intro opt o o' st x0 method k sm ho hst hopt hml hk hfit hsm hsucc hle
  rw [FitObj.fitPobs, hpu] at hfit
  simp only at hfit
  obtain ⟨sm', q1, -, -, q2⟩ := fit_ml_summary_partial hopt hml hfit
  rw [hsm] at q1
  obtain rfl := Option.some.inj q1
  obtain ⟨-, L, q3, q4, -⟩ := q2 hsucc (fun hc => by rw [hc] at hle; exact absurd hle Fl.not_fin_le_ninf)
  obtain ⟨st', he', -, -⟩ := fit_admissible env opt o u x0 method ties false (.fin k) ho hst
  rw [hfit] at he'
  have he'' : o'.cop = .arch .gumbel st' := he'
  rw [he''] at q3
  have hL : .fin (∑ i, gumbelLL (gumbelDrawn θ₀) (r i)) ≤ L := by
    rw [q4] at hle
    cases L with
    | nan => exact absurd hle (by rw [Fl.nan_mul]; exact Fl.not_le_nan)
    | ninf =>
      rw [Fl.ninf_mul_fin, Fl.infSign_neg (by linarith)] at hle
      exact absurd hle Fl.not_fin_le_ninf
    | fin l =>
      rw [Fl.fin_mul_fin] at hle
      have hle' : (∑ i, gumbelLL (gumbelDrawn θ₀) (r i)) * k ≤ l * k := by simpa using hle
      simpa using le_of_mul_le_mul_right hle' hk
    | pinf => trivial
  obtain ⟨θ, ht', hθ'⟩ := k2 st' L q3 hL
  exact ⟨st', θ, he'', ht', hθ'⟩

/-- **C161** For parameters from which `random` draws the copula itself, one and everything above `1 + 1e-5 + 1e-8`: the objects with at
least the `log_lik` of the copula of the simulation have parameters within `ε` of `θ₀`. -/
theorem gumbel_likelihood_near (hR : IsIdeal G R) {env : FitEnv} (he : GumbelLogPdf env) {θ₀ : ℝ} (hθ : θ₀ = 1 ∨ 1 + (1 / 10 ^ 8 + 1 / 10 ^ 5) < θ₀) (h2 : 2 ≤ d)
    {st₀ : ArchState} (hd₀ : st₀.dim = d) (ht₀ : st₀.theta = .fin θ₀) {c' : Sampler G d} (h : WithMargins (Sampler.gumbel gumbelFrail θ₀) c')
    {ε δ : ℝ} (hε : 0 < ε) (hδ : 0 < δ) :
    ∃ N : ℕ, ∀ n, N ≤ n → Likely R (c'.random n none) δ fun m => ∃ x : Fin n → Fin d → ℝ, m = matFl x ∧
      ∀ (ties : String) (t : TieMethod), parseTies ties = .ok t →
        ∃ L : ℝ, logLikPobs env (.arch .gumbel st₀) x ties = .ok (.fin L) ∧
          ∀ (st : ArchState) (v : Fl), logLikPobs env (.arch .gumbel st) x ties = .ok v →
            .fin L ≤ v → ∃ θ, st.theta = .fin θ ∧ |θ - θ₀| < ε := by
  have e := gumbelDrawn_self hθ
  have k := gumbel_likelihood_drawn hR he h2 hd₀ (by rw [ht₀, e]) h hε hδ
  rwa [e] at k

/-- **C161**, `fit`, for parameters from which `random` draws the copula itself: a successful maximum likelihood fit that reports at least
the likelihood of the copula of the simulation leaves a parameter within `ε` of `θ₀`. -/
theorem gumbel_ml_recovers (hR : IsIdeal G R) {env : FitEnv} (he : GumbelLogPdf env) {θ₀ : ℝ} (hθ : θ₀ = 1 ∨ 1 + (1 / 10 ^ 8 + 1 / 10 ^ 5) < θ₀) (h2 : 2 ≤ d)
    {st₀ : ArchState} (hd₀ : st₀.dim = d) (ht₀ : st₀.theta = .fin θ₀) {c' : Sampler G d} (h : WithMargins (Sampler.gumbel gumbelFrail θ₀) c')
    {ε δ : ℝ} (hε : 0 < ε) (hδ : 0 < δ) :
    ∃ N : ℕ, ∀ n, N ≤ n → Likely R (c'.random n none) δ fun m => ∃ x : Fin n → Fin d → ℝ, m = matFl x ∧
      ∀ (ties : String) (t : TieMethod), parseTies ties = .ok t →
        ∃ L : ℝ, logLikPobs env (.arch .gumbel st₀) x ties = .ok (.fin L) ∧
          ∀ (opt : List Fl → OptTree) (o o' : FitObj) (st : ArchState) (x0 : Option ParamArg) (method : String) (k : ℝ) (sm : FitSummary),
            o.cop = .arch .gumbel st → Spec.Admissible .gumbel st.dim st.theta → (∀ p, (opt p).Honest []) →
            pyLower method = "ml".toList → 0 < k → o.fitPobs env opt x x0 method ties (.fin k) = (o', .ok ()) → o'.smry = some sm →
            sm.success = some true → .fin (L * k) ≤ sm.logLik →
            ∃ (st' : ArchState) (θ : ℝ), o'.cop = .arch .gumbel st' ∧ st'.theta = .fin θ ∧ |θ - θ₀| < ε := by
  have e := gumbelDrawn_self hθ
  have k := gumbel_ml_drawn hR he h2 hd₀ (by rw [ht₀, e]) h hε hδ
  rwa [e] at k

/-- **C161**, `fit`, every parameter: the estimate is within `ε + 1e-5 + 1e-8` of `θ₀`. -/
theorem gumbel_ml_close (hR : IsIdeal G R) {env : FitEnv} (he : GumbelLogPdf env) {θ₀ : ℝ} (hθ : 1 ≤ θ₀) (h2 : 2 ≤ d)
    {st₀ : ArchState} (hd₀ : st₀.dim = d) (ht₀ : st₀.theta = .fin (gumbelDrawn θ₀)) {c' : Sampler G d} (h : WithMargins (Sampler.gumbel gumbelFrail θ₀) c')
    {ε δ : ℝ} (hε : 0 < ε) (hδ : 0 < δ) :
    ∃ N : ℕ, ∀ n, N ≤ n → Likely R (c'.random n none) δ fun m => ∃ x : Fin n → Fin d → ℝ, m = matFl x ∧
      ∀ (ties : String) (t : TieMethod), parseTies ties = .ok t →
        ∃ L : ℝ, logLikPobs env (.arch .gumbel st₀) x ties = .ok (.fin L) ∧
          ∀ (opt : List Fl → OptTree) (o o' : FitObj) (st : ArchState) (x0 : Option ParamArg) (method : String) (k : ℝ) (sm : FitSummary),
            o.cop = .arch .gumbel st → Spec.Admissible .gumbel st.dim st.theta → (∀ p, (opt p).Honest []) →
            pyLower method = "ml".toList → 0 < k → o.fitPobs env opt x x0 method ties (.fin k) = (o', .ok ()) → o'.smry = some sm →
            sm.success = some true → .fin (L * k) ≤ sm.logLik →
            ∃ (st' : ArchState) (θ : ℝ), o'.cop = .arch .gumbel st' ∧ st'.theta = .fin θ ∧ |θ - θ₀| < ε + (1 / 10 ^ 8 + 1 / 10 ^ 5) := by
  obtain ⟨N, hN⟩ := gumbel_ml_drawn hR he h2 hd₀ ht₀ h hε hδ
  refine ⟨N, fun n hn => (hN n hn).mono ?_⟩
  rintro m ⟨x, rfl, hx⟩
  refine ⟨x, rfl, fun ties t ht => ?_⟩
  obtain ⟨L, hL, k⟩ := hx ties t ht
  refine ⟨L, hL, fun opt o o' st x0 method k' sm a1 a2 a3 a4 a5 a6 a7 a8 a9 => ?_⟩
  obtain ⟨st', θ, b1, b2, b3⟩ := k opt o o' st x0 method k' sm a1 a2 a3 a4 a5 a6 a7 a8 a9
  refine ⟨st', θ, b1, b2, ?_⟩
  have := abs_sub_le θ (gumbelDrawn θ₀) θ₀
  linarith [gumbelDrawn_near hθ]

/-! ### The hypotheses can be met -/

/-- Outside functions with exact Gumbel densities. -/
noncomputable def gumbelMlEnv : FitEnv :=
  { exactFitEnv with
    logPdfSum := fun c _ _ u => match c with
      | .arch .gumbel st => match st.theta with
        | .fin θ => do
            let v ← archPdf .gumbel θ st.dim (fun i j => .fin ((u i j : ℚ) : ℝ)) true
            sumLog v
        | _ => .error .assertionError
      | _ => .ok (.fin 3) }

theorem gumbelMlEnv_ok : GumbelLogPdf gumbelMlEnv where
  finite st θ n d u h := by
    simp only [gumbelMlEnv, h]
  other st n d u h := by
    simp only [gumbelMlEnv]
    rcases ht : st.theta with _ | _ | θ | _
    · exact ⟨_, rfl⟩
    · exact ⟨_, rfl⟩
    · exact absurd ht (h θ)
    · exact ⟨_, rfl⟩

/-- Independent components. -/
example (seeded : ℕ → ℕ → Answers) :=
  gumbel_ml_recovers (idealGen_isIdeal seeded) gumbelMlEnv_ok (θ₀ := 1) (.inl rfl) (d := 40) (by norm_num) (st₀ := ⟨40, .fin 1, .fin 1, .pinf⟩)
    rfl rfl (.inl rfl) (ε := 1 / 100) (δ := 1 / 1000) (by norm_num) (by norm_num)

/-- A parameter that `random` treats as one. -/
example (seeded : ℕ → ℕ → Answers) :=
  gumbel_ml_drawn (idealGen_isIdeal seeded) gumbelMlEnv_ok (θ₀ := 1 + 1 / 10 ^ 6) (d := 2) (by norm_num)
    (st₀ := ⟨2, .fin (gumbelDrawn (1 + 1 / 10 ^ 6)), .fin 1, .pinf⟩) rfl rfl (.inl rfl) (ε := 1 / 100) (δ := 1 / 1000) (by norm_num) (by norm_num)

/-- Three dimensions, data with the margins of the simulation. -/
example (seeded : ℕ → ℕ → Answers) :=
  gumbel_ml_recovers (idealGen_isIdeal seeded) gumbelMlEnv_ok (θ₀ := 2) (.inr (by norm_num)) (d := 3) (by norm_num) (st₀ := ⟨3, .fin 2, .fin 1, .pinf⟩)
    rfl rfl (.inl rfl) (ε := 1 / 100) (δ := 1 / 1000) (by norm_num) (by norm_num)

/-- The circumstances of `gumbel_ml_recovers` arise: a fit that starts at the true parameter and stays there succeeds and reports the
log-likelihood of the copula of the simulation. -/
theorem gumbel_ml_example (seeded : ℕ → ℕ → Answers) {δ : ℝ} (hδ : 0 < δ) :
    ∃ N : ℕ, ∀ n, N ≤ n → Likely streamLaw ((Sampler.gumbel gumbelFrail 2 : Sampler (idealGen seeded) 2).random n none) δ
      fun m => ∃ x : Fin n → Fin 2 → ℝ, m = matFl x ∧
      ∃ L : ℝ, logLikPobs gumbelMlEnv (.arch .gumbel ⟨2, .fin 2, .fin 1, .pinf⟩) x "average" = .ok (.fin L) ∧
        FitObj.fitPobs gumbelMlEnv stayOpt ⟨.arch .gumbel ⟨2, .nan, .fin 1, .pinf⟩, none⟩ x (some (.vec [.fin 2])) "ml" "average" (.fin 1) =
          (⟨.arch .gumbel ⟨2, .fin 2, .fin 1, .pinf⟩, some ⟨[.fin 2], .fin L, n, some true⟩⟩, .ok ()) := by
  obtain ⟨P, hP, hU, hdr⟩ := gumbel_samples (idealGen_isIdeal seeded) 2 (le_refl 2)
  rw [gumbelDrawn_self (.inr (by norm_num))] at hP
  have := hP.prob
  obtain ⟨N, hN⟩ := gumbel_ranks_likely one_le_two (le_refl 2) hP hU one_pos hδ
  refine ⟨N + 2, fun n hn => (pobs_ranks_likely (idealGen_isIdeal seeded) hU hdr (.inl rfl) (E := fun _ r => GumbelGood 2 1 r)
    (hN n (by omega))).mono ?_⟩
  rintro m ⟨x, rfl, r, hr, hg, hu⟩
  refine ⟨x, rfl, ?_⟩
  obtain ⟨u, hpu, hur⟩ := hu "average" .average (by rfl)
  obtain ⟨k1, -⟩ := logLik_gumbel gumbelMlEnv_ok (le_refl 2) (by omega) u hur hr one_le_two hg "average"
  have hL := k1 ⟨2, .fin 2, .fin 1, .pinf⟩ rfl rfl
  refine ⟨_, by rw [logLikPobs_of_pobs _ hpu, hL], ?_⟩
  rw [FitObj.fitPobs, hpu]
  simp only
  unfold FitObj.fit
  simp only [maybePobs, Bool.false_eq_true, if_false]
  rw [if_neg (by simp [FitCop.dim]), if_neg]
  · have hml : pyLower "ml" = "ml".toList := by decide
    have hip : initialParams gumbelMlEnv u (.arch .gumbel ⟨2, .nan, .fin 1, .pinf⟩) (some (.vec [.fin 2]))
        = (.arch .gumbel ⟨2, .nan, .fin 1, .pinf⟩, .ok (.vec [.fin 2])) := by
      unfold initialParams
      simp [Option.filter, ParamArg.toVec, Fl.isFin]
    unfold fitCopula
    rw [if_neg (by simp [FitCop.dim]; omega), if_pos hml, hip]
    simp only [estimateMl, stayOpt, ParamArg.toVec, runOpt, calcLogLik]
    rw [if_neg (by simp [Fl.isNan])]
    simp only [FitCop.setParams, FitCop.toFloat, Family.setParams]
    norm_num
    simp only [hL, Fl.neg_fin, Fl.fin_mul_fin]
    norm_num
  · rintro ⟨i, j, h⟩
    have h1 := hr i j
    rw [← hur] at h1
    rcases h with h | h
    · exact absurd (by exact_mod_cast h : ((u i j : ℚ) : ℝ) < 0) (not_lt.mpr h1.1.le)
    · exact absurd (by exact_mod_cast h : (1 : ℝ) < ((u i j : ℚ) : ℝ)) (not_lt.mpr h1.2.le)

end Copulae
