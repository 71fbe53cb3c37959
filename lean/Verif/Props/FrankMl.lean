import Verif.Lemmas.FrankLik
import Verif.Props.ClaytonMl

/-!
**C160** Maximum likelihood recovers the parameter of a Frank copula.
-/

namespace Copulae

open MeasureTheory ProbabilityTheory Spec CopulaMeasure

variable {G : Gen} [MeasurableSpace G.S] {R : Measure G.S} {n : ℕ}

/-- Whatever Frank copula gives the data `r` at least the likelihood of the parameter `θ₀` has a parameter within `ε` of it. -/
def FrankGood (θ₀ ε : ℝ) (r : Fin n → Fin 2 → ℝ) : Prop :=
  ∀ (θ : ℝ) (v : Fl), (do let w ← archPdf .frank θ 2 (fun i j => .fin (r i j)) true; sumLog w) = .ok v →
    .fin (∑ i, frankLL θ₀ (r i)) ≤ v → |θ - θ₀| < ε

theorem archPdf_frank_sum {θ : ℝ} (h : 0 < θ) (hn : 2 ≤ n) {r : Fin n → Fin 2 → ℝ} (hr : ∀ i, r i ∈ cube 2) :
    (do let w ← archPdf .frank θ 2 (fun i j => .fin (r i j)) true; sumLog w) = .ok (.fin (∑ i, frankLL θ (r i))) := by
  rw [(frank_pdfComputes h (le_refl 2) n r hr).2]
  simp only [bind, Except.bind]
  have : (fun i => Fl.log (Fl.fin (frankDensity θ (r i)))) = fun i => .fin (frankLL θ (r i)) := by
    funext i
    rw [frankDensity_exp h (hr i), Fl.log_pos (Real.exp_pos _), Real.log_exp]
  rw [this, sumLog_ok (by omega)]

theorem frankLogRow_zero (u : Fin 2 → ℝ) : frankLogRow 0 (fun j => Fl.fin (u j)) = .ok .nan := by
  have hl : log1mexp (.fin 0) = .ninf := by simp [log1mexp]
  obtain ⟨v, hv⟩ := polyLog_ok (Fl.exp (log1mexp (.fin 0) + ∑ j, (log1mexp (.fin 0 * Fl.fin (u j)) - log1mexp (.fin 0)))) 1 true
  unfold frankLogRow
  rw [show (1 : ℤ) - ((2 : ℕ) : ℤ) = -((1 : ℕ) : ℤ) by norm_num]
  simp only [hv, bind, Except.bind, pure, Except.pure]
  simp only [Fin.sum_univ_two, Fl.fin_add_fin, Fl.fin_mul_fin, zero_mul, Fl.log_zero, hl, Fl.ninf_add_ninf]
  have e : Fl.fin (((2 : ℕ) : ℝ) - 1) * Fl.ninf = .ninf := by
    rw [Fl.fin_mul_ninf, Fl.infSign_neg (by norm_num)]
  rw [e]
  cases v <;> rfl

/-- Parameters up to zero: the log-densities are NaN. -/
theorem archPdf_frank_nan {θ : ℝ} (h : θ ≤ 0) (hn : 2 ≤ n) (r : Fin n → Fin 2 → ℝ) :
    (do let w ← archPdf .frank θ 2 (fun i j => .fin (r i j)) true; sumLog w) = .ok .nan := by
  have hrow : ∀ i : Fin n, frankRow θ (fun j => Fl.fin (r i j)) = .ok .nan := fun i => by
    unfold frankRow
    split_ifs
    · rcases h.eq_or_lt with rfl | h
      · exact frankLogRow_zero (r i)
      · obtain ⟨v, h1, h2⟩ := frankLogRow_ok θ (by omega : 1 ≤ 2) fun j => Fl.fin (r i j)
        rw [h1, h2 h]
    · rfl
  simp only [archPdf]
  rw [frankPdf_ok hrow]
  simp only [bind, Except.bind, if_true, sumLog]
  rw [if_neg (by omega)]
  obtain ⟨m, rfl⟩ : ∃ m, n = m + 1 := ⟨n - 1, by omega⟩
  rw [Fin.sum_univ_succ, Fl.nan_add]

theorem frank_ranks_likely {θ₀ : ℝ} (hθ : 0 < θ₀) {P : Measure (Fin 2 → ℝ)} [IsProbabilityMeasure P]
    (hP : IsLawOf P (Family.copula .frank θ₀)) (hU : Uniform P) {ε δ : ℝ} (hε : 0 < ε) (hδ : 0 < δ) :
    ∃ N : ℕ, ∀ n, N ≤ n → iid n P {y | ¬ (NoTies y ∧ FrankGood θ₀ ε (unitRanks y))} ≤ ENNReal.ofReal δ := by
  obtain ⟨N, hN⟩ := (frank_contrast hθ hP hU).near hU hε hδ
  refine ⟨N + 2, fun n hn => (measure_mono fun y hy => ?_).trans (hN n (by omega))⟩
  intro hg
  refine hy ⟨hg.1, fun θ v hv hle => ?_⟩
  rcases le_or_gt θ 0 with h0 | h0
  · rw [archPdf_frank_nan h0 (by omega)] at hv
    rw [← Except.ok.inj hv] at hle
    exact absurd hle Fl.not_le_nan
  · rw [archPdf_frank_sum h0 (by omega) (unitRanks_mem hg.1)] at hv
    rw [← Except.ok.inj hv] at hle
    exact hg.2 θ h0.le (by simpa using hle)

/-- The summed log-densities of a Frank copula are those of the method `pdf` (frank.py:128-151, base.py:165-166). Without a parameter `pdf`
raises; with an infinite one its rows are NaN: for `inf`, `log(theta)` is infinite and so is `theta * u_sum`; for `-inf` the logarithm of
the parameter is NaN. -/
structure Spec.FrankLogPdf (env : FitEnv) : Prop where
  finite : ∀ (st : ArchState) (θ : ℝ) (n d : ℕ) (u : Fin n → Fin d → ℚ), st.theta = .fin θ → env.logPdfSum (.arch .frank st) n d u =
    (do let v ← archPdf .frank θ st.dim (fun i j => .fin ((u i j : ℚ) : ℝ)) true; sumLog v)
  other : ∀ (st : ArchState) (n d : ℕ) (u : Fin n → Fin d → ℚ), (∀ θ, st.theta ≠ .fin θ) → 0 < n → ∀ v,
    env.logPdfSum (.arch .frank st) n d u = .ok v → v = .nan

theorem frank_samples (hR : IsIdeal G R) (ls : ℝ → (n : ℕ) → Rnd G (Fin n → Fl)) {θ₀ : ℝ} (hθ : 1 / 10 ^ 7 ≤ θ₀) :
    ∃ P : Measure (Fin 2 → ℝ), IsLawOf P (Family.copula .frank θ₀) ∧ Uniform P ∧
      ∀ n, Draws R ((Sampler.frank ls θ₀ : Sampler G 2).random n none) matFl (iid n P) := by
  have h0 : 0 < θ₀ := lt_of_lt_of_le (by norm_num) hθ
  have ha : Copulae.Admissible .frank θ₀ 2 := ⟨le_refl 2, h0.ne', by linarith, fun _ => h0⟩
  obtain ⟨P, hP⟩ := arch_law_exists ha
  exact ⟨P, hP, arch_uniform ha hP, fun n => samplesFrom_draws hR ha (fun h => by cases h) hP
    (show SamplesFrom .frank θ₀ (Sampler.frank ls θ₀ : Sampler G 2) from ⟨rfl, ⟨ls, rfl⟩, by rwa [abs_of_pos h0]⟩) n⟩

theorem logLik_frank_eq (env : FitEnv) (st : ArchState) (u : Fin n → Fin 2 → ℚ) (ties : String) :
    logLik env (.arch .frank st) u false ties = env.logPdfSum (.arch .frank st) n 2 u := by
  simp only [logLik, logLikCut, maybePobs, bind, Except.bind, Bool.false_eq_true, if_false]

/-- What `log_lik` says about Frank copula objects, on pseudo-observations `r`. -/
theorem logLik_frank {env : FitEnv} (he : FrankLogPdf env) (hn : 2 ≤ n) (u : Fin n → Fin 2 → ℚ) {r : Fin n → Fin 2 → ℝ}
    (hr : ∀ i j, ((u i j : ℚ) : ℝ) = r i j) (hu : ∀ i j, 0 < r i j ∧ r i j < 1) {θ₀ ε : ℝ} (hθ : 0 < θ₀) (hg : FrankGood θ₀ ε r)
    (ties : String) :
    (∀ st : ArchState, st.dim = 2 → st.theta = .fin θ₀ →
      logLik env (.arch .frank st) u false ties = .ok (.fin (∑ i, frankLL θ₀ (r i)))) ∧
    ∀ (st : ArchState) (v : Fl), Spec.Admissible .frank st.dim st.theta → logLik env (.arch .frank st) u false ties = .ok v →
      .fin (∑ i, frankLL θ₀ (r i)) ≤ v → ∃ θ, st.theta = .fin θ ∧ |θ - θ₀| < ε := by
  have hru : (fun i j => Fl.fin ((u i j : ℚ) : ℝ)) = fun i j => Fl.fin (r i j) := by funext i j; rw [hr]
  refine ⟨fun st hd ht => ?_, fun st v _ hv hle => ?_⟩
  · rw [logLik_frank_eq, he.finite st θ₀ n 2 u ht, hru, hd]
    exact archPdf_frank_sum hθ hn hu
  · rw [logLik_frank_eq] at hv
    by_cases hf : ∃ θ, st.theta = .fin θ
    · obtain ⟨θ, hf⟩ := hf
      refine ⟨θ, hf, ?_⟩
      rw [he.finite st θ n 2 u hf, hru] at hv
      have hd : st.dim = 2 := by
        by_contra hne
        simp only [archPdf, frankPdf] at hv
        rw [if_pos (fun e => hne e.symm)] at hv
        simp [bind, Except.bind] at hv
      rw [hd] at hv
      exact hg θ v hv hle
    · push Not at hf
      rw [he.other st n 2 u hf (by omega) v hv] at hle
      exact absurd hle Fl.not_le_nan

/-- **C160**, violation: the `log_lik` of a bivariate Frank copula with a negative parameter, which the constructor and the setter accept and
from which `random` draws, is NaN on all data. No comparison with it succeeds, so `fit(method='ml')` cannot tell that such a parameter is
the right one. -/
theorem frank_negative_likelihood {env : FitEnv} (he : FrankLogPdf env) {st : ArchState} (hd : st.dim = 2) {θ : ℝ} (ht : st.theta = .fin θ)
    (h : θ ≤ 0) (hn : 2 ≤ n) (x : Fin n → Fin 2 → ℝ) {ties : String} {v : Fl}
    (hv : logLikPobs env (.arch .frank st) x ties = .ok v) : v = .nan := by
  cases hp : pobsMat x ties with
  | error e =>
    simp only [logLikPobs, logLikCut, hp, bind, Except.bind, Bool.false_eq_true, if_false] at hv
    cases hv
  | ok u =>
    rw [logLikPobs_of_pobs _ hp, logLik_frank_eq, he.finite st θ n 2 u ht, hd, archPdf_frank_nan h hn] at hv
    exact (Except.ok.inj hv).symm

/-- **C160** (partial: a positive parameter, see `frank_negative_likelihood`, and two dimensions; in more of them `random` does not
draw from the copula, see `frank_random_large_fails` and `frank_random_small_fails`) Data simulated from a bivariate Frank copula with the
parameter `θ₀`, alone or with any continuous margins: with a probability that tends to one, every Frank copula object whose `log_lik` of the data (with the default conversion to pseudo-observations, for every way of
ranking ties) is at least that of the copula of the simulation has a parameter within `ε` of `θ₀`. The `log_lik` of the copula of the
simulation is a finite number. -/
theorem frank_likelihood_near_partial (hR : IsIdeal G R) {env : FitEnv} (he : FrankLogPdf env) {θ₀ : ℝ} (hθ : 1 / 10 ^ 7 ≤ θ₀) (ls : ℝ → (n : ℕ) → Rnd G (Fin n → Fl))
    {st₀ : ArchState} (hd₀ : st₀.dim = 2) (ht₀ : st₀.theta = .fin θ₀) {c' : Sampler G 2} (h : WithMargins (Sampler.frank ls θ₀) c')
    {ε δ : ℝ} (hε : 0 < ε) (hδ : 0 < δ) :
    ∃ N : ℕ, ∀ n, N ≤ n → Likely R (c'.random n none) δ fun m => ∃ x : Fin n → Fin 2 → ℝ, m = matFl x ∧
      ∀ (ties : String) (t : TieMethod), parseTies ties = .ok t →
        ∃ L : ℝ, logLikPobs env (.arch .frank st₀) x ties = .ok (.fin L) ∧
          ∀ (st : ArchState) (v : Fl), Spec.Admissible .frank st.dim st.theta → logLikPobs env (.arch .frank st) x ties = .ok v →
            .fin L ≤ v → ∃ θ, st.theta = .fin θ ∧ |θ - θ₀| < ε := by
  have h0 : 0 < θ₀ := lt_of_lt_of_le (by norm_num) hθ
  obtain ⟨P, hP, hU, hdr⟩ := frank_samples hR ls hθ
  have := hP.prob
  obtain ⟨N, hN⟩ := frank_ranks_likely h0 hP hU hε hδ
  refine ⟨N + 2, fun n hn => (pobs_ranks_likely hR hU hdr h (E := fun _ r => FrankGood θ₀ ε r) (hN n (by omega))).mono ?_⟩
  rintro m ⟨x, rfl, r, hr, hg, hu⟩
  refine ⟨x, rfl, fun ties t ht => ?_⟩
  obtain ⟨u, hpu, hur⟩ := hu ties t ht
  obtain ⟨k1, k2⟩ := logLik_frank he (by omega) u hur hr h0 hg ties
  refine ⟨∑ i, frankLL θ₀ (r i), by rw [logLikPobs_of_pobs _ hpu, k1 st₀ hd₀ ht₀], fun st v ha hv hle => ?_⟩
  rw [logLikPobs_of_pobs _ hpu] at hv
  exact k2 st v ha hv hle

/-- **C160**, `fit`: under the same circumstances, every call of `fit(method='ml')` on a Frank copula object, from every starting value
and with every optimiser that reports values it has seen, which succeeds and reports a log-likelihood of at least `scale` times that of the
copula of the simulation, leaves the object with a parameter within `ε` of `θ₀`. -/
theorem frank_ml_recovers_partial (hR : IsIdeal G R) {env : FitEnv} (he : FrankLogPdf env) {θ₀ : ℝ} (hθ : 1 / 10 ^ 7 ≤ θ₀) (ls : ℝ → (n : ℕ) → Rnd G (Fin n → Fl))
    {st₀ : ArchState} (hd₀ : st₀.dim = 2) (ht₀ : st₀.theta = .fin θ₀) {c' : Sampler G 2} (h : WithMargins (Sampler.frank ls θ₀) c')
    {ε δ : ℝ} (hε : 0 < ε) (hδ : 0 < δ) :
    ∃ N : ℕ, ∀ n, N ≤ n → Likely R (c'.random n none) δ fun m => ∃ x : Fin n → Fin 2 → ℝ, m = matFl x ∧
      ∀ (ties : String) (t : TieMethod), parseTies ties = .ok t →
        ∃ L : ℝ, logLikPobs env (.arch .frank st₀) x ties = .ok (.fin L) ∧
          ∀ (opt : List Fl → OptTree) (o o' : FitObj) (st : ArchState) (x0 : Option ParamArg) (method : String) (k : ℝ) (sm : FitSummary),
            o.cop = .arch .frank st → Spec.Admissible .frank st.dim st.theta → (∀ p, (opt p).Honest []) →
            pyLower method = "ml".toList → 0 < k → o.fitPobs env opt x x0 method ties (.fin k) = (o', .ok ()) → o'.smry = some sm →
            sm.success = some true → .fin (L * k) ≤ sm.logLik →
            ∃ (st' : ArchState) (θ : ℝ), o'.cop = .arch .frank st' ∧ st'.theta = .fin θ ∧ |θ - θ₀| < ε := by
  have h0 : 0 < θ₀ := lt_of_lt_of_le (by norm_num) hθ
  obtain ⟨P, hP, hU, hdr⟩ := frank_samples hR ls hθ
  have := hP.prob
  obtain ⟨N, hN⟩ := frank_ranks_likely h0 hP hU hε hδ
  refine ⟨N + 2, fun n hn => (pobs_ranks_likely hR hU hdr h (E := fun _ r => FrankGood θ₀ ε r) (hN n (by omega))).mono ?_⟩
  rintro m ⟨x, rfl, r, hr, hg, hu⟩
  refine ⟨x, rfl, fun ties t ht => ?_⟩
  obtain ⟨u, hpu, hur⟩ := hu ties t ht
  obtain ⟨k1, k2⟩ := logLik_frank he (by omega) u hur hr h0 hg ties
  refine ⟨∑ i, frankLL θ₀ (r i), by rw [logLikPobs_of_pobs _ hpu, k1 st₀ hd₀ ht₀], ?_⟩
  intro opt o o' st x0 method k sm ho hst hopt hml hk hfit hsm hsucc hle
  rw [FitObj.fitPobs, hpu] at hfit
  simp only at hfit
  obtain ⟨sm', q1, -, -, q2⟩ := fit_ml_summary_partial hopt hml hfit
  rw [hsm] at q1
  obtain rfl := Option.some.inj q1
  obtain ⟨-, L, q3, q4, -⟩ := q2 hsucc (fun hc => by rw [hc] at hle; exact absurd hle Fl.not_fin_le_ninf)
  obtain ⟨st', he', hd', ha'⟩ := fit_admissible env opt o u x0 method ties false (.fin k) ho hst
  rw [hfit] at he'
  rw [← hd'] at ha'
  have he'' : o'.cop = .arch .frank st' := he'
  rw [he''] at q3
  have hL : .fin (∑ i, frankLL θ₀ (r i)) ≤ L := by
    rw [q4] at hle
    cases L with
    | nan => exact absurd hle (by rw [Fl.nan_mul]; exact Fl.not_le_nan)
    | ninf =>
      rw [Fl.ninf_mul_fin, Fl.infSign_neg (by linarith)] at hle
      exact absurd hle Fl.not_fin_le_ninf
    | fin l =>
      rw [Fl.fin_mul_fin] at hle
      have hle' : (∑ i, frankLL θ₀ (r i)) * k ≤ l * k := by simpa using hle
      simpa using le_of_mul_le_mul_right hle' hk
    | pinf => trivial
  obtain ⟨θ, ht', hθ'⟩ := k2 st' L ha' q3 hL
  exact ⟨st', θ, he'', ht', hθ'⟩

/-! ### The hypotheses can be met -/

/-- Outside functions with exact Frank densities. -/
noncomputable def frankMlEnv : FitEnv :=
  { exactFitEnv with
    logPdfSum := fun c _ _ u => match c with
      | .arch .frank st => match st.theta with
        | .fin θ => do
            let v ← archPdf .frank θ st.dim (fun i j => .fin ((u i j : ℚ) : ℝ)) true
            sumLog v
        | .nan => .error .assertionError
        | _ => .ok .nan
      | _ => .ok (.fin 3) }

theorem frankMlEnv_ok : FrankLogPdf frankMlEnv where
  finite st θ n d u h := by
    simp only [frankMlEnv, h]
  other st n d u h _ v hv := by
    simp only [frankMlEnv] at hv
    rcases ht : st.theta with _ | _ | θ | _ <;> rw [ht] at hv
    · simp at hv
    · exact (Except.ok.inj hv).symm
    · exact absurd ht (h θ)
    · exact (Except.ok.inj hv).symm

example (seeded : ℕ → ℕ → Answers) (ls : ℝ → (n : ℕ) → Rnd (idealGen seeded) (Fin n → Fl)) :=
  frank_ml_recovers_partial (idealGen_isIdeal seeded) frankMlEnv_ok (θ₀ := 5) (by norm_num) ls (st₀ := ⟨2, .fin 5, .ninf, .pinf⟩)
    rfl rfl (.inl rfl) (ε := 1 / 100) (δ := 1 / 1000) (by norm_num) (by norm_num)

/-- A case for `frank_negative_likelihood`: three observations. -/
example : logLikPobs frankMlEnv (.arch .frank ⟨2, .fin (-5), .ninf, .pinf⟩) (![![1, 6], ![2, 5], ![3, 4]] : Fin 3 → Fin 2 → ℝ) "average" =
    .ok .nan := by
  obtain ⟨u, hu⟩ : ∃ u, pobsMat (![![1, 6], ![2, 5], ![3, 4]] : Fin 3 → Fin 2 → ℝ) "average" = .ok u := ⟨_, rfl⟩
  rw [logLikPobs_of_pobs _ hu, logLik_frank_eq, frankMlEnv_ok.finite _ (-5) _ _ _ rfl]
  exact archPdf_frank_nan (by norm_num) (by norm_num) _

/-- The circumstances of `frank_ml_recovers_partial` arise: a fit that starts at the true parameter and stays there succeeds and reports the
log-likelihood of the copula of the simulation. -/
theorem frank_ml_example (seeded : ℕ → ℕ → Answers) (ls : ℝ → (n : ℕ) → Rnd (idealGen seeded) (Fin n → Fl)) {δ : ℝ} (hδ : 0 < δ) :
    ∃ N : ℕ, ∀ n, N ≤ n → Likely streamLaw ((Sampler.frank (G := idealGen seeded) ls 2 : Sampler (idealGen seeded) 2).random n none) δ
      fun m => ∃ x : Fin n → Fin 2 → ℝ, m = matFl x ∧
      ∃ L : ℝ, logLikPobs frankMlEnv (.arch .frank ⟨2, .fin 2, .ninf, .pinf⟩) x "average" = .ok (.fin L) ∧
        FitObj.fitPobs frankMlEnv stayOpt ⟨.arch .frank ⟨2, .nan, .ninf, .pinf⟩, none⟩ x (some (.vec [.fin 2])) "ml" "average" (.fin 1) =
          (⟨.arch .frank ⟨2, .fin 2, .ninf, .pinf⟩, some ⟨[.fin 2], .fin L, n, some true⟩⟩, .ok ()) := by
  obtain ⟨P, hP, hU, hdr⟩ := frank_samples (idealGen_isIdeal seeded) ls (θ₀ := 2) (by norm_num)
  have := hP.prob
  obtain ⟨N, hN⟩ := frank_ranks_likely two_pos hP hU one_pos hδ
  refine ⟨N + 2, fun n hn => (pobs_ranks_likely (idealGen_isIdeal seeded) hU hdr (.inl rfl) (E := fun _ r => FrankGood 2 1 r)
    (hN n (by omega))).mono ?_⟩
  rintro m ⟨x, rfl, r, hr, hg, hu⟩
  refine ⟨x, rfl, ?_⟩
  obtain ⟨u, hpu, hur⟩ := hu "average" .average (by rfl)
  obtain ⟨k1, -⟩ := logLik_frank frankMlEnv_ok (by omega) u hur hr two_pos hg "average"
  have hL := k1 ⟨2, .fin 2, .ninf, .pinf⟩ rfl rfl
  refine ⟨_, by rw [logLikPobs_of_pobs _ hpu, hL], ?_⟩
  rw [FitObj.fitPobs, hpu]
  simp only
  unfold FitObj.fit
  simp only [maybePobs, Bool.false_eq_true, if_false]
  rw [if_neg (by simp [FitCop.dim]), if_neg]
  · have hml : pyLower "ml" = "ml".toList := by decide
    have hip : initialParams frankMlEnv u (.arch .frank ⟨2, .nan, .ninf, .pinf⟩) (some (.vec [.fin 2]))
        = (.arch .frank ⟨2, .nan, .ninf, .pinf⟩, .ok (.vec [.fin 2])) := by
      unfold initialParams
      simp [Option.filter, ParamArg.toVec, Fl.isFin]
    unfold fitCopula
    rw [if_neg (by simp [FitCop.dim]; omega), if_pos hml, hip]
    simp only [estimateMl, stayOpt, ParamArg.toVec, runOpt, calcLogLik]
    rw [if_neg (by simp [Fl.isNan])]
    simp only [FitCop.setParams, FitCop.toFloat, Family.setParams]
    norm_num
    simp only [hL, Fl.neg_fin, Fl.fin_mul_fin]
    norm_num
  · rintro ⟨i, j, h⟩
    have h1 := hr i j
    rw [← hur] at h1
    rcases h with h | h
    · exact absurd (by exact_mod_cast h : ((u i j : ℚ) : ℝ) < 0) (not_lt.mpr h1.1.le)
    · exact absurd (by exact_mod_cast h : (1 : ℝ) < ((u i j : ℚ) : ℝ)) (not_lt.mpr h1.2.le)

end Copulae
