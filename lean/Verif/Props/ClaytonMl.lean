import Verif.Lemmas.ClaytonRanks
import Verif.Props.GaussMl

/-!
**C159** Maximum likelihood recovers the parameter of a Clayton copula.
-/

namespace Copulae

open MeasureTheory ProbabilityTheory Spec CopulaMeasure

variable {d : ℕ} {G : Gen} [MeasurableSpace G.S] {R : Measure G.S}

/-- The pseudo-observations of data with continuous margins are those of the observations of the copula. -/
theorem pobs_ranks_likely (hR : IsIdeal G R) {P : Measure (Fin d → ℝ)} [IsProbabilityMeasure P] (hU : Uniform P) {c c' : Sampler G d}
    (hc : ∀ n, Draws R (c.random n none) matFl (iid n P)) (h : WithMargins c c') {δ : ℝ}
    {E : (n : ℕ) → (Fin n → Fin d → ℝ) → Prop} {n : ℕ}
    (hN : iid n P {y | ¬ (NoTies y ∧ E n (unitRanks y))} ≤ ENNReal.ofReal δ) :
    Likely R (c'.random n none) δ fun m => ∃ x : Fin n → Fin d → ℝ, m = matFl x ∧
      ∃ r : Fin n → Fin d → ℝ, (∀ i j, 0 < r i j ∧ r i j < 1) ∧ E n r ∧
        ∀ (ties : String) (t : TieMethod), parseTies ties = .ok t →
          ∃ u, pobsMat x ties = .ok u ∧ ∀ i j, ((u i j : ℚ) : ℝ) = r i j := by
  have := hR.prob
  have key : ∀ Q : Measure (Fin d → ℝ), IsProbabilityMeasure Q → Atomless Q → HasCopula Q P →
      Draws R (c'.random n none) matFl (iid n Q) → Likely R (c'.random n none) δ fun m => ∃ x : Fin n → Fin d → ℝ, m = matFl x ∧
      ∃ r : Fin n → Fin d → ℝ, (∀ i j, 0 < r i j ∧ r i j < 1) ∧ E n r ∧
        ∀ (ties : String) (t : TieMethod), parseTies ties = .ok t →
          ∃ u, pobsMat x ties = .ok u ∧ ∀ i j, ((u i j : ℚ) : ℝ) = r i j := by
    rintro Q _ hQ ⟨F, hF, hFQ⟩ hd
    have : IsProbabilityMeasure (iid n Q) := by unfold iid; infer_instance
    have hFm : Measurable fun (x : Fin d → ℝ) j => F j (x j) :=
      measurable_pi_lambda _ fun j => (hF j).measurable.comp (measurable_pi_apply j)
    set φ : (Fin n → Fin d → ℝ) → Fin n → Fin d → ℝ := fun x i j => F j (x i j) with hφ
    have hφm : Measurable φ := measurable_pi_lambda _ fun i => hFm.comp (measurable_pi_apply i)
    have hφQ : (iid n Q).map φ = iid n P := by
      have h := Measure.pi_map_pi (μ := fun _ : Fin n => Q) (f := fun _ (x : Fin d → ℝ) j => F j (x j)) fun _ => hFm.aemeasurable
      rw [hFQ] at h
      exact h
    have evY : ∀ E : Set (Fin n → Fin d → ℝ), iid n Q {x | φ x ∈ E} ≤ iid n P E := fun E => by
      rw [← hφQ]
      exact Measure.le_map_apply hφm.aemeasurable E
    refine likely_of_draws hd ?_
    refine (measure_mono (t := {x | ¬ NoTies x} ∪ {x | φ x ∈ {y | ¬ (NoTies y ∧ E n (unitRanks y))}}) fun x hx => ?_).trans ?_
    · by_contra hcon
      simp only [Set.mem_union, not_or] at hcon
      obtain ⟨a1, a2⟩ := hcon
      have b1 : NoTies x := not_not.mp a1
      obtain ⟨b2, b3⟩ : NoTies (φ x) ∧ E n (unitRanks (φ x)) := not_not.mp a2
      refine hx ⟨x, rfl, unitRanks (φ x), unitRanks_mem b2, b3, fun ties t ht => ⟨_, by
        simp only [pobsMat, ht, bind, Except.bind, pure, Except.pure]; rfl, fun i j => ?_⟩⟩
      rw [ranks_eq b1 b2 (fun i k j h => hF j h.le) t i j, unitRanks]
      push_cast
      rfl
    · refine (measure_union_le _ _).trans ?_
      rw [ae_iff.mp (noTies_ae (n := n) hQ), zero_add]
      exact (evY _).trans hN
  rcases h with rfl | ⟨m, M, q, hq, hM, rfl⟩
  · exact key _ inferInstance (atomless_of_uniform hU) (hasCopula_self _) (hc n)
  · exact key _ (jointLaw_isJoint hU hq).prob (jointLaw_atomless hU hq hM) (jointLaw_hasCopula hU hq hM)
      (marginal_draws hR hU hq _ hc n)

/-- The summed log-densities of a Clayton copula are those of the method `pdf` (clayton.py:108-137, base.py:165-166). Without a parameter
`pdf` raises; with an infinite one its rows are NaN: for `inf`, the logarithms of `1 + theta * j` and of `1 + t` are both infinite. -/
structure Spec.ClaytonLogPdf (env : FitEnv) : Prop where
  finite : ∀ (st : ArchState) (θ : ℝ) (n d : ℕ) (u : Fin n → Fin d → ℚ), st.theta = .fin θ → env.logPdfSum (.arch .clayton st) n d u =
    (do let v ← archPdf .clayton θ st.dim (fun i j => .fin ((u i j : ℚ) : ℝ)) true; sumLog v)
  other : ∀ (st : ArchState) (n d : ℕ) (u : Fin n → Fin d → ℚ), (∀ θ, st.theta ≠ .fin θ) → 0 < n → ∀ v,
    env.logPdfSum (.arch .clayton st) n d u = .ok v → v = .nan

theorem clayton_samples (hR : IsIdeal G R) {θ₀ : ℝ} (hθ : 1 / 10 ^ 7 ≤ θ₀) (h2 : 2 ≤ d) :
    ∃ P : Measure (Fin d → ℝ), IsLawOf P (Family.copula .clayton θ₀) ∧ Uniform P ∧
      ∀ n, Draws R ((Sampler.clayton θ₀ : Sampler G d).random n none) matFl (iid n P) := by
  have h0 : 0 < θ₀ := lt_of_lt_of_le (by norm_num) hθ
  have ha : Copulae.Admissible .clayton θ₀ d := ⟨h2, h0.ne', by linarith, fun _ => h0⟩
  obtain ⟨P, hP⟩ := arch_law_exists ha
  exact ⟨P, hP, arch_uniform ha hP, fun n => samplesFrom_draws hR ha (fun _ => by linarith) hP
    (show SamplesFrom .clayton θ₀ (Sampler.clayton θ₀ : Sampler G d) from ⟨rfl, by rwa [abs_of_pos h0]⟩) n⟩

/-- What `log_lik` says about Clayton copula objects, on pseudo-observations `r`. -/
theorem logLik_clayton {env : FitEnv} (he : ClaytonLogPdf env) (h2 : 2 ≤ d) {n : ℕ} (hn : 2 ≤ n) (u : Fin n → Fin d → ℚ) {r : Fin n → Fin d → ℝ}
    (hr : ∀ i j, ((u i j : ℚ) : ℝ) = r i j) (hu : ∀ i j, 0 < r i j ∧ r i j < 1) {θ₀ ε : ℝ} (hθ : 0 < θ₀) (hg : ClaytonGood θ₀ ε r)
    (ties : String) :
    (∀ st : ArchState, st.dim = d → st.theta = .fin θ₀ →
      logLik env (.arch .clayton st) u false ties = .ok (.fin (∑ i, claytonLL θ₀ (r i)))) ∧
    ∀ (st : ArchState) (v : Fl), Spec.Admissible .clayton st.dim st.theta → logLik env (.arch .clayton st) u false ties = .ok v →
      .fin (∑ i, claytonLL θ₀ (r i)) ≤ v → ∃ θ, st.theta = .fin θ ∧ |θ - θ₀| < ε := by
  have hru : (fun i j => Fl.fin ((u i j : ℚ) : ℝ)) = fun i j => Fl.fin (r i j) := by funext i j; rw [hr]
  have hlik : ∀ st : ArchState, logLik env (.arch .clayton st) u false ties = env.logPdfSum (.arch .clayton st) n d u := fun st => by
    simp only [logLik, logLikCut, maybePobs, bind, Except.bind, Bool.false_eq_true, if_false]
  refine ⟨fun st hd ht => ?_, fun st v ha hv hle => ?_⟩
  · rw [hlik, he.finite st θ₀ n d u ht, hru, hd]
    exact archPdf_clayton_sum hθ.le hn hu
  · rw [hlik] at hv
    by_cases hf : ∃ θ, st.theta = .fin θ
    · obtain ⟨θ, hf⟩ := hf
      refine ⟨θ, hf, ?_⟩
      rw [he.finite st θ n d u hf, hru] at hv
      have hd : st.dim = d := by
        by_contra hne
        simp only [archPdf, claytonPdf] at hv
        rw [if_pos (fun e => hne e.symm)] at hv
        simp [bind, Except.bind] at hv
      rw [hd] at hv ha
      rw [hf] at ha
      refine hg θ v (fun h => ?_) (fun h => ?_) hv hle
      · simpa using ha.1 h
      · simpa using ha.2 (by omega)
    · push Not at hf
      rw [he.other st n d u hf (by omega) v hv] at hle
      exact absurd hle Fl.not_le_nan

/-- **C159** Data simulated from a Clayton copula with the parameter `θ₀`, alone or with any continuous margins: with a probability that
tends to one, every Clayton copula object whose `log_lik` of the data (with the default conversion to pseudo-observations, for every way of
ranking ties) is at least that of the copula of the simulation has a parameter within `ε` of `θ₀`. The `log_lik` of the copula of the
simulation is a finite number. -/
theorem clayton_likelihood_near (hR : IsIdeal G R) {env : FitEnv} (he : ClaytonLogPdf env) {θ₀ : ℝ} (hθ : 1 / 10 ^ 7 ≤ θ₀) (h2 : 2 ≤ d)
    {st₀ : ArchState} (hd₀ : st₀.dim = d) (ht₀ : st₀.theta = .fin θ₀) {c' : Sampler G d} (h : WithMargins (Sampler.clayton θ₀) c')
    {ε δ : ℝ} (hε : 0 < ε) (hδ : 0 < δ) :
    ∃ N : ℕ, ∀ n, N ≤ n → Likely R (c'.random n none) δ fun m => ∃ x : Fin n → Fin d → ℝ, m = matFl x ∧
      ∀ (ties : String) (t : TieMethod), parseTies ties = .ok t →
        ∃ L : ℝ, logLikPobs env (.arch .clayton st₀) x ties = .ok (.fin L) ∧
          ∀ (st : ArchState) (v : Fl), Spec.Admissible .clayton st.dim st.theta → logLikPobs env (.arch .clayton st) x ties = .ok v →
            .fin L ≤ v → ∃ θ, st.theta = .fin θ ∧ |θ - θ₀| < ε := by
  have h0 : 0 < θ₀ := lt_of_lt_of_le (by norm_num) hθ
  obtain ⟨P, hP, hU, hdr⟩ := clayton_samples hR hθ h2
  have := hP.prob
  obtain ⟨N, hN⟩ := clayton_ranks_likely h0 h2 hP hU hε hδ
  refine ⟨N + 2, fun n hn => (pobs_ranks_likely hR hU hdr h (E := fun _ r => ClaytonGood θ₀ ε r) (hN n (by omega))).mono ?_⟩
  rintro m ⟨x, rfl, r, hr, hg, hu⟩
  refine ⟨x, rfl, fun ties t ht => ?_⟩
  obtain ⟨u, hpu, hur⟩ := hu ties t ht
  obtain ⟨k1, k2⟩ := logLik_clayton he h2 (by omega) u hur hr h0 hg ties
  refine ⟨∑ i, claytonLL θ₀ (r i), by rw [logLikPobs_of_pobs _ hpu, k1 st₀ hd₀ ht₀], fun st v ha hv hle => ?_⟩
  rw [logLikPobs_of_pobs _ hpu] at hv
  exact k2 st v ha hv hle

/-- **C159**, `fit`: under the same circumstances, every call of `fit(method='ml')` on a Clayton copula object, from every starting value
and with every optimiser that reports values it has seen, which succeeds and reports a log-likelihood of at least `scale` times that of the
copula of the simulation, leaves the object with a parameter within `ε` of `θ₀`. -/
theorem clayton_ml_recovers (hR : IsIdeal G R) {env : FitEnv} (he : ClaytonLogPdf env) {θ₀ : ℝ} (hθ : 1 / 10 ^ 7 ≤ θ₀) (h2 : 2 ≤ d)
    {st₀ : ArchState} (hd₀ : st₀.dim = d) (ht₀ : st₀.theta = .fin θ₀) {c' : Sampler G d} (h : WithMargins (Sampler.clayton θ₀) c')
    {ε δ : ℝ} (hε : 0 < ε) (hδ : 0 < δ) :
    ∃ N : ℕ, ∀ n, N ≤ n → Likely R (c'.random n none) δ fun m => ∃ x : Fin n → Fin d → ℝ, m = matFl x ∧
      ∀ (ties : String) (t : TieMethod), parseTies ties = .ok t →
        ∃ L : ℝ, logLikPobs env (.arch .clayton st₀) x ties = .ok (.fin L) ∧
          ∀ (opt : List Fl → OptTree) (o o' : FitObj) (st : ArchState) (x0 : Option ParamArg) (method : String) (k : ℝ) (sm : FitSummary),
            o.cop = .arch .clayton st → Spec.Admissible .clayton st.dim st.theta → (∀ p, (opt p).Honest []) →
            pyLower method = "ml".toList → 0 < k → o.fitPobs env opt x x0 method ties (.fin k) = (o', .ok ()) → o'.smry = some sm →
            sm.success = some true → .fin (L * k) ≤ sm.logLik →
            ∃ (st' : ArchState) (θ : ℝ), o'.cop = .arch .clayton st' ∧ st'.theta = .fin θ ∧ |θ - θ₀| < ε := by
  have h0 : 0 < θ₀ := lt_of_lt_of_le (by norm_num) hθ
  obtain ⟨P, hP, hU, hdr⟩ := clayton_samples hR hθ h2
  have := hP.prob
  obtain ⟨N, hN⟩ := clayton_ranks_likely h0 h2 hP hU hε hδ
  refine ⟨N + 2, fun n hn => (pobs_ranks_likely hR hU hdr h (E := fun _ r => ClaytonGood θ₀ ε r) (hN n (by omega))).mono ?_⟩
  rintro m ⟨x, rfl, r, hr, hg, hu⟩
  refine ⟨x, rfl, fun ties t ht => ?_⟩
  obtain ⟨u, hpu, hur⟩ := hu ties t ht
  obtain ⟨k1, k2⟩ := logLik_clayton he h2 (by omega) u hur hr h0 hg ties
  refine ⟨∑ i, claytonLL θ₀ (r i), by rw [logLikPobs_of_pobs _ hpu, k1 st₀ hd₀ ht₀], ?_⟩
  intro opt o o' st x0 method k sm ho hst hopt hml hk hfit hsm hsucc hle
  rw [FitObj.fitPobs, hpu] at hfit
  simp only at hfit
  obtain ⟨sm', q1, -, -, q2⟩ := fit_ml_summary_partial hopt hml hfit
  rw [hsm] at q1
  obtain rfl := Option.some.inj q1
  obtain ⟨-, L, q3, q4, -⟩ := q2 hsucc (fun hc => by rw [hc] at hle; exact absurd hle Fl.not_fin_le_ninf)
  obtain ⟨st', he', hd', ha'⟩ := fit_admissible env opt o u x0 method ties false (.fin k) ho hst
  rw [hfit] at he'
  rw [← hd'] at ha'
  have he'' : o'.cop = .arch .clayton st' := he'
  rw [he''] at q3
  have hL : .fin (∑ i, claytonLL θ₀ (r i)) ≤ L := by
    rw [q4] at hle
    cases L with
    | nan => exact absurd hle (by rw [Fl.nan_mul]; exact Fl.not_le_nan)
    | ninf =>
      rw [Fl.ninf_mul_fin, Fl.infSign_neg (by linarith)] at hle
      exact absurd hle Fl.not_fin_le_ninf
    | fin l =>
      rw [Fl.fin_mul_fin] at hle
      have hle' : (∑ i, claytonLL θ₀ (r i)) * k ≤ l * k := by simpa using hle
      simpa using le_of_mul_le_mul_right hle' hk
    | pinf => trivial
  obtain ⟨θ, ht', hθ'⟩ := k2 st' L ha' q3 hL
  exact ⟨st', θ, he'', ht', hθ'⟩

/-! ### The hypotheses can be met -/

/-- Outside functions with exact Clayton densities. -/
noncomputable def claytonMlEnv : FitEnv :=
  { exactFitEnv with
    logPdfSum := fun c _ _ u => match c with
      | .arch .clayton st => match st.theta with
        | .fin θ => do
            let v ← archPdf .clayton θ st.dim (fun i j => .fin ((u i j : ℚ) : ℝ)) true
            sumLog v
        | .nan => .error .assertionError
        | _ => .ok .nan
      | _ => .ok (.fin 3) }

theorem claytonMlEnv_ok : ClaytonLogPdf claytonMlEnv where
  finite st θ n d u h := by
    simp only [claytonMlEnv, h]
  other st n d u h _ v hv := by
    simp only [claytonMlEnv] at hv
    rcases ht : st.theta with _ | _ | θ | _ <;> rw [ht] at hv
    · simp at hv
    · exact (Except.ok.inj hv).symm
    · exact absurd ht (h θ)
    · exact (Except.ok.inj hv).symm

/-- Three dimensions, data with the margins of the simulation. -/
example (seeded : ℕ → ℕ → Answers) :=
  clayton_ml_recovers (idealGen_isIdeal seeded) claytonMlEnv_ok (θ₀ := 2) (by norm_num) (d := 3) (by norm_num) (st₀ := ⟨3, .fin 2, .fin 0, .pinf⟩)
    rfl rfl (.inl rfl) (ε := 1 / 100) (δ := 1 / 1000) (by norm_num) (by norm_num)

/-- The circumstances of `clayton_ml_recovers` arise: a fit that starts at the true parameter and stays there succeeds and reports the
log-likelihood of the copula of the simulation. -/
theorem clayton_ml_example (seeded : ℕ → ℕ → Answers) {δ : ℝ} (hδ : 0 < δ) :
    ∃ N : ℕ, ∀ n, N ≤ n → Likely streamLaw ((Sampler.clayton (G := idealGen seeded) 2 : Sampler (idealGen seeded) 2).random n none) δ
      fun m => ∃ x : Fin n → Fin 2 → ℝ, m = matFl x ∧
      ∃ L : ℝ, logLikPobs claytonMlEnv (.arch .clayton ⟨2, .fin 2, .fin (-1), .pinf⟩) x "average" = .ok (.fin L) ∧
        FitObj.fitPobs claytonMlEnv stayOpt ⟨.arch .clayton ⟨2, .nan, .fin (-1), .pinf⟩, none⟩ x (some (.vec [.fin 2])) "ml" "average" (.fin 1) =
          (⟨.arch .clayton ⟨2, .fin 2, .fin (-1), .pinf⟩, some ⟨[.fin 2], .fin L, n, some true⟩⟩, .ok ()) := by
  obtain ⟨P, hP, hU, hdr⟩ := clayton_samples (idealGen_isIdeal seeded) (θ₀ := 2) (by norm_num) (le_refl 2)
  have := hP.prob
  obtain ⟨N, hN⟩ := clayton_ranks_likely two_pos (le_refl 2) hP hU one_pos hδ
  refine ⟨N + 2, fun n hn => (pobs_ranks_likely (idealGen_isIdeal seeded) hU hdr (.inl rfl) (E := fun _ r => ClaytonGood 2 1 r)
    (hN n (by omega))).mono ?_⟩
  rintro m ⟨x, rfl, r, hr, hg, hu⟩
  refine ⟨x, rfl, ?_⟩
  obtain ⟨u, hpu, hur⟩ := hu "average" .average (by rfl)
  obtain ⟨k1, -⟩ := logLik_clayton claytonMlEnv_ok (le_refl 2) (by omega) u hur hr two_pos hg "average"
  have hL := k1 ⟨2, .fin 2, .fin (-1), .pinf⟩ rfl rfl
  refine ⟨_, by rw [logLikPobs_of_pobs _ hpu, hL], ?_⟩
  rw [FitObj.fitPobs, hpu]
  simp only
  unfold FitObj.fit
  simp only [maybePobs, Bool.false_eq_true, if_false]
  rw [if_neg (by simp [FitCop.dim]), if_neg]
  · have hml : pyLower "ml" = "ml".toList := by decide
    have hip : initialParams claytonMlEnv u (.arch .clayton ⟨2, .nan, .fin (-1), .pinf⟩) (some (.vec [.fin 2]))
        = (.arch .clayton ⟨2, .nan, .fin (-1), .pinf⟩, .ok (.vec [.fin 2])) := by
      unfold initialParams
      simp [Option.filter, ParamArg.toVec, Fl.isFin]
    unfold fitCopula
    rw [if_neg (by simp [FitCop.dim]; omega), if_pos hml, hip]
    simp only [estimateMl, stayOpt, ParamArg.toVec, runOpt, calcLogLik]
    rw [if_neg (by simp [Fl.isNan])]
    simp only [FitCop.setParams, FitCop.toFloat, Family.setParams]
    norm_num
    simp only [hL, Fl.neg_fin, Fl.fin_mul_fin]
    norm_num
  · rintro ⟨i, j, h⟩
    have h1 := hr i j
    rw [← hur] at h1
    rcases h with h | h
    · exact absurd (by exact_mod_cast h : ((u i j : ℚ) : ℝ) < 0) (not_lt.mpr h1.1.le)
    · exact absurd (by exact_mod_cast h : (1 : ℝ) < ((u i j : ℚ) : ℝ)) (not_lt.mpr h1.2.le)

end Copulae
