import Verif.Lemmas.GaussMlFit
import Verif.Props.ItauConsistency
import Verif.Props.FitInv

/-!
**C157** Maximum likelihood recovers the correlations of a Gaussian copula.
-/

namespace Copulae

open MeasureTheory ProbabilityTheory Spec CopulaMeasure

variable {d : ℕ} {G : Gen} [MeasurableSpace G.S] {R : Measure G.S}

/-- The pseudo-observations of data simulated from a Gaussian copula, with any continuous margins, are inside the cube and the second
moments of their normal scores are close to the correlations. -/
theorem pobs_scores_likely (hR : IsIdeal G R) {S : Matrix (Fin d) (Fin d) ℝ} (hS : S.PosSemidef) (h1 : ∀ j, S j j = 1)
    {c' : Sampler G d} (h : WithMargins (Sampler.gaussian (fun x => .fin (normCdf x)) S) c') {η δ : ℝ} (hη : 0 < η) (hδ : 0 < δ) :
    ∃ N : ℕ, ∀ n, N ≤ n → Likely R (c'.random n none) δ fun m => ∃ x : Fin n → Fin d → ℝ, m = matFl x ∧
      ∃ r : Fin n → Fin d → ℝ, (∀ i j, 0 < r i j ∧ r i j < 1) ∧ (∀ a b, |scoreMoment r a b - S a b| < η) ∧
        ∀ (ties : String) (t : TieMethod), parseTies ties = .ok t →
          ∃ u, pobsMat x ties = .ok u ∧ ∀ i j, ((u i j : ℚ) : ℝ) = r i j := by
  have := hR.prob
  have hU := gaussLaw_uniform hS h1
  obtain ⟨N, hN⟩ := scoreMoment_likely hS h1 hη hδ
  refine ⟨N, fun n hn => ?_⟩
  have key : ∀ Q : Measure (Fin d → ℝ), IsProbabilityMeasure Q → Atomless Q → HasCopula Q (gaussLaw S) →
      Draws R (c'.random n none) matFl (iid n Q) → Likely R (c'.random n none) δ fun m => ∃ x : Fin n → Fin d → ℝ, m = matFl x ∧
      ∃ r : Fin n → Fin d → ℝ, (∀ i j, 0 < r i j ∧ r i j < 1) ∧ (∀ a b, |scoreMoment r a b - S a b| < η) ∧
        ∀ (ties : String) (t : TieMethod), parseTies ties = .ok t →
          ∃ u, pobsMat x ties = .ok u ∧ ∀ i j, ((u i j : ℚ) : ℝ) = r i j := by
    rintro Q _ hQ ⟨F, hF, hFQ⟩ hd
    have : IsProbabilityMeasure (iid n Q) := by unfold iid; infer_instance
    have hFm : Measurable fun (x : Fin d → ℝ) j => F j (x j) :=
      measurable_pi_lambda _ fun j => (hF j).measurable.comp (measurable_pi_apply j)
    set φ : (Fin n → Fin d → ℝ) → Fin n → Fin d → ℝ := fun x i j => F j (x i j) with hφ
    have hφm : Measurable φ := measurable_pi_lambda _ fun i => hFm.comp (measurable_pi_apply i)
    have hφQ : (iid n Q).map φ = iid n (gaussLaw S) := by
      have h := Measure.pi_map_pi (μ := fun _ : Fin n => Q) (f := fun _ (x : Fin d → ℝ) j => F j (x j)) fun _ => hFm.aemeasurable
      rw [hFQ] at h
      exact h
    have evY : ∀ E : Set (Fin n → Fin d → ℝ), iid n Q {x | φ x ∈ E} ≤ iid n (gaussLaw S) E := fun E => by
      rw [← hφQ]
      exact Measure.le_map_apply hφm.aemeasurable E
    refine likely_of_draws hd ?_
    refine (measure_mono (t := {x | ¬ NoTies x} ∪ {x | φ x ∈ {y | ¬ (NoTies y ∧ ∀ a b, |scoreMoment (unitRanks y) a b - S a b| < η)}})
      fun x hx => ?_).trans ?_
    · by_contra hcon
      simp only [Set.mem_union, not_or] at hcon
      obtain ⟨a1, a2⟩ := hcon
      have b1 : NoTies x := not_not.mp a1
      obtain ⟨b2, b3⟩ : NoTies (φ x) ∧ ∀ a b, |scoreMoment (unitRanks (φ x)) a b - S a b| < η := not_not.mp a2
      refine hx ⟨x, rfl, unitRanks (φ x), unitRanks_mem b2, b3, fun ties t ht => ⟨_, by
        simp only [pobsMat, ht, bind, Except.bind, pure, Except.pure]; rfl, fun i j => ?_⟩⟩
      rw [ranks_eq b1 b2 (fun i k j h => hF j h.le) t i j, unitRanks]
      push_cast
      rfl
    · refine (measure_union_le _ _).trans ?_
      rw [ae_iff.mp (noTies_ae (n := n) hQ), zero_add]
      exact (evY _).trans (hN n hn)
  rcases h with rfl | ⟨m, M, q, hq, hM, rfl⟩
  · exact key _ inferInstance (atomless_of_uniform hU) (hasCopula_self _) (gaussian_random_iid hR hS n)
  · exact key _ (jointLaw_isJoint hU hq).prob (jointLaw_atomless hU hq hM) (jointLaw_hasCopula hU hq hM)
      (marginal_draws hR hU hq _ (fun n => gaussian_random_iid hR hS n) n)

theorem logLikPobs_of_pobs {env : FitEnv} (c : FitCop) {n : ℕ} {x : Fin n → Fin d → ℝ} {ties : String} {u : Fin n → Fin d → ℚ}
    (h : pobsMat x ties = .ok u) : logLikPobs env c x ties = logLik env c u false ties := by
  unfold logLikPobs logLik
  rw [h]
  rfl

/-- **C157** Data simulated from a Gaussian copula with positive definite correlations `S`, alone or with any continuous margins: with a
probability that tends to one, every Gaussian copula object whose `log_lik` of the data (with the default conversion to
pseudo-observations, for every way of ranking ties) is at least that of the copula of the simulation has correlations within `ε` of `S`.
The `log_lik` of the copula of the simulation is a finite number. -/
theorem gaussian_likelihood_near (hR : IsIdeal G R) {f : EllFns} (hf : f.Normal) (hp : NeedsPosDef f) {env : FitEnv}
    (he : GaussLogPdf env f) {S : Matrix (Fin d) (Fin d) ℝ} {s0 : Ell} (hs0 : s0.HasCorr S) {c' : Sampler G d}
    (h : WithMargins (Sampler.gaussian (fun x => .fin (normCdf x)) S) c') {ε δ : ℝ} (hε : 0 < ε) (hδ : 0 < δ) :
    ∃ N : ℕ, ∀ n, N ≤ n → Likely R (c'.random n none) δ fun m => ∃ x : Fin n → Fin d → ℝ, m = matFl x ∧
      ∀ (ties : String) (t : TieMethod), parseTies ties = .ok t →
        ∃ L : ℝ, logLikPobs env (.gaussian s0) x ties = .ok (.fin L) ∧
          ∀ (s : Ell) (v : Fl), logLikPobs env (.gaussian s) x ties = .ok v → .fin L ≤ v →
            ∃ S' : Matrix (Fin d) (Fin d) ℝ, s.HasCorr S' ∧ ∀ i j, |S' i j - S i j| < ε := by
  obtain ⟨η, hη, hnear⟩ := gaussScore_near hs0.pos hε
  obtain ⟨N, hN⟩ := pobs_scores_likely hR hs0.pos.posSemidef hs0.diag h hη hδ
  refine ⟨N + 2, fun n hn => (hN n (by omega)).mono ?_⟩
  rintro m ⟨x, rfl, r, hr, hm, hu⟩
  refine ⟨x, rfl, fun ties t ht => ?_⟩
  obtain ⟨u, hpu, hur⟩ := hu ties t ht
  obtain ⟨k1, k2⟩ := logLik_gauss hf hp he (by omega : n ≠ 1) u hur hr ties
  refine ⟨gaussScore S r, by rw [logLikPobs_of_pobs _ hpu, k1 s0 S hs0], fun s v hv hle => ?_⟩
  rw [logLikPobs_of_pobs _ hpu] at hv
  rcases k2 s v hv with rfl | ⟨S', hS', rfl⟩
  · exact absurd hle Fl.not_fin_le_ninf
  · exact ⟨S', hS', hnear n r (by omega) hm S' hS'.pos hS'.diag (by simpa using hle)⟩

/-- **C157**, `fit`: under the same circumstances, every call of `fit(method='ml')` on a Gaussian copula object, from every starting value
and with every optimiser that reports values it has seen, which succeeds and reports a log-likelihood of at least `scale` times that of the copula
of the simulation, leaves the object with correlations within `ε` of `S`. -/
theorem gaussian_ml_recovers (hR : IsIdeal G R) {f : EllFns} (hf : f.Normal) (hp : NeedsPosDef f) {env : FitEnv}
    (he : GaussLogPdf env f) {S : Matrix (Fin d) (Fin d) ℝ} {s0 : Ell} (hs0 : s0.HasCorr S) {c' : Sampler G d}
    (h : WithMargins (Sampler.gaussian (fun x => .fin (normCdf x)) S) c') {ε δ : ℝ} (hε : 0 < ε) (hδ : 0 < δ) :
    ∃ N : ℕ, ∀ n, N ≤ n → Likely R (c'.random n none) δ fun m => ∃ x : Fin n → Fin d → ℝ, m = matFl x ∧
      ∀ (ties : String) (t : TieMethod), parseTies ties = .ok t →
        ∃ L : ℝ, logLikPobs env (.gaussian s0) x ties = .ok (.fin L) ∧
          ∀ (opt : List Fl → OptTree) (o o' : FitObj) (e : Ell) (x0 : Option ParamArg) (method : String) (k : ℝ) (sm : FitSummary),
            o.cop = .gaussian e → (∀ p, (opt p).Honest []) → pyLower method = "ml".toList → 0 < k →
            o.fitPobs env opt x x0 method ties (.fin k) = (o', .ok ()) → o'.smry = some sm → sm.success = some true →
            .fin (L * k) ≤ sm.logLik →
            ∃ (e' : Ell) (S' : Matrix (Fin d) (Fin d) ℝ), o'.cop = .gaussian e' ∧ e'.HasCorr S' ∧ ∀ i j, |S' i j - S i j| < ε := by
  obtain ⟨η, hη, hnear⟩ := gaussScore_near hs0.pos hε
  obtain ⟨N, hN⟩ := pobs_scores_likely hR hs0.pos.posSemidef hs0.diag h hη hδ
  refine ⟨N + 2, fun n hn => (hN n (by omega)).mono ?_⟩
  rintro m ⟨x, rfl, r, hr, hm, hu⟩
  refine ⟨x, rfl, fun ties t ht => ?_⟩
  obtain ⟨u, hpu, hur⟩ := hu ties t ht
  obtain ⟨k1, k2⟩ := logLik_gauss hf hp he (by omega : n ≠ 1) u hur hr ties
  refine ⟨gaussScore S r, by rw [logLikPobs_of_pobs _ hpu, k1 s0 S hs0], ?_⟩
  intro opt o o' e x0 method k sm ho hopt hml hk hfit hsm hsucc hle
  rw [FitObj.fitPobs, hpu] at hfit
  simp only at hfit
  obtain ⟨sm', q1, -, -, q2⟩ := fit_ml_summary_partial hopt hml hfit
  rw [hsm] at q1
  obtain rfl := Option.some.inj q1
  obtain ⟨-, L, q3, q4, -⟩ := q2 hsucc (fun hc => by rw [hc] at hle; exact absurd hle Fl.not_fin_le_ninf)
  have hkind := fit_keeps_kind env opt o u x0 method ties false (.fin k)
  rw [hfit, ho] at hkind
  obtain ⟨e', he'⟩ : ∃ e', o'.cop = .gaussian e' := by
    rcases hc : o'.cop with ⟨F, st⟩ | e' | ⟨df, e'⟩ <;> rw [hc] at hkind
    · exact hkind.elim
    · exact ⟨e', rfl⟩
    · exact hkind.elim
  rw [he'] at q3
  rcases k2 e' L q3 with rfl | ⟨S', hS', rfl⟩
  · rw [q4, Fl.ninf_mul_fin, Fl.infSign_neg (by linarith)] at hle
    exact absurd hle Fl.not_fin_le_ninf
  · rw [q4, Fl.fin_mul_fin] at hle
    have hle' : gaussScore S r * k ≤ gaussScore S' r * k := by simpa using hle
    exact ⟨e', S', he', hS', hnear n r (by omega) hm S' hS'.pos hS'.diag (le_of_mul_le_mul_right hle' hk)⟩

/-! ### The hypotheses can be met -/

open Classical in
/-- Exact normal distributions; `multivariate_normal.logpdf` rejects matrices that are not positive definite. -/
noncomputable def strictNormal : EllFns :=
  { exactNormal with
    mvnLogpdf := fun d M => if ∃ S : Matrix (Fin d) (Fin d) ℝ, S.PosDef ∧ M = fun i j => .fin (S i j) then exactNormal.mvnLogpdf d M
      else .error .valueError }

theorem strictNormal_ok : strictNormal.Normal where
  ppf := exactNormal_ok.ppf
  ppf_zero := exactNormal_ok.ppf_zero
  ppf_one := exactNormal_ok.ppf_one
  logpdf := exactNormal_ok.logpdf
  mvnCdf := exactNormal_ok.mvnCdf
  mvnLogcdf := exactNormal_ok.mvnLogcdf
  mvnPdf := exactNormal_ok.mvnPdf
  mvnLogpdf d S hS := by
    obtain ⟨F, hF, h⟩ := exactNormal_ok.mvnLogpdf d S hS
    exact ⟨F, by rw [← hF]; exact if_pos ⟨S, hS, rfl⟩, h⟩

theorem strictNormal_needsPosDef : NeedsPosDef strictNormal := by
  intro d M F _ h
  by_cases hM : ∃ S : Matrix (Fin d) (Fin d) ℝ, S.PosDef ∧ M = fun i j => .fin (S i j)
  · exact hM
  · have : strictNormal.mvnLogpdf d M = .error .valueError := if_neg hM
    rw [this] at h
    exact absurd h (by simp)

/-- Outside functions with exact Gaussian densities. -/
noncomputable def exactMlEnv : FitEnv :=
  { exactFitEnv with
    logPdfSum := fun c _ _ u => match c with
      | .gaussian s => do
          let v ← gaussianPdf strictNormal s (fun i j => .fin ((u i j : ℚ) : ℝ)) true
          sumLog v
      | _ => .ok (.fin 3) }

theorem exactMlEnv_ok : GaussLogPdf exactMlEnv strictNormal := fun _ _ _ _ => rfl

theorem twoEll_corr : (⟨2, [.fin (1 / 2)]⟩ : Ell).HasCorr (!![1, 1 / 2; 1 / 2, 1] : Matrix (Fin 2) (Fin 2) ℝ) := by
  refine ⟨rfl, ?_, posDef_half⟩
  rw [Ell.sigma, createCovMatrix_two]
  refine congrArg Except.ok (Sigma.ext rfl (heq_of_eq ?_))
  funext i j
  fin_cases i <;> fin_cases j <;> simp <;> rfl

/-- A copula of dimension two, data with the margins of the simulation. -/
example (seeded : ℕ → ℕ → Answers) :=
  gaussian_ml_recovers (idealGen_isIdeal seeded) strictNormal_ok strictNormal_needsPosDef exactMlEnv_ok twoEll_corr (.inl rfl)
    (ε := 1 / 100) (δ := 1 / 1000) (by norm_num) (by norm_num)

/-- The circumstances of `gaussian_ml_recovers` arise: a fit that starts at the true correlation and stays there succeeds and reports the
log-likelihood of the copula of the simulation. -/
theorem gaussian_ml_example (seeded : ℕ → ℕ → Answers) {δ : ℝ} (hδ : 0 < δ) :
    ∃ N : ℕ, ∀ n, N ≤ n → Likely streamLaw ((Sampler.gaussian (G := idealGen seeded) (fun x => .fin (normCdf x))
      (!![1, 1 / 2; 1 / 2, 1] : Matrix (Fin 2) (Fin 2) ℝ)).random n none) δ fun m => ∃ x : Fin n → Fin 2 → ℝ, m = matFl x ∧
      ∃ L : ℝ, logLikPobs exactMlEnv (.gaussian ⟨2, [.fin (1 / 2)]⟩) x "average" = .ok (.fin L) ∧
        FitObj.fitPobs exactMlEnv stayOpt ⟨.gaussian (Ell.init 2), none⟩ x (some (.vec [.fin (1 / 2)])) "ml" "average" (.fin 1) =
          (⟨.gaussian ⟨2, [.fin (1 / 2)]⟩, some ⟨[.fin (1 / 2)], .fin L, n, some true⟩⟩, .ok ()) := by
  obtain ⟨N, hN⟩ := pobs_scores_likely (idealGen_isIdeal seeded) twoEll_corr.pos.posSemidef twoEll_corr.diag (.inl rfl) one_pos hδ
  refine ⟨N + 2, fun n hn => (hN n (by omega)).mono ?_⟩
  rintro m ⟨x, rfl, r, hr, -, hu⟩
  refine ⟨x, rfl, ?_⟩
  obtain ⟨u, hpu, hur⟩ := hu "average" .average (by rfl)
  obtain ⟨k1, -⟩ := logLik_gauss strictNormal_ok strictNormal_needsPosDef exactMlEnv_ok (by omega : n ≠ 1) u hur hr "average"
  have hL := k1 _ _ twoEll_corr
  refine ⟨_, by rw [logLikPobs_of_pobs _ hpu, hL], ?_⟩
  rw [FitObj.fitPobs, hpu]
  simp only
  unfold FitObj.fit
  simp only [maybePobs, Bool.false_eq_true, if_false]
  rw [if_neg (by simp [FitCop.dim, Ell.init]), if_neg]
  · have hml : pyLower "ml" = "ml".toList := by decide
    have hip : initialParams exactMlEnv u (.gaussian (Ell.init 2)) (some (.vec [.fin (1 / 2)]))
        = (.gaussian (Ell.init 2), .ok (.vec [.fin (1 / 2)])) := by
      unfold initialParams
      simp [Option.filter, ParamArg.toVec, Fl.isFin]
    unfold fitCopula
    rw [if_neg (by simp [FitCop.dim, Ell.init]; omega), if_pos hml, hip]
    simp only [estimateMl, stayOpt, ParamArg.toVec, runOpt, calcLogLik]
    rw [if_neg (by simp [Fl.isNan])]
    simp only [FitCop.setParams, Ell.init]
    simp only [hL, Fl.neg_fin, Fl.fin_mul_fin]
    norm_num
  · rintro ⟨i, j, h⟩
    have h1 := hr i j
    rw [← hur] at h1
    rcases h with h | h
    · exact absurd (by exact_mod_cast h : ((u i j : ℚ) : ℝ) < 0) (not_lt.mpr h1.1.le)
    · exact absurd (by exact_mod_cast h : (1 : ℝ) < ((u i j : ℚ) : ℝ)) (not_lt.mpr h1.2.le)

end Copulae
