import Verif.Props.ItauConsistency
import Verif.Lemmas.Spearman
import Verif.Lemmas.IrhoFit

/-!
C145: Spearman's rho of simulated data converges to `rho` of the copula. C146: fitting a Gaussian copula by inversion of
Spearman's rho to simulated data recovers its correlations.
-/

namespace Copulae

open MeasureTheory ProbabilityTheory Spec CopulaMeasure

variable {d n : ℕ}

/-- The names of Spearman's rho accepted by `corr`. -/
def Spec.RhoName (method : String) : Prop := pyLower method = "spearman".toList ∨ pyLower method = "rho".toList

/-- `corr` of a sample without ties. -/
theorem corr_spearman_value {fns : CorrFns} (hf : IsSpearman fns.spearman) (hn : 2 ≤ n) {x : Fin n → Fin d → ℝ} (hx : NoTies x)
    {method use : String} (hm : RhoName method) {u : CorrUse} (hu : pyLower use = (Spec.useName u).toList) :
    ∃ M, corr fns (.mat d (List.ofFn (matFl x))) none method use = .ok ⟨d, M⟩ ∧ (∀ a, M a a = .fin 1) ∧
      ∀ a b, a < b → M a b = .fin (sampleRho (fun i => x i a) fun i => x i b) ∧
        M b a = .fin (sampleRho (fun i => x i a) fun i => x i b) :=
  corr_value ((corrFunc_names fns method).2.1 hm) (t := fun a b => sampleRho (fun i => x i a) fun i => x i b) (fun a b =>
    hf n _ _ hn (fun i k h => by_contra fun hne => hx a i k hne h) (fun i k h => by_contra fun hne => hx b i k hne h)) hu

theorem spearmanRho_symm (P : Measure (Fin d → ℝ)) (a b : Fin d) : spearmanRho P a b = spearmanRho P b a := by
  unfold spearmanRho
  simp only [mul_comm]

variable {G : Gen} [MeasurableSpace G.S] {R : Measure G.S} {fns : CorrFns}

theorem sampleRho_likely (hR : IsIdeal G R) {P : Measure (Fin d → ℝ)} [IsProbabilityMeasure P] (hP : Uniform P)
    {c c' : Sampler G d} (hc : ∀ n, Draws R (c.random n none) matFl (iid n P)) (h : WithMargins c c') {η δ : ℝ} (hη : 0 < η)
    (hδ : 0 < δ) :
    ∃ N : ℕ, 2 ≤ N ∧ ∀ n, N ≤ n → Likely R (c'.random n none) δ fun m => ∃ x : Fin n → Fin d → ℝ, m = matFl x ∧ NoTies x ∧
      ∀ a b, |sampleRho (fun i => x i a) (fun i => x i b) - spearmanRho P a b| < η := by
  have := hR.prob
  have key : ∀ Q : Measure (Fin d → ℝ), IsProbabilityMeasure Q → Atomless Q → HasCopula Q P →
      (∀ n, Draws R (c'.random n none) matFl (iid n Q)) → ∃ N : ℕ, 2 ≤ N ∧ ∀ n, N ≤ n → Likely R (c'.random n none) δ fun m =>
        ∃ x : Fin n → Fin d → ℝ, m = matFl x ∧ NoTies x ∧
          ∀ a b, |sampleRho (fun i => x i a) (fun i => x i b) - spearmanRho P a b| < η := by
    intro Q _ hQ hcop hd
    obtain ⟨N, hN0, hN⟩ := sampleRho_close hP hQ hcop hη hδ
    refine ⟨N, hN0, fun n hn => ?_⟩
    have : IsProbabilityMeasure (iid n Q) := by unfold iid; infer_instance
    refine likely_of_draws (hd n) ((measure_mono fun x hx => ?_).trans (hN n hn))
    intro hg
    exact hx ⟨x, rfl, hg⟩
  rcases h with rfl | ⟨m, M, q, hq, hM, rfl⟩
  · exact key P inferInstance (atomless_of_uniform hP) (hasCopula_self P) hc
  · exact key _ (jointLaw_isJoint hP hq).prob (jointLaw_atomless hP hq hM) (jointLaw_hasCopula hP hq hM)
      (marginal_draws hR hP hq c hc)

/-! ### C145 -/

/-- The Spearman's rhos that `corr` computes from samples drawn by `random` converge to `t`, up to `slack`: the probability that
one of them is not within `ε` of it tends to zero as the sample grows. -/
def Spec.RhoConverges (R : Measure G.S) (fns : CorrFns) (c : Sampler G d) (t : Fin d → Fin d → ℝ) (slack : ℝ) : Prop :=
  ∀ ε δ : ℝ, 0 < ε → 0 < δ → ∃ N : ℕ, ∀ n, N ≤ n → ∀ (method use : String) (u : CorrUse), RhoName method →
    pyLower use = (Spec.useName u).toList → Likely R (c.random n none) δ (CorrNear fns method use t (ε + slack))

theorem rho_converges_of_draws (hR : IsIdeal G R) (hf : IsSpearman fns.spearman) {P : Measure (Fin d → ℝ)}
    [IsProbabilityMeasure P] (hP : Uniform P) {c c' : Sampler G d} (hc : ∀ n, Draws R (c.random n none) matFl (iid n P))
    (h : WithMargins c c') {t : Fin d → Fin d → ℝ} {slack : ℝ}
    (ht : ∀ a b, a ≠ b → |spearmanRho P a b - t a b| ≤ slack) : RhoConverges R fns c' t slack := by
  intro ε δ hε hδ
  obtain ⟨N, hN0, hN⟩ := sampleRho_likely hR hP hc h hε hδ
  refine ⟨N, fun n hn method use u hm hu => (hN n hn).mono ?_⟩
  rintro m ⟨x, rfl, hx, hg⟩
  obtain ⟨M, hM, -, hv⟩ := corr_spearman_value hf (hN0.trans hn) hx hm hu
  refine ⟨M, hM, fun a b hab => ?_⟩
  have htri : ∀ v, |v - spearmanRho P a b| < ε → |v - t a b| < ε + slack := fun v hv => by
    have := abs_sub_le v (spearmanRho P a b) (t a b)
    have := ht a b hab
    linarith
  rcases lt_or_gt_of_ne hab with h | h
  · exact ⟨_, (hv a b h).1, htri _ (hg a b)⟩
  · exact ⟨_, (hv b a h).2, htri _ (by rw [spearmanRho_symm]; exact hg b a)⟩

/-- **C145**, Gaussian copulas, alone or with any continuous margins: the Spearman's rhos of simulated data converge to the
entries of the property `rho`. -/
theorem gaussian_rho_converges (hR : IsIdeal G R) (hf : IsSpearman fns.spearman) {s : Ell} {S : Matrix (Fin d) (Fin d) ℝ}
    (hs : s.sigma = .ok ⟨d, fun i j => .fin (S i j)⟩) (hS : S.PosSemidef) {c' : Sampler G d}
    (h : WithMargins (Sampler.gaussian (fun x => .fin (normCdf x)) S) c') :
    ∃ T : Fin d → Fin d → ℝ, createCovMatrix s.rho = .ok ⟨d, fun i j => .fin (T i j)⟩ ∧ RhoConverges R fns c' T 0 :=
  ⟨_, gaussian_rho_spearman hs hS, rho_converges_of_draws hR hf
    (gaussLaw_uniform hS (sigma_diag hs)) (fun n => gaussian_random_iid hR hS n) h fun _ _ _ => by simp⟩

/-- **C145**, Frank copulas in two dimensions, alone or with any continuous margins: the Spearman's rho of simulated data converges
to the property `rho`, up to 1e-8. -/
theorem frank_rho_converges (hR : IsIdeal G R) (hf : IsSpearman fns.spearman) {θ : ℝ} (ha : Admissible .frank θ d)
    {c c' : Sampler G d} (hc : SamplesFrom .frank θ c) (h : WithMargins c c') :
    ∃ v, frankRho compiledD1 compiledD2 θ = .fin v ∧ RhoConverges R fns c' (fun _ _ => v) (1 / 10 ^ 8) := by
  obtain ⟨P, hP⟩ := arch_law_exists ha
  have := hP.prob
  have hu := uniform_of_law hP fun j v h0 h1 => copula_margin ha j v h0 h1
  have hd := fun n => samplesFrom_draws hR ha (fun h => by cases h) hP hc n
  have h2 := ha.1
  have hij : (⟨0, by omega⟩ : Fin d) ≠ ⟨1, by omega⟩ := by simp
  obtain ⟨v, hv, -⟩ := frank_rho_spearman ha.2.1 hP hij
  refine ⟨v, hv, rho_converges_of_draws hR hf hu hd h fun a b hab => ?_⟩
  obtain ⟨w, hw, hle⟩ := frank_rho_spearman ha.2.1 hP hab
  rw [Fl.fin.inj (hv.symm.trans hw), abs_sub_comm]
  exact hle

/-- **C145**, Student copulas with at most 10000 degrees of freedom, alone or with any continuous margins, violated: in large
samples the Spearman's rhos are, with probability as close to one as one likes, smaller in absolute value than the entries of the
property `rho`, unless the correlation is -1, 0 or 1. -/
theorem student_sample_rho_smaller (hR : IsIdeal G R) (hf : IsSpearman fns.spearman) {s : Ell} {S : Matrix (Fin d) (Fin d) ℝ}
    (hs : s.sigma = .ok ⟨d, fun i j => .fin (S i j)⟩) (hS : S.PosSemidef) {ν : ℝ} (hν : 0 < ν) (hν' : ν ≤ 10000)
    {c' : Sampler G d} (h : WithMargins (Sampler.student (fun x => .fin ((tLine ν).real (Set.Iic x))) S ν) c') :
    ∃ T : Fin d → Fin d → ℝ, createCovMatrix s.rho = .ok ⟨d, fun i j => .fin (T i j)⟩ ∧
      ∀ a b, a ≠ b → S a b ≠ 0 → |S a b| < 1 → ∃ γ : ℝ, 0 < γ ∧ ∀ δ : ℝ, 0 < δ → ∃ N : ℕ, ∀ n, N ≤ n →
        ∀ (method use : String) (u : CorrUse), RhoName method → pyLower use = (Spec.useName u).toList →
        Likely R (c'.random n none) δ fun m => ∃ M v, corr fns (.mat d (List.ofFn m)) none method use = .ok ⟨d, M⟩ ∧
          M a b = .fin v ∧ |v| < |T a b| - γ := by
  obtain ⟨T, hT, hlt⟩ := student_rho_wrong hs hS hν
  refine ⟨T, hT, fun a b hab h0 h1 => ?_⟩
  have := studentLaw_prob S hν
  have hgap := hlt a b h0 h1
  refine ⟨(|T a b| - |spearmanRho (studentLaw S ν) a b|) / 2, by linarith, fun δ hδ => ?_⟩
  have hconv := rho_converges_of_draws hR hf (studentLaw_uniform hS (sigma_diag hs) hν)
    (fun n => student_random_iid_partial hR hS hν hν' n) h (t := spearmanRho (studentLaw S ν)) (slack := 0) fun _ _ _ => by simp
  obtain ⟨N, hN⟩ := hconv ((|T a b| - |spearmanRho (studentLaw S ν) a b|) / 2) δ (by linarith) hδ
  refine ⟨N, fun n hn method use u hm hu => (hN n hn method use u hm hu).mono ?_⟩
  rintro m ⟨M, hM, hv⟩
  obtain ⟨v, h3, h4⟩ := hv a b hab
  refine ⟨M, v, hM, h3, ?_⟩
  have := abs_sub_abs_le_abs_sub v (spearmanRho (studentLaw S ν) a b)
  linarith

/-! ### C146 -/

/-- **C146** `fit(method='irho')` of a Gaussian copula in three or more dimensions: it succeeds, and the `rho` of every pair of
columns of the fitted copula is that of the sample, provided the matrix of the correlations passes the library's test for positive
semi-definiteness. The log-likelihood, computed at the end of the fit, is assumed not to raise. -/
theorem fit_irho_gaussian {env : FitEnv} {opt : List Fl → OptTree} {o : FitObj} {data u : Fin n → Fin d → ℚ}
    {x0 : Option ParamArg} {method ties : String} {toPobs : Bool} {scale : Fl} {e : Ell} (he : e.WF)
    (hm : pyLower method = "irho".toList) (hc : o.cop = .gaussian e) (hed : e.dim = d) (hd : 3 ≤ d) (hn : d ≤ n)
    (hu : maybePobs data toPobs ties = .ok u) (hr : ∀ i j, 0 ≤ u i j ∧ u i j ≤ 1)
    (T : Fin d → Fin d → ℝ) (hT : ∀ i j, -1 ≤ T i j ∧ T i j ≤ 1) (hT1 : ∀ i, T i i = 1) (hTs : ∀ i j, T i j = T j i)
    (hk : ∀ i j : Fin d, i < j → env.fns.spearman (Spec.col u i) (Spec.col u j) = .ok (.fin (T i j)))
    (hpsd : isPsd fun i j : Fin d => Fl.fin (Real.sin (T i j * Real.pi / 6) * 2))
    (hll : ∀ c (w : Fin n → Fin d → ℚ), ∃ v, env.logPdfSum c n d w = .ok v) :
    (o.fit env opt data x0 method ties toPobs scale).2 = .ok () ∧
    ∃ e', (o.fit env opt data x0 method ties toPobs scale).1.cop = .gaussian e' ∧ e'.dim = d ∧
      ∀ i j : Fin d, ∃ ρ, e'.getItem (ixPair i j) = .ok (.scalar (.fin ρ)) ∧ ellRho (.fin ρ) = .fin (T i j) := by
  obtain ⟨e', s, k1, k2, k3⟩ := fit_irho_core (opt := opt) (x0 := x0) (scale := scale) he hm hc hed hd hn hu hr T hT1 hTs hk hpsd hll
  rw [k1]
  refine ⟨rfl, e', rfl, k2, fun i j => ⟨_, k3 i j, ?_⟩⟩
  obtain ⟨ρ, h1, -, -, h2⟩ := ell_rho_irho.2.1 (T i j) (hT i j).1 (hT i j).2
  rw [ellIrho_fin] at h1
  rw [h1]
  exact h2

/-- **C146**, Gaussian copulas in three or more dimensions (in two, the fit raises, see C73), simulated alone or with any
continuous margins: the probability that `fit(method='irho')` raises, or leaves a correlation that is not within `ε` of that of the
simulation, tends to zero as the sample grows, also when the matrix is singular. -/
theorem gaussian_irho_recovers_partial (hR : IsIdeal G R) {env : FitEnv} (hk : IsSpearman env.fns.spearman)
    (hll : ∀ c n (w : Fin n → Fin d → ℚ), ∃ v, env.logPdfSum c n d w = .ok v) (opt : List Fl → OptTree)
    {S : Matrix (Fin d) (Fin d) ℝ} (hS : S.PosSemidef) (h1 : ∀ j, S j j = 1) (h3 : 3 ≤ d) {c' : Sampler G d}
    (h : WithMargins (Sampler.gaussian (fun x => .fin (normCdf x)) S) c') {o : FitObj} {e : Ell} (he : e.WF)
    (ho : o.cop = .gaussian e) (hed : e.dim = d) :
    ∀ ε δ : ℝ, 0 < ε → 0 < δ → ∃ N : ℕ, ∀ n, N ≤ n → ∀ (x0 : Option ParamArg) (method ties : String) (tm : TieMethod) (scale : Fl),
      pyLower method = "irho".toList → parseTies ties = .ok tm →
      Likely R (c'.random n none) δ fun m => ∃ x : Fin n → Fin d → ℝ, m = matFl x ∧
        (o.fitPobs env opt x x0 method ties scale).2 = .ok () ∧
        CorrFound o e S ε (o.fitPobs env opt x x0 method ties scale).1.cop := by
  intro ε δ hε hδ
  have hpi := Real.pi_pos
  have hd0 : (0 : ℝ) < d := by exact_mod_cast (by omega : 0 < d)
  set ε' : ℝ := min ε (1e-12 / d) with hε'
  have hε0 : 0 < ε' := lt_min hε (by positivity)
  have hdε : d * ε' ≤ 1e-12 := by
    have := min_le_right ε (1e-12 / (d : ℝ))
    calc d * ε' ≤ d * (1e-12 / d) := mul_le_mul_of_nonneg_left this hd0.le
      _ = 1e-12 := by field_simp
  obtain ⟨N, hN0, hN⟩ := sampleRho_likely hR (gaussLaw_uniform hS h1) (fun n => gaussian_random_iid hR hS n) h
    (η := 3 / Real.pi * ε') (by positivity) hδ
  refine ⟨max N d, fun n hn x0 method ties tm scale hm ht => (hN n (le_of_max_le_left hn)).mono ?_⟩
  rintro m ⟨x, rfl, hx, hnear⟩
  obtain ⟨k1, e', k2, k3, k4⟩ := fitPobs_irho_near (opt := opt) (o := o) (x0 := x0) (scale := scale) hx hk
    (fun c w => hll c n w) hm ht he ho hed h3 (le_of_max_le_right hn) hS h1 hε0 hdε fun a b _ => by
      have hab := hnear a b
      obtain ⟨b1, b2⟩ := corr_mem hS (h1 a) (h1 b)
      rw [spearmanRho_gaussLaw hS h1] at hab
      have e0 : S a b = Real.sin (Real.arcsin (S a b / 2)) * 2 := by
        rw [Real.sin_arcsin (by linarith) (by linarith)]
        ring
      rw [e0, ← sub_mul, abs_mul, abs_of_pos (by norm_num : (0 : ℝ) < 2)]
      have e1 : sampleRho (fun i => x i a) (fun i => x i b) * Real.pi / 6 - Real.arcsin (S a b / 2) =
          Real.pi / 6 * (sampleRho (fun i => x i a) (fun i => x i b) - 6 / Real.pi * Real.arcsin (S a b / 2)) := by
        field_simp
      have e2 := Real.abs_sin_sub_sin_le (sampleRho (fun i => x i a) (fun i => x i b) * Real.pi / 6) (Real.arcsin (S a b / 2))
      rw [e1, abs_mul, abs_of_pos (by positivity : (0 : ℝ) < Real.pi / 6)] at e2
      have e3 : Real.pi / 6 * |sampleRho (fun i => x i a) (fun i => x i b) - 6 / Real.pi * Real.arcsin (S a b / 2)|
          < Real.pi / 6 * (3 / Real.pi * ε') := mul_lt_mul_of_pos_left hab (by positivity)
      have e4 : Real.pi / 6 * (3 / Real.pi * ε') = ε' / 2 := by field_simp; norm_num
      linarith
  refine ⟨x, rfl, k1, e', fun _ => k2, fun df hs => ?_, k3, fun i j => ?_⟩
  · rw [ho] at hs
    cases hs
  obtain ⟨ρ, r1, r2⟩ := k4 i j
  exact ⟨ρ, r1, lt_of_lt_of_le r2 (min_le_left _ _)⟩

/-! ### The hypotheses can be met -/

/-- Spearman's rho of two lists. -/
noncomputable def exactSpearman (a b : List Fl) : Except PyErr Fl :=
  .ok (.fin (sampleRho (n := a.length) (fun i => realAt a i) fun i => realAt b i))

theorem exactSpearman_ok : IsSpearman exactSpearman := by
  intro n x y _ _ _
  have key : ∀ (k : ℕ) (hk : k = n) (x' y' : Fin k → ℝ), (∀ i, x' i = x (Fin.cast hk i)) →
      (∀ i, y' i = y (Fin.cast hk i)) → sampleRho x' y' = sampleRho x y := by
    intro k hk x' y' h1 h2
    subst hk
    rw [show x' = x from funext h1, show y' = y from funext h2]
  have hr : ∀ (z : Fin n → ℝ) (i : ℕ) (hi : i < n), realAt (List.ofFn fun i => Fl.fin (z i)) i = z ⟨i, hi⟩ := by
    intro z i hi
    unfold realAt
    rw [List.getD_eq_getElem _ _ (by simpa using hi), List.getElem_ofFn]
  unfold exactSpearman
  rw [key _ (List.length_ofFn) _ _ (fun i => hr x i _) fun i => hr y i _]

/-- SciPy's coefficients with an exact Spearman's rho. -/
noncomputable def rhoFns : CorrFns := ⟨fun _ _ => .error .valueError, fun _ _ => .error .valueError, exactSpearman⟩

example : RhoName "Spearman" ∧ RhoName "rho" := ⟨Or.inl (by decide), Or.inr (by decide)⟩

/-- A Gaussian copula with correlation one half between two uniform margins on `[0, 2]`. -/
example (seeded : ℕ → ℕ → Answers) := gaussian_rho_converges (idealGen_isIdeal seeded) (fns := rhoFns) exactSpearman_ok
  halfEll_corr.sigma posDef_half.posSemidef (c' := Sampler.marginal _ fun _ => uniTwo.ppf)
  (Or.inr ⟨fun _ => uniTwo, fun _ => uniTwoLaw, fun _ u => 2 * u, fun _ => uniTwo_isMarginLaw, fun _ => uniTwoLaw_atomless, rfl⟩)

/-- A Frank copula with parameter -3. -/
example (seeded : ℕ → ℕ → Answers) (ls : ℝ → (n : ℕ) → Rnd (idealGen seeded) (Fin n → Fl)) :=
  frank_rho_converges (idealGen_isIdeal seeded) (fns := rhoFns) exactSpearman_ok
    (θ := -3) ⟨le_rfl, by norm_num, by norm_num, by norm_num⟩
    (c := Sampler.frank ls (-3)) ⟨rfl, ⟨ls, rfl⟩, by norm_num [abs_of_neg]⟩ (Or.inl rfl)

/-- A Student copula with correlation one half and five degrees of freedom. -/
example (seeded : ℕ → ℕ → Answers) := student_sample_rho_smaller (idealGen_isIdeal seeded) (fns := rhoFns)
  exactSpearman_ok halfEll_corr.sigma posDef_half.posSemidef (ν := 5) (by norm_num) (by norm_num) (Or.inl rfl)

/-- Outside functions with an exact Spearman's rho. -/
noncomputable def rhoFitEnv : FitEnv where
  logPdfSum _ _ _ _ := .ok (.fin 3)
  fns := rhoFns
  ext _ M := M
  brentq := exists_brentq.choose
  d1 := debye1

example (seeded : ℕ → ℕ → Answers) (opt : List Fl → OptTree) := gaussian_irho_recovers_partial (idealGen_isIdeal seeded)
  (env := rhoFitEnv) exactSpearman_ok (fun _ _ _ => ⟨_, rfl⟩) opt posSemidef_ones (fun j => by fin_cases j <;> rfl) le_rfl
  (Or.inl rfl) (o := ⟨.gaussian (Ell.init 3), none⟩) (Ell.init_wf (by norm_num)) rfl rfl

end Copulae
