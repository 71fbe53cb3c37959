import Verif.Props.Consistency
import Verif.Lemmas.ItauFit

/-!
C143: fitting by inversion of Kendall's tau to simulated data recovers the parameters of the copula.
-/

namespace Copulae

open MeasureTheory ProbabilityTheory Spec CopulaMeasure

variable {d : ℕ} {G : Gen} [MeasurableSpace G.S] {R : Measure G.S}

/-- `fit(method='itau')` of the object `o` to data drawn by `random` of the sampler `c`: the probability that it raises or
leaves a copula that is not `good` up to `ε` tends to zero as the sample grows, for every way of ranking ties, starting value and scale. -/
def Spec.ItauRecovers (R : Measure G.S) (env : FitEnv) (opt : List Fl → OptTree) (o : FitObj) (c : Sampler G d)
    (good : ℝ → FitCop → Prop) : Prop :=
  ∀ ε δ : ℝ, 0 < ε → 0 < δ → ∃ N : ℕ, ∀ n, N ≤ n → ∀ (x0 : Option ParamArg) (method ties : String) (tm : TieMethod) (scale : Fl),
    pyLower method = "itau".toList → parseTies ties = .ok tm →
    Likely R (c.random n none) δ fun m => ∃ x : Fin n → Fin d → ℝ, m = matFl x ∧
      (o.fitPobs env opt x x0 method ties scale).2 = .ok () ∧ good ε (o.fitPobs env opt x x0 method ties scale).1.cop

theorem sampleTau_likely (hR : IsIdeal G R) {P : Measure (Fin d → ℝ)} [IsProbabilityMeasure P] (hP : Uniform P)
    {c c' : Sampler G d} (hc : ∀ n, Draws R (c.random n none) matFl (iid n P)) (h : WithMargins c c') {η δ : ℝ} (hη : 0 < η)
    (hδ : 0 < δ) :
    ∃ N : ℕ, ∀ n, N ≤ n → Likely R (c'.random n none) δ fun m => ∃ x : Fin n → Fin d → ℝ, m = matFl x ∧ NoTies x ∧
      ∀ a b, a < b → |sampleTau (fun i => x i a) (fun i => x i b) - kendallTau P a b| < η := by
  have := hR.prob
  obtain ⟨N, hN⟩ := exists_nat_gt (2 * d * (d - 1) / (δ * η ^ 2))
  refine ⟨N + 2, fun n hn => ?_⟩
  have key : ∀ Q : Measure (Fin d → ℝ), IsProbabilityMeasure Q → Atomless Q → kendallTau Q = kendallTau P →
      Draws R (c'.random n none) matFl (iid n Q) → Likely R (c'.random n none) δ fun m => ∃ x : Fin n → Fin d → ℝ,
        m = matFl x ∧ NoTies x ∧ ∀ a b, a < b → |sampleTau (fun i => x i a) (fun i => x i b) - kendallTau P a b| < η := by
    intro Q _ hQ hk hd
    have : IsProbabilityMeasure (iid n Q) := by unfold iid; infer_instance
    refine likely_of_draws hd ?_
    refine (measure_mono fun x hx => ?_).trans ((sampleTau_close hQ (show 2 ≤ n by omega) hη).trans
      (ENNReal.ofReal_le_ofReal ?_))
    · intro hg
      rw [hk] at hg
      exact hx ⟨x, rfl, hg⟩
    · have hn1 : (N : ℝ) + 1 ≤ n - 1 := by
        have : (N : ℝ) + 2 ≤ n := by exact_mod_cast hn
        linarith
      have hN0 : (0 : ℝ) ≤ N := Nat.cast_nonneg N
      rw [div_lt_iff₀ (by positivity)] at hN
      rw [div_le_iff₀ (mul_pos (by linarith) (by positivity))]
      have : (N : ℝ) * (δ * η ^ 2) ≤ (n - 1) * (δ * η ^ 2) := mul_le_mul_of_nonneg_right (by linarith) (by positivity)
      linarith
  rcases h with rfl | ⟨m, M, q, hq, hM, rfl⟩
  · exact key P inferInstance (atomless_of_uniform hP) rfl (hc n)
  · exact key _ (jointLaw_isJoint hP hq).prob (jointLaw_atomless hP hq hM) (jointLaw_kendall hP hq hM)
      (marginal_draws hR hP hq c hc n)

theorem Spec.Likely.mono {α : Type} {c : Rnd G α} {δ : ℝ} {good good' : α → Prop} (h : Likely R c δ good)
    (hg : ∀ a, good a → good' a) : Likely R c δ good' := by
  refine (measure_mono ?_).trans h
  intro s hs
  rintro ⟨a, s', he, ha⟩
  exact hs ⟨a, s', he, hg a ha⟩

theorem archTau_real {F : Family} {θ : ℝ} (ha : Admissible F θ d) {P : Measure (Fin d → ℝ)} (hP : IsLawOf P (F.copula θ))
    {a b : Fin d} (hab : a ≠ b) : kendallTau P a b = tauReal F θ := by
  have := hP.prob
  cases F with
  | clayton =>
    have h := clayton_tau_kendall ha.2.2.1 ha.2.1 hP hab
    have h1 := ha.2.2.1
    rw [claytonTau, if_neg (by linarith)] at h
    exact (Except.ok.inj h).symm
  | gumbel =>
    have h := gumbel_tau_kendall ha.2 hP hab
    have h1 := ha.2
    rw [gumbelTau, if_neg (by linarith)] at h
    exact (Except.ok.inj h).symm
  | frank =>
    have h0 := ha.2.1
    have hpair := (pairLaw_of_law hP hab).congr (C' := frankC2 θ) fun a b ha _ hb _ => frank_pairPoint h0 hab ha hb
    rw [kendallTau_pair, frank_pair_tau h0 hpair]
    rfl

/-- **C143**, Archimedean copulas (Frank copulas in two dimensions), simulated alone or with any continuous margins: the
estimate is a copula of the family whose parameter is within `ε` of the parameter of the simulation. The log-likelihood, computed
at the end of the fit, is assumed not to raise. -/
theorem arch_itau_recovers (hR : IsIdeal G R) {env : FitEnv} (hk : IsKendall env.fns.kendall)
    (hll : ∀ c n (w : Fin n → Fin d → ℚ), ∃ v, env.logPdfSum c n d w = .ok v) (opt : List Fl → OptTree) {F : Family} {θ : ℝ}
    (ha : Admissible F θ d) (hr : Recoverable env F θ) {c c' : Sampler G d} (hc : SamplesFrom F θ c) (h : WithMargins c c')
    {o : FitObj} {st : ArchState} (ho : o.cop = .arch F st) (hdim : st.dim = d) :
    ItauRecovers R env opt o c' fun ε cop => ∃ r : ℝ, cop = .arch F { st with theta := .fin r } ∧ |r - θ| < ε := by
  intro ε δ hε hδ
  obtain ⟨P, hP⟩ := arch_law_exists ha
  have := hP.prob
  have hu := uniform_of_law hP fun j v h0 h1 => copula_margin ha j v h0 h1
  have hne : F = .clayton → θ ≠ -1 := by
    rintro rfl
    have : -1 < θ := hr
    exact this.ne'
  have hd := fun n => samplesFrom_draws hR ha hne hP hc n
  obtain ⟨ε', hε', hle, hset⟩ : ∃ ε', 0 < ε' ∧ ε' ≤ ε ∧ ∀ r, |r - θ| < ε' → (F.setParams st (.fin r)).2 = none := by
    cases F with
    | clayton =>
      have h1 : -1 < θ := hr
      by_cases h2 : d = 2
      · refine ⟨min ε (θ + 1), lt_min hε (by linarith), min_le_left _ _, fun r hr => ?_⟩
        have := (abs_lt.mp (lt_of_lt_of_le hr (min_le_right _ _))).1
        simp only [Family.setParams]
        rw [if_neg (by rw [Fl.fin_lt_fin]; rintro ⟨-, h⟩; linarith), if_neg (by rw [hdim]; omega)]
      · have h3 := ha.2.2.2 h2
        refine ⟨min ε θ, lt_min hε h3, min_le_left _ _, fun r hr => ?_⟩
        have := (abs_lt.mp (lt_of_lt_of_le hr (min_le_right _ _))).1
        simp only [Family.setParams]
        rw [if_neg (by rw [hdim]; rintro ⟨h, -⟩; exact h2 h), if_neg (by rw [Fl.fin_lt_fin]; rintro ⟨-, h⟩; linarith)]
    | gumbel =>
      have h1 : 1 < θ := hr
      refine ⟨min ε (θ - 1), lt_min hε (by linarith), min_le_left _ _, fun r hr => ?_⟩
      have := (abs_lt.mp (lt_of_lt_of_le hr (min_le_right _ _))).1
      simp only [Family.setParams]
      rw [if_neg (by rw [Fl.fin_lt_fin]; linarith)]
    | frank =>
      have h2 : d = 2 := hc.1
      refine ⟨ε, hε, le_rfl, fun r _ => ?_⟩
      simp only [Family.setParams]
      rw [if_neg (by rw [hdim]; omega)]
  obtain ⟨η, hη, hinv⟩ := invTau_near hr hε'
  obtain ⟨N, hN⟩ := sampleTau_likely hR hu hd h hη hδ
  refine ⟨max N d, fun n hn x0 method ties tm scale hm ht => (hN n (le_of_max_le_left hn)).mono ?_⟩
  rintro m ⟨x, rfl, hx, hnear⟩
  obtain ⟨h1, r, h2, h3⟩ := fitPobs_arch_near (opt := opt) (o := o) (x0 := x0) (scale := scale) hx hk (fun c w => hll c n w) hm ht
    ho hdim ha.1 (le_of_max_le_right hn) (θ := θ) (ε := ε') (fun a b hab => hinv _ (by
      rw [← archTau_real ha hP hab.ne]; exact hnear a b hab)) hset
  exact ⟨x, rfl, h1, r, h2, lt_of_lt_of_le h3 hle⟩

/-- The recovered correlations. -/
def Spec.CorrFound (o : FitObj) (e : Ell) (S : Matrix (Fin d) (Fin d) ℝ) (ε : ℝ) (cop : FitCop) : Prop :=
  ∃ e' : Ell, (o.cop = .gaussian e → cop = .gaussian e') ∧ (∀ df, o.cop = .student df e → cop = .student df e') ∧ e'.dim = d ∧
    ∀ i j : Fin d, ∃ ρ, e'.getItem (ixPair i j) = .ok (.scalar (.fin ρ)) ∧ |ρ - S i j| < ε

theorem ell_itau_recovers (hR : IsIdeal G R) {env : FitEnv} (hk : IsKendall env.fns.kendall)
    (hll : ∀ c n (w : Fin n → Fin d → ℚ), ∃ v, env.logPdfSum c n d w = .ok v) (opt : List Fl → OptTree)
    {S : Matrix (Fin d) (Fin d) ℝ} (hS : S.PosSemidef) (h1 : ∀ j, S j j = 1) (h3 : 3 ≤ d)
    {P : Measure (Fin d → ℝ)} [IsProbabilityMeasure P] (hP : Uniform P) {c c' : Sampler G d}
    (hc : ∀ n, Draws R (c.random n none) matFl (iid n P)) (h : WithMargins c c')
    (hkt : ∀ i j, kendallTau P i j = 2 / Real.pi * Real.arcsin (S i j))
    {o : FitObj} {e : Ell} (he : e.WF) (ho : o.cop = .gaussian e ∨ ∃ df, o.cop = .student df e) (hed : e.dim = d) :
    ItauRecovers R env opt o c' (CorrFound o e S) := by
  intro ε δ hε hδ
  have hpi := Real.pi_pos
  have hd0 : (0 : ℝ) < d := by exact_mod_cast (by omega : 0 < d)
  set ε' : ℝ := min ε (1e-12 / d) with hε'
  have hε0 : 0 < ε' := lt_min hε (by positivity)
  have hdε : d * ε' ≤ 1e-12 := by
    have := min_le_right ε (1e-12 / (d : ℝ))
    calc d * ε' ≤ d * (1e-12 / d) := mul_le_mul_of_nonneg_left this hd0.le
      _ = 1e-12 := by field_simp
  obtain ⟨N, hN⟩ := sampleTau_likely hR hP hc h (η := 2 / Real.pi * ε') (by positivity) hδ
  refine ⟨max N d, fun n hn x0 method ties tm scale hm ht => (hN n (le_of_max_le_left hn)).mono ?_⟩
  rintro m ⟨x, rfl, hx, hnear⟩
  obtain ⟨k1, e', k2, k3, k4, k5⟩ := fitPobs_ell_near (opt := opt) (o := o) (x0 := x0) (scale := scale) hx hk
    (fun c w => hll c n w) hm ht he ho hed h3 (le_of_max_le_right hn) hS h1 hε0 hdε fun a b hab => by
      have hab' := hnear a b hab
      obtain ⟨b1, b2⟩ := corr_mem hS (h1 a) (h1 b)
      rw [hkt] at hab'
      rw [← Real.sin_arcsin b1 b2]
      refine lt_of_le_of_lt (Real.abs_sin_sub_sin_le _ _) ?_
      have e1 : Real.pi * sampleTau (fun i => x i a) (fun i => x i b) / 2 - Real.arcsin (S a b) =
          Real.pi / 2 * (sampleTau (fun i => x i a) (fun i => x i b) - 2 / Real.pi * Real.arcsin (S a b)) := by
        field_simp
      rw [e1, abs_mul, abs_of_pos (by positivity)]
      calc Real.pi / 2 * _ < Real.pi / 2 * (2 / Real.pi * ε') := mul_lt_mul_of_pos_left hab' (by positivity)
        _ = ε' := by field_simp
  refine ⟨x, rfl, k1, e', k2, k3, k4, fun i j => ?_⟩
  obtain ⟨ρ, r1, r2⟩ := k5 i j
  exact ⟨ρ, r1, lt_of_lt_of_le r2 (min_le_left _ _)⟩

/-- **C143**, Gaussian copulas in three or more dimensions (in two, the fit raises, see C73), simulated alone or with any
continuous margins: every correlation of the fitted copula is within `ε` of that of the simulation, also when the matrix is
singular. Student copulas fitted to these data likewise. -/
theorem gaussian_itau_recovers_partial (hR : IsIdeal G R) {env : FitEnv} (hk : IsKendall env.fns.kendall)
    (hll : ∀ c n (w : Fin n → Fin d → ℚ), ∃ v, env.logPdfSum c n d w = .ok v) (opt : List Fl → OptTree)
    {S : Matrix (Fin d) (Fin d) ℝ} (hS : S.PosSemidef) (h1 : ∀ j, S j j = 1) (h3 : 3 ≤ d) {c' : Sampler G d}
    (h : WithMargins (Sampler.gaussian (fun x => .fin (normCdf x)) S) c') {o : FitObj} {e : Ell} (he : e.WF)
    (ho : o.cop = .gaussian e ∨ ∃ df, o.cop = .student df e) (hed : e.dim = d) :
    ItauRecovers R env opt o c' (CorrFound o e S) :=
  ell_itau_recovers hR hk hll opt hS h1 h3 (gaussLaw_uniform hS h1) (fun n => gaussian_random_iid hR hS n) h
    (fun i j => kendallTau_gaussLaw hS h1 i j) he ho hed

/-- **C143**, Student copulas with at most 10000 degrees of freedom in three or more dimensions: likewise; the degrees of
freedom of the fitted copula are those it had before. -/
theorem student_itau_recovers_partial (hR : IsIdeal G R) {env : FitEnv} (hk : IsKendall env.fns.kendall)
    (hll : ∀ c n (w : Fin n → Fin d → ℚ), ∃ v, env.logPdfSum c n d w = .ok v) (opt : List Fl → OptTree)
    {S : Matrix (Fin d) (Fin d) ℝ} (hS : S.PosSemidef) (h1 : ∀ j, S j j = 1) (h3 : 3 ≤ d) {ν : ℝ} (hν : 0 < ν)
    (hν' : ν ≤ 10000) {c' : Sampler G d}
    (h : WithMargins (Sampler.student (fun x => .fin ((tLine ν).real (Set.Iic x))) S ν) c') {o : FitObj} {e : Ell} (he : e.WF)
    (ho : o.cop = .gaussian e ∨ ∃ df, o.cop = .student df e) (hed : e.dim = d) :
    ItauRecovers R env opt o c' (CorrFound o e S) := by
  have := studentLaw_prob S hν
  exact ell_itau_recovers hR hk hll opt hS h1 h3 (studentLaw_uniform hS h1 hν)
    (fun n => student_random_iid_partial hR hS hν hν' n) h (fun i j => kendallTau_studentLaw hS h1 hν i j) he ho hed

/-! ### The hypotheses can be met -/

/-- Outside functions with an exact Kendall's tau, root finder and Debye function. -/
noncomputable def exactFitEnv : FitEnv where
  logPdfSum _ _ _ _ := .ok (.fin 3)
  fns := exactFns
  ext _ M := M
  brentq := exists_brentq.choose
  d1 := debye1

/-- A Clayton copula of dimension three with parameter 2, fitted from the parameter 7. -/
example (seeded : ℕ → ℕ → Answers) (opt : List Fl → OptTree) :=
  arch_itau_recovers (idealGen_isIdeal seeded) (env := exactFitEnv) exactKendall_ok (fun _ _ _ => ⟨_, rfl⟩) opt (d := 3)
    (F := .clayton) (θ := 2) ⟨by norm_num, by norm_num, by norm_num, by norm_num⟩ (show (-1 : ℝ) < 2 by norm_num)
    (c := Sampler.clayton 2) ⟨rfl, by norm_num⟩ (Or.inl rfl) (o := ⟨.arch .clayton ⟨3, .fin 7, .fin 0, .pinf⟩, none⟩) rfl rfl

/-- A Frank copula with parameter -3 between uniform margins on `[0, 2]`. -/
example (seeded : ℕ → ℕ → Answers) (opt : List Fl → OptTree) (ls : ℝ → (n : ℕ) → Rnd (idealGen seeded) (Fin n → Fl)) :=
  arch_itau_recovers (idealGen_isIdeal seeded) (env := exactFitEnv) exactKendall_ok (fun _ _ _ => ⟨_, rfl⟩) opt (F := .frank)
    (θ := -3) ⟨le_rfl, by norm_num, by norm_num, by norm_num⟩
    ⟨exists_brentq.choose_spec, fun _ _ => rfl, by norm_num [abs_of_neg], by norm_num [abs_of_neg]⟩
    (c := Sampler.frank ls (-3)) ⟨rfl, ⟨ls, rfl⟩, by norm_num [abs_of_neg]⟩ (c' := Sampler.marginal _ fun _ => uniTwo.ppf)
    (Or.inr ⟨fun _ => uniTwo, fun _ => uniTwoLaw, fun _ u => 2 * u, fun _ => uniTwo_isMarginLaw, fun _ => uniTwoLaw_atomless, rfl⟩)
    (o := ⟨.arch .frank ⟨2, .nan, .ninf, .pinf⟩, none⟩) rfl rfl

/-- The singular matrix of three equal variables. -/
theorem posSemidef_ones : (!![1, 1, 1; 1, 1, 1; 1, 1, 1] : Matrix (Fin 3) (Fin 3) ℝ).PosSemidef :=
  .of_dotProduct_mulVec_nonneg (by ext i j; fin_cases i <;> fin_cases j <;> simp) fun x => by
    simp [Matrix.mulVec, dotProduct, Fin.sum_univ_three]
    nlinarith [sq_nonneg (x 0 + x 1 + x 2)]

example (seeded : ℕ → ℕ → Answers) (opt : List Fl → OptTree) := gaussian_itau_recovers_partial (idealGen_isIdeal seeded)
  (env := exactFitEnv) exactKendall_ok (fun _ _ _ => ⟨_, rfl⟩) opt posSemidef_ones (fun j => by fin_cases j <;> rfl) le_rfl
  (Or.inl rfl) (o := ⟨.gaussian (Ell.init 3), none⟩) (Ell.init_wf (by norm_num)) (Or.inl rfl) rfl

example (seeded : ℕ → ℕ → Answers) (opt : List Fl → OptTree) := student_itau_recovers_partial (idealGen_isIdeal seeded)
  (env := exactFitEnv) exactKendall_ok (fun _ _ _ => ⟨_, rfl⟩) opt posSemidef_ones (fun j => by fin_cases j <;> rfl) le_rfl
  (ν := 5) (by norm_num) (by norm_num) (Or.inl rfl) (o := ⟨.student (.fin 4) (Ell.init 3), none⟩) (Ell.init_wf (by norm_num))
  (Or.inr ⟨_, rfl⟩) rfl

example : pyLower "iTau" = "itau".toList ∧ parseTies "Ordinal" = .ok .ordinal := by decide

end Copulae
