import Verif.Props.Consistency
import Verif.Lemmas.EmpConsistency

/-!
C144: the distribution function of an empirical copula of simulated data converges to that of the copula.
-/

namespace Copulae

open MeasureTheory ProbabilityTheory Spec CopulaMeasure

variable {d : ℕ} {G : Gen} [MeasurableSpace G.S] {R : Measure G.S}

/-- `EmpiricalCopula(c.random(n), smoothing, ties, offset).cdf(u)`: the probability that it is off from `C` by `ε` or more for some
smoothing, some way of ranking ties or some points `u` of the unit cube tends to zero as the sample grows. -/
def Spec.EmpiricalLearns (R : Measure G.S) (btdtr : ℝ → ℝ → Fl → Fl) (c : Sampler G d) (C : (Fin d → ℝ) → ℝ) : Prop :=
  ∀ ε δ offset : ℝ, 0 < ε → 0 < δ → 0 ≤ offset → ∃ N : ℕ, ∀ n, N ≤ n →
    Likely R (c.random n none) δ fun m => ∃ x : Fin n → Fin d → ℝ, m = matFl x ∧
      ∀ (opt : Option String) (s : Smoothing) (ties : String) (tm : TieMethod), parseSmoothing opt = .ok s →
        parseTies ties = .ok tm → ∀ (k : ℕ) (u : Fin k → Fin d → ℝ), (∀ i j, 0 ≤ u i j ∧ u i j ≤ 1) →
        ∃ v : Fin k → ℝ, empCdf btdtr x s ties offset (fun i j => .fin (u i j)) false = .ok (fun i => .fin (v i)) ∧
          ∀ i, |v i - C (u i)| < ε

theorem empirical_learns_of_draws (hR : IsIdeal G R) {btdtr : ℝ → ℝ → Fl → Fl} (hb : IsBtdtr btdtr) {P : Measure (Fin d → ℝ)}
    [IsProbabilityMeasure P] (hP : Uniform P) {c c' : Sampler G d} (hc : ∀ n, Draws R (c.random n none) matFl (iid n P))
    (h : WithMargins c c') : EmpiricalLearns R btdtr c' (distFn P) := by
  have := hR.prob
  intro ε δ offset hε hδ ho
  have key : ∀ Q : Measure (Fin d → ℝ), IsProbabilityMeasure Q → Atomless Q → HasCopula Q P →
      (∀ n, Draws R (c'.random n none) matFl (iid n Q)) → ∃ N : ℕ, ∀ n, N ≤ n →
      Likely R (c'.random n none) δ fun m => ∃ x : Fin n → Fin d → ℝ, m = matFl x ∧
        ∀ (opt : Option String) (s : Smoothing) (ties : String) (tm : TieMethod), parseSmoothing opt = .ok s →
          parseTies ties = .ok tm → ∀ (k : ℕ) (u : Fin k → Fin d → ℝ), (∀ i j, 0 ≤ u i j ∧ u i j ≤ 1) →
          ∃ v : Fin k → ℝ, empCdf btdtr x s ties offset (fun i j => .fin (u i j)) false = .ok (fun i => .fin (v i)) ∧
            ∀ i, |v i - distFn P (u i)| < ε := by
    intro Q _ hQ hcop hd
    obtain ⟨N, hN0, hN⟩ := empReal_close hP hQ hcop ho hε hδ
    refine ⟨N, fun n hn => ?_⟩
    have : IsProbabilityMeasure (iid n Q) := by unfold iid; infer_instance
    refine likely_of_draws (hd n) ((measure_mono fun x hx => ?_).trans (hN n hn))
    intro hg
    refine hx ⟨x, rfl, fun opt s ties tm _ ht k u hu => ?_⟩
    have hn' : (0 : ℝ) < n := by exact_mod_cast (by omega : 0 < n)
    refine ⟨_, empCdf_value hb x s ht (by positivity) (fun i j => (hu i j).1) (fun i j => (hu i j).2) false, fun i => ?_⟩
    exact hg s tm (u i) (fun j => (hu i j).1) fun j => (hu i j).2
  rcases h with rfl | ⟨m, M, q, hq, hM, rfl⟩
  · exact key P inferInstance (atomless_of_uniform hP) (hasCopula_self P) hc
  · exact key _ (jointLaw_isJoint hP hq).prob (jointLaw_atomless hP hq hM) (jointLaw_hasCopula hP hq hM)
      (marginal_draws hR hP hq c hc)

/-- `C` is what `cdf` of the copula computes, where the points are in `D`. -/
def Spec.CdfIs (c : Inner d) (D : ℝ → Prop) (C : (Fin d → ℝ) → ℝ) : Prop :=
  ∀ (k : ℕ) (u : Fin k → Fin d → ℝ), (∀ i j, D (u i j)) → (∀ i j, 0 ≤ u i j ∧ u i j ≤ 1) →
    c.cdf (fun i j => .fin (u i j)) false = .ok (fun i => .fin (C (u i)))

/-- **C144**, Archimedean copulas (Frank copulas in two dimensions), alone or with any continuous margins. The `cdf` of Frank
copulas computes the limit at coordinates above 1/100 (C03). -/
theorem arch_empirical_learns (hR : IsIdeal G R) {btdtr : ℝ → ℝ → Fl → Fl} (hb : IsBtdtr btdtr) {F : Family} {θ : ℝ}
    (ha : Admissible F θ d) (hne : F = .clayton → θ ≠ -1) {c c' : Sampler G d} (hc : SamplesFrom F θ c) (h : WithMargins c c') :
    ∃ C, CdfIs (archInner F θ d) (CdfDomain F) C ∧ EmpiricalLearns R btdtr c' C := by
  obtain ⟨P, hP⟩ := arch_law_exists ha
  have := hP.prob
  have hu := uniform_of_law hP fun j v h0 h1 => copula_margin ha j v h0 h1
  exact ⟨distFn P, fun k u hD hu => (arch_cdf_law ha hP k u hD hu).1,
    empirical_learns_of_draws hR hb hu (fun n => samplesFrom_draws hR ha hne hP hc n) h⟩

/-- **C144**, Gaussian copulas, alone or with any continuous margins. -/
theorem gaussian_empirical_learns (hR : IsIdeal G R) {btdtr : ℝ → ℝ → Fl → Fl} (hb : IsBtdtr btdtr) {f : EllFns} (hf : f.Normal)
    {s : Ell} {S : Matrix (Fin d) (Fin d) ℝ} (hs : s.HasCorr S) {c' : Sampler G d}
    (h : WithMargins (Sampler.gaussian (fun x => .fin (normCdf x)) S) c') :
    ∃ C, CdfIs (gaussInner f s d) (fun _ => True) C ∧ EmpiricalLearns R btdtr c' C :=
  ⟨distFn (gaussLaw S), fun _ u _ hu => (gaussianCdf_law hf hs u hu).1,
    empirical_learns_of_draws hR hb (gaussLaw_uniform hs.pos.posSemidef hs.diag)
      (fun n => gaussian_random_iid hR hs.pos.posSemidef n) h⟩

/-- **C144**, Student copulas (partial: at most 10000 degrees of freedom; `cdf` raises, see C102, so that the limit is stated as
the distribution function of the copula), alone or with any continuous margins. -/
theorem student_empirical_learns_partial (hR : IsIdeal G R) {btdtr : ℝ → ℝ → Fl → Fl} (hb : IsBtdtr btdtr)
    {S : Matrix (Fin d) (Fin d) ℝ} (hS : S.PosSemidef) (h1 : ∀ j, S j j = 1) {ν : ℝ} (hν : 0 < ν) (hν' : ν ≤ 10000)
    {c' : Sampler G d} (h : WithMargins (Sampler.student (fun x => .fin ((tLine ν).real (Set.Iic x))) S ν) c') :
    EmpiricalLearns R btdtr c' (distFn (studentLaw S ν)) := by
  have := studentLaw_prob S hν
  exact empirical_learns_of_draws hR hb (studentLaw_uniform hS h1 hν) (fun n => student_random_iid_partial hR hS hν hν' n) h

/-- **C144**, the independence copula, alone or with any continuous margins. -/
theorem indep_empirical_learns (hR : IsIdeal G R) {btdtr : ℝ → ℝ → Fl → Fl} (hb : IsBtdtr btdtr) {c' : Sampler G d}
    (h : WithMargins Sampler.indep c') :
    CdfIs (indepInner d) (fun _ => True) (fun u => ∏ j, u j) ∧ EmpiricalLearns R btdtr c' fun u => ∏ j, u j := by
  obtain ⟨P, hP, hd⟩ := indep_random_iid hR d
  have := hP.prob
  have hu : Uniform P := uniform_of_law hP fun j v _ _ => by simp [Finset.prod_ite_eq']
  have hdist : ∀ u : Fin d → ℝ, (∀ j, 0 ≤ u j ∧ u j ≤ 1) → distFn P u = ∏ j, u j := by
    intro u h
    by_cases h0 : ∃ j, u j = 0
    · obtain ⟨j, hj⟩ := h0
      rw [Finset.prod_eq_zero (Finset.mem_univ j) hj]
      refine le_antisymm ?_ measureReal_nonneg
      rw [← hj, ← uniform_le hu j (h j).1 (h j).2]
      exact measureReal_mono fun x hx => hx j
    · push Not at h0
      exact hP.dist u fun j => ⟨lt_of_le_of_ne (h j).1 (h0 j).symm, (h j).2⟩
  constructor
  · intro k u _ _
    show indepCdf d _ false = _
    unfold indepCdf
    simp only [ne_eq, not_true_eq_false, if_false, Bool.false_eq_true]
    exact congrArg Except.ok (funext fun i => Fl.prod_fin _ _)
  · intro ε δ offset hε hδ ho
    obtain ⟨N, hN⟩ := empirical_learns_of_draws hR hb hu hd h ε δ offset hε hδ ho
    refine ⟨N, fun n hn => ?_⟩
    refine (measure_mono ?_).trans (hN n hn)
    intro s hs
    rintro ⟨a, s', he, x, hx, hv⟩
    refine hs ⟨a, s', he, x, hx, fun opt sm ties tm h1 h2 k u hu' => ?_⟩
    obtain ⟨v, hv1, hv2⟩ := hv opt sm ties tm h1 h2 k u hu'
    exact ⟨v, hv1, fun i => by have := hv2 i; rwa [hdist (u i) (hu' i)] at this⟩

/-! ### The hypotheses can be met -/

/-- Empirical copulas of samples of a Clayton copula with parameter -1/2. -/
example (seeded : ℕ → ℕ → Answers) : ∃ btdtr C, CdfIs (archInner .clayton (-1 / 2) 2) (CdfDomain .clayton) C ∧
    EmpiricalLearns (G := idealGen seeded) streamLaw btdtr (Sampler.clayton (-1 / 2) : Sampler (idealGen seeded) 2) C := by
  obtain ⟨b, hb⟩ := exists_btdtr
  exact ⟨b, arch_empirical_learns (idealGen_isIdeal seeded) hb (F := .clayton) (θ := -1 / 2) (d := 2)
    ⟨le_rfl, by norm_num, by norm_num, by simp⟩ (fun _ => by norm_num)
    (c := Sampler.clayton (-1 / 2)) ⟨rfl, by norm_num [abs_of_neg]⟩ (Or.inl rfl)⟩

/-- A Gaussian copula with correlation one half between two uniform margins on `[0, 2]`. -/
example (seeded : ℕ → ℕ → Answers) {b : ℝ → ℝ → Fl → Fl} (hb : IsBtdtr b) :=
  gaussian_empirical_learns (idealGen_isIdeal seeded) hb exactNormal_ok halfEll_corr (c' := Sampler.marginal _ fun _ => uniTwo.ppf)
  (Or.inr ⟨fun _ => uniTwo, fun _ => uniTwoLaw, fun _ u => 2 * u, fun _ => uniTwo_isMarginLaw, fun _ => uniTwoLaw_atomless, rfl⟩)

example (seeded : ℕ → ℕ → Answers) {b : ℝ → ℝ → Fl → Fl} (hb : IsBtdtr b) :=
  student_empirical_learns_partial (idealGen_isIdeal seeded) hb posDef_half.posSemidef halfEll_corr.diag (ν := 5) (by norm_num)
  (by norm_num) (Or.inl rfl)

example (seeded : ℕ → ℕ → Answers) {b : ℝ → ℝ → Fl → Fl} (hb : IsBtdtr b) :=
  indep_empirical_learns (d := 4) (idealGen_isIdeal seeded) hb (Or.inl rfl)

end Copulae
