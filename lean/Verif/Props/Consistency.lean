import Verif.Lemmas.Consistency
import Verif.Props.MarginLaw
import Verif.Props.FitInv

/-!
C142: Kendall's tau of simulated data converges to `tau` of the copula.
-/

namespace Copulae

open MeasureTheory ProbabilityTheory Spec CopulaMeasure

variable {d n : ℕ}

/-- The names of Kendall's tau accepted by `corr`. -/
def Spec.TauName (method : String) : Prop := pyLower method = "kendall".toList ∨ pyLower method = "tau".toList

theorem sample_finite (x : Fin n → Fin d → ℝ) (u : CorrUse) (i j k : Fin d) :
    Spec.sample u (List.ofFn (matFl x)) i j k = List.ofFn fun l => Fl.fin (x l k) := by
  classical
  unfold Spec.sample
  rw [filter_decide_self (P := Spec.rowUsed u i j) fun r hr => ?_, List.map_ofFn]
  · rfl
  · obtain ⟨l, rfl⟩ := List.mem_ofFn.mp hr
    cases u <;> simp [Spec.rowUsed, matFl, Fl.isNan]

/-- `corr` of a sample without missing values on which the coefficient can be computed. -/
theorem corr_value {fns : CorrFns} {f : List Fl → List Fl → Except PyErr Fl} {x : Fin n → Fin d → ℝ} {method use : String}
    (hfn : corrFunc fns method = .ok f) {t : Fin d → Fin d → ℝ}
    (hval : ∀ a b : Fin d, f (List.ofFn fun i => .fin (x i a)) (List.ofFn fun i => .fin (x i b)) = .ok (.fin (t a b)))
    {u : CorrUse} (hu : pyLower use = (Spec.useName u).toList) :
    ∃ M, corr fns (.mat d (List.ofFn (matFl x))) none method use = .ok ⟨d, M⟩ ∧ (∀ a, M a a = .fin 1) ∧
      ∀ a b, a < b → M a b = .fin (t a b) ∧ M b a = .fin (t a b) := by
  have hinj : ∀ u' : CorrUse, pyLower use = (Spec.useName u').toList → u' = u := fun u' h' => by
    rw [hu] at h'
    cases u <;> cases u' <;> first | rfl | exact absurd h' (by decide)
  cases hC : corr fns (.mat d (List.ofFn (matFl x))) none method use with
  | error e =>
    exfalso
    rcases corr_error _ _ _ _ _ _ hC with ⟨-, h1⟩ | ⟨-, h1⟩ | ⟨us, f', i, j, h1, h2, h3, h4⟩
    · exact h1 u hu
    · rw [hfn] at h1; cases h1
    · obtain rfl := hinj us h1
      rw [hfn] at h2
      obtain rfl := Except.ok.inj h2
      rw [sample_finite, sample_finite, hval] at h4
      cases h4
  | ok C =>
    obtain ⟨us, f', M, h1, h2, rfl, h3, h4, h5⟩ := corr_spec _ _ _ _ _ _ hC
    obtain rfl := hinj us h1
    rw [hfn] at h2
    obtain rfl := Except.ok.inj h2
    refine ⟨M, rfl, h3, fun a b hab => ?_⟩
    have h6 := (h5 a b hab).1
    rw [sample_finite, sample_finite, hval] at h6
    have h7 := Except.ok.inj (h6 ⟨fun z hz => by obtain ⟨l, rfl⟩ := List.mem_ofFn.mp hz; simp [Fl.isFin],
      fun z hz => by obtain ⟨l, rfl⟩ := List.mem_ofFn.mp hz; simp [Fl.isFin]⟩)
    exact ⟨h7.symm, by rw [h4, h7]⟩

/-- `corr` of a sample without ties. -/
theorem corr_kendall_value {fns : CorrFns} (hf : IsKendall fns.kendall) (hn : 2 ≤ n) {x : Fin n → Fin d → ℝ} (hx : NoTies x)
    {method use : String} (hm : TauName method) {u : CorrUse} (hu : pyLower use = (Spec.useName u).toList) :
    ∃ M, corr fns (.mat d (List.ofFn (matFl x))) none method use = .ok ⟨d, M⟩ ∧ (∀ a, M a a = .fin 1) ∧
      ∀ a b, a < b → M a b = .fin (sampleTau (fun i => x i a) fun i => x i b) ∧
        M b a = .fin (sampleTau (fun i => x i a) fun i => x i b) :=
  corr_value ((corrFunc_names fns method).1 hm) (t := fun a b => sampleTau (fun i => x i a) fun i => x i b) (fun a b =>
    hf n _ _ hn (fun i k h => by_contra fun hne => hx a i k hne h) (fun i k h => by_contra fun hne => hx b i k hne h)) hu

/-- The result of `corr` for a sample: a matrix whose entries are within `ε` of the numbers `t`. -/
def Spec.CorrNear (fns : CorrFns) (method use : String) (t : Fin d → Fin d → ℝ) (ε : ℝ) (m : Fin n → Fin d → Fl) : Prop :=
  ∃ M, corr fns (.mat d (List.ofFn m)) none method use = .ok ⟨d, M⟩ ∧
    ∀ a b, a ≠ b → ∃ v, M a b = .fin v ∧ |v - t a b| < ε

theorem kendallTau_symm (P : Measure (Fin d → ℝ)) (a b : Fin d) : kendallTau P a b = kendallTau P b a := by
  unfold kendallTau
  simp only [mul_comm]

/-- **C142**, any law without atoms in its margins: the matrix of Kendall's taus of a sample of `n` independent rows is within
`ε` of the taus of the law, except with probability at most `2 d (d - 1) / ((n - 1) ε²)`. -/
theorem corr_kendall_converges {G : Gen} [MeasurableSpace G.S] {R : Measure G.S} (hR : IsIdeal G R)
    {P : Measure (Fin d → ℝ)} [IsProbabilityMeasure P] (hP : Atomless P) {fns : CorrFns} (hf : IsKendall fns.kendall)
    {method use : String} (hm : TauName method) {u : CorrUse} (hu : pyLower use = (Spec.useName u).toList)
    (hn : 2 ≤ n) {c : Rnd G (Fin n → Fin d → Fl)} (hc : Draws R c matFl (iid n P)) {ε : ℝ} (hε : 0 < ε) :
    Likely R c (2 * d * (d - 1) / ((n - 1) * ε ^ 2)) (CorrNear fns method use (kendallTau P) ε) := by
  have := hR.prob
  have : IsProbabilityMeasure (iid n P) := by unfold iid; infer_instance
  refine likely_of_draws hc ((measure_mono fun x hx => ?_).trans (sampleTau_close hP hn hε))
  intro hg
  refine hx ?_
  obtain ⟨M, hM, -, hv⟩ := corr_kendall_value hf hn hg.1 hm hu
  refine ⟨M, hM, fun a b hab => ?_⟩
  rcases lt_or_gt_of_ne hab with h | h
  · exact ⟨_, (hv a b h).1, hg.2 a b h⟩
  · exact ⟨_, (hv b a h).2, by rw [kendallTau_symm]; exact hg.2 b a h⟩

/-! ### The copulas of the library -/

/-- The Kendall's taus that `corr` computes from samples drawn by `random` converge to `t`, up to `slack`. -/
def Spec.TauConverges {G : Gen} [MeasurableSpace G.S] (R : Measure G.S) (fns : CorrFns) (c : Sampler G d)
    (t : Fin d → Fin d → ℝ) (slack : ℝ) : Prop :=
  ∀ (n : ℕ) (ε : ℝ) (method use : String) (u : CorrUse), 2 ≤ n → 0 < ε → TauName method →
    pyLower use = (Spec.useName u).toList →
    Likely R (c.random n none) (2 * d * (d - 1) / ((n - 1) * ε ^ 2)) (CorrNear fns method use t (ε + slack))

/-- The samplers of the copula itself and of the marginal copulas around it with continuous margins. -/
def Spec.WithMargins {G : Gen} (c c' : Sampler G d) : Prop :=
  c' = c ∨ ∃ (m : Fin d → Margin) (M : Fin d → Measure ℝ) (q : Fin d → ℝ → ℝ),
    (∀ j, IsMarginLaw (m j) (M j) (q j)) ∧ (∀ j y, M j {y} = 0) ∧ c' = Sampler.marginal c fun j => (m j).ppf

section

variable {G : Gen} [MeasurableSpace G.S] {R : Measure G.S} {fns : CorrFns}

theorem tau_converges_of_draws (hR : IsIdeal G R) (hf : IsKendall fns.kendall) {P : Measure (Fin d → ℝ)}
    [IsProbabilityMeasure P] (hP : Uniform P) {c c' : Sampler G d} (hc : ∀ n, Draws R (c.random n none) matFl (iid n P))
    (h : WithMargins c c') {t : Fin d → Fin d → ℝ} {slack : ℝ}
    (ht : ∀ a b, a ≠ b → |kendallTau P a b - t a b| ≤ slack) : TauConverges R fns c' t slack := by
  intro n ε method use u hn hε hm hu
  have key : ∀ Q : Measure (Fin d → ℝ), IsProbabilityMeasure Q → Atomless Q → kendallTau Q = kendallTau P →
      Draws R (c'.random n none) matFl (iid n Q) → Likely R (c'.random n none) (2 * d * (d - 1) / ((n - 1) * ε ^ 2))
        (CorrNear fns method use t (ε + slack)) := by
    intro Q _ hQ hk hd
    refine (measure_mono fun s hs => ?_).trans (corr_kendall_converges hR hQ hf hm hu hn hd hε)
    rintro ⟨a, s', he, M, hM, hv⟩
    refine hs ⟨a, s', he, M, hM, fun i j hij => ?_⟩
    obtain ⟨v, h1, h2⟩ := hv i j hij
    refine ⟨v, h1, ?_⟩
    rw [hk] at h2
    have := abs_sub_le v (kendallTau P i j) (t i j)
    have := ht i j hij
    linarith
  rcases h with rfl | ⟨m, M, q, hq, hM, rfl⟩
  · exact key P inferInstance (atomless_of_uniform hP) rfl (hc n)
  · exact key _ (jointLaw_isJoint hP hq).prob (jointLaw_atomless hP hq hM) (jointLaw_kendall hP hq hM)
      (marginal_draws hR hP hq c hc n)

/-- The value of `tau` of the copula of the family. -/
def Spec.ArchTau (F : Family) (θ v : ℝ) : Prop :=
  match F with
  | .clayton => claytonTau θ = .ok v
  | .gumbel => gumbelTau θ = .ok v
  | .frank => frankTau compiledD1 θ = .ok (.fin v)

/-- **C142**, Archimedean copulas, alone or with any continuous margins: the Kendall's taus of simulated data converge to the
property `tau` of the copula, for Frank copulas (in two dimensions) up to 1e-9. -/
theorem arch_tau_converges (hR : IsIdeal G R) (hf : IsKendall fns.kendall) {F : Family} {θ : ℝ} (ha : Admissible F θ d)
    (hne : F = .clayton → θ ≠ -1) {c c' : Sampler G d} (hc : SamplesFrom F θ c) (h : WithMargins c c') :
    ∃ v, ArchTau F θ v ∧ TauConverges R fns c' (fun _ _ => v) (if F = .frank then 1 / 10 ^ 9 else 0) := by
  obtain ⟨P, hP⟩ := arch_law_exists ha
  have := hP.prob
  have hu := uniform_of_law hP fun j v h0 h1 => copula_margin ha j v h0 h1
  have hd := fun n => samplesFrom_draws hR ha hne hP hc n
  have h2 := ha.1
  have key : ∃ v, ArchTau F θ v ∧ ∀ a b, a ≠ b → |kendallTau P a b - v| ≤ if F = .frank then 1 / 10 ^ 9 else 0 := by
    have hij : (⟨0, by omega⟩ : Fin d) ≠ ⟨1, by omega⟩ := by simp
    cases F with
    | clayton =>
      refine ⟨_, clayton_tau_kendall ha.2.2.1 ha.2.1 hP hij, fun a b hab => ?_⟩
      have e := (clayton_tau_kendall ha.2.2.1 ha.2.1 hP hij).symm.trans (clayton_tau_kendall ha.2.2.1 ha.2.1 hP hab)
      rw [Except.ok.inj e]
      simp
    | gumbel =>
      refine ⟨_, gumbel_tau_kendall ha.2 hP hij, fun a b hab => ?_⟩
      have e := (gumbel_tau_kendall ha.2 hP hij).symm.trans (gumbel_tau_kendall ha.2 hP hab)
      rw [Except.ok.inj e]
      simp
    | frank =>
      obtain ⟨v, hv, -⟩ := frank_tau_kendall ha.2.1 hP hij
      refine ⟨v, hv, fun a b hab => ?_⟩
      obtain ⟨w, hw, hle⟩ := frank_tau_kendall ha.2.1 hP hab
      have e := Fl.fin.inj (Except.ok.inj (hv.symm.trans hw))
      rw [if_pos rfl, abs_sub_comm, e]
      exact hle
  obtain ⟨v, hv, hle⟩ := key
  exact ⟨v, hv, tau_converges_of_draws hR hf hu hd h hle⟩

/-- **C142**, Gaussian copulas, alone or with any continuous margins: the Kendall's taus of simulated data converge to the
entries of the property `tau`. -/
theorem gaussian_tau_converges (hR : IsIdeal G R) (hf : IsKendall fns.kendall) {s : Ell} {S : Matrix (Fin d) (Fin d) ℝ}
    (hs : s.sigma = .ok ⟨d, fun i j => .fin (S i j)⟩) (hS : S.PosSemidef) {c' : Sampler G d}
    (h : WithMargins (Sampler.gaussian (fun x => .fin (normCdf x)) S) c') :
    ∃ T : Fin d → Fin d → ℝ, createCovMatrix s.tau = .ok ⟨d, fun i j => .fin (T i j)⟩ ∧ TauConverges R fns c' T 0 :=
  ⟨_, (ell_tau_kendall hs hS).1, tau_converges_of_draws hR hf
    (gaussLaw_uniform hS (sigma_diag hs)) (fun n => gaussian_random_iid hR hS n) h fun _ _ _ => by simp⟩

/-- **C142**, Student copulas (partial: at most 10000 degrees of freedom, from where the sampler draws from another law),
alone or with any continuous margins: likewise. -/
theorem student_tau_converges_partial (hR : IsIdeal G R) (hf : IsKendall fns.kendall) {s : Ell}
    {S : Matrix (Fin d) (Fin d) ℝ} (hs : s.sigma = .ok ⟨d, fun i j => .fin (S i j)⟩) (hS : S.PosSemidef) {ν : ℝ} (hν : 0 < ν) (hν' : ν ≤ 10000) {c' : Sampler G d}
    (h : WithMargins (Sampler.student (fun x => .fin ((tLine ν).real (Set.Iic x))) S ν) c') :
    ∃ T : Fin d → Fin d → ℝ, createCovMatrix s.tau = .ok ⟨d, fun i j => .fin (T i j)⟩ ∧ TauConverges R fns c' T 0 := by
  have := studentLaw_prob S hν
  exact ⟨_, (ell_tau_kendall hs hS).2 ν hν, tau_converges_of_draws hR hf
    (studentLaw_uniform hS (sigma_diag hs) hν) (fun n => student_random_iid_partial hR hS hν hν' n) h
    fun _ _ _ => by simp⟩

end

/-! ### The hypotheses can be met -/

/-- The number in a list, zero otherwise. -/
noncomputable def realAt (l : List Fl) (i : ℕ) : ℝ :=
  match l.getD i .nan with
  | .fin x => x
  | _ => 0

/-- Kendall's tau of two lists. -/
noncomputable def exactKendall (a b : List Fl) : Except PyErr Fl :=
  .ok (.fin (sampleTau (n := a.length) (fun i => realAt a i) fun i => realAt b i))

theorem exactKendall_ok : IsKendall exactKendall := by
  intro n x y _ _ _
  have key : ∀ (k : ℕ) (hk : k = n) (x' y' : Fin k → ℝ), (∀ i, x' i = x (Fin.cast hk i)) →
      (∀ i, y' i = y (Fin.cast hk i)) → sampleTau x' y' = sampleTau x y := by
    intro k hk x' y' h1 h2
    subst hk
    rw [show x' = x from funext h1, show y' = y from funext h2]
  have hr : ∀ (z : Fin n → ℝ) (i : ℕ) (hi : i < n), realAt (List.ofFn fun i => Fl.fin (z i)) i = z ⟨i, hi⟩ := by
    intro z i hi
    unfold realAt
    rw [List.getD_eq_getElem _ _ (by simpa using hi), List.getElem_ofFn]
  unfold exactKendall
  rw [key _ (List.length_ofFn) _ _ (fun i => hr x i _) fun i => hr y i _]

/-- SciPy's coefficients with an exact Kendall's tau. -/
noncomputable def exactFns : CorrFns := ⟨fun _ _ => .error .valueError, exactKendall, fun _ _ => .error .valueError⟩

theorem uniTwoLaw_atomless (y : ℝ) : uniTwoLaw {y} = 0 := by
  rw [uniTwo_hasDensity.density]
  exact withDensity_absolutelyContinuous _ _ (measure_singleton y)

example : TauName "KENDALL" ∧ TauName "tau" := ⟨Or.inl (by decide), Or.inr (by decide)⟩

/-- The taus of simulated data from a Clayton copula with parameter -1/2, whose `tau` is -1/3. -/
example (seeded : ℕ → ℕ → Answers) :
    TauConverges (G := idealGen seeded) streamLaw exactFns (Sampler.clayton (-1 / 2) : Sampler (idealGen seeded) 2) (fun _ _ => -1 / 3) 0 := by
  obtain ⟨v, hv, h⟩ := arch_tau_converges (idealGen_isIdeal seeded) (fns := exactFns) exactKendall_ok (F := .clayton)
    (θ := -1 / 2) (d := 2) ⟨le_rfl, by norm_num, by norm_num, by simp⟩ (fun _ => by norm_num)
    (c := Sampler.clayton (-1 / 2)) ⟨rfl, by norm_num [abs_of_neg]⟩ (Or.inl rfl)
  have : v = -1 / 3 := by
    have hv' : claytonTau (-1 / 2) = .ok v := hv
    rw [claytonTau, if_neg (by norm_num)] at hv'
    rw [← Except.ok.inj hv']
    norm_num
  rw [this] at h
  exact h

/-- A Gaussian copula with correlation one half between two uniform margins on `[0, 2]`. -/
example (seeded : ℕ → ℕ → Answers) := gaussian_tau_converges (idealGen_isIdeal seeded) (fns := exactFns) exactKendall_ok
  halfEll_corr.sigma posDef_half.posSemidef (c' := Sampler.marginal _ fun _ => uniTwo.ppf)
  (Or.inr ⟨fun _ => uniTwo, fun _ => uniTwoLaw, fun _ u => 2 * u, fun _ => uniTwo_isMarginLaw, fun _ => uniTwoLaw_atomless, rfl⟩)

example (seeded : ℕ → ℕ → Answers) := student_tau_converges_partial (idealGen_isIdeal seeded) (fns := exactFns)
  exactKendall_ok halfEll_corr.sigma posDef_half.posSemidef (ν := 5) (by norm_num) (by norm_num) (Or.inl rfl)

end Copulae
