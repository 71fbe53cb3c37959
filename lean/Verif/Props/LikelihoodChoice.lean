import Verif.Props.Likelihood
import Verif.Lemmas.LawsDifferEll

/-!
**C156** The log-likelihood finds the copula and the parameters that the data were drawn from.
-/

namespace Copulae

open MeasureTheory ProbabilityTheory Set Spec CopulaMeasure Matrix

variable {d : ℕ} {G : Gen} [MeasurableSpace G.S] {R : Measure G.S}

namespace Spec

/-- A copula of the library with its parameters. The elliptical ones carry the object and its correlation matrix. -/
inductive Choice (d : ℕ)
  | arch (F : Family) (θ : ℝ)
  | gaussian (s : Ell) (S : Matrix (Fin d) (Fin d) ℝ)
  | student (s : Ell) (S : Matrix (Fin d) (Fin d) ℝ) (ν : ℝ)
  | indep

/-- The `pdf` of the copula. -/
noncomputable def Choice.pdf (f : EllFns) : Choice d → {n : ℕ} → (Fin n → Fin d → Fl) → Bool → Except PyErr (Fin n → Fl)
  | .arch F θ => fun x log => archPdf F θ d x log
  | .gaussian s _ => fun x log => gaussianPdf f s x log
  | .student s _ ν => fun x log => studentPdf f s (.fin ν) x log
  | .indep => fun x log => indepPdf d x log

/-- Parameters for which the copula exists and `pdf` is its density. -/
def Choice.Ok : Choice d → Prop
  | .arch F θ => Copulae.Admissible F θ d ∧ PdfParam F θ d
  | .gaussian s S => s.HasCorr S
  | .student s S ν => s.HasCorr S ∧ 0 < ν ∧ ν ≤ 10000
  | .indep => True

/-- The sampler of the copula. -/
def Choice.Random (c : Sampler G d) : Choice d → Prop
  | .arch F θ => SamplesFrom F θ c
  | .gaussian _ S => c = .gaussian (fun x => .fin (normCdf x)) S
  | .student _ S ν => c = .student (fun x => .fin ((Spec.tLine ν).real (Iic x))) S ν
  | .indep => c = .indep

/-- The components are independent. -/
def Choice.Trivial : Choice d → Prop
  | .arch F θ => F = .gumbel ∧ θ = 1
  | .gaussian _ S => S = 1
  | .student _ _ _ => False
  | .indep => True

/-- The same family with the same parameters. -/
def Choice.Same : Choice d → Choice d → Prop
  | .arch F θ, .arch F' θ' => F = F' ∧ θ = θ'
  | .gaussian _ S, .gaussian _ S' => S = S'
  | .student _ S ν, .student _ S' ν' => S = S' ∧ ν = ν'
  | .indep, .indep => True
  | _, _ => False

end Spec

/-- `P` is the law of the copula. -/
def Spec.Choice.HasLaw (P : Measure (Fin d → ℝ)) : Choice d → Prop
  | .arch F θ => IsLawOf P (F.copula θ)
  | .gaussian _ S => P = gaussLaw S
  | .student _ S ν => P = studentLaw S ν
  | .indep => P = iid d unif

theorem choice_law (m : Choice d) (h : m.Ok) : ∃ P : Measure (Fin d → ℝ), IsProbabilityMeasure P ∧ m.HasLaw P := by
  cases m with
  | arch F θ =>
    obtain ⟨P, hP⟩ := arch_law_exists h.1
    exact ⟨P, hP.prob, hP⟩
  | gaussian s S => 
    refine ⟨_, ?_, rfl⟩
    rw [gaussLaw_eq, cubeLaw]
    exact Measure.isProbabilityMeasure_map (measurable_pointwise normMargin.measurable).aemeasurable
  | student s S ν => exact ⟨_, studentLaw_prob S h.2.1, rfl⟩
  | indep => exact ⟨_, inferInstance, rfl⟩

theorem choice_scores {f : EllFns} (hn : f.Normal) (ht : f.Student) (m : Choice d) (h : m.Ok) {P : Measure (Fin d → ℝ)} (hP : m.HasLaw P) :
    Scores (m.pdf f) P := by
  have hlog : ∀ {n : ℕ} {c : (Fin d → ℝ) → ℝ} {x : Fin n → Fin d → ℝ}, (∀ i, 0 < c (x i)) →
      (fun i => Fl.fin (Real.log (c (x i)))) = fun i => Fl.log (.fin (c (x i))) := fun hc => funext fun i => (Fl.log_pos (hc i)).symm
  cases m with
  | arch F θ =>
    obtain ⟨g, hg, -, hden⟩ := arch_pdf_law h.1.1 h.2
    exact ⟨g, hden P hP, fun n x hx => (hg n x fun i => hx i).2⟩
  | gaussian s S =>
    obtain ⟨c, hc, hden⟩ := gaussianPdf_density hn h
    subst hP
    exact ⟨c, hden, fun n x hx => (hc n x hx).2.1.trans (congrArg Except.ok (hlog (hc n x hx).2.2))⟩
  | student s S ν =>
    obtain ⟨c, hc, hden⟩ := studentPdf_density_partial ht h.1 h.2.1 h.2.2
    subst hP
    exact ⟨c, hden, fun n x hx => (hc n x hx).2.1.trans (congrArg Except.ok (hlog (hc n x hx).2.2))⟩
  | indep =>
    subst hP
    refine ⟨fun _ => 1, fun s hs => ?_, fun n x hx => ?_⟩
    · have e : {u : Fin d → ℝ | ∀ j, 0 < u j ∧ u j < 1} = {x | ∀ j, x j ∈ Ioo (0 : ℝ) 1} := rfl
      have hfin : MeasureTheory.volume (s ∩ {u : Fin d → ℝ | ∀ j, 0 < u j ∧ u j < 1}) ≠ ⊤ := by
        rw [e, ← Measure.restrict_apply hs, ← iid_unif]
        exact measure_ne_top _ _
      refine ⟨integrableOn_const hfin, ?_⟩
      rw [setIntegral_const, smul_eq_mul, mul_one, measureReal_def, measureReal_def, iid_unif, Measure.restrict_apply hs, e]
    · simp only [Choice.pdf, indepPdf, ne_eq, not_true_eq_false, if_false, if_true]
      rw [Fl.log_pos one_pos, Real.log_one]

theorem choice_draws (hR : IsIdeal G R) (m : Choice d) (h : m.Ok) {P : Measure (Fin d → ℝ)} (hP : m.HasLaw P) {c : Sampler G d}
    (hc : m.Random c) (n : ℕ) : Draws R (c.random n none) matFl (iid n P) := by
  cases m with
  | arch F θ =>
    refine samplesFrom_draws hR h.1 (fun hF => ?_) hP hc n
    subst hF
    rcases h.2 with h' | h'
    · linarith
    · exact h'.2.1.ne'
  | gaussian s S =>
    subst hP hc
    exact gaussian_random_iid hR h.pos.posSemidef n
  | student s S ν =>
    subst hP hc
    exact student_random_iid_partial hR h.1.pos.posSemidef h.2.1 h.2.2 n
  | indep =>
    subst hP hc
    exact randomUniform_draws hR n d

theorem indep_isLaw : IsLawOf (iid d unif) (fun u : Fin d → ℝ => ∏ j, u j) := by
  refine ⟨inferInstance, iid_ae unif_ae, fun b hb => ?_⟩
  unfold distFn
  rw [measureReal_def, iid_unif, Measure.restrict_apply (by
    have : {x : Fin d → ℝ | ∀ j, x j ≤ b j} = ⋂ j, {x | x j ≤ b j} := by ext; simp
    rw [this]
    exact MeasurableSet.iInter fun j => measurable_pi_apply j measurableSet_Iic)]
  have e : {x : Fin d → ℝ | ∀ j, x j ≤ b j} ∩ {x | ∀ j, x j ∈ Ioo (0 : ℝ) 1} =
      {q | (∀ j, q j ∈ Ioo (0 : ℝ) 1) ∧ ∀ j, q j ≤ b j} := by
    ext x
    exact and_comm
  rw [e, cube_le_volume hb, ENNReal.toReal_ofReal (Finset.prod_nonneg fun j _ => (hb j).1.le)]

theorem arch_gauss_choice {P : Measure (Fin d → ℝ)} {F : Family} {θ : ℝ} {s : Ell} {S : Matrix (Fin d) (Fin d) ℝ}
    (h : (Choice.arch (d := d) F θ).Ok) (hs : s.HasCorr S) (hP : IsLawOf P (F.copula θ)) (hne : ¬ ((F = .gumbel ∧ θ = 1) ∧ S = 1)) :
    P ≠ gaussLaw S := by
  refine arch_gauss_differ h.1 hP (fun hF => ?_) (fun hF => ?_) hs.pos hs.diag fun h => hne ⟨⟨h.1, h.2.1⟩, h.2.2⟩
  · subst hF
    rcases h.2 with h' | h'
    · linarith
    · exact h'.2.1.ne'
  · subst hF
    exact h.2

/-- Different choices have different laws, unless both have independent components. -/
theorem choice_laws_differ (h2 : 2 ≤ d) (m m' : Choice d) (h : m.Ok) (h' : m'.Ok) {P P' : Measure (Fin d → ℝ)} (hP : m.HasLaw P)
    (hP' : m'.HasLaw P') (hne : ¬ m.Same m') (htr : ¬ (m.Trivial ∧ m'.Trivial)) : P ≠ P' := by
  have hg1 : Admissible .gumbel 1 d := ⟨h2, le_refl (1 : ℝ)⟩
  have hgl : IsLawOf (iid d unif) (Family.copula .gumbel 1) := indep_gumbel indep_isLaw
  have hgo : (Choice.arch (d := d) .gumbel 1).Ok := ⟨hg1, le_refl (1 : ℝ)⟩
  cases m with
  | arch F θ =>
    cases m' with
    | arch F' θ' => exact arch_laws_differ h.1 h'.1 hP hP' hne
    | gaussian s S => subst hP'; exact arch_gauss_choice h h' hP htr
    | student s S ν => subst hP'; exact arch_student_differ h.1 hP h'.1.pos h'.1.diag h'.2.1
    | indep => subst hP'; exact arch_laws_differ h.1 hg1 hP hgl fun e => htr ⟨e, trivial⟩
  | gaussian s S =>
    subst hP
    cases m' with
    | arch F' θ' => exact (arch_gauss_choice h' h hP' fun e => htr ⟨e.2, e.1⟩).symm
    | gaussian s' S' => subst hP'; exact gauss_laws_differ h.pos h'.pos h.diag h'.diag hne
    | student s' S' ν => subst hP'; exact gauss_student_differ h2 h.pos h'.1.pos h.diag h'.1.diag h'.2.1
    | indep => subst hP'; exact (arch_gauss_choice hgo h hgl fun e => htr ⟨e.2, trivial⟩).symm
  | student s S ν =>
    subst hP
    cases m' with
    | arch F' θ' => exact (arch_student_differ h'.1 hP' h.1.pos h.1.diag h.2.1).symm
    | gaussian s' S' => subst hP'; exact (gauss_student_differ h2 h'.pos h.1.pos h'.diag h.1.diag h.2.1).symm
    | student s' S' ν' => subst hP'; exact student_laws_differ h2 h.1.pos h'.1.pos h.1.diag h'.1.diag h.2.1 h'.2.1 hne
    | indep => subst hP'; exact (arch_student_differ hg1 hgl h.1.pos h.1.diag h.2.1).symm
  | indep =>
    subst hP
    cases m' with
    | arch F' θ' => exact arch_laws_differ hg1 h'.1 hgl hP' fun e => htr ⟨trivial, e.1.symm, e.2.symm⟩
    | gaussian s' S' => subst hP'; exact arch_gauss_choice hgo h' hgl fun e => htr ⟨trivial, e.2⟩
    | student s' S' ν => subst hP'; exact arch_student_differ hg1 hgl h'.1.pos h'.1.diag h'.2.1
    | indep => exact absurd trivial hne

/-- **C156** Data drawn from a copula of the library: every other copula of the library, of the same family with other parameters or of
another family, has a smaller log-likelihood, by a multiple of the number of observations, except with a probability that vanishes
exponentially fast in the number of observations. (Partial: the parameters of `Choice.Ok` and the samplers of `Choice.Random`, which leave
out Student copulas with more than 10000 degrees of freedom, Frank copulas with a negative parameter, data from Frank copulas in more than
two dimensions and data from Clayton and Gumbel copulas close to independence.) -/
theorem likelihood_identifies_partial {f : EllFns} (hn : f.Normal) (ht : f.Student) (hR : IsIdeal G R) (h2 : 2 ≤ d) (m m' : Choice d) (h : m.Ok)
    (h' : m'.Ok) {c : Sampler G d} (hc : m.Random c) (hne : ¬ m.Same m') (htr : ¬ (m.Trivial ∧ m'.Trivial)) :
    Prefers R c (m.pdf f) (m'.pdf f) := by
  obtain ⟨P, hp, hP⟩ := choice_law m h
  obtain ⟨P', hp', hP'⟩ := choice_law m' h'
  exact likelihood_prefers (choice_laws_differ h2 m m' h h' hP hP' hne htr) (choice_scores hn ht m h hP) (choice_scores hn ht m' h' hP') hR
    fun n => choice_draws hR m h hP hc n

/-- **C156** Among finitely many candidates the one with the greatest log-likelihood is the copula the data were drawn from, with a
probability that is as close to 1 as required if there are enough data. (Partial, as above.) -/
theorem likelihood_selects_partial {f : EllFns} (hn : f.Normal) (ht : f.Student) (hR : IsIdeal G R) (h2 : 2 ≤ d) (m : Choice d) (h : m.Ok)
    {c : Sampler G d} (hc : m.Random c) {k : ℕ} (ms : Fin k → Choice d) (h' : ∀ a, (ms a).Ok) (hne : ∀ a, ¬ m.Same (ms a))
    (htr : ∀ a, ¬ (m.Trivial ∧ (ms a).Trivial)) {δ : ℝ} (hδ : 0 < δ) :
    ∃ N : ℕ, ∀ n, N ≤ n → Likely R (c.random n none) δ fun x => ∀ a, ∃ (L : ℝ) (v : Fl),
      arrayLogLik (m.pdf f) x = .ok (.fin L) ∧ arrayLogLik ((ms a).pdf f) x = .ok v ∧ v < .fin L := by
  choose r κ hr0 hr1 hκ hlik using fun a => likelihood_identifies_partial hn ht hR h2 m (ms a) h (h' a) hc (hne a) (htr a)
  have hlim : Filter.Tendsto (fun n : ℕ => ∑ a, r a ^ n) Filter.atTop (nhds (∑ _a : Fin k, 0)) :=
    tendsto_finsetSum _ fun a _ => tendsto_pow_atTop_nhds_zero_of_lt_one (hr0 a).le (hr1 a)
  rw [Finset.sum_const_zero] at hlim
  obtain ⟨N, hN⟩ := Filter.eventually_atTop.mp (hlim.eventually (gt_mem_nhds hδ))
  refine ⟨max N 2, fun n hn2 => ?_⟩
  have hn1 : n ≠ 1 := by have := le_of_max_le_right hn2; omega
  have hle : ∑ a, r a ^ n ≤ δ := (hN n (le_of_max_le_left hn2)).le
  obtain ⟨P, hp, hP⟩ := choice_law m h
  obtain ⟨X, next, -, -, hrun, -⟩ := choice_draws hR m h hP hc n
  unfold Likely
  set bad : Fin k → Set G.S := fun a => {s | ¬ ∃ x s', (c.random n none).exec s = (.ok x, s') ∧ ∃ (L : ℝ) (v : Fl),
    arrayLogLik (m.pdf f) x = .ok (.fin L) ∧ arrayLogLik ((ms a).pdf f) x = .ok v ∧ v < .fin (L - κ a * n)} with hbad
  calc R _ ≤ R (⋃ a, bad a) := by
        refine measure_mono_ae ?_
        filter_upwards [hrun] with s hs hnot
        by_contra hall
        refine hnot ⟨_, _, hs, fun a => ?_⟩
        have ha : ¬ s ∈ bad a := fun ha => hall (mem_iUnion.mpr ⟨a, ha⟩)
        simp only [hbad, mem_ofPred_eq, not_not] at ha
        obtain ⟨x, s', hx, L, v, h1, h2', h3⟩ := ha
        rw [hs] at hx
        obtain rfl := Except.ok.inj (Prod.mk.inj hx).1
        refine ⟨L, v, h1, h2', ?_⟩
        cases v with
        | ninf => exact Fl.ninf_lt_fin
        | fin q =>
          rw [Fl.fin_lt_fin] at h3 ⊢
          have : 0 ≤ κ a * n := mul_nonneg (hκ a).le (Nat.cast_nonneg n)
          linarith
        | nan => exact absurd h3 (by simp)
        | pinf => exact absurd h3 (by simp)
    _ ≤ ∑ a, R (bad a) := measure_iUnion_fintype_le _ _
    _ ≤ ∑ a, ENNReal.ofReal (r a ^ n) := Finset.sum_le_sum fun a _ => hlik a n hn1
    _ = ENNReal.ofReal (∑ a, r a ^ n) := (ENNReal.ofReal_sum_of_nonneg fun a _ => pow_nonneg (hr0 a).le n).symm
    _ ≤ ENNReal.ofReal δ := ENNReal.ofReal_le_ofReal hle

/-! ### Concrete cases -/

/-- Data from a Clayton copula with parameter 2 in four dimensions, against other parameters and families. -/
example (seeded : ℕ → ℕ → Answers) {δ : ℝ} (hδ : 0 < δ) := likelihood_selects_partial (G := idealGen seeded) exactEll_ok.1 exactEll_ok.2
  (idealGen_isIdeal seeded) (d := 4) (by norm_num) (.arch .clayton 2)
  ⟨⟨by norm_num, by norm_num, by norm_num, fun _ => by norm_num⟩, Or.inl (by norm_num)⟩
  (c := Sampler.clayton 2) ⟨rfl, by norm_num⟩ ![.arch .clayton 3, .arch .gumbel 2, .arch .frank 5, .indep]
  (fun a => by
    fin_cases a
    · exact ⟨⟨by norm_num, by norm_num, by norm_num, fun _ => by norm_num⟩, Or.inl (by norm_num)⟩
    · exact ⟨⟨by norm_num, (by norm_num : (1 : ℝ) ≤ 2)⟩, (by norm_num : (1 : ℝ) ≤ 2)⟩
    · exact ⟨⟨by norm_num, by norm_num, by norm_num, fun _ => by norm_num⟩, (by norm_num : (0 : ℝ) < 5)⟩
    · exact trivial)
  (fun a => by fin_cases a <;> simp [Choice.Same])
  (fun a => by simp [Choice.Trivial]) hδ

/-- Data from a Gaussian copula with correlation one half, against a Student copula with the same matrix. -/
example (seeded : ℕ → ℕ → Answers) := likelihood_identifies_partial (G := idealGen seeded) exactEll_ok.1 exactEll_ok.2
  (idealGen_isIdeal seeded) le_rfl (.gaussian halfEll !![1, 1 / 2; 1 / 2, 1]) (.student halfEll !![1, 1 / 2; 1 / 2, 1] 5) halfEll_corr
  ⟨halfEll_corr, by norm_num, by norm_num⟩ rfl (by simp [Choice.Same]) (by simp [Choice.Trivial])

end Copulae
