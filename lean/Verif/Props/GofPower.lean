import Verif.Lemmas.ExchLaw
import Verif.Lemmas.GofArch
import Verif.Lemmas.GofRun
import Verif.Props.ItauConsistency
import Verif.Props.LikelihoodChoice

/-!
C158: the goodness-of-fit test tells data of the family from data of other copulas.
-/

namespace Copulae

open MeasureTheory ProbabilityTheory Filter Topology Spec CopulaMeasure

variable {d : ℕ} {G : Gen} [MeasurableSpace G.S] {R : Measure G.S}

/-- The options of `gof_copula` that are passed on to `fit`, with `method='itau'`. -/
structure Spec.ItauOptions where
  x0 : Option ParamArg
  method : String
  ties : String
  scale : Fl
  isItau : pyLower method = "itau".toList
  isTies : ∃ tm, parseTies ties = .ok tm

/-- The fits of `gof_copula(..., method='itau')`. -/
noncomputable def Spec.ItauOptions.fit (k : ItauOptions) (env : FitEnv) (opt : List Fl → OptTree) (o : FitObj) {n : ℕ}
    (u : Fin n → Fin d → ℝ) : Except PyErr FitObj :=
  gofFitOf env opt o k.x0 k.method k.ties k.scale u

/-- The copula `c` is that of `st` with a parameter within `ε` of `θ`. -/
def Spec.ThetaNear (F : Family) (st : ArchState) (θ ε : ℝ) (c : FitObj) : Prop :=
  ∃ r : ℝ, c.cop = .arch F { st with theta := .fin r } ∧ |r - θ| < ε

open Classical in
/-- The law of a copula object. -/
noncomputable def objLaw (d : ℕ) (c : FitObj) : Measure (Fin d → ℝ) :=
  match c.cop with
  | .arch F st =>
    match st.theta with
    | .fin r => if h : ∃ P : Measure (Fin d → ℝ), IsLawOf P (F.copula r) then h.choose else 0
    | _ => 0
  | _ => 0

theorem objLaw_spec {F : Family} {st : ArchState} {r : ℝ} {c : FitObj} (hc : c.cop = .arch F { st with theta := .fin r })
    (ha : Admissible F r d) : IsLawOf (objLaw d c) (F.copula r) := by
  have h := arch_law_exists ha
  unfold objLaw
  rw [hc]
  simp only [dif_pos h]
  exact h.choose_spec

/-- A small interval of parameters on which something holds that holds near `θ`. -/
theorem exists_interval {p : ℝ → Prop} {θ : ℝ} (h : ∀ᶠ r in 𝓝 θ, p r) : ∃ ε, 0 < ε ∧ ∀ r, |r - θ| < ε → p r := by
  obtain ⟨ε, hε, h⟩ := Metric.eventually_nhds_iff.mp h
  exact ⟨ε, hε, fun r hr => h (by rwa [Real.dist_eq])⟩

theorem arch_tauFit {env : FitEnv} (hk : IsKendall env.fns.kendall)
    (hll : ∀ c n (w : Fin n → Fin d → ℚ), ∃ v, env.logPdfSum c n d w = .ok v) (opt : List Fl → OptTree) {F : Family} (hF : F ≠ .frank)
    {θ : ℝ} (ha : Within F θ d) {o : FitObj} {st : ArchState} (ho : o.cop = .arch F st) (hdim : st.dim = d) {H : Measure (Fin d → ℝ)}
    (hH : IsLawOf H (F.copula θ)) :
    TauFit (fun k : ItauOptions => fun {_} u => k.fit env opt o u) (fun c {_} u => gofCdfOf c u) (objLaw d) (fun _ _ => tauReal F θ) H (ThetaNear F st θ) where
  mono := by
    rintro ε ε' c h ⟨r, h1, h2⟩
    exact ⟨r, h1, lt_of_lt_of_le h2 h⟩
  close := by
    intro ε hε
    obtain ⟨ε', hε', h⟩ := exists_interval ((inner_near ha).and ((law_near hF ha.1 hH hε).and (archTau_near hF ha hε)))
    refine ⟨ε', hε', ?_⟩
    rintro c ⟨r, hc, hr⟩
    obtain ⟨hw, hn, ht⟩ := h r hr
    have hL := objLaw_spec hc hw.1
    have hadm := hw.1
    refine ⟨hL.prob, arch_uniform hadm hL, fun {n} u hu i => ?_, fun w hw' => (hn hadm _ hL w (fun j => (hw' j).1.le) fun j => (hw' j).2.le).le,
      fun a b hab => ?_⟩
    · have hD : ∀ i j, CdfDomain F (u i j) := fun i j => by
        cases F with
        | frank => exact absurd rfl hF
        | clayton => exact ⟨(hu i j).1.le, (hu i j).2.le⟩
        | gumbel => exact ⟨(hu i j).1.le, (hu i j).2.le⟩
      have hcdf := computes_genC hadm n u hD
      unfold gofCdfOf
      rw [hc]
      simp only [hdim, hcdf]
      rw [copula_genC hadm (u i) (hD i) fun j => ⟨(hu i j).1, (hu i j).2.le⟩, hL.dist (u i) fun j => ⟨(hu i j).1, (hu i j).2.le⟩]
    · rw [arch_tau_eq hadm hL hab.ne]
      have e : archTau F θ = tauReal F θ := by cases F <;> rfl
      rw [← e]
      exact ht.le
  fits := by
    intro ε hε
    obtain ⟨ε', hε', hw⟩ := exists_interval (inner_near ha)
    have hm0 : 0 < min ε ε' := lt_min hε hε'
    have hrec : Recoverable env F θ := by
      cases F with
      | frank => exact absurd rfl hF
      | clayton => exact ha.2
      | gumbel => exact ha.2
    obtain ⟨η, hη, hinv⟩ := invTau_near hrec hm0
    refine ⟨η, hη, d, fun k n hn y hy => ?_⟩
    obtain ⟨tm, htm⟩ := k.isTies
    obtain ⟨h1, r, h2, h3⟩ := fitPobs_arch_near (opt := opt) (o := o) (x0 := k.x0) (scale := k.scale) (noTies_unitRanks hy.1) hk
      (fun c w => hll c n w) k.isItau htm ho hdim ha.1.1 hn (θ := θ) (ε := min ε ε') (fun a b hab => hinv _ (by
        rw [sampleTau_unitRanks hy.1]
        exact hy.2 a b hab)) fun r hr => setParams_inner (hw r (lt_of_lt_of_le hr (min_le_right _ _))) hdim
    refine ⟨(o.fitPobs env opt (unitRanks y) k.x0 k.method k.ties k.scale).1, ?_, r, h2, lt_of_lt_of_le h3 (min_le_left _ _)⟩
    show gofFitOf env opt o k.x0 k.method k.ties k.scale (unitRanks y) = _
    unfold gofFitOf
    rcases hfp : o.fitPobs env opt (unitRanks y) k.x0 k.method k.ties k.scale with ⟨o', e⟩
    rw [hfp] at h1
    simp only at h1
    subst h1
    rfl

/-- **C158** `gof_copula` for a Clayton or Gumbel family with `method='itau'`, on independent observations with continuous margins
and any copula `P` whose taus are those of the parameter `θ`: the fit finds `θ`, and the statistic per observation converges in
probability to the mean squared difference between `P` and the copula of the family with the parameter `θ`. -/
theorem gof_statistic_converges {env : FitEnv} (hk : IsKendall env.fns.kendall)
    (hll : ∀ c n (w : Fin n → Fin d → ℚ), ∃ v, env.logPdfSum c n d w = .ok v) (opt : List Fl → OptTree) {F : Family} (hF : F ≠ .frank)
    {θ : ℝ} (ha : Within F θ d) {o : FitObj} {st : ArchState} (ho : o.cop = .arch F st) (hdim : st.dim = d) {H : Measure (Fin d → ℝ)}
    (hH : IsLawOf H (F.copula θ)) {Q P : Measure (Fin d → ℝ)} [IsProbabilityMeasure Q] [IsProbabilityMeasure P] (hP : Uniform P)
    (hQ : Atomless Q) (hc : HasCopula Q P) (hτ : ∀ a b, a < b → kendallTau P a b = tauReal F θ) {ε δ : ℝ} (hε : 0 < ε) (hδ : 0 < δ) :
    ∃ N : ℕ, ∀ n, N ≤ n → iid n Q {x | ¬ ∀ (k : ItauOptions) (ties fitTies : String) (t t' : TieMethod), parseTies ties = .ok t →
      parseTies fitTies = .ok t' → ∃ c s, gofFit (fun u => k.fit env opt o u) (fun c u => gofCdfOf c u) x ties fitTies = .ok (c, .fin s) ∧
        ThetaNear F st θ ε c ∧ 0 ≤ s ∧ |s / n - misfit P H| ≤ ε} ≤ ENNReal.ofReal δ := by
  have := hH.prob
  obtain ⟨N, hN⟩ := gof_stat_law hP (arch_uniform ha.1 hH) hQ hc (arch_tauFit hk hll opt hF ha ho hdim hH)
    ((arch_tauFit hk hll opt hF ha ho hdim hH).fits.congr hτ) hε hδ
  refine ⟨N, fun n hn => (measure_mono fun x hx => ?_).trans (hN n hn)⟩
  intro hg
  exact hx hg.2

/-- **C158** If the copula of the data is another one, the p-value is the least the test can report, with a probability that tends to
one: for all but a share `δ` of the data, all but a share `δ` of the replicates lead to it. -/
theorem gof_rejects (hR : IsIdeal G R) {env : FitEnv} (hk : IsKendall env.fns.kendall)
    (hll : ∀ c n (w : Fin n → Fin d → ℚ), ∃ v, env.logPdfSum c n d w = .ok v) (opt : List Fl → OptTree) {F : Family} (hF : F ≠ .frank)
    {θ : ℝ} (ha : Within F θ d) {o : FitObj} {st : ArchState} (ho : o.cop = .arch F st) (hdim : st.dim = d) {H : Measure (Fin d → ℝ)}
    (hH : IsLawOf H (F.copula θ)) {Q P : Measure (Fin d → ℝ)} [IsProbabilityMeasure Q] [IsProbabilityMeasure P] (hP : Uniform P)
    (hQ : Atomless Q) (hc : HasCopula Q P) (hτ : ∀ a b, a < b → kendallTau P a b = tauReal F θ) (hne : P {w | gap P H w ≠ 0} ≠ 0)
    {smp : FitObj → Sampler G d} {ρ : ℝ} (hρ : 0 < ρ) (hs : ∀ c r, c.cop = .arch F { st with theta := .fin r } → |r - θ| < ρ →
      SamplesFrom F r (smp c)) {reps : ℤ} (hr : 1 ≤ reps) {ε δ : ℝ} (hε : 0 < ε) (hδ : 0 < δ) :
    ∃ N : ℕ, ∀ n, N ≤ n → ∀ (k : ItauOptions) (ties fitTies : String) (t t' : TieMethod), parseTies ties = .ok t →
      parseTies fitTies = .ok t' → iid n Q {x | ¬ Likely R (gofRun (fun u => k.fit env opt o u) (fun c u => gofCdfOf c u)
        (fun c => (smp c).random n none) x reps ties fitTies) δ fun r => ThetaNear F st θ ε r.1 ∧
          (∃ s : ℝ, r.2.1 = .fin s ∧ misfit P H / 2 * n ≤ s) ∧ r.2.2 = 0.5 / (reps + 1)} ≤ ENNReal.ofReal δ := by
  have := hH.prob
  have hu := arch_uniform ha.1 hH
  obtain ⟨ρ', hρ', hw⟩ := exists_interval (inner_near ha)
  refine gof_run_rejects hR.prob hP hu hQ hc (arch_tauFit hk hll opt hF ha ho hdim hH)
    ((arch_tauFit hk hll opt hF ha ho hdim hH).fits.congr hτ) (misfit_pos hP hu hne)
    (ρ := min ρ ρ') (lt_min hρ hρ') (random := fun c n => (smp c).random n none) ?_ ?_ hr hε hδ
  · rintro c ⟨r, hcop, hr⟩
    exact (objLaw_spec hcop (hw r (lt_of_lt_of_le hr (min_le_right _ _))).1).prob
  · rintro c ⟨r, hcop, hr⟩ n
    have hwr := hw r (lt_of_lt_of_le hr (min_le_right _ _))
    refine samplesFrom_draws hR hwr.1 (fun hFc => ?_) (objLaw_spec hcop hwr.1) (hs c r hcop (lt_of_lt_of_le hr (min_le_left _ _))) n
    subst hFc
    have : -1 < r := hwr.2
    exact this.ne'

/-- **C158** On data of the family itself the statistic per observation converges to zero. -/
theorem gof_statistic_null {env : FitEnv} (hk : IsKendall env.fns.kendall)
    (hll : ∀ c n (w : Fin n → Fin d → ℚ), ∃ v, env.logPdfSum c n d w = .ok v) (opt : List Fl → OptTree) {F : Family} (hF : F ≠ .frank)
    {θ : ℝ} (ha : Within F θ d) {o : FitObj} {st : ArchState} (ho : o.cop = .arch F st) (hdim : st.dim = d) {H : Measure (Fin d → ℝ)}
    (hH : IsLawOf H (F.copula θ)) {Q : Measure (Fin d → ℝ)} [IsProbabilityMeasure Q] (hQ : Atomless Q) (hc : HasCopula Q H)
    {ε δ : ℝ} (hε : 0 < ε) (hδ : 0 < δ) :
    ∃ N : ℕ, ∀ n, N ≤ n → iid n Q {x | ¬ ∀ (k : ItauOptions) (ties fitTies : String) (t t' : TieMethod), parseTies ties = .ok t →
      parseTies fitTies = .ok t' → ∃ c s, gofFit (fun u => k.fit env opt o u) (fun c u => gofCdfOf c u) x ties fitTies = .ok (c, .fin s) ∧
        ThetaNear F st θ ε c ∧ 0 ≤ s ∧ s / n ≤ ε} ≤ ENNReal.ofReal δ := by
  have := hH.prob
  obtain ⟨N, hN⟩ := gof_statistic_converges hk hll opt hF ha ho hdim hH (arch_uniform ha.1 hH) hQ hc (fun a b hab => by
    rw [arch_tau_eq ha.1 hH hab.ne]
    cases F <;> rfl) hε hδ
  refine ⟨N, fun n hn => (measure_mono fun x hx => ?_).trans (hN n hn)⟩
  intro hg
  refine hx fun k ties fitTies t t' ht ht' => ?_
  obtain ⟨c, s, h1, h2, h3, h4⟩ := hg k ties fitTies t t' ht ht'
  rw [misfit_self, sub_zero] at h4
  exact ⟨c, s, h1, h2, h3, (le_abs_self _).trans h4⟩

/-! ### Data of the other copulas of the library -/

/-- Laws that differ have distribution functions that differ where the first has its mass, if its density is positive. -/
theorem gap_mass {P H : Measure (Fin d → ℝ)} [IsProbabilityMeasure P] [IsProbabilityMeasure H] (hP : Uniform P) (hH : Uniform H)
    {g : (Fin d → ℝ) → ℝ} (hd : HasCubeDensity P g) (hg : ∀ u ∈ cube d, 0 < g u) (hne : P ≠ H) : P {w | gap P H w ≠ 0} ≠ 0 := by
  have hO : IsOpen {w | gap P H w ≠ 0} := isOpen_ne_fun (gap_continuous hP hH) continuous_const
  obtain ⟨w, hw, hw'⟩ : ∃ w : Fin d → ℝ, (∀ j, 0 < w j ∧ w j ≤ 1) ∧ distFn P w ≠ distFn H w := by
    by_contra hcon
    push Not at hcon
    exact hne (IsLawOf.unique (C := distFn H) ⟨‹_›, uniform_ae' hP, hcon⟩ ⟨‹_›, uniform_ae' hH, fun _ _ => rfl⟩)
  obtain ⟨v, hv1, hv2⟩ := mem_closure_iff.mp (mem_closure_cube fun j => ⟨(hw j).1.le, (hw j).2⟩) _ hO
    (show gap P H w ≠ 0 from sub_ne_zero.mpr hw')
  have := mass_pos hd (hO.inter (cube_open d)) ⟨v, hv1, hv2⟩ (fun u hu => hu.2) fun u hu => hg u hu.2
  exact fun h0 => this (measure_mono_null Set.inter_subset_left h0)

theorem choice_uniform (m : Choice d) (h : m.Ok) {P : Measure (Fin d → ℝ)} (hP : m.HasLaw P) : Uniform P := by
  cases m with
  | arch F θ => exact arch_uniform h.1 hP
  | gaussian s S => subst hP; exact gaussLaw_uniform h.pos.posSemidef h.diag
  | student s S ν => subst hP; exact studentLaw_uniform h.1.pos.posSemidef h.1.diag h.2.1
  | indep => subst hP; exact iid_unif_uniform d

theorem choice_density {f : EllFns} (hn : f.Normal) (ht : f.Student) (h2 : 2 ≤ d) (m : Choice d) (h : m.Ok)
    (hc : ∀ θ, m = .arch .clayton θ → 0 < θ) {P : Measure (Fin d → ℝ)} (hP : m.HasLaw P) :
    ∃ g, HasCubeDensity P g ∧ ∀ u ∈ cube d, 0 < g u := by
  cases m with
  | arch F θ =>
    cases F with
    | clayton =>
      obtain ⟨g, a, b⟩ := clayton_pdf_density (hc θ rfl) h2
      obtain ⟨_, g', -, e, -, e'⟩ := clayton_pdf_mixed (hc θ rfl) h2
      exact ⟨g, b P hP, pdf_eq_pos a e e'⟩
    | gumbel =>
      obtain ⟨g, a, b⟩ := gumbel_pdf_density h.2 h2
      obtain ⟨_, g', -, e, -, e'⟩ := gumbel_pdf_mixed h.2 h2
      exact ⟨g, b P hP, pdf_eq_pos a e e'⟩
    | frank =>
      obtain ⟨g, a, b⟩ := frank_pdf_density_partial h.2 h2
      obtain ⟨g', e, -, e', -⟩ := frank_pdf_mixed_partial h.2 h2
      exact ⟨g, b P hP, pdf_eq_pos a e e'⟩
  | gaussian s S =>
    obtain ⟨c, hc, hden⟩ := gaussianPdf_density hn h
    subst hP
    exact ⟨c, hden, fun u hu => (hc 1 (fun _ => u) fun _ j => hu j).2.2 0⟩
  | student s S ν =>
    obtain ⟨c, hc, hden⟩ := studentPdf_density_partial ht h.1 h.2.1 h.2.2
    subst hP
    exact ⟨c, hden, fun u hu => (hc 1 (fun _ => u) fun _ j => hu j).2.2 0⟩
  | indep =>
    obtain ⟨g, a, -⟩ := choice_scores hn ht (Choice.indep (d := d)) h hP
    subst hP
    refine ⟨fun _ => 1, fun s hs => ?_, fun _ _ => one_pos⟩
    have e : {u : Fin d → ℝ | ∀ j, 0 < u j ∧ u j < 1} = {x | ∀ j, x j ∈ Set.Ioo (0 : ℝ) 1} := rfl
    have hfin : MeasureTheory.volume (s ∩ {u : Fin d → ℝ | ∀ j, 0 < u j ∧ u j < 1}) ≠ ⊤ := by
      rw [e, ← Measure.restrict_apply hs, ← iid_unif]
      exact measure_ne_top _ _
    refine ⟨integrableOn_const hfin, ?_⟩
    rw [setIntegral_const, smul_eq_mul, mul_one, measureReal_def, measureReal_def, iid_unif, Measure.restrict_apply hs, e]

/-- The parameters for which `random` draws from the copula, as the code has special branches next to independence. -/
def Spec.Drawable (F : Family) (θ : ℝ) : Prop :=
  match F with
  | .clayton => 1 / 10 ^ 7 < |θ|
  | .gumbel => 1 + (1 / 10 ^ 8 + 1 / 10 ^ 5) < θ
  | .frank => False

omit [MeasurableSpace G.S] in
theorem objSampler_near {F : Family} {st : ArchState} {θ : ℝ} (h : Drawable F θ) : ∃ ρ, 0 < ρ ∧
    ∀ (c : FitObj) (r : ℝ), c.cop = .arch F { st with theta := .fin r } → |r - θ| < ρ → SamplesFrom F r (objSampler c : Sampler G d) := by
  cases F with
  | frank => exact h.elim
  | clayton =>
    obtain ⟨ρ, hρ, hn⟩ := exists_interval ((continuous_abs.tendsto θ).eventually (lt_mem_nhds h))
    refine ⟨ρ, hρ, fun c r hc hr => ⟨?_, (hn r hr).le⟩⟩
    unfold objSampler
    rw [hc]
  | gumbel =>
    obtain ⟨ρ, hρ, hn⟩ := exists_interval (lt_mem_nhds h)
    refine ⟨ρ, hρ, fun c r hc hr => ⟨?_, hn r hr⟩⟩
    unfold objSampler
    rw [hc]

theorem Spec.Drawable.within {F : Family} {θ : ℝ} (h : Drawable F θ) (ha : Copulae.Admissible F θ d) (h1 : F = .clayton → θ ≠ -1) : Within F θ d := by
  refine ⟨ha, ?_⟩
  cases F with
  | frank => exact h.elim
  | clayton => exact lt_of_le_of_ne ha.2.2.1 (h1 rfl).symm
  | gumbel =>
    have : 1 + (1 / 10 ^ 8 + 1 / 10 ^ 5) < θ := h
    show 1 < θ
    refine lt_trans ?_ this
    norm_num

/-- **C158** `gof_copula` for a Clayton or Gumbel family with `method='itau'` on data of any other copula of the library whose
taus are those of the family at the parameter `θ`, with any continuous margins: the p-value is the least there is. -/
theorem gof_rejects_others {f : EllFns} (hn : f.Normal) (ht : f.Student) (hR : IsIdeal G R) {env : FitEnv} (hk : IsKendall env.fns.kendall)
    (hll : ∀ c n (w : Fin n → Fin d → ℚ), ∃ v, env.logPdfSum c n d w = .ok v) (opt : List Fl → OptTree) {F : Family}
    {θ : ℝ} (ha : (Choice.arch (d := d) F θ).Ok) (hdr : Drawable F θ) {o : FitObj} {st : ArchState} (ho : o.cop = .arch F st)
    (hdim : st.dim = d) (m : Choice d) (hm : m.Ok) (hne : ¬ m.Same (.arch F θ)) {Q P : Measure (Fin d → ℝ)}
    [IsProbabilityMeasure Q] (hP : m.HasLaw P) (hQ : Atomless Q) (hc : HasCopula Q P)
    (hτ : ∀ a b, a < b → kendallTau P a b = tauReal F θ) {reps : ℤ} (hr : 1 ≤ reps) {ε δ : ℝ} (hε : 0 < ε) (hδ : 0 < δ) :
    ∃ κ : ℝ, 0 < κ ∧ ∃ N : ℕ, ∀ n, N ≤ n → ∀ (k : ItauOptions) (ties fitTies : String) (t t' : TieMethod), parseTies ties = .ok t →
      parseTies fitTies = .ok t' → iid n Q {x | ¬ Likely R (gofRun (fun u => k.fit env opt o u) (fun c u => gofCdfOf c u)
        (fun c => (objSampler c : Sampler G d).random n none) x reps ties fitTies) δ fun r => ThetaNear F st θ ε r.1 ∧
          (∃ s : ℝ, r.2.1 = .fin s ∧ κ * n ≤ s) ∧ r.2.2 = 0.5 / (reps + 1)} ≤ ENNReal.ofReal δ := by
  have hF : F ≠ .frank := by rintro rfl; exact hdr
  obtain ⟨H, hH⟩ := arch_law_exists ha.1
  have hpH := hH.prob
  have hpP : IsProbabilityMeasure P := by
    obtain ⟨P', hp, hP'⟩ := choice_law m hm
    cases m with
    | arch F' θ' => exact (show IsLawOf P _ from hP).prob
    | gaussian s S => rw [show P = _ from hP, ← show P' = _ from hP']; exact hp
    | student s S ν => rw [show P = _ from hP, ← show P' = _ from hP']; exact hp
    | indep => rw [show P = _ from hP, ← show P' = _ from hP']; exact hp
  have h2 : 2 ≤ d := ha.1.1
  have hw : Within F θ d := hdr.within ha.1 fun hFc => by
    subst hFc
    rcases ha.2 with h' | h'
    · linarith
    · exact h'.2.1.ne'
  have huP := choice_uniform m hm hP
  have huH := arch_uniform ha.1 hH
  have hcl : ∀ θ', m = .arch .clayton θ' → 0 < θ' := by
    rintro θ' rfl
    by_contra hneg
    have e := hτ ⟨0, by omega⟩ ⟨1, by omega⟩ (by simp)
    rw [arch_tau_eq hm.1 hP (by simp)] at e
    have h1 : -1 ≤ θ' := hm.1.2.2.1
    have h0 : θ' < 0 := lt_of_le_of_ne (not_lt.mp hneg) hm.1.2.1
    cases F with
    | frank => exact hF rfl
    | clayton =>
      have h3 : -1 < θ := hw.2
      simp only [archTau, tauReal] at e
      rw [div_eq_div_iff (by linarith) (by linarith)] at e
      exact hne ⟨rfl, by linarith⟩
    | gumbel =>
      have h3 : 1 < θ := hw.2
      simp only [archTau, tauReal] at e
      have h4 : θ' / (θ' + 2) < 0 := div_neg_of_neg_of_pos h0 (by linarith)
      have h5 : 1 / θ ≤ 1 := by rw [div_le_one (by linarith)]; exact h3.le
      linarith
  have hPH : P ≠ H := choice_laws_differ h2 m (.arch F θ) hm ha hP hH hne (by
    rintro ⟨-, rfl, rfl⟩
    exact lt_irrefl _ (show (1 : ℝ) < 1 from hw.2))
  obtain ⟨g, hg, hg0⟩ := choice_density hn ht h2 m hm hcl hP
  have hmass := gap_mass huP huH hg hg0 hPH
  obtain ⟨ρ, hρ, hs⟩ := objSampler_near (G := G) (d := d) (st := st) hdr
  exact ⟨_, half_pos (misfit_pos huP huH hmass), gof_rejects hR hk hll opt hF hw ho hdim hH huP hQ hc hτ hmass hρ hs hr hε hδ⟩

/-- The default options. -/
def itauDefault : ItauOptions := ⟨none, "itau", "average", .fin 1, by decide, ⟨.average, by decide⟩⟩

/-- Data of a Gumbel copula in three dimensions with the parameter 2, tested for the Clayton family: tau is 1/2 for the parameter 2. -/
example (seeded : ℕ → ℕ → Answers) (opt : List Fl → OptTree) {P : Measure (Fin 3 → ℝ)} (hP : IsLawOf P (Family.copula .gumbel 2))
    {δ : ℝ} (hδ : 0 < δ) := by
  have := hP.prob
  have ha : Copulae.Admissible .gumbel 2 3 := ⟨by norm_num, (by norm_num : (1 : ℝ) ≤ 2)⟩
  have hu := arch_uniform ha hP
  exact gof_rejects_others exactEll_ok.1 exactEll_ok.2 (idealGen_isIdeal seeded) (env := exactFitEnv) exactKendall_ok
    (fun _ _ _ => ⟨_, rfl⟩) opt (d := 3) (F := .clayton) (θ := 2)
    ⟨⟨by norm_num, by norm_num, by norm_num, fun _ => by norm_num⟩, Or.inl (by norm_num)⟩ (show 1 / 10 ^ 7 < |(2 : ℝ)| by norm_num)
    (o := ⟨.arch .clayton ⟨3, .fin 7, .fin 0, .pinf⟩, none⟩) rfl rfl (.arch .gumbel 2) ⟨ha, (by norm_num : (1 : ℝ) ≤ 2)⟩
    (by simp [Choice.Same]) hP (atomless_of_uniform hu) (hasCopula_self _) (fun a b hab => by
      rw [arch_tau_eq ha hP hab.ne]
      norm_num [archTau, tauReal]) (reps := 1000) (by norm_num) one_pos hδ

/-- Data of a bivariate Gaussian copula with correlation 1/2, tested for the Clayton family: tau is 1/3 for the parameter 1. -/
example (seeded : ℕ → ℕ → Answers) (opt : List Fl → OptTree) {δ : ℝ} (hδ : 0 < δ) := by
  have hpd := halfEll_corr.pos.posSemidef
  have hu := gaussLaw_uniform hpd halfEll_corr.diag
  have : IsProbabilityMeasure (gaussLaw (!![1, 1 / 2; 1 / 2, 1] : Matrix (Fin 2) (Fin 2) ℝ)) := by
    obtain ⟨P, hp, hP⟩ := choice_law (.gaussian halfEll !![1, 1 / 2; 1 / 2, 1]) halfEll_corr
    rwa [show P = _ from hP] at hp
  exact gof_rejects_others exactEll_ok.1 exactEll_ok.2 (idealGen_isIdeal seeded) (env := exactFitEnv) exactKendall_ok
    (fun _ _ _ => ⟨_, rfl⟩) opt (d := 2) (F := .clayton) (θ := 1)
    ⟨⟨by norm_num, by norm_num, by norm_num, fun _ => by norm_num⟩, Or.inl (by norm_num)⟩ (show 1 / 10 ^ 7 < |(1 : ℝ)| by norm_num)
    (o := ⟨.arch .clayton ⟨2, .fin 7, .fin (-1), .pinf⟩, none⟩) rfl rfl (.gaussian halfEll !![1, 1 / 2; 1 / 2, 1]) halfEll_corr
    (by simp [Choice.Same]) rfl (atomless_of_uniform hu) (hasCopula_self _) (fun a b hab => by
      have e : Real.arcsin (1 / 2) = Real.pi / 6 := by
        rw [← Real.sin_pi_div_six]
        exact Real.arcsin_sin (by linarith [Real.pi_pos]) (by linarith [Real.pi_pos])
      rw [kendallTau_gaussLaw hpd halfEll_corr.diag]
      have hS : (!![1, 1 / 2; 1 / 2, 1] : Matrix (Fin 2) (Fin 2) ℝ) a b = 1 / 2 := by
        fin_cases a <;> fin_cases b <;> simp at hab ⊢
      rw [hS, e]
      simp only [tauReal]
      field_simp
      norm_num) (reps := 1000) (by norm_num) one_pos hδ

end Copulae
