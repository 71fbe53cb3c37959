import Verif.Model.MarginalEll
import Verif.Lemmas.MarginLaw
import Verif.Props.GaussianCopula
import Verif.Props.StudentCopula
import Verif.Props.ArchLaw
import Verif.Props.SampleLaw
import Verif.Props.MarginalFit

/-!
C141: a `MarginalCopula` describes one law: `cdf` is its distribution function, `pdf` its density, `random` draws from it,
and its margins are the distributions given. C80, C86 and C87 for the elliptical copulas.
-/

namespace Copulae

open MeasureTheory ProbabilityTheory Set CopulaMeasure
open Spec hiding volume

variable {d : ℕ}

/-! ### What is claimed -/

/-- `cdf` of the marginal copula is the distribution function of `Q`, plain and logarithmic, at the points whose marginal
probabilities are in `D`. -/
def MargCdfOf (inner : Inner d) (m : Fin d → Margin) (M : Fin d → Measure ℝ) (D : ℝ → Prop) (Q : Measure (Fin d → ℝ)) :
    Prop :=
  ∀ (n : ℕ) (x : Fin n → Fin d → ℝ), (∀ i j, D ((M j).real (Iic (x i j)))) →
    margCdf inner m .float (fun i j => .fin (x i j)) false = .ok (fun i => .fin (distFn Q (x i))) ∧
    margCdf inner m .float (fun i j => .fin (x i j)) true = .ok (fun i => Fl.log (.fin (distFn Q (x i))))

/-- `pdf` of the marginal copula is a density of `Q`, plain and logarithmic, at all points inside the support. -/
def MargPdfOf (inner : Inner d) (m : Fin d → Margin) (M : Fin d → Measure ℝ) (Q : Measure (Fin d → ℝ)) : Prop :=
  ∃ h : (Fin d → ℝ) → ℝ, HasDensityOn Q (inside M) h ∧
    ∀ (n : ℕ) (x : Fin n → Fin d → ℝ), (∀ i, x i ∈ inside M) →
      margPdf inner m .float (fun i j => .fin (x i j)) false = .ok (fun i => .fin (h (x i))) ∧
      margPdf inner m .float (fun i j => .fin (x i j)) true = .ok (fun i => Fl.log (.fin (h (x i))))

/-! ### Inner copulas of any family -/

variable {m : Fin d → Margin} {M : Fin d → Measure ℝ} {q : Fin d → ℝ → ℝ} {inner : Inner d} {P : Measure (Fin d → ℝ)}

theorem margCdf_joint {D : ℝ → Prop} (h : ∀ j, IsMarginLaw (m j) (M j) (q j)) {Q : Measure (Fin d → ℝ)}
    (hQ : IsJoint Q M (distFn P))
    (hC : ∀ (n : ℕ) (u : Fin n → Fin d → ℝ), (∀ i j, D (u i j)) → (∀ i j, 0 ≤ u i j ∧ u i j ≤ 1) →
      inner.cdf (fun i j => .fin (u i j)) false = .ok (fun i => .fin (distFn P (u i))) ∧
      inner.cdf (fun i j => .fin (u i j)) true = .ok (fun i => Fl.log (.fin (distFn P (u i))))) :
    MargCdfOf inner m M D Q := by
  intro n x hx
  have := fun j => (h j).prob
  have e : marginU m .float (fun i j => Fl.fin (x i j)) = fun i j => Fl.fin ((M j).real (Iic (x i j))) :=
    funext fun i => funext fun j => (h j).cdf _
  unfold margCdf
  rw [e]
  have := hC n (fun i j => (M j).real (Iic (x i j))) hx fun i j => ⟨measureReal_nonneg, measureReal_le_one⟩
  simp only [hQ.dist]
  exact this

theorem margPdf_joint (h : ∀ j, IsMarginLaw (m j) (M j) (q j)) {f : Fin d → ℝ → ℝ}
    (hf : ∀ j, HasMarginDensity (m j) (M j) (f j)) {c : (Fin d → ℝ) → ℝ} (hc : HasCubeDensity P c)
    (hc0 : ∀ u ∈ cube d, 0 ≤ c u)
    (hpdf : ∀ (n : ℕ) (u : Fin n → Fin d → ℝ), (∀ i, u i ∈ cube d) →
      inner.pdf (fun i j => .fin (u i j)) false = .ok (fun i => .fin (c (u i))) ∧
      inner.pdf (fun i j => .fin (u i j)) true = .ok (fun i => Fl.log (.fin (c (u i))))) :
    MargPdfOf inner m M (jointLaw P q) := by
  refine ⟨_, jointLaw_density hc h hf, fun n x hx => ?_⟩
  have e : marginU m .float (fun i j => Fl.fin (x i j)) = fun i j => Fl.fin ((M j).real (Iic (x i j))) :=
    funext fun i => funext fun j => (h j).cdf _
  have hd := fun i => densityMargin_value (m := m) (f := f) (x := x) (i := i)
    (fun j => (hf j).pdf _) (fun j => (hf j).logpdf _) (fun j => (hf j).nonneg _)
  have hi := hpdf n (fun i j => (M j).real (Iic (x i j))) hx
  unfold margPdf
  rw [e, hi.1, hi.2]
  simp only [bind, Except.bind, pure, Except.pure, Bool.false_eq_true, if_false, if_true]
  refine ⟨congrArg Except.ok (funext fun i => ?_), congrArg Except.ok (funext fun i => ?_)⟩
  · rw [(hd i).1, Fl.fin_mul_fin]
  · rw [(hd i).2, Fl.log_mul_fin (hc0 _ (hx i)) (Finset.prod_nonneg fun j _ => (hf j).nonneg _)]

theorem marginal_draws {G : Gen} [MeasurableSpace G.S] {R : Measure G.S} (hR : IsIdeal G R) [IsProbabilityMeasure P]
    (hP : Uniform P) (h : ∀ j, IsMarginLaw (m j) (M j) (q j)) (c : Sampler G d)
    (hc : ∀ n, Draws R (c.random n none) matFl (iid n P)) (n : ℕ) :
    Draws R ((Sampler.marginal c fun j => (m j).ppf).random n none) matFl (iid n (jointLaw P q)) := by
  refine marginal_random_iid hR c hc (fun j => (m j).ppf) (q := fun j => qHat (q j)) (fun j => measurable_qHat (h j)) ?_ n
  filter_upwards [uniform_ae' hP] with u hu j
  rw [(h j).ppf _ (hu j).1 (hu j).2, qHat_eq (hu j).1 (hu j).2]

/-! ### Gaussian copulas -/

/-- **C141**, Gaussian inner copulas: one law with the margins given, whatever they are, and the Gaussian copula; `cdf` is
its distribution function everywhere, `random` draws independent rows from it, and `pdf` is its density if the margins have
one. (`random(1)` raises, see `margRandom_one_fails`.) -/
theorem gaussian_marginal_law {f : EllFns} (hf : f.Normal) {s : Ell} {S : Matrix (Fin d) (Fin d) ℝ} (hs : s.HasCorr S)
    (h : ∀ j, IsMarginLaw (m j) (M j) (q j)) :
    ∃ Q, IsJoint Q M (distFn (gaussLaw S)) ∧ MargCdfOf (gaussInner f s d) m M (fun _ => True) Q ∧
      (∀ (G : Gen) [MeasurableSpace G.S] (R : Measure G.S), IsIdeal G R → ∀ n, n ≠ 1 →
        Draws R ((Sampler.marginal (Sampler.gaussian (fun x => .fin (normCdf x)) S) fun j => (m j).ppf).random n none)
          matFl (iid n Q)) ∧
      ∀ p : Fin d → ℝ → ℝ, (∀ j, HasMarginDensity (m j) (M j) (p j)) → MargPdfOf (gaussInner f s d) m M Q := by
  have hu := gaussLaw_uniform hs.pos.posSemidef hs.diag
  have hJ := jointLaw_isJoint hu h
  refine ⟨jointLaw (gaussLaw S) q, hJ, ?_, fun G _ R hR n _ => ?_, fun p hp => ?_⟩
  · exact margCdf_joint h hJ fun n u _ hu => gaussianCdf_law hf hs u hu
  · exact marginal_draws hR hu h _ (fun n => gaussian_random_iid hR hs.pos.posSemidef n) n
  · obtain ⟨c, hc, hd⟩ := gaussianPdf_density hf hs
    have hc1 := fun u (hu : u ∈ cube d) => (hc 1 (fun _ => u) fun _ j => hu j).2.2 0
    refine margPdf_joint h hp hd (fun u hu => (hc1 u hu).le) fun n u hu => ?_
    refine ⟨(hc n u fun i j => hu i j).1, (hc n u fun i j => hu i j).2.1.trans ?_⟩
    refine congrArg Except.ok (funext fun i => ?_)
    rw [Fl.log_pos (hc1 _ (hu i))]

/-- **C141**, Student inner copulas (partial: at most 10000 degrees of freedom; `cdf` raises, see C102): likewise. -/
theorem student_marginal_law_partial {f : EllFns} (hf : f.Student) {s : Ell} {S : Matrix (Fin d) (Fin d) ℝ}
    (hs : s.HasCorr S) {ν : ℝ} (hν : 0 < ν) (hν' : ν ≤ 10000) (h : ∀ j, IsMarginLaw (m j) (M j) (q j)) :
    ∃ Q, IsJoint Q M (distFn (studentLaw S ν)) ∧
      (∀ (G : Gen) [MeasurableSpace G.S] (R : Measure G.S), IsIdeal G R → ∀ n, n ≠ 1 →
        Draws R ((Sampler.marginal (Sampler.student (fun x => .fin ((tLine ν).real (Iic x))) S ν)
          fun j => (m j).ppf).random n none) matFl (iid n Q)) ∧
      ∀ p : Fin d → ℝ → ℝ, (∀ j, HasMarginDensity (m j) (M j) (p j)) → MargPdfOf (studentInner f s (.fin ν) d) m M Q := by
  have := studentLaw_prob S hν
  have hu := studentLaw_uniform hs.pos.posSemidef hs.diag hν
  have hJ := jointLaw_isJoint hu h
  refine ⟨jointLaw (studentLaw S ν) q, hJ, fun G _ R hR n _ => ?_, fun p hp => ?_⟩
  · exact marginal_draws hR hu h _ (fun n => student_random_iid_partial hR hs.pos.posSemidef hν hν' n) n
  · obtain ⟨c, hc, hd⟩ := studentPdf_density_partial hf hs hν hν'
    have hc1 := fun u (hu : u ∈ cube d) => (hc 1 (fun _ => u) fun _ j => hu j).2.2 0
    refine margPdf_joint h hp hd (fun u hu => (hc1 u hu).le) fun n u hu => ?_
    refine ⟨(hc n u fun i j => hu i j).1, (hc n u fun i j => hu i j).2.1.trans ?_⟩
    refine congrArg Except.ok (funext fun i => ?_)
    rw [Fl.log_pos (hc1 _ (hu i))]

/-! ### Archimedean copulas -/

theorem uniform_of_law {C : (Fin d → ℝ) → ℝ} (hP : IsLawOf P C)
    (hC : ∀ j v, 0 < v → v ≤ 1 → C (fun k => if k = j then v else 1) = v) : Uniform P := by
  have := hP.prob
  intro j
  have : IsProbabilityMeasure (P.map fun u => u j) :=
    Measure.isProbabilityMeasure_map (measurable_pi_apply j).aemeasurable
  have : IsProbabilityMeasure ((MeasureTheory.volume : Measure ℝ).restrict (Ioc (0 : ℝ) 1)) := ⟨by simp⟩
  refine Measure.ext_of_Iic _ _ fun v => ?_
  rw [Measure.map_apply (measurable_pi_apply j) measurableSet_Iic, Measure.restrict_apply measurableSet_Iic]
  rcases le_or_gt v 0 with h0 | h0
  · have e : Iic v ∩ Ioc (0 : ℝ) 1 = ∅ := by
      ext x
      simp only [mem_inter_iff, mem_Iic, mem_Ioc, mem_empty_iff_false, iff_false]
      intro hx
      linarith [hx.1, hx.2.1]
    rw [e, measure_empty]
    refine measure_mono_null (t := {x | ¬ ∀ j, 0 < x j ∧ x j < 1}) (fun x hx hc => ?_) hP.mem
    have : x j ≤ v := hx
    linarith [(hc j).1]
  · have e : Iic v ∩ Ioc (0 : ℝ) 1 = Ioc 0 (min v 1) := by
      ext x
      simp only [mem_inter_iff, mem_Iic, mem_Ioc, le_min_iff]
      tauto
    have hb : 0 < min v 1 ∧ min v 1 ≤ 1 := ⟨lt_min h0 one_pos, min_le_right _ _⟩
    have h1 := hP.dist (fun k => if k = j then min v 1 else 1) fun k => by
      split_ifs
      · exact hb
      · exact ⟨one_pos, le_rfl⟩
    rw [hC j _ hb.1 hb.2] at h1
    rw [e, Real.volume_Ioc, sub_zero, ← h1, distFn, measureReal_def, ENNReal.ofReal_toReal (measure_ne_top _ _)]
    refine measure_congr ?_
    filter_upwards [hP.mem] with x hx
    refine propext ?_
    show x j ≤ v ↔ ∀ k, x k ≤ if k = j then min v 1 else 1
    constructor
    · intro hv k
      split_ifs with hk
      · subst hk; exact le_min hv (hx k).2.le
      · exact (hx k).2.le
    · intro hk
      have := hk j
      rw [if_pos rfl] at this
      exact this.trans (min_le_left _ _)

theorem exists_ne_of_two {d : ℕ} (hd : 2 ≤ d) (i : Fin d) : ∃ j, i ≠ j := by
  by_cases h : i.1 = 0
  · exact ⟨⟨1, by omega⟩, fun e => by rw [e] at h; simp at h⟩
  · exact ⟨⟨0, by omega⟩, fun e => h (by rw [e])⟩

theorem pairPoint_one {d : ℕ} (i j : Fin d) (a : ℝ) :
    pairPoint i j a 1 = fun k => if k = i then a else 1 := by
  funext k
  unfold pairPoint
  split_ifs <;> rfl

/-- The law of an Archimedean copula has uniform margins, and `cdf` is its distribution function also where a coordinate is
zero. -/
theorem law_cdf {C : (Fin d → ℝ) → ℝ} (hP : IsLawOf P C) {D : ℝ → Prop} {F : Family} {θ : ℝ} {K : (Fin d → ℝ) → ℝ}
    (hK : ∀ (n : ℕ) (u : Fin n → Fin d → ℝ), (∀ i j, D (u i j)) →
      archCdf F θ d (fun i j => .fin (u i j)) false = .ok fun i => .fin (K (u i)))
    (hK1 : ∀ u : Fin d → ℝ, (∀ j, D (u j)) → (∀ j, 0 < u j ∧ u j ≤ 1) → K u = C u)
    (hK0 : ∀ u : Fin d → ℝ, (∃ j, u j = 0) → K u = 0)
    (n : ℕ) (u : Fin n → Fin d → ℝ) (hD : ∀ i j, D (u i j)) (hu : ∀ i j, 0 ≤ u i j ∧ u i j ≤ 1) :
    (archInner F θ d).cdf (fun i j => .fin (u i j)) false = .ok (fun i => .fin (distFn P (u i))) ∧
    (archInner F θ d).cdf (fun i j => .fin (u i j)) true = .ok (fun i => Fl.log (.fin (distFn P (u i)))) := by
  have := hP.prob
  have e : ∀ i, K (u i) = distFn P (u i) := by
    intro i
    by_cases hz : ∃ j, u i j = 0
    · rw [hK0 _ hz]
      obtain ⟨j, hj⟩ := hz
      symm
      rw [distFn, measureReal_eq_zero_iff]
      refine measure_mono_null (t := {x | ¬ ∀ j, 0 < x j ∧ x j < 1}) (fun x hx hc => ?_) hP.mem
      have : x j ≤ u i j := hx j
      rw [hj] at this
      linarith [(hc j).1]
    · push Not at hz
      have hp : ∀ j, 0 < u i j ∧ u i j ≤ 1 := fun j => ⟨lt_of_le_of_ne (hu i j).1 (hz j).symm, (hu i j).2⟩
      rw [hK1 _ (hD i) hp, hP.dist _ hp]
  have h1 := hK n u hD
  simp only [e] at h1
  refine ⟨h1, ?_⟩
  have h2 : archCdf F θ d (fun i j => .fin (u i j)) false = .ok fun i => .fin (distFn P (u i)) := h1
  show archCdf F θ d _ true = _
  unfold archCdf at h2 ⊢
  simp only [ne_eq, not_true_eq_false, if_false] at h2 ⊢
  cases hp : F.psi θ with
  | error e => rw [hp] at h2; cases h2
  | ok p =>
    rw [hp] at h2
    simp only [bind, Except.bind, pure, Except.pure, Bool.false_eq_true, if_false, if_true,
      Except.ok.injEq] at h2 ⊢
    funext i
    rw [← congrFun h2 i]

/-- The copula of the family. -/
noncomputable def Family.copula (F : Family) (θ : ℝ) : (Fin d → ℝ) → ℝ :=
  match F with
  | .clayton => Spec.clayton θ
  | .frank => Spec.frank θ
  | .gumbel => Spec.gumbel θ

theorem copula_margin {F : Family} {θ : ℝ} (h : Admissible F θ d) (j : Fin d) (v : ℝ) (h0 : 0 < v) (h1 : v ≤ 1) :
    F.copula θ (fun k => if k = j then v else 1) = v := by
  obtain ⟨i, hi⟩ := exists_ne_of_two h.1 j
  rw [← pairPoint_one j i]
  cases F with
  | clayton => exact (clayton_pairPoint θ hi v 1).trans (claytonC2_margin h.2.1 h0).1
  | frank => exact (frank_pairPoint h.2.1 hi h0 one_pos).trans (frankC2_margin h.2.1 v).1
  | gumbel =>
    have := h.2
    exact (gumbel_pairPoint (by linarith) hi v 1).trans (gumbelC2_margin (by linarith) h0 h1).1

theorem copula_genC {F : Family} {θ : ℝ} (h : Admissible F θ d) (u : Fin d → ℝ) (hD : ∀ j, CdfDomain F (u j))
    (hu : ∀ j, 0 < u j ∧ u j ≤ 1) : genC (F.phi θ) (F.psiR θ) u = F.copula θ u := by
  have h1 := computes_genC h 1 (fun _ => u) fun _ j => hD j
  cases F with
  | clayton =>
    rw [claytonCdf_closed h (fun _ => u) fun _ j => hu j] at h1
    simp only [Except.ok.injEq] at h1
    exact (Fl.fin.inj (congrFun h1 0)).symm
  | gumbel =>
    rw [gumbelCdf_closed h (fun _ => u) fun _ j => hu j] at h1
    simp only [Except.ok.injEq] at h1
    exact (Fl.fin.inj (congrFun h1 0)).symm
  | frank =>
    rw [frankCdf_closed_partial h (fun _ => u) fun _ j => hD j] at h1
    simp only [Except.ok.injEq] at h1
    exact (Fl.fin.inj (congrFun h1 0)).symm

theorem arch_cdf_law {F : Family} {θ : ℝ} (ha : Admissible F θ d) (hP : IsLawOf P (F.copula θ)) (n : ℕ)
    (u : Fin n → Fin d → ℝ) (hD : ∀ i j, CdfDomain F (u i j)) (hu : ∀ i j, 0 ≤ u i j ∧ u i j ≤ 1) :
    (archInner F θ d).cdf (fun i j => .fin (u i j)) false = .ok (fun i => .fin (distFn P (u i))) ∧
    (archInner F θ d).cdf (fun i j => .fin (u i j)) true = .ok (fun i => Fl.log (.fin (distFn P (u i)))) :=
  law_cdf hP (D := CdfDomain F) (computes_genC ha) (fun u hD hu => copula_genC ha u hD hu)
    (fun _ ⟨_, hj⟩ => IsGen.genC_zero hj) n u hD hu

/-- The samplers that draw from the copula of the family: Clayton from 1e-7 in absolute value, Gumbel from
`1 + 1e-5 + 1e-8`, Frank in two dimensions from 1e-7 in absolute value. -/
def SamplesFrom {G : Gen} (F : Family) (θ : ℝ) (c : Sampler G d) : Prop :=
  match F with
  | .clayton => c = .clayton θ ∧ 1 / 10 ^ 7 ≤ |θ|
  | .gumbel => c = .gumbel gumbelFrail θ ∧ 1 + (1 / 10 ^ 8 + 1 / 10 ^ 5) < θ
  | .frank => d = 2 ∧ (∃ ls, c = .frank ls θ) ∧ 1 / 10 ^ 7 ≤ |θ|

theorem samplesFrom_draws {G : Gen} [MeasurableSpace G.S] {R : Measure G.S} (hR : IsIdeal G R) {F : Family} {θ : ℝ}
    (ha : Admissible F θ d) (hne : F = .clayton → θ ≠ -1) (hP : IsLawOf P (F.copula θ)) {c : Sampler G d}
    (hc : SamplesFrom F θ c) (n : ℕ) : Draws R (c.random n none) matFl (iid n P) := by
  cases F with
  | clayton =>
    obtain ⟨rfl, h7⟩ := hc
    obtain ⟨h2, h0, h1, h3⟩ := ha
    rcases h2.eq_or_lt with rfl | hlt
    · obtain ⟨L, hL, hdr⟩ := clayton_pair_iid hR (lt_of_le_of_ne h1 (hne rfl).symm) h7
      rw [IsLawOf.unique hP hL]
      exact hdr n
    · have hpos := h3 hlt.ne'
      rw [abs_of_pos hpos] at h7
      obtain ⟨L, hL, hdr⟩ := clayton_frailty_iid hR h7 hlt
      rw [IsLawOf.unique hP hL]
      exact hdr n
  | gumbel =>
    obtain ⟨rfl, h7⟩ := hc
    obtain ⟨L, hL, hdr⟩ := gumbel_random_iid hR h7 d
    rw [IsLawOf.unique hP hL]
    exact hdr n
  | frank =>
    obtain ⟨rfl, ⟨ls, rfl⟩, h7⟩ := hc
    obtain ⟨L, hL, hdr⟩ := frank_pair_iid_partial hR ls h7
    rw [IsLawOf.unique hP hL]
    exact hdr n

theorem arch_law_exists {F : Family} {θ : ℝ} (ha : Admissible F θ d) :
    ∃ P : Measure (Fin d → ℝ), IsLawOf P (F.copula θ) := by
  have hd := ha.1
  cases F with
  | clayton =>
    obtain ⟨h2, h0, h1, h3⟩ := ha
    rcases h2.eq_or_lt with rfl | hlt
    · exact (archimedean_law_exists (d := 2) (by norm_num)).2.2.2.1 h1 h0
    · exact (archimedean_law_exists (by omega)).1 (h3 hlt.ne')
  | gumbel => exact (archimedean_law_exists (by omega)).2.1 ha.2
  | frank =>
    obtain ⟨h2, h0, h1, h3⟩ := ha
    rcases h2.eq_or_lt with rfl | hlt
    · exact (archimedean_law_exists (d := 2) (by norm_num)).2.2.2.2 h0
    · exact (archimedean_law_exists (by omega)).2.2.1 (h3 hlt.ne')

theorem exp_fin_nonneg {v : Fl} {r : ℝ} (h : Fl.exp v = .fin r) : 0 ≤ r := by
  cases v with
  | nan => cases h
  | pinf => cases h
  | ninf =>
    rw [Fl.exp_ninf] at h
    rw [← Fl.fin.inj h]
  | fin x =>
    rw [Fl.exp_fin] at h
    rw [← Fl.fin.inj h]
    exact (Real.exp_pos x).le

/-- The parameters for which `pdf` is a density of the copula. -/
def PdfParam (F : Family) (θ : ℝ) (d : ℕ) : Prop :=
  match F with
  | .clayton => 0 < θ ∨ d = 2 ∧ -1 < θ ∧ θ < 0
  | .frank => 0 < θ
  | .gumbel => 1 ≤ θ

theorem arch_pdf_law {F : Family} {θ : ℝ} (hd : 2 ≤ d) (h : PdfParam F θ d) :
    ∃ g : (Fin d → ℝ) → ℝ, PdfComputes F θ d (cube d) g ∧ (∀ u ∈ cube d, 0 ≤ g u) ∧
      ∀ P : Measure (Fin d → ℝ), IsLawOf P (F.copula θ) → HasCubeDensity P g := by
  have key : ∀ g g' : (Fin d → ℝ) → ℝ, PdfComputes F θ d (cube d) g → PdfComputes F θ d (cube d) g' →
      (∀ u ∈ cube d, 0 < g' u) → ∀ u ∈ cube d, 0 ≤ g u := by
    intro g g' h1 h2 h3 u hu
    have a := (h1 1 (fun _ => u) fun _ => hu).1
    have b := (h2 1 (fun _ => u) fun _ => hu).1
    rw [a] at b
    simp only [Except.ok.injEq] at b
    rw [Fl.fin.inj (congrFun b 0)]
    exact (h3 u hu).le
  cases F with
  | clayton =>
    rcases h with h | ⟨rfl, h1, h0⟩
    · obtain ⟨g, a, b⟩ := clayton_pdf_density h hd
      obtain ⟨_, g', -, e, -, e'⟩ := clayton_pdf_mixed h hd
      exact ⟨g, a, key g g' a e e', b⟩
    · obtain ⟨g, a, b⟩ := clayton_pdf_density_neg h1 h0
      refine ⟨g, a, fun u hu => ?_, b⟩
      have c := (a 1 (fun _ => u) fun _ => hu).1
      simp only [archPdf] at c
      rw [claytonPdf_neg h0 _ fun _ => hu] at c
      simp only [Bool.false_eq_true, if_false, Except.ok.injEq] at c
      exact exp_fin_nonneg (congrFun c 0)
  | gumbel =>
    obtain ⟨g, a, b⟩ := gumbel_pdf_density h hd
    obtain ⟨_, g', -, e, -, e'⟩ := gumbel_pdf_mixed h hd
    exact ⟨g, a, key g g' a e e', b⟩
  | frank =>
    obtain ⟨g, a, b⟩ := frank_pdf_density_partial h hd
    obtain ⟨g', e, -, e', -⟩ := frank_pdf_mixed_partial h hd
    exact ⟨g, a, key g g' a e e', b⟩

/-- **C141**, Archimedean inner copulas (partial: for Frank copulas `cdf` at marginal probabilities above 0.01, `random` in two
dimensions and `pdf` for positive parameters, see C12, C108 and C109): one law with the margins given and the copula of the family. -/
theorem arch_marginal_law_partial {F : Family} {θ : ℝ} (ha : Admissible F θ d) (h : ∀ j, IsMarginLaw (m j) (M j) (q j)) :
    ∃ P Q : Measure (Fin d → ℝ), IsLawOf P (F.copula θ) ∧ IsJoint Q M (distFn P) ∧
      MargCdfOf (archInner F θ d) m M (CdfDomain F) Q ∧
      ((F = .clayton → θ ≠ -1) → ∀ (G : Gen) [MeasurableSpace G.S] (R : Measure G.S), IsIdeal G R →
        ∀ c : Sampler G d, SamplesFrom F θ c → ∀ n,
          Draws R ((Sampler.marginal c fun j => (m j).ppf).random n none) matFl (iid n Q)) ∧
      (PdfParam F θ d → ∀ p : Fin d → ℝ → ℝ, (∀ j, HasMarginDensity (m j) (M j) (p j)) →
        MargPdfOf (archInner F θ d) m M Q) := by
  obtain ⟨P, hP⟩ := arch_law_exists ha
  have := hP.prob
  have hu := uniform_of_law hP fun j v h0 h1 => copula_margin ha j v h0 h1
  have hJ := jointLaw_isJoint hu h
  refine ⟨P, jointLaw P q, hP, hJ, ?_, fun hne G _ R hR c hc n => ?_, fun hpar p hp => ?_⟩
  · exact margCdf_joint h hJ fun n u hD hu => arch_cdf_law ha hP n u hD hu
  · exact marginal_draws hR hu h c (fun n => samplesFrom_draws hR ha hne hP hc n) n
  · obtain ⟨g, hg, h0, hden⟩ := arch_pdf_law ha.1 hpar
    exact margPdf_joint h hp (hden P hP) h0 fun n u hu => hg n u hu

theorem log_prod_fin {ι : Type*} (s : Finset ι) {f : ι → ℝ} (h : ∀ j, 0 ≤ f j) :
    ∑ j ∈ s, Fl.log (.fin (f j)) = Fl.log (.fin (∏ j ∈ s, f j)) := by
  classical
  induction s using Finset.induction_on with
  | empty =>
    rw [Finset.sum_empty, Finset.prod_empty, Fl.log_pos one_pos, Real.log_one]
    rfl
  | insert a s ha ih =>
    rw [Finset.sum_insert ha, Finset.prod_insert ha, ih, Fl.log_mul_fin (h a) (Finset.prod_nonneg fun j _ => h j)]

/-- **C141**, the independence copula as inner copula: the margins are independent. -/
theorem indep_marginal_law (h : ∀ j, IsMarginLaw (m j) (M j) (q j)) :
    ∃ Q, IsJoint Q M (fun u => ∏ j, u j) ∧ MargCdfOf (indepInner d) m M (fun _ => True) Q ∧
      (∀ (G : Gen) [MeasurableSpace G.S] (R : Measure G.S), IsIdeal G R → ∀ n,
        Draws R ((Sampler.marginal Sampler.indep fun j => (m j).ppf).random n none) matFl (iid n Q)) ∧
      ∀ p : Fin d → ℝ → ℝ, (∀ j, HasMarginDensity (m j) (M j) (p j)) → MargPdfOf (indepInner d) m M Q := by
  have hprob : IsProbabilityMeasure unif := ⟨by simp [unif]⟩
  have hu : Uniform (iid d unif) := by
    intro j
    rw [iid, ← Measure.restrict_congr_set Ioo_ae_eq_Ioc]
    exact (measurePreserving_eval (fun _ : Fin d => unif) j).map_eq
  have hdist : ∀ u : Fin d → ℝ, (∀ j, 0 ≤ u j ∧ u j ≤ 1) → distFn (iid d unif) u = ∏ j, u j := by
    intro u hu
    have h1 : {y : Fin d → ℝ | ∀ j, y j ≤ u j} = Set.pi univ fun j => Iic (u j) := by
      ext y; exact ⟨fun h j _ => h j, fun h j => h j (mem_univ j)⟩
    rw [distFn, iid, measureReal_def, h1, Measure.pi_pi, ENNReal.toReal_prod]
    refine Finset.prod_congr rfl fun j _ => ?_
    rw [unif, Measure.restrict_congr_set Ioo_ae_eq_Ioc, Measure.restrict_apply measurableSet_Iic]
    have e : Iic (u j) ∩ Ioc (0 : ℝ) 1 = Ioc 0 (u j) := by
      ext y
      simp only [mem_inter_iff, mem_Iic, mem_Ioc]
      constructor
      · intro h; exact ⟨h.2.1, h.1⟩
      · intro h; exact ⟨h.2, h.1, h.2.trans (hu j).2⟩
    rw [e, Real.volume_Ioc, sub_zero, ENNReal.toReal_ofReal (hu j).1]
  have := fun j => (h j).prob
  have hJ := jointLaw_isJoint hu h
  refine ⟨jointLaw (iid d unif) q, ⟨hJ.prob, hJ.margin, fun x => ?_⟩, ?_, fun G _ R hR n => ?_, fun p hp => ?_⟩
  · rw [hJ.dist, hdist _ fun j => ⟨measureReal_nonneg, measureReal_le_one⟩]
  · refine margCdf_joint h hJ fun n u _ hu => ?_
    have e : ∀ i, distFn (iid d unif) (u i) = ∏ j, u i j := fun i => hdist _ (hu i)
    show indepCdf d _ false = _ ∧ indepCdf d _ true = _
    unfold indepCdf
    simp only [ne_eq, not_true_eq_false, if_false, Bool.false_eq_true, if_true, e]
    refine ⟨congrArg Except.ok (funext fun i => Fl.prod_fin _ _), congrArg Except.ok (funext fun i => ?_)⟩
    exact log_prod_fin _ fun j => (hu i j).1
  · exact marginal_draws hR hu h Sampler.indep (fun n => randomUniform_draws hR n d) n
  · refine margPdf_joint (c := fun _ => 1) h hp (fun s hs => ?_) (fun _ _ => zero_le_one) fun n u hu => ?_
    · have e : {u : Fin d → ℝ | ∀ j, 0 < u j ∧ u j < 1} = {x | ∀ j, x j ∈ Ioo (0 : ℝ) 1} := rfl
      have hfin : MeasureTheory.volume (s ∩ {u : Fin d → ℝ | ∀ j, 0 < u j ∧ u j < 1}) ≠ ⊤ := by
        rw [e, ← Measure.restrict_apply hs, ← iid_unif]
        exact measure_ne_top _ _
      refine ⟨integrableOn_const hfin, ?_⟩
      rw [setIntegral_const, smul_eq_mul, mul_one, measureReal_def, measureReal_def, iid_unif, Measure.restrict_apply hs, e]
    · simp only [indepInner, indepPdf]
      simp only [ne_eq, not_true_eq_false, if_false, Bool.false_eq_true, if_true]
      refine ⟨trivial, congrArg Except.ok (funext fun i => ?_)⟩
      rw [Fl.log_pos one_pos, Real.log_one]

/-! ### Log-likelihoods -/

/-- The log-likelihood of a copula whose `pdf` computes `g` on the open cube, at pseudo-observations. -/
theorem baseLogLik_of_pdf {pdf : {n : ℕ} → (Fin n → Fin d → Fl) → Bool → Except PyErr (Fin n → Fl)}
    {g : (Fin d → ℝ) → ℝ}
    (hp : ∀ (n : ℕ) (u : Fin n → Fin d → ℝ), (∀ i j, 0 < u i j ∧ u i j < 1) →
      pdf (fun i j => .fin (u i j)) true = .ok fun i => .fin (Real.log (g (u i))))
    {n : ℕ} (hn : n ≠ 1) (data : Fin n → Fin d → ℚ) {ties : String} {t : TieMethod} (ht : parseTies ties = .ok t) :
    ∃ u : Fin n → Fin d → ℚ, pobsMat data ties = .ok u ∧
      baseLogLik pdf data true ties = .ok (.fin (∑ i, Real.log (g fun j => ((u i j : ℚ) : ℝ)))) ∧
      baseLogLik pdf u false ties = baseLogLik pdf data true ties ∧
      baseLogLik pdf u true ties = baseLogLik pdf data true ties := by
  obtain ⟨w, hw, hb⟩ := pseudoObs_mem_Ioo data (s := ties) (m := t) ht
  have h1 := pobsMat_eq data ties
  obtain ⟨u, hu⟩ : ∃ u, pobsMat data ties = .ok u := by
    unfold pobsMat
    rw [ht]
    exact ⟨_, rfl⟩
  rw [hu, hw] at h1
  simp only [Except.map, Except.ok.injEq, NDArr.mat.injEq, heq_eq_eq, true_and] at h1
  subst h1
  refine ⟨_, hu, ?_, ?_, ?_⟩
  · unfold baseLogLik maybePobs
    simp only [if_true]
    rw [hu]
    simp only [bind, Except.bind]
    rw [hp n (fun i j => ((_ : ℚ) : ℝ)) fun i j => ⟨by exact_mod_cast (hb i j).1, by exact_mod_cast (hb i j).2⟩]
    simp only [sumLog]
    rw [if_neg hn, Fl.sum_fin]
  · unfold baseLogLik maybePobs
    simp only [if_true, Bool.false_eq_true, if_false]
    rw [hu]
  · unfold baseLogLik maybePobs
    simp only [if_true]
    rw [hu]
    simp only [bind, Except.bind]
    rw [pobsMat_idem hu]

/-- **C86**, Gaussian copulas: the log-likelihood is the sum of the logarithms of the density of the copula at the
pseudo-observations, and repeating the transformation to pseudo-observations changes nothing. -/
theorem gaussianLogLik_value {f : EllFns} (hf : f.Normal) {s : Ell} {S : Matrix (Fin d) (Fin d) ℝ} (hs : s.HasCorr S) :
    ∃ g : (Fin d → ℝ) → ℝ, (∀ u ∈ cube d, 0 < g u) ∧ HasDensityOn (gaussLaw S) (cube d) g ∧
      ∀ {n : ℕ} (data : Fin n → Fin d → ℚ) (ties : String) (t : TieMethod), parseTies ties = .ok t → n ≠ 1 →
        ∃ u : Fin n → Fin d → ℚ, pobsMat data ties = .ok u ∧
          baseLogLik (gaussInner f s d).pdf data true ties = .ok (.fin (∑ i, Real.log (g fun j => ((u i j : ℚ) : ℝ)))) ∧
          baseLogLik (gaussInner f s d).pdf u false ties = baseLogLik (gaussInner f s d).pdf data true ties ∧
          baseLogLik (gaussInner f s d).pdf u true ties = baseLogLik (gaussInner f s d).pdf data true ties := by
  obtain ⟨c, hc, hd⟩ := gaussianPdf_density hf hs
  exact ⟨c, fun u hu => (hc 1 (fun _ => u) fun _ j => hu j).2.2 0, hd, fun data ties t ht hn =>
    baseLogLik_of_pdf (fun n u hu => (hc n u hu).2.1) hn data ht⟩

/-- **C86**, Student copulas (partial: at most 10000 degrees of freedom): likewise. -/
theorem studentLogLik_value_partial {f : EllFns} (hf : f.Student) {s : Ell} {S : Matrix (Fin d) (Fin d) ℝ}
    (hs : s.HasCorr S) {ν : ℝ} (hν : 0 < ν) (hν' : ν ≤ 10000) :
    ∃ g : (Fin d → ℝ) → ℝ, (∀ u ∈ cube d, 0 < g u) ∧ HasDensityOn (studentLaw S ν) (cube d) g ∧
      ∀ {n : ℕ} (data : Fin n → Fin d → ℚ) (ties : String) (t : TieMethod), parseTies ties = .ok t → n ≠ 1 →
        ∃ u : Fin n → Fin d → ℚ, pobsMat data ties = .ok u ∧
          baseLogLik (studentInner f s (.fin ν) d).pdf data true ties
            = .ok (.fin (∑ i, Real.log (g fun j => ((u i j : ℚ) : ℝ)))) ∧
          baseLogLik (studentInner f s (.fin ν) d).pdf u false ties
            = baseLogLik (studentInner f s (.fin ν) d).pdf data true ties ∧
          baseLogLik (studentInner f s (.fin ν) d).pdf u true ties
            = baseLogLik (studentInner f s (.fin ν) d).pdf data true ties := by
  obtain ⟨c, hc, hd⟩ := studentPdf_density_partial hf hs hν hν'
  exact ⟨c, fun u hu => (hc 1 (fun _ => u) fun _ j => hu j).2.2 0, hd, fun data ties t ht hn =>
    baseLogLik_of_pdf (fun n u hu => (hc n u hu).2.1) hn data ht⟩

/-- **C87**, any inner copula whose marginal copula has a density that `pdf` computes (`gaussian_marginal_law`,
`student_marginal_law_partial`, `arch_marginal_law_partial`, `indep_marginal_law`): with `to_pobs=False` the
log-likelihood is the sum of the logarithms of the joint density at the observations. -/
theorem margLogLik_of_density {inner : Inner d} {Q : Measure (Fin d → ℝ)} (h : MargPdfOf inner m M Q) :
    ∃ g : (Fin d → ℝ) → ℝ, HasDensityOn Q (inside M) g ∧
      ∀ (n : ℕ) (data : Fin n → Fin d → ℚ) (ties : String), n ≠ 1 →
        (∀ i, (fun j => ((data i j : ℚ) : ℝ)) ∈ inside M) →
        margLogLik inner m data false ties = .ok (∑ i, Fl.log (.fin (g fun j => ((data i j : ℚ) : ℝ)))) := by
  obtain ⟨g, hd, hv⟩ := h
  refine ⟨g, hd, fun n data ties hn hx => ?_⟩
  unfold margLogLik baseLogLik maybePobs
  simp only [Bool.false_eq_true, if_false, bind, Except.bind]
  rw [(hv n (fun i j => ((data i j : ℚ) : ℝ)) hx).2]
  simp only [sumLog]
  rw [if_neg hn]

/-! ### The assumptions can be met -/

/-- The uniform law on `[0, 2]`. -/
noncomputable def uniTwoLaw : Measure ℝ :=
  (MeasureTheory.volume : Measure ℝ).withDensity fun x => ENNReal.ofReal (if 0 ≤ x ∧ x ≤ 2 then 1 / 2 else 0)

theorem uniTwoLaw_Iic (x : ℝ) : uniTwoLaw (Iic x) = ENNReal.ofReal (max 0 (min (x / 2) 1)) := by
  have e : (fun x : ℝ => ENNReal.ofReal (if 0 ≤ x ∧ x ≤ 2 then 1 / 2 else 0)) =
      (Icc (0 : ℝ) 2).indicator fun _ => ENNReal.ofReal (1 / 2) := by
    funext x
    by_cases hx : x ∈ Icc (0 : ℝ) 2
    · rw [indicator_of_mem hx, if_pos (mem_Icc.mp hx)]
    · rw [indicator_of_notMem hx, if_neg (fun h => hx (mem_Icc.mpr h)), ENNReal.ofReal_zero]
  rw [uniTwoLaw, withDensity_apply _ measurableSet_Iic, e, setLIntegral_indicator measurableSet_Icc, setLIntegral_const,
    show Icc (0 : ℝ) 2 ∩ Iic x = Icc 0 (min 2 x) by
      ext y; simp only [mem_inter_iff, mem_Icc, mem_Iic, le_min_iff, and_assoc],
    Real.volume_Icc, ← ENNReal.ofReal_mul (by norm_num)]
  rcases le_total x 0 with h | h
  · rw [ENNReal.ofReal_of_nonpos, ENNReal.ofReal_of_nonpos]
    · exact max_le le_rfl ((min_le_left _ _).trans (by linarith))
    · have := min_le_right 2 x
      linarith
  · congr 1
    rw [max_eq_right (le_min (by linarith) zero_le_one)]
    rcases le_total x 2 with h2 | h2
    · rw [min_eq_right h2, min_eq_left (by linarith)]; ring
    · rw [min_eq_left h2, min_eq_right (by linarith)]; ring

theorem uniTwo_isMarginLaw : IsMarginLaw uniTwo uniTwoLaw fun u => 2 * u where
  prob := ⟨by
    have hmono : Monotone fun n : ℕ => Iic ((n : ℝ)) := fun a b hab => Iic_subset_Iic.mpr (by exact_mod_cast hab)
    have hun : ⋃ n : ℕ, Iic ((n : ℝ)) = univ := by
      rw [eq_univ_iff_forall]
      intro x
      obtain ⟨n, hn⟩ := exists_nat_ge x
      exact mem_iUnion.mpr ⟨n, hn⟩
    have ht := tendsto_measure_iUnion_atTop (μ := uniTwoLaw) hmono
    rw [hun] at ht
    refine tendsto_nhds_unique ht (tendsto_const_nhds.congr' ?_)
    filter_upwards [Filter.eventually_ge_atTop 2] with n hn
    have hn' : (2 : ℝ) ≤ n := by exact_mod_cast hn
    simp only [Function.comp]
    rw [uniTwoLaw_Iic, min_eq_right (by linarith), max_eq_right zero_le_one, ENNReal.ofReal_one]⟩
  cdf x := by
    rw [measureReal_def, uniTwoLaw_Iic, ENNReal.toReal_ofReal (le_max_left _ _)]
    rfl
  ppf u h0 h1 := if_pos ⟨h0.le, h1.le⟩
  quantile u h0 h1 x := by
    rw [measureReal_def, uniTwoLaw_Iic, ENNReal.toReal_ofReal (le_max_left _ _), le_max_iff, le_min_iff]
    constructor
    · intro h; right; exact ⟨by linarith, h1.le⟩
    · rintro (h | h)
      · linarith
      · linarith [h.1]

theorem uniTwo_hasDensity : HasMarginDensity uniTwo uniTwoLaw fun x => if 0 ≤ x ∧ x ≤ 2 then 1 / 2 else 0 where
  meas := Measurable.ite measurableSet_Icc measurable_const measurable_const
  nonneg x := by split_ifs <;> norm_num
  density := rfl
  pdf _ := rfl
  logpdf _ := rfl

/-- A discrete margin: a fair coin with the values 0 and 1. -/
noncomputable def coin : Margin where
  cdf := fun v => match v with
    | .fin x => .fin (if x < 0 then 0 else if x < 1 then 1 / 2 else 1)
    | _ => .nan
  pdf := fun _ => .nan
  logpdf := fun _ => .nan
  ppf := fun v => match v with
    | .fin u => .fin (if u ≤ 1 / 2 then 0 else 1)
    | _ => .nan

theorem coin_isMarginLaw : IsMarginLaw coin
    (ENNReal.ofReal (1 / 2) • Measure.dirac 0 + ENNReal.ofReal (1 / 2) • Measure.dirac 1)
    fun u => if u ≤ 1 / 2 then 0 else 1 := by
  have hv : ∀ x : ℝ, (ENNReal.ofReal (1 / 2) • Measure.dirac (0 : ℝ) + ENNReal.ofReal (1 / 2) • Measure.dirac 1 :
      Measure ℝ).real (Iic x) = if x < 0 then 0 else if x < 1 then 1 / 2 else 1 := by
    intro x
    rw [measureReal_def, Measure.add_apply, Measure.smul_apply, Measure.smul_apply, Measure.dirac_apply' _ measurableSet_Iic,
      Measure.dirac_apply' _ measurableSet_Iic]
    by_cases h0 : x < 0
    · rw [if_pos h0, indicator_of_notMem (by simpa using h0), indicator_of_notMem (by simp; linarith)]
      simp
    · rw [if_neg h0, indicator_of_mem (by simpa using h0)]
      by_cases h1 : x < 1
      · rw [if_pos h1, indicator_of_notMem (by simpa using h1)]
        simp
      · rw [if_neg h1, indicator_of_mem (by simpa using h1)]
        simp only [Pi.one_apply, smul_eq_mul, mul_one]
        rw [← ENNReal.ofReal_add (by norm_num) (by norm_num), ENNReal.toReal_ofReal (by norm_num)]
        norm_num
  refine ⟨⟨?_⟩, fun x => ?_, fun u _ _ => rfl, fun u h0 h1 x => ?_⟩
  · simp only [Measure.add_apply, Measure.smul_apply, measure_univ, smul_eq_mul, mul_one]
    rw [← ENNReal.ofReal_add (by norm_num) (by norm_num)]
    norm_num
  · rw [hv]
    rfl
  · rw [hv]
    split_ifs <;> constructor <;> intro <;> linarith

/-- A Gaussian copula with correlation one half, a uniform and a discrete margin. -/
example := gaussian_marginal_law exactNormal_ok halfEll_corr (m := ![uniTwo, coin])
  (M := ![uniTwoLaw, ENNReal.ofReal (1 / 2) • Measure.dirac 0 + ENNReal.ofReal (1 / 2) • Measure.dirac 1])
  (q := ![fun u => 2 * u, fun u => if u ≤ 1 / 2 then 0 else 1])
  (Fin.forall_fin_two.mpr ⟨uniTwo_isMarginLaw, coin_isMarginLaw⟩)

/-- With two continuous margins there is a density. -/
example : ∃ Q, IsJoint Q (fun _ : Fin 2 => uniTwoLaw) (distFn (gaussLaw !![1, 1 / 2; 1 / 2, 1])) ∧
    MargPdfOf (gaussInner exactNormal halfEll 2) (fun _ => uniTwo) (fun _ => uniTwoLaw) Q := by
  obtain ⟨Q, h1, -, -, h2⟩ := gaussian_marginal_law exactNormal_ok halfEll_corr (m := fun _ => uniTwo)
    (M := fun _ => uniTwoLaw) (q := fun _ u => 2 * u) fun _ => uniTwo_isMarginLaw
  exact ⟨Q, h1, h2 _ fun _ => uniTwo_hasDensity⟩

example := student_marginal_law_partial exactEll_ok.2 halfEll_corr (ν := 5) (by norm_num) (by norm_num)
  (m := fun _ => coin) fun _ => coin_isMarginLaw

example := gaussianLogLik_value exactNormal_ok halfEll_corr

example := studentLogLik_value_partial exactEll_ok.2 halfEll_corr (ν := 5) (by norm_num) (by norm_num)

example := arch_marginal_law_partial (F := .clayton) (θ := -1 / 2) (d := 2) ⟨le_rfl, by norm_num, by norm_num, by simp⟩
  (m := fun _ => uniTwo) fun _ => uniTwo_isMarginLaw

example : PdfParam .clayton (-1 / 2) 2 ∧ SamplesFrom (G := vecGen) .clayton (-1 / 2) (Sampler.clayton (-1 / 2) : Sampler vecGen 2) :=
  ⟨Or.inr ⟨rfl, by norm_num, by norm_num⟩, rfl, by norm_num [abs_of_neg]⟩

example := indep_marginal_law (d := 5) (m := fun _ => coin) fun _ => coin_isMarginLaw

end Copulae
