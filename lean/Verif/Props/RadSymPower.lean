import Verif.Lemmas.RadSymLaw

/-!
C147: the test of radial symmetry tells the copulas that are radially symmetric from those that are not.
-/

namespace Copulae

open MeasureTheory ProbabilityTheory Spec CopulaMeasure

variable {d : ℕ} {G : Gen} [MeasurableSpace G.S] {R : Measure G.S}

/-- `rad_sym_test(c.random(n), N, ties)`: however many replications, the probability that the p-value is other than the least the
test can report, or that the statistic is less than `κ n`, tends to zero as the sample grows. -/
def Spec.RejectsSymmetry (R : Measure G.S) (c : Sampler G d) : Prop :=
  ∃ κ : ℝ, 0 < κ ∧ ∀ (N : ℤ) (δ : ℝ), 1 ≤ N → 0 < δ → ∃ n0 : ℕ, ∀ n, n0 ≤ n →
    ∀ K : Measure (ℕ → Fin n → Bool), CoinFlips K →
    (R.prod K) {p | ¬ ∃ (x : Fin n → Fin d → ℝ) (s' : G.S), (c.random n none).exec p.1 = (.ok (matFl x), s') ∧
      ∀ (argsort : (Fin n → ℝ) → Fin n → Fin n) (ties : String) (t : TieMethod), parseTies ties = .ok t →
        ∃ r, radSymTest argsort p.2 x N ties = .ok r ∧ κ * n ≤ r.statistic ∧ r.pValue = 0.5 / (N + 1)} ≤ ENNReal.ofReal δ

/-- `rad_sym_test(c.random(n), N, ties)`: whatever the coins, the probability that the statistic is more than `ε n` tends to zero
as the sample grows, for every `ε`. -/
def Spec.FindsSymmetry (R : Measure G.S) (c : Sampler G d) : Prop :=
  ∀ ε δ : ℝ, 0 < ε → 0 < δ → ∃ n0 : ℕ, ∀ n, n0 ≤ n → Likely R (c.random n none) δ fun m =>
    ∃ x : Fin n → Fin d → ℝ, m = matFl x ∧ ∀ (argsort : (Fin n → ℝ) → Fin n → Fin n) (flips : ℕ → Fin n → Bool) (N : ℤ)
      (ties : String) (t : TieMethod), 1 ≤ N → parseTies ties = .ok t →
      ∃ r, radSymTest argsort flips x N ties = .ok r ∧ 0 ≤ r.statistic ∧ r.statistic ≤ ε * n

theorem rejects_of_draws (hR : IsIdeal G R) {P : Measure (Fin d → ℝ)} [IsProbabilityMeasure P] (hP : Uniform P)
    {c c' : Sampler G d} (hc : ∀ n, Draws R (c.random n none) matFl (iid n P)) (h : WithMargins c c')
    (hne : P {w | asymmetry P w ≠ 0} ≠ 0) : RejectsSymmetry R c' := by
  have := hR.prob
  have key : ∀ Q : Measure (Fin d → ℝ), IsProbabilityMeasure Q → Atomless Q → HasCopula Q P →
      (∀ n, Draws R (c'.random n none) matFl (iid n Q)) → RejectsSymmetry R c' := by
    intro Q _ hQ hcop hd
    obtain ⟨κ, hκ, hrej⟩ := radSym_rejects_law hP hQ hcop hne
    refine ⟨κ, hκ, fun N δ hN hδ => ?_⟩
    obtain ⟨n0, h0⟩ := hrej N δ hN hδ
    refine ⟨n0, fun n hn K hK => ?_⟩
    have := hK.prob
    obtain ⟨X, next, hX, hnext, hrun, hmap⟩ := hd n
    have : IsProbabilityMeasure (iid n Q) := by unfold iid; infer_instance
    have hlaw : R.map X = iid n Q := Draws.law_fst hX hnext hmap
    have hprod : (R.prod K).map (Prod.map X id) = (iid n Q).prod K := by
      rw [← Measure.map_prod_map _ _ hX measurable_id, hlaw, Measure.map_id]
    have hz : (R.prod K) {p | ¬ (c'.random n none).exec p.1 = (.ok (matFl (X p.1)), next p.1)} = 0 :=
      ae_iff.mp (Measure.quasiMeasurePreserving_fst.ae hrun)
    refine (measure_mono (t := {p | ¬ (c'.random n none).exec p.1 = (.ok (matFl (X p.1)), next p.1)} ∪
      Prod.map X id ⁻¹' {q | ¬ ∀ (argsort : (Fin n → ℝ) → Fin n → Fin n) (ties : String) (t : TieMethod), parseTies ties = .ok t →
        ∃ r, radSymTest argsort q.2 q.1 N ties = .ok r ∧ κ * n ≤ r.statistic ∧ r.pValue = 0.5 / (N + 1)}) fun p hp => ?_).trans
      ((measure_union_le _ _).trans ?_)
    · by_cases hr : (c'.random n none).exec p.1 = (.ok (matFl (X p.1)), next p.1)
      · exact Or.inr fun hg => hp ⟨X p.1, next p.1, hr, hg⟩
      · exact Or.inl hr
    · rw [hz, zero_add]
      refine (Measure.le_map_apply (hX.prodMap measurable_id).aemeasurable _).trans ?_
      rw [hprod]
      exact h0 n hn K hK
  rcases h with rfl | ⟨m, M, q, hq, hM, rfl⟩
  · exact key P inferInstance (atomless_of_uniform hP) (hasCopula_self P) hc
  · exact key _ (jointLaw_isJoint hP hq).prob (jointLaw_atomless hP hq hM) (jointLaw_hasCopula hP hq hM)
      (marginal_draws hR hP hq c hc)

theorem finds_of_draws (hR : IsIdeal G R) {P : Measure (Fin d → ℝ)} [IsProbabilityMeasure P] (hP : Uniform P)
    {c c' : Sampler G d} (hc : ∀ n, Draws R (c.random n none) matFl (iid n P)) (h : WithMargins c c')
    (hs : reflected P = P) : FindsSymmetry R c' := by
  have := hR.prob
  have key : ∀ Q : Measure (Fin d → ℝ), IsProbabilityMeasure Q → Atomless Q → HasCopula Q P →
      (∀ n, Draws R (c'.random n none) matFl (iid n Q)) → FindsSymmetry R c' := by
    intro Q _ hQ hcop hd ε δ hε hδ
    obtain ⟨n0, h0⟩ := radSym_small_law hP hQ hcop hs hε hδ
    refine ⟨n0, fun n hn => ?_⟩
    have : IsProbabilityMeasure (iid n Q) := by unfold iid; infer_instance
    refine likely_of_draws (hd n) ((measure_mono fun x hx => ?_).trans (h0 n hn))
    exact fun hg => hx ⟨x, rfl, hg⟩
  rcases h with rfl | ⟨m, M, q, hq, hM, rfl⟩
  · exact key P inferInstance (atomless_of_uniform hP) (hasCopula_self P) hc
  · exact key _ (jointLaw_isJoint hP hq).prob (jointLaw_atomless hP hq hM) (jointLaw_hasCopula hP hq hM)
      (marginal_draws hR hP hq c hc)

/-- **C147**, Clayton copulas, alone or with any continuous margins: symmetry is rejected. -/
theorem clayton_rejects_symmetry (hR : IsIdeal G R) {θ : ℝ} (ha : Admissible .clayton θ d) (hne : θ ≠ -1) {c c' : Sampler G d}
    (hc : SamplesFrom .clayton θ c) (h : WithMargins c c') : RejectsSymmetry R c' := by
  obtain ⟨P, hP⟩ := arch_law_exists ha
  have := hP.prob
  have hu := uniform_of_law hP fun j v h0 h1 => copula_margin ha j v h0 h1
  refine rejects_of_draws hR hu (fun n => samplesFrom_draws hR ha (fun _ => hne) hP hc n) h ?_
  obtain ⟨h2, h0, h1, h3⟩ := ha
  rcases lt_or_gt_of_ne h0 with hneg | hpos
  · by_cases hd : d = 2
    · subst hd
      exact clayton_neg_asymmetric (lt_of_le_of_ne h1 hne.symm) hneg hP
    · exact absurd (h3 hd) (by linarith)
  · exact clayton_asymmetric hpos h2 hP

/-- **C147**, Gumbel copulas, alone or with any continuous margins: symmetry is rejected. -/
theorem gumbel_rejects_symmetry (hR : IsIdeal G R) {θ : ℝ} (ha : Admissible .gumbel θ d) {c c' : Sampler G d}
    (hc : SamplesFrom .gumbel θ c) (h : WithMargins c c') : RejectsSymmetry R c' := by
  obtain ⟨P, hP⟩ := arch_law_exists ha
  have := hP.prob
  have hu := uniform_of_law hP fun j v h0 h1 => copula_margin ha j v h0 h1
  have hθ : 1 < θ := by have := hc.2; linarith
  exact rejects_of_draws hR hu (fun n => samplesFrom_draws hR ha (fun h => by cases h) hP hc n) h (gumbel_asymmetric hθ ha.1 hP)

/-- **C147**, Frank copulas in two dimensions, alone or with any continuous margins: the statistic per observation vanishes. -/
theorem frank_finds_symmetry (hR : IsIdeal G R) {θ : ℝ} (ha : Admissible .frank θ 2) {c c' : Sampler G 2}
    (hc : SamplesFrom .frank θ c) (h : WithMargins c c') : FindsSymmetry R c' := by
  obtain ⟨P, hP⟩ := arch_law_exists ha
  have := hP.prob
  have hu := uniform_of_law hP fun j v h0 h1 => copula_margin ha j v h0 h1
  exact finds_of_draws hR hu (fun n => samplesFrom_draws hR ha (fun h => by cases h) hP hc n) h (frank_reflected ha hP)

/-- **C147**, Gaussian copulas, alone or with any continuous margins: likewise. -/
theorem gaussian_finds_symmetry (hR : IsIdeal G R) {S : Matrix (Fin d) (Fin d) ℝ} (hS : S.PosSemidef) (h1 : ∀ j, S j j = 1)
    {c' : Sampler G d} (h : WithMargins (Sampler.gaussian (fun x => .fin (normCdf x)) S) c') : FindsSymmetry R c' :=
  finds_of_draws hR (gaussLaw_uniform hS h1) (fun n => gaussian_random_iid hR hS n) h (gaussLaw_reflected hS)

/-- **C147**, Student copulas (partial: at most 10000 degrees of freedom, from where the sampler draws from another law), alone or
with any continuous margins: likewise. -/
theorem student_finds_symmetry_partial (hR : IsIdeal G R) {S : Matrix (Fin d) (Fin d) ℝ} (hS : S.PosSemidef) (h1 : ∀ j, S j j = 1)
    {ν : ℝ} (hν : 0 < ν) (hν' : ν ≤ 10000) {c' : Sampler G d}
    (h : WithMargins (Sampler.student (fun x => .fin ((tLine ν).real (Set.Iic x))) S ν) c') : FindsSymmetry R c' := by
  have := studentLaw_prob S hν
  exact finds_of_draws hR (studentLaw_uniform hS h1 hν) (fun n => student_random_iid_partial hR hS hν hν' n) h
    (studentLaw_reflected hS hν)

/-- **C147**, the independence copula, alone or with any continuous margins: likewise. -/
theorem indep_finds_symmetry (hR : IsIdeal G R) {c' : Sampler G d} (h : WithMargins Sampler.indep c') : FindsSymmetry R c' := by
  have hu : Uniform (iid d unif) := fun j => by
    have h := Measure.pi_map_eval (fun _ : Fin d => unif) j
    simp only [measure_univ, Finset.prod_const_one, one_smul] at h
    refine h.trans ?_
    rw [unif]
    exact Measure.restrict_congr_set Ioo_ae_eq_Ioc
  exact finds_of_draws hR hu (c := Sampler.indep) (fun n => randomUniform_draws hR n d) h indep_reflected

theorem exists_coinFlips (n : ℕ) : ∃ K : Measure (ℕ → Fin n → Bool), CoinFlips K :=
  ⟨Measure.infinitePi fun _ => Measure.pi fun _ => fairCoin, inferInstance, fun k => Measure.infinitePi_map_eval _ k⟩

theorem exists_good {Ω : Type*} [MeasurableSpace Ω] {μ : Measure Ω} [IsProbabilityMeasure μ] {A B : Set Ω}
    (h1 : μ A ≤ ENNReal.ofReal (1 / 4)) (h2 : μ B ≤ ENNReal.ofReal (1 / 4)) : ∃ p, p ∉ A ∧ p ∉ B := by
  have hlt := (measure_union_le (μ := μ) A B).trans (add_le_add h1 h2)
  rw [← ENNReal.ofReal_add (by norm_num) (by norm_num)] at hlt
  by_contra hall
  have : A ∪ B = Set.univ := Set.eq_univ_of_forall fun p => by
    by_contra hp
    exact hall ⟨p, not_or.mp hp⟩
  rw [this, measure_univ, ← ENNReal.ofReal_one] at hlt
  have := (ENNReal.ofReal_le_ofReal_iff (by norm_num)).mp hlt
  norm_num at this

/-- **C147** The two verdicts exclude each other: of no copula do samples make the test behave in both ways. -/
theorem rejects_not_finds (hR : IsIdeal G R) {c : Sampler G d} (h : RejectsSymmetry R c) : ¬ FindsSymmetry R c := by
  intro hf
  have := hR.prob
  obtain ⟨κ, hκ, hrej⟩ := h
  obtain ⟨n1, h1⟩ := hrej 1 (1 / 4) le_rfl (by norm_num)
  obtain ⟨n2, h2⟩ := hf (κ / 2) (1 / 4) (half_pos hκ) (by norm_num)
  set n := n1 + n2 + 1 with hn
  obtain ⟨K, hK⟩ := exists_coinFlips n
  have := hK.prob
  have b1 := h1 n (by omega) K hK
  have b2 := h2 n (by omega)
  have b3 : (R.prod K) {p | ¬ ∃ a s', (c.random n none).exec p.1 = (.ok a, s') ∧ ∃ x : Fin n → Fin d → ℝ, a = matFl x ∧
      ∀ (argsort : (Fin n → ℝ) → Fin n → Fin n) (flips : ℕ → Fin n → Bool) (N : ℤ) (ties : String) (t : TieMethod),
      1 ≤ N → parseTies ties = .ok t → ∃ r, radSymTest argsort flips x N ties = .ok r ∧ 0 ≤ r.statistic ∧ r.statistic ≤ κ / 2 * n} ≤
      ENNReal.ofReal (1 / 4) := by
    refine le_trans ?_ b2
    have e : R = (R.prod K).map Prod.fst := by rw [Measure.map_fst_prod, measure_univ, one_smul]
    conv_rhs => rw [e]
    exact Measure.le_map_apply measurable_fst.aemeasurable _
  obtain ⟨p, hp1, hp2⟩ := exists_good b1 b3
  obtain ⟨x, s', he, hx⟩ := not_not.mp hp1
  obtain ⟨a, s'', he', y, rfl, hy⟩ := not_not.mp hp2
  have hxy : y = x := by
    rw [he] at he'
    have := (Prod.mk.inj he').1
    simp only [Except.ok.injEq] at this
    funext i j
    exact (Fl.fin.inj (congrFun (congrFun this i) j)).symm
  subst hxy
  obtain ⟨r, hr, hge, -⟩ := hx (fun _ i => i) "average" _ parseTies_average
  obtain ⟨r', hr', -, hle⟩ := hy (fun _ i => i) p.2 1 "average" _ le_rfl parseTies_average
  rw [hr] at hr'
  obtain rfl := Except.ok.inj hr'
  have hn' : (0 : ℝ) < n := by exact_mod_cast (by omega : 0 < n)
  nlinarith [mul_pos hκ hn']

/-! ### The hypotheses can be met -/

/-- Samples of a Clayton copula with parameter 2 in three dimensions. -/
example (seeded : ℕ → ℕ → Answers) : RejectsSymmetry (G := idealGen seeded) streamLaw (Sampler.clayton 2 : Sampler (idealGen seeded) 3) :=
  clayton_rejects_symmetry (idealGen_isIdeal seeded) ⟨by norm_num, by norm_num, by norm_num, by norm_num⟩ (by norm_num)
    ⟨rfl, by norm_num⟩ (Or.inl rfl)

/-- Samples of a Clayton copula with parameter -1/2, between uniform margins on `[0, 2]`. -/
example (seeded : ℕ → ℕ → Answers) : RejectsSymmetry (G := idealGen seeded) streamLaw
    (Sampler.marginal (Sampler.clayton (-1 / 2) : Sampler (idealGen seeded) 2) fun _ => uniTwo.ppf) :=
  clayton_rejects_symmetry (idealGen_isIdeal seeded) (θ := -1 / 2) ⟨le_rfl, by norm_num, by norm_num, by simp⟩ (by norm_num)
    ⟨rfl, by norm_num [abs_of_neg]⟩
    (Or.inr ⟨fun _ => uniTwo, fun _ => uniTwoLaw, fun _ u => 2 * u, fun _ => uniTwo_isMarginLaw, fun _ => uniTwoLaw_atomless, rfl⟩)

example (seeded : ℕ → ℕ → Answers) : RejectsSymmetry (G := idealGen seeded) streamLaw
    (Sampler.gumbel gumbelFrail 3 : Sampler (idealGen seeded) 4) :=
  gumbel_rejects_symmetry (idealGen_isIdeal seeded) ⟨by norm_num, by norm_num⟩ ⟨rfl, by norm_num⟩ (Or.inl rfl)

example (seeded : ℕ → ℕ → Answers) (ls : ℝ → (n : ℕ) → Rnd (idealGen seeded) (Fin n → Fl)) : FindsSymmetry (G := idealGen seeded) streamLaw
    (Sampler.frank ls (-3) : Sampler (idealGen seeded) 2) :=
  frank_finds_symmetry (idealGen_isIdeal seeded) (θ := -3) ⟨le_rfl, by norm_num, by norm_num, by simp⟩
    ⟨rfl, ⟨ls, rfl⟩, by norm_num [abs_of_neg]⟩ (Or.inl rfl)

example (seeded : ℕ → ℕ → Answers) := gaussian_finds_symmetry (idealGen_isIdeal seeded) posDef_half.posSemidef halfEll_corr.diag
  (c' := Sampler.marginal _ fun _ => uniTwo.ppf)
  (Or.inr ⟨fun _ => uniTwo, fun _ => uniTwoLaw, fun _ u => 2 * u, fun _ => uniTwo_isMarginLaw, fun _ => uniTwoLaw_atomless, rfl⟩)

example (seeded : ℕ → ℕ → Answers) := student_finds_symmetry_partial (idealGen_isIdeal seeded) posDef_half.posSemidef
  halfEll_corr.diag (ν := 5) (by norm_num) (by norm_num) (Or.inl rfl)

example (seeded : ℕ → ℕ → Answers) := indep_finds_symmetry (d := 4) (idealGen_isIdeal seeded) (Or.inl rfl)

end Copulae
