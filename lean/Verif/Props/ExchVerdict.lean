import Verif.Lemmas.ExchLaw
import Verif.Props.RadSymPower

/-!
C148: the test of exchangeability tells the pairs that are exchangeable from those that are not.
-/

namespace Copulae

open MeasureTheory ProbabilityTheory Spec CopulaMeasure

variable {d : ℕ} {G : Gen} [MeasurableSpace G.S] {R : Measure G.S}

/-- `exch_test(x, y, N, m, ties)` on a sample of pairs of law `Q`: however many replications, the probability that the p-value is
other than the least the test can report, or that the statistic is less than `κ n`, tends to zero as the sample grows. -/
def Spec.RejectsExchange (Q : Measure (Fin 2 → ℝ)) (m : ℤ) : Prop :=
  ∃ κ : ℝ, 0 < κ ∧ ∀ (N : ℤ) (δ : ℝ), 1 ≤ N → 0 < δ → ∃ n0 : ℕ, ∀ n, n0 ≤ n → ∀ Z : Measure (ℕ → Fin n → ℝ), NormalDraws Z →
    ((iid n Q).prod Z) {q | ¬ ∀ (argsort : ∀ {n : ℕ}, (Fin n → ℝ) → Fin n → Fin n) (flips : ∀ {n : ℕ}, ℕ → Fin n → Bool)
      (normals : ∀ {n : ℕ}, ℕ → Fin n → ℝ) (ties : String) (t : TieMethod), @normals n = q.2 → parseTies ties = .ok t →
      ∃ r, exchTest argsort flips normals (.vec n fun i => q.1 i 0) (.vec n fun i => q.1 i 1) N m ties = .ok r ∧
        κ * n ≤ r.statistic ∧ r.pValue = 0.5 / (N + 1)} ≤ ENNReal.ofReal δ

/-- `exch_test(x, y, N, m, ties)` on a sample of pairs of law `Q`: whatever the variates, the probability that the statistic is more
than `ε n` tends to zero as the sample grows, for every `ε`. -/
def Spec.AcceptsExchange (Q : Measure (Fin 2 → ℝ)) : Prop :=
  ∀ ε δ : ℝ, 0 < ε → 0 < δ → ∃ n0 : ℕ, ∀ n, n0 ≤ n → iid n Q {x | ¬ ∀ (argsort : ∀ {n : ℕ}, (Fin n → ℝ) → Fin n → Fin n)
    (flips : ∀ {n : ℕ}, ℕ → Fin n → Bool) (normals : ∀ {n : ℕ}, ℕ → Fin n → ℝ) (N m : ℤ) (ties : String) (t : TieMethod),
    1 ≤ N → 0 ≤ m → parseTies ties = .ok t →
    ∃ r, exchTest argsort flips normals (.vec n fun i => x i 0) (.vec n fun i => x i 1) N m ties = .ok r ∧
      0 ≤ r.statistic ∧ r.statistic ≤ ε * n} ≤ ENNReal.ofReal δ

/-- `x = c.random(n); exch_test(x[:, i], x[:, j], N, m, ties)`: whatever the variates, the probability that the statistic is more than
`ε n` tends to zero as the sample grows, for every `ε`. -/
def Spec.FindsExchange (R : Measure G.S) (c : Sampler G d) : Prop :=
  ∀ (i j : Fin d) (ε δ : ℝ), 0 < ε → 0 < δ → ∃ n0 : ℕ, ∀ n, n0 ≤ n → Likely R (c.random n none) δ fun a =>
    ∃ x : Fin n → Fin d → ℝ, a = matFl x ∧ ∀ (argsort : ∀ {n : ℕ}, (Fin n → ℝ) → Fin n → Fin n)
      (flips : ∀ {n : ℕ}, ℕ → Fin n → Bool) (normals : ∀ {n : ℕ}, ℕ → Fin n → ℝ) (N m : ℤ) (ties : String) (t : TieMethod),
      1 ≤ N → 0 ≤ m → parseTies ties = .ok t →
      ∃ r, exchTest argsort flips normals (.vec n fun k => x k i) (.vec n fun k => x k j) N m ties = .ok r ∧
        0 ≤ r.statistic ∧ r.statistic ≤ ε * n

/-- **C148** A pair with continuous margins whose copula differs from that of the exchanged pair, evaluated at the observations:
exchangeability is rejected. -/
theorem exch_test_rejects {Q P : Measure (Fin 2 → ℝ)} [IsProbabilityMeasure Q] [IsProbabilityMeasure P] (hP : Uniform P)
    (hQ : Atomless Q) (hc : HasCopula Q P) (hne : P {w | exchGap P w ≠ 0} ≠ 0) : RejectsExchange Q 0 :=
  exch_rejects_law hP hQ hc le_rfl (fun _ => hne) fun h => absurd h (lt_irrefl _)

/-- **C148** The same evaluated at a grid of `m` points a side, if the copulas differ somewhere on the grid. -/
theorem exch_test_rejects_grid {Q P : Measure (Fin 2 → ℝ)} [IsProbabilityMeasure Q] [IsProbabilityMeasure P] (hP : Uniform P)
    (hQ : Atomless Q) (hc : HasCopula Q P) {m : ℤ} (hm : 0 < m) (hne : ∃ q ∈ exchGrid m.toNat, exchGap P ![q.1, q.2] ≠ 0) :
    RejectsExchange Q m :=
  exch_rejects_law hP hQ hc hm.le (fun h => absurd h hm.ne') fun _ => hne

/-- **C148** A pair with continuous margins and an exchangeable copula: the statistic per observation vanishes. -/
theorem exch_test_accepts {Q P : Measure (Fin 2 → ℝ)} [IsProbabilityMeasure Q] [IsProbabilityMeasure P] (hP : Uniform P)
    (hQ : Atomless Q) (hc : HasCopula Q P) (he : Exchangeable P) : AcceptsExchange Q :=
  fun _ _ hε hδ => exch_small_law hP hQ hc he hε hδ

theorem exch_of_draws (hR : IsIdeal G R) {P : Measure (Fin d → ℝ)} [IsProbabilityMeasure P] (hP : Uniform P)
    {c c' : Sampler G d} (hc : ∀ n, Draws R (c.random n none) matFl (iid n P)) (h : WithMargins c c')
    (hs : ∀ i j, Exchangeable (pairLaw P i j)) : FindsExchange R c' := by
  have := hR.prob
  have key : ∀ Q : Measure (Fin d → ℝ), IsProbabilityMeasure Q → Atomless Q → HasCopula Q P →
      (∀ n, Draws R (c'.random n none) matFl (iid n Q)) → FindsExchange R c' := by
    intro Q _ hQ hcop hd i j ε δ hε hδ
    obtain ⟨n0, h0⟩ := exch_small_law (pairLaw_uniform hP i j) (pairLaw_atomless hQ i j) (pairLaw_hasCopula hcop i j) (hs i j) hε hδ
    refine ⟨n0, fun n hn => ?_⟩
    have : IsProbabilityMeasure (iid n Q) := by unfold iid; infer_instance
    have hm : Measurable fun (x : Fin n → Fin d → ℝ) k => ![x k i, x k j] :=
      measurable_pi_lambda _ fun k => (measurable_pair i j).comp (measurable_pi_apply k)
    have h1 := h0 n hn
    rw [← iid_pair i j n] at h1
    have h2 := (Measure.le_map_apply hm.aemeasurable _).trans h1
    refine likely_of_draws (hd n) ((measure_mono fun x hx => ?_).trans h2)
    exact fun hg => hx ⟨x, rfl, hg⟩
  rcases h with rfl | ⟨m, M, q, hq, hM, rfl⟩
  · exact key P inferInstance (atomless_of_uniform hP) (hasCopula_self P) hc
  · exact key _ (jointLaw_isJoint hP hq).prob (jointLaw_atomless hP hq hM) (jointLaw_hasCopula hP hq hM)
      (marginal_draws hR hP hq c hc)

/-- **C148**, two columns of a sample of an Archimedean copula, alone or with any continuous margins. -/
theorem arch_finds_exchange (hR : IsIdeal G R) {F : Family} {θ : ℝ} (ha : Admissible F θ d) (hne : F = .clayton → θ ≠ -1)
    {c c' : Sampler G d} (hc : SamplesFrom F θ c) (h : WithMargins c c') : FindsExchange R c' := by
  obtain ⟨P, hP⟩ := arch_law_exists ha
  have := hP.prob
  have hu := uniform_of_law hP fun j v h0 h1 => copula_margin ha j v h0 h1
  exact exch_of_draws hR hu (fun n => samplesFrom_draws hR ha hne hP hc n) h (arch_exchangeable hP)

/-- **C148**, two columns of a sample of a Gaussian copula, alone or with any continuous margins. -/
theorem gaussian_finds_exchange (hR : IsIdeal G R) {S : Matrix (Fin d) (Fin d) ℝ} (hS : S.PosSemidef) (h1 : ∀ j, S j j = 1)
    {c' : Sampler G d} (h : WithMargins (Sampler.gaussian (fun x => .fin (normCdf x)) S) c') : FindsExchange R c' :=
  exch_of_draws hR (gaussLaw_uniform hS h1) (fun n => gaussian_random_iid hR hS n) h (gaussLaw_exchangeable hS h1)

/-- **C148**, two columns of a sample of a Student copula (partial: at most 10000 degrees of freedom, from where the sampler draws
from another law), alone or with any continuous margins. -/
theorem student_finds_exchange_partial (hR : IsIdeal G R) {S : Matrix (Fin d) (Fin d) ℝ} (hS : S.PosSemidef) (h1 : ∀ j, S j j = 1)
    {ν : ℝ} (hν : 0 < ν) (hν' : ν ≤ 10000) {c' : Sampler G d}
    (h : WithMargins (Sampler.student (fun x => .fin ((tLine ν).real (Set.Iic x))) S ν) c') : FindsExchange R c' := by
  have := studentLaw_prob S hν
  exact exch_of_draws hR (studentLaw_uniform hS h1 hν) (fun n => student_random_iid_partial hR hS hν hν' n) h
    (studentLaw_exchangeable hS h1 hν)

/-- **C148**, two columns of a sample of the independence copula, alone or with any continuous margins. -/
theorem indep_finds_exchange (hR : IsIdeal G R) {c' : Sampler G d} (h : WithMargins Sampler.indep c') : FindsExchange R c' :=
  exch_of_draws hR (iid_unif_uniform d) (c := Sampler.indep) (fun n => randomUniform_draws hR n d) h indep_exchangeable

theorem exists_normalDraws (n : ℕ) : ∃ Z : Measure (ℕ → Fin n → ℝ), NormalDraws Z :=
  ⟨Measure.infinitePi fun _ => Measure.pi fun _ => gaussianReal 0 1, inferInstance, fun k => Measure.infinitePi_map_eval _ k⟩

/-- **C148** The two verdicts exclude each other: of no law do samples make the test behave in both ways. -/
theorem rejects_not_accepts {Q : Measure (Fin 2 → ℝ)} [IsProbabilityMeasure Q] {m : ℤ} (hm : 0 ≤ m) (h : RejectsExchange Q m) :
    ¬ AcceptsExchange Q := by
  intro hf
  obtain ⟨κ, hκ, hrej⟩ := h
  obtain ⟨n1, h1⟩ := hrej 1 (1 / 4) le_rfl (by norm_num)
  obtain ⟨n2, h2⟩ := hf (κ / 2) (1 / 4) (half_pos hκ) (by norm_num)
  set n := n1 + n2 + 1 with hn
  obtain ⟨Z, hZ⟩ := exists_normalDraws n
  have := hZ.prob
  have : IsProbabilityMeasure (iid n Q) := by unfold iid; infer_instance
  have b1 := h1 n (by omega) Z hZ
  have b2 := h2 n (by omega)
  have e : iid n Q = ((iid n Q).prod Z).map Prod.fst := by rw [Measure.map_fst_prod, measure_univ, one_smul]
  rw [e] at b2
  have b3 := (Measure.le_map_apply measurable_fst.aemeasurable _).trans b2
  obtain ⟨p, hp1, hp2⟩ := exists_good b1 b3
  have g1 := not_not.mp hp1
  have g2 := not_not.mp hp2
  let argsort : ∀ {n : ℕ}, (Fin n → ℝ) → Fin n → Fin n := fun _ i => i
  let flips : ∀ {n : ℕ}, ℕ → Fin n → Bool := fun _ _ => false
  let normals : ∀ {k : ℕ}, ℕ → Fin k → ℝ := @fun k a i => if hk : k = n then p.2 a (hk ▸ i) else 0
  have hno : @normals n = p.2 := by
    funext a i
    simp [normals]
  obtain ⟨r, hr, hge, -⟩ := g1 argsort flips normals "average" _ hno parseTies_average
  obtain ⟨r', hr', -, hle⟩ := g2 argsort flips normals 1 m "average" _ le_rfl hm parseTies_average
  rw [hr] at hr'
  obtain rfl := Except.ok.inj hr'
  have hn' : (0 : ℝ) < n := by exact_mod_cast (by omega : 0 < n)
  nlinarith [mul_pos hκ hn']

/-! ### The hypotheses can be met -/

/-- A uniform number and the number that the exchange of a third of the unit interval with the rest moves it to. -/
example : RejectsExchange shiftLaw 0 :=
  exch_test_rejects shiftLaw_uniform (atomless_of_uniform shiftLaw_uniform) (hasCopula_self _) shiftLaw_gap_mass

example : RejectsExchange shiftLaw 3 := by
  refine exch_test_rejects_grid shiftLaw_uniform (atomless_of_uniform shiftLaw_uniform) (hasCopula_self _) (by norm_num)
    ⟨(2 / 3, 2 / 3 - 1 / 3), List.mem_map.mpr ⟨2, by simp, ?_⟩, ?_⟩
  · rw [show Int.toNat 3 = 3 from rfl]
    norm_num
  · rw [shiftLaw_gap (by norm_num) le_rfl]
    norm_num

/-- Two columns of the independence copula, by their law. -/
example : AcceptsExchange (pairLaw (iid 3 unif) 0 2) :=
  exch_test_accepts (pairLaw_uniform (iid_unif_uniform 3) 0 2) (atomless_of_uniform (pairLaw_uniform (iid_unif_uniform 3) 0 2))
    (hasCopula_self _) (indep_exchangeable 0 2)

/-- Columns of a Clayton copula with parameter 2 in three dimensions. -/
example (seeded : ℕ → ℕ → Answers) : FindsExchange (G := idealGen seeded) streamLaw (Sampler.clayton 2 : Sampler (idealGen seeded) 3) :=
  arch_finds_exchange (idealGen_isIdeal seeded) (F := .clayton) ⟨by norm_num, by norm_num, by norm_num, by norm_num⟩
    (fun _ => by norm_num) ⟨rfl, by norm_num⟩ (Or.inl rfl)

example (seeded : ℕ → ℕ → Answers) : FindsExchange (G := idealGen seeded) streamLaw
    (Sampler.gumbel gumbelFrail 3 : Sampler (idealGen seeded) 4) :=
  arch_finds_exchange (idealGen_isIdeal seeded) (F := .gumbel) ⟨by norm_num, by norm_num⟩ (fun h => by cases h)
    ⟨rfl, by norm_num⟩ (Or.inl rfl)

example (seeded : ℕ → ℕ → Answers) := gaussian_finds_exchange (idealGen_isIdeal seeded) posDef_half.posSemidef halfEll_corr.diag
  (c' := Sampler.marginal _ fun _ => uniTwo.ppf)
  (Or.inr ⟨fun _ => uniTwo, fun _ => uniTwoLaw, fun _ u => 2 * u, fun _ => uniTwo_isMarginLaw, fun _ => uniTwoLaw_atomless, rfl⟩)

example (seeded : ℕ → ℕ → Answers) := student_finds_exchange_partial (idealGen_isIdeal seeded) posDef_half.posSemidef
  halfEll_corr.diag (ν := 5) (by norm_num) (by norm_num) (Or.inl rfl)

example (seeded : ℕ → ℕ → Answers) := indep_finds_exchange (d := 4) (idealGen_isIdeal seeded) (Or.inl rfl)

end Copulae
