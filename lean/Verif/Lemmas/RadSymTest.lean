import Verif.Lemmas.RadSym

/-!
The test of radial symmetry on large samples.
-/

namespace Copulae

open MeasureTheory ProbabilityTheory Finset Spec CopulaMeasure

variable {d n : ℕ}

/-- The ranks of a sample without ties, divided by `n + 1`. -/
noncomputable def unitRanks (y : Fin n → Fin d → ℝ) : Fin n → Fin d → ℝ := fun i j =>
  ((rankdata .average (fun k => y k j) i : ℚ) : ℝ) / (n + 1)

/-- A sample that has the order of `y` in every column has the ranks of `y`. -/
theorem ranks_eq {x y : Fin n → Fin d → ℝ} (hx : NoTies x) (hy : NoTies y) (h : ∀ i k j, x i j < x k j → y i j ≤ y k j)
    (t : TieMethod) (i : Fin n) (j : Fin d) :
    rankdata t (fun k => x k j) i = rankdata .average (fun k => y k j) i := by
  have hinj : Function.Injective fun k => x k j := fun a b hab => by_contra fun hne => hx j a b hne hab
  rw [rankdata_eq_of_injective t _ hinj, ← rankdata_eq_of_injective .average _ hinj]
  refine rankdata_congr _ (fun k => y k j) (fun k => x k j) (fun a b => ?_) i
  constructor
  · intro hab
    exact lt_of_le_of_ne (h a b j hab) (hy j a b fun e => by subst e; exact lt_irrefl _ hab)
  · intro hab
    by_contra hc
    rcases lt_or_eq_of_le (not_lt.mp hc) with h1 | h1
    · exact absurd (h b a j h1) (not_le.mpr hab)
    · have : b = a := hinj h1
      subst this
      exact lt_irrefl _ hab

theorem anyTies_false {x : Fin n → Fin d → ℝ} (hx : NoTies x) : anyTies x = false := by
  unfold anyTies
  rw [decide_eq_false_iff_not]
  rintro ⟨j, hj⟩
  exact hj fun a b hab => by_contra fun hne => hx j a b hne hab

/-- The statistic of a replicate. -/
noncomputable def replicateStat (y : Fin n → Fin d → ℝ) (flip : Fin n → Bool) : ℝ :=
  radSymStat (ravelF (unitRanks fun i => flipRow (flip i) (unitRanks y i))) n d

theorem radSymTest_noTies (argsort : (Fin n → ℝ) → Fin n → Fin n) (flips : ℕ → Fin n → Bool) {x y : Fin n → Fin d → ℝ}
    (hx : NoTies x) (hy : NoTies y) (h : ∀ i k j, x i j < x k j → y i j ≤ y k j) {ties : String} {t : TieMethod}
    (ht : parseTies ties = .ok t) {N : ℤ} (hN : 1 ≤ N) :
    radSymTest argsort flips x N ties = .ok ⟨radSymStat (ravelF (unitRanks y)) n d,
      pValue ((List.range N.toNat).map fun k => replicateStat y (flips k)) (radSymStat (ravelF (unitRanks y)) n d) N.toNat⟩ := by
  have hu : (fun i j => (rankdata t (fun k => x k j) i : ℝ) / (n + 1)) = unitRanks y := by
    funext i j
    rw [ranks_eq hx hy h t i j]
    rfl
  unfold radSymTest
  simp only [if_neg (not_lt.mpr hN), pseudoObsMat_ok _ ht, bind, Except.bind, pure, Except.pure, hu, anyTies_false hx]
  rw [mapM_ok _ (fun k => replicateStat y (flips k)) _ fun k _ => ?_]
  have hf : (fun i j => if flips k i then 1 - unitRanks y i j else unitRanks y i j) = fun i => flipRow (flips k i) (unitRanks y i) := by
    funext i j
    unfold flipRow
    cases flips k i <;> rfl
  unfold radSymReplicate
  simp only [pseudoObsMat_ok _ parseTies_average, bind, Except.bind, pure, Except.pure, Bool.false_eq_true, if_false, hf]
  rfl

theorem pValue_least {s0 : List ℝ} {s : ℝ} (h : ∀ r ∈ s0, r < s) (N : ℕ) : pValue s0 s N = 0.5 / (N + 1) := by
  unfold pValue
  rw [List.countP_eq_zero.mpr fun r hr => by simpa using h r hr]
  simp

section
variable {P : Measure (Fin d → ℝ)} [IsProbabilityMeasure P]

theorem unitRanks_near (hP : Uniform P) (hn : 0 < n) {ε : ℝ} (hε : 0 < ε) (hnε : 1 / ((n : ℝ) + 1) ≤ ε)
    {y : Fin n → Fin d → ℝ} (hy : CloseTo P ε y) (i : Fin n) (j : Fin d) : |unitRanks y i j - y i j| ≤ 3 * ε := by
  have := rank_near_of_close hP hn hε le_rfl hnε hy (z := y) (fun _ _ => by simp) i j
  unfold unitRanks
  linarith

theorem replicate_small (hP : Uniform P) (hn : 0 < n) {ε : ℝ} (hε : 0 < ε) (hnε : 1 / ((n : ℝ) + 1) ≤ ε)
    {y : Fin n → Fin d → ℝ} (hy : CloseTo P ε y) {flip : Fin n → Bool}
    (h1 : CloseTo (symmetrised P) ε fun i => flipRow (flip i) (y i))
    (h2 : CloseTo (symmetrised P) ε fun i => reflect (flipRow (flip i) (y i))) :
    replicateStat y flip ≤ n * (2 * (ε + d * (9 * ε))) ^ 2 := by
  refine stat_small (symmetrised_uniform hP) symmetrised_reflected (by positivity) h1 h2 fun i j => ?_
  have hz : ∀ i j, |flipRow (flip i) (unitRanks y i) j - flipRow (flip i) (y i) j| ≤ 3 * ε := by
    intro i j
    have := unitRanks_near hP hn hε hnε hy i j
    cases hf : flip i
    · exact this
    · show |(1 - unitRanks y i j) - (1 - y i j)| ≤ 3 * ε
      rw [show (1 - unitRanks y i j) - (1 - y i j) = -(unitRanks y i j - y i j) by ring, abs_neg]
      exact this
  have := rank_near_of_close (symmetrised_uniform hP) hn hε (by positivity : (0 : ℝ) ≤ 3 * ε) hnε h1 hz i j
  unfold unitRanks
  unfold unitRanks at this
  linarith

/-- The difference between the distribution functions of the law and of the reflected law. -/
noncomputable def Spec.asymmetry (P : Measure (Fin d → ℝ)) (w : Fin d → ℝ) : ℝ := distFn P w - distFn (reflected P) w

/-- What makes the test reject. -/
structure GoodSample (P : Measure (Fin d → ℝ)) (ε c π : ℝ) (N : ℕ) (y : Fin n → Fin d → ℝ) (flips : ℕ → Fin n → Bool) : Prop where
  noTies : NoTies y
  close : CloseTo P ε y
  closeR : CloseTo (reflected P) ε fun i => reflect (y i)
  freq : |(Nat.card {i // y i ∈ {w | c ≤ |asymmetry P w|}} : ℝ) / n - π| < π / 2
  closeF : ∀ k < N, CloseTo (symmetrised P) ε fun i => flipRow (flips k i) (y i)
  closeFR : ∀ k < N, CloseTo (symmetrised P) ε fun i => reflect (flipRow (flips k i) (y i))

theorem goodSample_rejects (hP : Uniform P) (hn : 0 < n) {c π : ℝ} (hc : 0 < c) (hπ : 0 < π) (hπ1 : π ≤ 1)
    (hnε : 1 / ((n : ℝ) + 1) ≤ c * π / (16 * (1 + 9 * d))) {N : ℤ} (hN : 1 ≤ N) {x y : Fin n → Fin d → ℝ} {flips : ℕ → Fin n → Bool}
    (hg : GoodSample P (c * π / (16 * (1 + 9 * d))) c π N.toNat y flips)
    (hx : NoTies x) (h : ∀ i k j, x i j < x k j → y i j ≤ y k j) (argsort : (Fin n → ℝ) → Fin n → Fin n)
    {ties : String} {t : TieMethod} (ht : parseTies ties = .ok t) :
    ∃ r, radSymTest argsort flips x N ties = .ok r ∧ π * c ^ 2 / 8 * n ≤ r.statistic ∧ r.pValue = 0.5 / (N + 1) := by
  have hn' : (0 : ℝ) < n := by exact_mod_cast hn
  set ε := c * π / (16 * (1 + 9 * d)) with hε
  have hd0 : (0 : ℝ) ≤ d := Nat.cast_nonneg d
  have hε0 : 0 < ε := by positivity
  have hM : 2 * (1 + 9 * d) * ε = c * π / 8 := by
    rw [hε]
    field_simp
    norm_num
  have hcπ : c * π ≤ c := by nlinarith
  have hstat : π * c ^ 2 / 8 * n ≤ radSymStat (ravelF (unitRanks y)) n d := by
    refine le_trans ?_ (stat_large hP (uniform_reflected hP) (by positivity : 0 ≤ 3 * ε) hg.close hg.closeR
      (unitRanks_near hP hn hε0 hnε hg.close) (c := c) (by nlinarith) hc.le)
    have hf := (abs_lt.mp hg.freq).1
    have h1 : π / 2 * n ≤ (Nat.card {i // y i ∈ {w | c ≤ |asymmetry P w|}} : ℝ) := by
      have : π / 2 ≤ (Nat.card {i // y i ∈ {w | c ≤ |asymmetry P w|}} : ℝ) / n := by linarith
      rwa [le_div_iff₀ hn'] at this
    have h2 := mul_le_mul_of_nonneg_right h1 (sq_nonneg (c / 2))
    refine le_trans (le_of_eq ?_) h2
    ring
  refine ⟨_, radSymTest_noTies argsort flips hx hg.noTies h ht hN, hstat, ?_⟩
  have e : ((N.toNat : ℕ) : ℝ) = N := by
    exact_mod_cast Int.toNat_of_nonneg (by omega : 0 ≤ N)
  rw [← e]
  refine pValue_least (fun r hr => ?_) _
  obtain ⟨k, hk, rfl⟩ := List.mem_map.mp hr
  have hk' : k < N.toNat := List.mem_range.mp hk
  refine lt_of_le_of_lt (replicate_small hP hn hε0 hnε hg.close (hg.closeF k hk') (hg.closeFR k hk')) (lt_of_lt_of_le ?_ hstat)
  have e2 : 2 * (ε + d * (9 * ε)) = c * π / 8 := by rw [← hM]; ring
  rw [e2]
  have : (c * π / 8) ^ 2 < π * c ^ 2 / 8 := by
    have hc2 : 0 < c ^ 2 := by positivity
    have : (c * π / 8) ^ 2 = c ^ 2 * (π * π) / 64 := by ring
    rw [this]
    have : π * π ≤ π := by nlinarith
    nlinarith
  rw [mul_comm (π * c ^ 2 / 8)]
  exact mul_lt_mul_of_pos_left this hn'

end

theorem distFn_continuous {P : Measure (Fin d → ℝ)} [IsProbabilityMeasure P] (hP : Uniform P) : Continuous (distFn P) := by
  refine (LipschitzWith.of_dist_le_mul (K := (d : NNReal)) fun v w => ?_).continuous
  rw [Real.dist_eq]
  exact distFn_near hP dist_nonneg fun j => by
    rw [← Real.dist_eq]
    exact dist_le_pi_dist v w j

theorem asymmetry_continuous {P : Measure (Fin d → ℝ)} [IsProbabilityMeasure P] (hP : Uniform P) : Continuous (asymmetry P) :=
  (distFn_continuous hP).sub (distFn_continuous (uniform_reflected hP))

theorem measurableSet_asymmetry {P : Measure (Fin d → ℝ)} [IsProbabilityMeasure P] (hP : Uniform P) (c : ℝ) :
    MeasurableSet {w | c ≤ |asymmetry P w|} :=
  measurableSet_le measurable_const (asymmetry_continuous hP).abs.measurable

theorem goodSample_likely {Q P : Measure (Fin d → ℝ)} [IsProbabilityMeasure Q] [IsProbabilityMeasure P] (hP : Uniform P)
    (hQ : Atomless Q) {F : Fin d → ℝ → ℝ} (hF : ∀ j, Monotone (F j)) (hFQ : Q.map (fun x j => F j (x j)) = P) {ε c : ℝ} (hε : 0 < ε)
    (hπ : 0 < P.real {w | c ≤ |asymmetry P w|}) (N : ℕ) {δ : ℝ} (hδ : 0 < δ) :
    ∃ n0 : ℕ, ∀ n, n0 ≤ n → ∀ K : Measure (ℕ → Fin n → Bool), CoinFlips K →
      ((iid n Q).prod K) {q | ¬ (NoTies q.1 ∧ GoodSample P ε c (P.real {w | c ≤ |asymmetry P w|}) N (fun i j => F j (q.1 i j)) q.2)}
        ≤ ENNReal.ofReal δ := by
  set π := P.real {w | c ≤ |asymmetry P w|} with hπdef
  set δ' := δ / (2 * N + 3) with hδ'
  have hδ0 : 0 < δ' := by positivity
  obtain ⟨n1, h1⟩ := close_likely hP hε hδ0
  obtain ⟨n2, h2⟩ := close_likely (uniform_reflected hP) hε hδ0
  obtain ⟨n3, h3⟩ := close_likely (symmetrised_uniform hP) hε hδ0
  obtain ⟨n4, h4⟩ := exists_nat_gt (1 / (4 * δ' * (π / 2) ^ 2))
  refine ⟨n1 + n2 + n3 + n4 + 1, fun n hn K hK => ?_⟩
  have := hK.prob
  have : IsProbabilityMeasure (iid n Q) := by unfold iid; infer_instance
  have : IsProbabilityMeasure (iid n P) := by unfold iid; infer_instance
  have hn' : (0 : ℝ) < n := by exact_mod_cast (by omega : 0 < n)
  have hFm : Measurable fun (x : Fin d → ℝ) j => F j (x j) :=
    measurable_pi_lambda _ fun j => (hF j).measurable.comp (measurable_pi_apply j)
  set φ : (Fin n → Fin d → ℝ) → Fin n → Fin d → ℝ := fun x i j => F j (x i j) with hφ
  have hφm : Measurable φ := measurable_pi_lambda _ fun i => hFm.comp (measurable_pi_apply i)
  have hφQ : (iid n Q).map φ = iid n P := by
    have h := Measure.pi_map_pi (μ := fun _ : Fin n => Q) (f := fun _ (x : Fin d → ℝ) j => F j (x j)) fun _ => hFm.aemeasurable
    rw [hFQ] at h
    exact h
  set μ := (iid n Q).prod K with hμ
  have hY : μ.map (fun q => φ q.1) = iid n P := by
    have e : (fun q : (Fin n → Fin d → ℝ) × (ℕ → Fin n → Bool) => φ q.1) = φ ∘ Prod.fst := rfl
    rw [e, ← Measure.map_map hφm measurable_fst, hμ, Measure.map_fst_prod, measure_univ, one_smul, hφQ]
  have hYm : Measurable fun q : (Fin n → Fin d → ℝ) × (ℕ → Fin n → Bool) => φ q.1 := hφm.comp measurable_fst
  have evY : ∀ E : Set (Fin n → Fin d → ℝ), μ {q | φ q.1 ∈ E} ≤ iid n P E := fun E => by
    rw [← hY]
    exact Measure.le_map_apply hYm.aemeasurable E
  have evR : ∀ E : Set (Fin n → Fin d → ℝ), μ {q | (fun i => reflect (φ q.1 i)) ∈ E} ≤ iid n (reflected P) E := fun E => by
    refine (evY {y | (fun i => reflect (y i)) ∈ E}).trans ?_
    rw [← iid_reflect]
    exact Measure.le_map_apply (measurable_pi_lambda _ fun i => measurable_reflect.comp (measurable_pi_apply i)).aemeasurable E
  have hflip : Measurable fun (q : (Fin n → Fin d → ℝ) × (Fin n → Bool)) i => flipRow (q.2 i) (q.1 i) :=
    measurable_pi_lambda _ fun i => by
      have h : Measurable fun q : (Fin n → Fin d → ℝ) × (Fin n → Bool) => (q.1 i, q.2 i) :=
        ((measurable_pi_apply i).comp measurable_fst).prodMk ((measurable_pi_apply i).comp measurable_snd)
      exact measurable_flipRow.comp h
  have evF : ∀ (k : ℕ) (E : Set (Fin n → Fin d → ℝ)), μ {q | (fun i => flipRow (q.2 k i) (φ q.1 i)) ∈ E} ≤
      iid n (symmetrised P) E := fun k E => by
    have hk : Measurable fun f : ℕ → Fin n → Bool => f k := measurable_pi_apply k
    have hmap : μ.map (Prod.map φ fun f => f k) = (iid n P).prod (Measure.pi fun _ : Fin n => fairCoin) := by
      rw [hμ, ← Measure.map_prod_map _ _ hφm hk, hφQ, hK.fair k]
    rw [← iid_flips, ← hmap, Measure.map_map hflip (hφm.prodMap hk)]
    exact Measure.le_map_apply (hflip.comp (hφm.prodMap hk)).aemeasurable E
  have evFR : ∀ (k : ℕ) (E : Set (Fin n → Fin d → ℝ)), μ {q | (fun i => reflect (flipRow (q.2 k i) (φ q.1 i))) ∈ E} ≤
      iid n (symmetrised P) E := fun k E => by
    refine (evF k {y | (fun i => reflect (y i)) ∈ E}).trans ?_
    conv_rhs => rw [← symmetrised_reflected, ← iid_reflect]
    exact Measure.le_map_apply (measurable_pi_lambda _ fun i => measurable_reflect.comp (measurable_pi_apply i)).aemeasurable E
  have hsub : {q : (Fin n → Fin d → ℝ) × (ℕ → Fin n → Bool) | ¬ (NoTies q.1 ∧ GoodSample P ε c π N (φ q.1) q.2)} ⊆
      ({q | ¬ NoTies q.1} ∪ {q | φ q.1 ∈ {y | ¬ NoTies y}}) ∪
      (({q | φ q.1 ∈ {y | ¬ CloseTo P ε y}} ∪ {q | (fun i => reflect (φ q.1 i)) ∈ {y | ¬ CloseTo (reflected P) ε y}}) ∪
        {q | φ q.1 ∈ {y | π / 2 ≤ |(Nat.card {i // y i ∈ {w | c ≤ |asymmetry P w|}} : ℝ) / n - π|}}) ∪
      (⋃ k ∈ range N, {q | (fun i => flipRow (q.2 k i) (φ q.1 i)) ∈ {y | ¬ CloseTo (symmetrised P) ε y}} ∪
        {q | (fun i => reflect (flipRow (q.2 k i) (φ q.1 i))) ∈ {y | ¬ CloseTo (symmetrised P) ε y}}) := by
    intro q hq
    by_contra hcon
    simp only [Set.mem_union, Set.mem_iUnion, not_or, not_exists] at hcon
    obtain ⟨⟨⟨a1, a2⟩, ⟨a3, a4⟩, a5⟩, a6⟩ := hcon
    refine hq ⟨not_not.mp a1, not_not.mp a2, not_not.mp a3, not_not.mp a4, not_le.mp a5, fun k hk => ?_, fun k hk => ?_⟩
    · exact not_not.mp (a6 k (mem_range.mpr hk)).1
    · exact not_not.mp (a6 k (mem_range.mpr hk)).2
  have b1 : μ {q | ¬ NoTies q.1} = 0 :=
    ae_iff.mp (Measure.quasiMeasurePreserving_fst.ae (noTies_ae (n := n) hQ))
  have b2 : μ {q | φ q.1 ∈ {y | ¬ NoTies y}} = 0 :=
    le_antisymm ((evY _).trans (le_of_eq (ae_iff.mp (noTies_ae (n := n) (atomless_of_uniform hP))))) zero_le
  have b5 : iid n P {y | π / 2 ≤ |(Nat.card {i // y i ∈ {w | c ≤ |asymmetry P w|}} : ℝ) / n - π|} ≤ ENNReal.ofReal δ' := by
    refine (iid_frequency (L := P) (by omega) (measurableSet_asymmetry hP c) (half_pos hπ)).2.trans (ENNReal.ofReal_le_ofReal ?_)
    rw [div_lt_iff₀ (by positivity)] at h4
    rw [div_le_iff₀ (by positivity)]
    have hn4 : (n4 : ℝ) ≤ n := by exact_mod_cast (by omega : n4 ≤ n)
    have := mul_le_mul_of_nonneg_right hn4 (by positivity : 0 ≤ 4 * δ' * (π / 2) ^ 2)
    linarith
  have b6 := (measure_biUnion_finset_le (μ := μ) (range N) fun k =>
    {q | (fun i => flipRow (q.2 k i) (φ q.1 i)) ∈ {y | ¬ CloseTo (symmetrised P) ε y}} ∪
      {q | (fun i => reflect (flipRow (q.2 k i) (φ q.1 i))) ∈ {y | ¬ CloseTo (symmetrised P) ε y}}).trans
    (sum_le_sum fun k _ => (measure_union_le _ _).trans (add_le_add
      ((evF k _).trans (h3 n (by omega))) ((evFR k _).trans (h3 n (by omega)))))
  have b7 := (measure_union_le (μ := μ) _ _).trans (add_le_add b1.le b2.le)
  have b8 := (measure_union_le (μ := μ) _ _).trans (add_le_add ((evY {y | ¬ CloseTo P ε y}).trans (h1 n (by omega)))
    ((evR {y | ¬ CloseTo (reflected P) ε y}).trans (h2 n (by omega))))
  have b9 := (measure_union_le (μ := μ) _ _).trans (add_le_add b8 ((evY _).trans b5))
  have b10 := (measure_union_le (μ := μ) _ _).trans (add_le_add b7 b9)
  refine (measure_mono hsub).trans (((measure_union_le _ _).trans (add_le_add b10 b6)).trans ?_)
  rw [sum_const, card_range, nsmul_eq_mul, ← ENNReal.ofReal_add hδ0.le hδ0.le, ← ENNReal.ofReal_add (by positivity) hδ0.le,
    ← ENNReal.ofReal_natCast, ← ENNReal.ofReal_mul (by positivity), add_zero, zero_add, ← ENNReal.ofReal_add (by positivity) (by positivity)]
  refine ENNReal.ofReal_le_ofReal (le_of_eq ?_)
  rw [hδ']
  field_simp
  ring

/-- Every law that differs from its reflection at points of positive probability. -/
theorem radSym_rejects_law {Q P : Measure (Fin d → ℝ)} [IsProbabilityMeasure Q] [IsProbabilityMeasure P] (hP : Uniform P)
    (hQ : Atomless Q) (hc : HasCopula Q P) (hne : P {w | asymmetry P w ≠ 0} ≠ 0) : ∃ κ : ℝ, 0 < κ ∧
    ∀ (N : ℤ) (δ : ℝ), 1 ≤ N → 0 < δ → ∃ n0 : ℕ, ∀ n, n0 ≤ n → ∀ K : Measure (ℕ → Fin n → Bool), CoinFlips K →
      ((iid n Q).prod K) {q | ¬ ∀ (argsort : (Fin n → ℝ) → Fin n → Fin n) (ties : String) (t : TieMethod), parseTies ties = .ok t →
        ∃ r, radSymTest argsort q.2 q.1 N ties = .ok r ∧ κ * n ≤ r.statistic ∧ r.pValue = 0.5 / (N + 1)} ≤ ENNReal.ofReal δ := by
  obtain ⟨F, hF, hFQ⟩ := hc
  have hex : ∃ m : ℕ, P {w | 1 / ((m : ℝ) + 1) ≤ |asymmetry P w|} ≠ 0 := by
    by_contra hcon
    push Not at hcon
    refine hne (measure_mono_null (t := ⋃ m : ℕ, {w | 1 / ((m : ℝ) + 1) ≤ |asymmetry P w|}) (fun w hw => ?_)
      (measure_iUnion_null hcon))
    obtain ⟨m, hm⟩ := exists_nat_one_div_lt (abs_pos.mpr hw)
    exact Set.mem_iUnion.mpr ⟨m, hm.le⟩
  obtain ⟨m, hm⟩ := hex
  set c : ℝ := 1 / ((m : ℝ) + 1) with hcdef
  have hc0 : 0 < c := by positivity
  have hπ : 0 < P.real {w | c ≤ |asymmetry P w|} := by
    rw [measureReal_def, ENNReal.toReal_pos_iff]
    exact ⟨pos_iff_ne_zero.mpr hm, measure_lt_top _ _⟩
  have hπ1 : P.real {w | c ≤ |asymmetry P w|} ≤ 1 := measureReal_le_one
  set π := P.real {w | c ≤ |asymmetry P w|} with hπdef
  refine ⟨π * c ^ 2 / 8, by positivity, fun N δ hN hδ => ?_⟩
  have hε : 0 < c * π / (16 * (1 + 9 * d)) := by positivity
  obtain ⟨n1, h1⟩ := goodSample_likely hP hQ hF hFQ hε hπ N.toNat hδ
  obtain ⟨n2, h2⟩ := exists_nat_gt (1 / (c * π / (16 * (1 + 9 * d))))
  refine ⟨n1 + n2 + 1, fun n hn K hK => (measure_mono fun q hq => ?_).trans (h1 n (by omega) K hK)⟩
  intro hg
  refine hq fun argsort ties t ht => ?_
  refine goodSample_rejects hP (by omega) hc0 hπ hπ1 ?_ hN hg.2 hg.1 (fun i k j h => hF j h.le) argsort ht
  have hn2 : (n2 : ℝ) ≤ n := by exact_mod_cast (by omega : n2 ≤ n)
  rw [div_le_iff₀ (by positivity)]
  rw [div_lt_iff₀ hε] at h2
  nlinarith

theorem radSym_small_law {Q P : Measure (Fin d → ℝ)} [IsProbabilityMeasure Q] [IsProbabilityMeasure P] (hP : Uniform P)
    (hQ : Atomless Q) (hc : HasCopula Q P) (hs : reflected P = P) {ε δ : ℝ} (hε : 0 < ε) (hδ : 0 < δ) :
    ∃ n0 : ℕ, ∀ n, n0 ≤ n → iid n Q {x | ¬ ∀ (argsort : (Fin n → ℝ) → Fin n → Fin n) (flips : ℕ → Fin n → Bool) (N : ℤ)
      (ties : String) (t : TieMethod), 1 ≤ N → parseTies ties = .ok t →
      ∃ r, radSymTest argsort flips x N ties = .ok r ∧ 0 ≤ r.statistic ∧ r.statistic ≤ ε * n} ≤ ENNReal.ofReal δ := by
  obtain ⟨F, hF, hFQ⟩ := hc
  set η : ℝ := min 1 ε / (2 * (1 + 3 * d)) with hη
  have hm : 0 < min 1 ε := lt_min one_pos hε
  have hη0 : 0 < η := by positivity
  have hsmall : (2 * (η + d * (3 * η))) ^ 2 ≤ ε := by
    have e : 2 * (η + d * (3 * η)) = min 1 ε := by
      rw [hη]
      field_simp
    rw [e]
    calc min 1 ε ^ 2 = min 1 ε * min 1 ε := sq _
      _ ≤ 1 * ε := mul_le_mul (min_le_left _ _) (min_le_right _ _) hm.le zero_le_one
      _ = ε := one_mul _
  obtain ⟨n1, h1⟩ := close_likely hP hη0 (half_pos hδ)
  obtain ⟨n2, h2⟩ := exists_nat_gt (1 / η)
  refine ⟨n1 + n2 + 1, fun n hn => ?_⟩
  have : IsProbabilityMeasure (iid n Q) := by unfold iid; infer_instance
  have hFm : Measurable fun (x : Fin d → ℝ) j => F j (x j) :=
    measurable_pi_lambda _ fun j => (hF j).measurable.comp (measurable_pi_apply j)
  set φ : (Fin n → Fin d → ℝ) → Fin n → Fin d → ℝ := fun x i j => F j (x i j) with hφ
  have hφm : Measurable φ := measurable_pi_lambda _ fun i => hFm.comp (measurable_pi_apply i)
  have hφQ : (iid n Q).map φ = iid n P := by
    have h := Measure.pi_map_pi (μ := fun _ : Fin n => Q) (f := fun _ (x : Fin d → ℝ) j => F j (x j)) fun _ => hFm.aemeasurable
    rw [hFQ] at h
    exact h
  have evY : ∀ E : Set (Fin n → Fin d → ℝ), iid n Q {x | φ x ∈ E} ≤ iid n P E := fun E => by
    rw [← hφQ]
    exact Measure.le_map_apply hφm.aemeasurable E
  have evR : ∀ E : Set (Fin n → Fin d → ℝ), iid n Q {x | (fun i => reflect (φ x i)) ∈ E} ≤ iid n P E := fun E => by
    refine (evY {y | (fun i => reflect (y i)) ∈ E}).trans ?_
    conv_rhs => rw [← hs, ← iid_reflect]
    exact Measure.le_map_apply (measurable_pi_lambda _ fun i => measurable_reflect.comp (measurable_pi_apply i)).aemeasurable E
  have hsub : {x : Fin n → Fin d → ℝ | ¬ ∀ (argsort : (Fin n → ℝ) → Fin n → Fin n) (flips : ℕ → Fin n → Bool) (N : ℤ)
      (ties : String) (t : TieMethod), 1 ≤ N → parseTies ties = .ok t →
      ∃ r, radSymTest argsort flips x N ties = .ok r ∧ 0 ≤ r.statistic ∧ r.statistic ≤ ε * n} ⊆
      ({x | ¬ NoTies x} ∪ {x | φ x ∈ {y | ¬ NoTies y}}) ∪
      ({x | φ x ∈ {y | ¬ CloseTo P η y}} ∪ {x | (fun i => reflect (φ x i)) ∈ {y | ¬ CloseTo P η y}}) := by
    intro x hx
    by_contra hcon
    simp only [Set.mem_union, not_or] at hcon
    obtain ⟨⟨a1, a2⟩, a3, a4⟩ := hcon
    refine hx fun argsort flips N ties t hN ht => ?_
    refine ⟨_, radSymTest_noTies argsort flips (not_not.mp a1) (not_not.mp a2) (fun i k j h => hF j h.le) ht hN, ?_, ?_⟩
    · show 0 ≤ radSymStat _ n d
      rw [radSymStat_frac]
      exact sum_nonneg fun k _ => sq_nonneg _
    · refine (stat_small hP hs (by positivity : 0 ≤ 3 * η) (not_not.mp a3) (not_not.mp a4)
        fun i j => unitRanks_near hP (by omega) hη0 ?_ (not_not.mp a3) i j).trans ?_
      · have hn2 : (n2 : ℝ) ≤ n := by exact_mod_cast (by omega : n2 ≤ n)
        rw [div_lt_iff₀ hη0] at h2
        rw [div_le_iff₀ (by positivity)]
        nlinarith
      · rw [mul_comm ε]
        exact mul_le_mul_of_nonneg_left hsmall (Nat.cast_nonneg n)
  have b1 : iid n Q {x | ¬ NoTies x} = 0 := ae_iff.mp (noTies_ae (n := n) hQ)
  have b2 : iid n Q {x | φ x ∈ {y | ¬ NoTies y}} = 0 :=
    le_antisymm ((evY _).trans (le_of_eq (ae_iff.mp (noTies_ae (n := n) (atomless_of_uniform hP))))) zero_le
  have b3 := (measure_union_le (μ := iid n Q) _ _).trans (add_le_add b1.le b2.le)
  have b4 := (measure_union_le (μ := iid n Q) _ _).trans (add_le_add ((evY {y | ¬ CloseTo P η y}).trans (h1 n (by omega)))
    ((evR {y | ¬ CloseTo P η y}).trans (h1 n (by omega))))
  refine (measure_mono hsub).trans (((measure_union_le _ _).trans (add_le_add b3 b4)).trans ?_)
  rw [add_zero, zero_add, ← ENNReal.ofReal_add (by positivity) (by positivity), add_halves]

end Copulae
