import Verif.Lemmas.ExchTest

/-!
The verdicts of the test of exchangeability on large samples.
-/

namespace Copulae

open MeasureTheory ProbabilityTheory Finset Spec CopulaMeasure

variable {d n : ℕ}

theorem unitRanks_injective {y : Fin n → Fin d → ℝ} (hy : NoTies y) (j : Fin d) : Function.Injective fun i => unitRanks y i j := by
  have hinj : Function.Injective fun k => y k j := fun a b hab => by_contra fun hne => hy j a b hne hab
  intro a b hab
  have hn : (0 : ℝ) < n + 1 := by positivity
  have h1 : ((rankdata .average (fun k => y k j) a : ℚ) : ℝ) = (rankdata .average (fun k => y k j) b : ℚ) := by
    simp only [unitRanks] at hab
    field_simp at hab
    exact hab
  have h2 : rankdata .average (fun k => y k j) a = rankdata .average (fun k => y k j) b := by exact_mod_cast h1
  rw [rankdata_eq_of_injective .average _ hinj, rankdata_eq_of_injective .average _ hinj, rankdata_ordinal_perm,
    rankdata_ordinal_perm] at h2
  refine (ordPerm fun k => y k j).injective (Fin.ext ?_)
  have : ((((ordPerm fun k => y k j) a : Fin n) : ℕ) : ℚ) = (((ordPerm fun k => y k j) b : Fin n) : ℕ) := by linarith
  exact_mod_cast this

/-- The statistic of the ranks of a sample. -/
noncomputable def exchStatOf (m : ℤ) (y : Fin n → Fin 2 → ℝ) : ℝ :=
  exchTestStat (fun i => unitRanks y i 0) (fun i => unitRanks y i 1) (exchPoints m (unitRanks y))

/-- A replicate of the statistic. -/
noncomputable def exchRepOf (m : ℤ) (y : Fin n → Fin 2 → ℝ) (z : Fin n → ℝ) : ℝ :=
  exchMultiplier (fun i => unitRanks y i 0) (fun i => unitRanks y i 1) (exchPoints m (unitRanks y)) z

theorem exchTest_noTies (hn : 0 < n) (argsort : ∀ {n : ℕ}, (Fin n → ℝ) → Fin n → Fin n) (flips : ∀ {n : ℕ}, ℕ → Fin n → Bool)
    (normals : ∀ {n : ℕ}, ℕ → Fin n → ℝ) {x y : Fin n → Fin 2 → ℝ} (hx : NoTies x) (hy : NoTies y)
    (h : ∀ i k j, x i j < x k j → y i j ≤ y k j) {ties : String} {t : TieMethod} (ht : parseTies ties = .ok t) {N m : ℤ} (hN : 1 ≤ N)
    (hm : 0 ≤ m) :
    exchTest argsort flips normals (.vec n fun i => x i 0) (.vec n fun i => x i 1) N m ties =
      .ok ⟨exchStatOf m y, pValue ((List.range N.toNat).map fun k => exchRepOf m y (normals k)) (exchStatOf m y) N.toNat⟩ := by
  have hu : ∀ j, (fun i => (rankdata t (fun k => x k j) i : ℝ) / (n + 1)) = fun i => unitRanks y i j := fun j => by
    funext i
    rw [ranks_eq hx hy h t i j]
    rfl
  rw [exchTest_vec argsort flips normals _ _ ht, hu 0, hu 1]
  obtain ⟨s0, -, -, h1, h2⟩ := exchTestVec_ok argsort flips normals hn (fun i => unitRanks y i 0) (fun i => unitRanks y i 1) hN hm
  rw [h2, h1 (fun hc => hc (unitRanks_injective hy 0)) fun hc => hc (unitRanks_injective hy 1)]
  rfl

section
variable {P : Measure (Fin 2 → ℝ)} [IsProbabilityMeasure P]

theorem exists_gap (hne : P {w | exchGap P w ≠ 0} ≠ 0) : ∃ c : ℝ, 0 < c ∧ 0 < P.real {w | c ≤ |exchGap P w|} := by
  by_contra hcon
  push Not at hcon
  refine hne (measure_mono_null (t := ⋃ m : ℕ, {w | 1 / ((m : ℝ) + 1) ≤ |exchGap P w|}) (fun w hw => ?_)
    (measure_iUnion_null fun m => ?_))
  · obtain ⟨m, hm⟩ := exists_nat_one_div_lt (abs_pos.mpr hw)
    exact Set.mem_iUnion.mpr ⟨m, hm.le⟩
  · have := hcon (1 / ((m : ℝ) + 1)) (by positivity)
    exact (measureReal_eq_zero_iff).mp (le_antisymm this measureReal_nonneg)

/-- Where a law is not exchangeable at the points the test looks at, the statistic grows with the sample. -/
theorem exchStat_likely (hP : Uniform P) {m : ℤ} (h0 : m = 0 → P {w | exchGap P w ≠ 0} ≠ 0)
    (h1 : 0 < m → ∃ q ∈ exchGrid m.toNat, exchGap P ![q.1, q.2] ≠ 0) (hm : 0 ≤ m) :
    ∃ κ : ℝ, 0 < κ ∧ ∀ δ : ℝ, 0 < δ → ∃ n0 : ℕ, ∀ n, n0 ≤ n → iid n P {y | ¬ κ * n ≤ exchStatOf m y} ≤ ENNReal.ofReal δ := by
  rcases hm.eq_or_lt with hm0 | hm0
  · obtain ⟨c, hc0, hπ⟩ := exists_gap (h0 hm0.symm)
    set π := P.real {w | c ≤ |exchGap P w|} with hπdef
    refine ⟨π * c ^ 2 / 8, by positivity, fun δ hδ => ?_⟩
    set ε := c / 100 with hε
    have hε0 : 0 < ε := by positivity
    obtain ⟨n1, hn1⟩ := close_likely hP hε0 (half_pos hδ)
    obtain ⟨n2, hn2⟩ := exists_nat_gt (1 / ε)
    obtain ⟨n3, hn3⟩ := exists_nat_gt (1 / (4 * (δ / 2) * (π / 2) ^ 2))
    refine ⟨n1 + n2 + n3 + 1, fun n hn => ?_⟩
    have hn' : (0 : ℝ) < n := by exact_mod_cast (by omega : 0 < n)
    have : IsProbabilityMeasure (iid n P) := by unfold iid; infer_instance
    have hsub : {y : Fin n → Fin 2 → ℝ | ¬ π * c ^ 2 / 8 * n ≤ exchStatOf m y} ⊆ {y | ¬ CloseTo P ε y} ∪
        {y | π / 2 ≤ |(Nat.card {i // y i ∈ {w | c ≤ |exchGap P w|}} : ℝ) / n - π|} := by
      intro y hy
      by_contra hcon
      rw [Set.mem_union, not_or] at hcon
      obtain ⟨a1, a2⟩ := hcon
      have a1' := not_not.mp a1
      have a2'' : ¬ π / 2 ≤ |(Nat.card {i // y i ∈ {w | c ≤ |exchGap P w|}} : ℝ) / n - π| := a2
      have a2' := (abs_lt.mp (not_le.mp a2'')).1
      refine hy ?_
      have hnε : 1 / ((n : ℝ) + 1) ≤ ε := by
        have hn2' : (n2 : ℝ) ≤ n := by exact_mod_cast (by omega : n2 ≤ n)
        rw [div_lt_iff₀ hε0] at hn2
        rw [div_le_iff₀ (by positivity)]
        nlinarith
      have hL := exchStat_large hP (by omega) (by positivity : 0 ≤ 3 * ε) a1'
        (unitRanks_near hP (by omega) hε0 hnε a1') (c := c) (by rw [hε]; linarith) hc0.le
      have e : exchStatOf m y = exchTestStat (fun i => unitRanks y i 0) (fun i => unitRanks y i 1)
          (List.ofFn fun i => (unitRanks y i 0, unitRanks y i 1)) := by
        rw [exchStatOf, exchPoints, if_neg (by omega)]
      rw [e]
      refine le_trans ?_ hL
      have h2 : π / 2 * n ≤ (Nat.card {i // y i ∈ {w | c ≤ |exchGap P w|}} : ℝ) := by
        have : π / 2 ≤ (Nat.card {i // y i ∈ {w | c ≤ |exchGap P w|}} : ℝ) / n := by linarith
        rwa [le_div_iff₀ hn'] at this
      have h3 := mul_le_mul_of_nonneg_right h2 (sq_nonneg (c / 2))
      refine le_trans (le_of_eq ?_) h3
      ring
    refine (measure_mono hsub).trans ((measure_union_le _ _).trans ?_)
    have hmeas : MeasurableSet {w | c ≤ |exchGap P w|} := measurableSet_le measurable_const (exchGap_continuous hP).abs.measurable
    have hf : iid n P {y | π / 2 ≤ |(Nat.card {i // y i ∈ {w | c ≤ |exchGap P w|}} : ℝ) / n - π|} ≤ ENNReal.ofReal (δ / 2) := by
      refine (iid_frequency (L := P) (by omega) hmeas (half_pos hπ)).2.trans (ENNReal.ofReal_le_ofReal ?_)
      rw [div_lt_iff₀ (by positivity)] at hn3
      rw [div_le_iff₀ (by positivity)]
      have hn3' : (n3 : ℝ) ≤ n := by exact_mod_cast (by omega : n3 ≤ n)
      have := mul_le_mul_of_nonneg_right hn3' (by positivity : 0 ≤ 4 * (δ / 2) * (π / 2) ^ 2)
      linarith
    refine (add_le_add (hn1 n (by omega)) hf).trans ?_
    rw [← ENNReal.ofReal_add (by positivity) (by positivity), add_halves]
  · obtain ⟨q, hq, hgap⟩ := h1 hm0
    set c := |exchGap P ![q.1, q.2]| with hcdef
    have hc0 : 0 < c := abs_pos.mpr hgap
    have hlen : (0 : ℝ) < (exchGrid m.toNat).length := by exact_mod_cast List.length_pos_of_mem hq
    refine ⟨(c / 2) ^ 2 / (exchGrid m.toNat).length, by positivity, fun δ hδ => ?_⟩
    set ε := c / 100 with hε
    have hε0 : 0 < ε := by positivity
    obtain ⟨n1, hn1⟩ := close_likely hP hε0 hδ
    obtain ⟨n2, hn2⟩ := exists_nat_gt (1 / ε)
    refine ⟨n1 + n2 + 1, fun n hn => (measure_mono (t := {y | ¬ CloseTo P ε y}) ?_).trans (hn1 n (by omega))⟩
    intro y hy hcl
    refine hy ?_
    have hnε : 1 / ((n : ℝ) + 1) ≤ ε := by
      have hn2' : (n2 : ℝ) ≤ n := by exact_mod_cast (by omega : n2 ≤ n)
      rw [div_lt_iff₀ hε0] at hn2
      rw [div_le_iff₀ (by positivity)]
      nlinarith
    have hL := exchStat_large_grid hP (by positivity : 0 ≤ 3 * ε) hcl (unitRanks_near hP (by omega) hε0 hnε hcl) (c := c)
      (by rw [hε]; linarith) hc0.le hq le_rfl
    have e : exchStatOf m y = exchTestStat (fun i => unitRanks y i 0) (fun i => unitRanks y i 1) (exchGrid m.toNat) := by
      rw [exchStatOf, exchPoints, if_pos hm0]
    rw [e]
    exact hL

theorem exchRep_unlikely (hP : Uniform P) (hn : 0 < n) {Z : Measure (ℕ → Fin n → ℝ)} (hZ : NormalDraws Z) (m : ℤ) (k : ℕ) {s : ℝ}
    (hs : 0 < s) : ((iid n P).prod Z) {q | s ≤ exchRepOf m q.1 (q.2 k)} ≤ ENNReal.ofReal (100 / s) := by
  have := hZ.prob
  have : IsProbabilityMeasure (iid n P) := by unfold iid; infer_instance
  have hmeas : Measurable fun q : (Fin n → Fin 2 → ℝ) × (ℕ → Fin n → ℝ) => exchRepOf m q.1 (q.2 k) :=
    measurable_exchMultiplier (v := fun q : (Fin n → Fin 2 → ℝ) × (ℕ → Fin n → ℝ) => unitRanks q.1)
      (fun i j => (measurable_unitRanks i j).comp measurable_fst) (z := fun q => q.2 k)
      (fun i => (measurable_pi_apply i).comp ((measurable_pi_apply k).comp measurable_snd)) m
  have hE : MeasurableSet {q : (Fin n → Fin 2 → ℝ) × (ℕ → Fin n → ℝ) | s ≤ exchRepOf m q.1 (q.2 k)} :=
    measurableSet_le measurable_const hmeas
  rw [Measure.prod_apply hE]
  have hb : ∀ᵐ y ∂(iid n P), Z (Prod.mk y ⁻¹' {q | s ≤ exchRepOf m q.1 (q.2 k)}) ≤ ENNReal.ofReal (100 / s) := by
    filter_upwards [noTies_ae (n := n) (atomless_of_uniform hP)] with y hy
    have ht : (Measure.pi fun _ : Fin n => gaussianReal 0 1) {z | s ≤ exchRepOf m y z} ≤ ENNReal.ofReal (100 / s) :=
      multiplier_tail hn hy (exchPoints m (unitRanks y)) hs
    have hk : Measurable fun f : ℕ → Fin n → ℝ => f k := measurable_pi_apply k
    have h := Measure.le_map_apply (μ := Z) hk.aemeasurable {z | s ≤ exchRepOf m y z}
    rw [hZ.normal k] at h
    exact h.trans ht
  refine (lintegral_mono_ae hb).trans ?_
  rw [lintegral_const, measure_univ, mul_one]

end

/-- What the test does to pairs that are not exchangeable. -/
theorem exch_rejects_law {Q P : Measure (Fin 2 → ℝ)} [IsProbabilityMeasure Q] [IsProbabilityMeasure P] (hP : Uniform P)
    (hQ : Atomless Q) (hc : HasCopula Q P) {m : ℤ} (hm : 0 ≤ m) (h0 : m = 0 → P {w | exchGap P w ≠ 0} ≠ 0)
    (h1 : 0 < m → ∃ q ∈ exchGrid m.toNat, exchGap P ![q.1, q.2] ≠ 0) : ∃ κ : ℝ, 0 < κ ∧
    ∀ (N : ℤ) (δ : ℝ), 1 ≤ N → 0 < δ → ∃ n0 : ℕ, ∀ n, n0 ≤ n → ∀ Z : Measure (ℕ → Fin n → ℝ), NormalDraws Z →
      ((iid n Q).prod Z) {q | ¬ ∀ (argsort : ∀ {n : ℕ}, (Fin n → ℝ) → Fin n → Fin n) (flips : ∀ {n : ℕ}, ℕ → Fin n → Bool)
        (normals : ∀ {n : ℕ}, ℕ → Fin n → ℝ) (ties : String) (t : TieMethod), @normals n = q.2 → parseTies ties = .ok t →
        ∃ r, exchTest argsort flips normals (.vec n fun i => q.1 i 0) (.vec n fun i => q.1 i 1) N m ties = .ok r ∧
          κ * n ≤ r.statistic ∧ r.pValue = 0.5 / (N + 1)} ≤ ENNReal.ofReal δ := by
  obtain ⟨F, hF, hFQ⟩ := hc
  obtain ⟨κ, hκ, hst⟩ := exchStat_likely hP h0 h1 hm
  refine ⟨κ, hκ, fun N δ hN hδ => ?_⟩
  obtain ⟨n1, hn1⟩ := hst (δ / 2) (half_pos hδ)
  obtain ⟨n2, hn2⟩ := exists_nat_gt (N.toNat * 100 / (κ * (δ / 2)))
  refine ⟨n1 + n2 + 1, fun n hn Z hZ => ?_⟩
  have := hZ.prob
  have hn' : (0 : ℝ) < n := by exact_mod_cast (by omega : 0 < n)
  have : IsProbabilityMeasure (iid n Q) := by unfold iid; infer_instance
  have : IsProbabilityMeasure (iid n P) := by unfold iid; infer_instance
  have hFm : Measurable fun (x : Fin 2 → ℝ) j => F j (x j) :=
    measurable_pi_lambda _ fun j => (hF j).measurable.comp (measurable_pi_apply j)
  set φ : (Fin n → Fin 2 → ℝ) → Fin n → Fin 2 → ℝ := fun x i j => F j (x i j) with hφ
  have hφm : Measurable φ := measurable_pi_lambda _ fun i => hFm.comp (measurable_pi_apply i)
  have hφQ : (iid n Q).map φ = iid n P := by
    have h := Measure.pi_map_pi (μ := fun _ : Fin n => Q) (f := fun _ (x : Fin 2 → ℝ) j => F j (x j)) fun _ => hFm.aemeasurable
    rw [hFQ] at h
    exact h
  set μ := (iid n Q).prod Z with hμ
  have hmap : μ.map (Prod.map φ id) = (iid n P).prod Z := by
    rw [hμ, ← Measure.map_prod_map _ _ hφm measurable_id, hφQ, Measure.map_id]
  have evY : ∀ E : Set (Fin n → Fin 2 → ℝ), μ {q | φ q.1 ∈ E} ≤ iid n P E := fun E => by
    have e : (fun q : (Fin n → Fin 2 → ℝ) × (ℕ → Fin n → ℝ) => φ q.1) = φ ∘ Prod.fst := rfl
    have hY : μ.map (fun q => φ q.1) = iid n P := by
      rw [e, ← Measure.map_map hφm measurable_fst, hμ, Measure.map_fst_prod, measure_univ, one_smul, hφQ]
    rw [← hY]
    exact Measure.le_map_apply (hφm.comp measurable_fst).aemeasurable E
  have evK : ∀ k : ℕ, μ {q : (Fin n → Fin 2 → ℝ) × (ℕ → Fin n → ℝ) | κ * n ≤ exchRepOf m (φ q.1) (q.2 k)} ≤ ENNReal.ofReal (100 / (κ * n)) := fun k => by
    refine le_trans ?_ (exchRep_unlikely hP (by omega) hZ m k (by positivity : 0 < κ * n))
    rw [← hmap]
    exact Measure.le_map_apply (hφm.prodMap measurable_id).aemeasurable
      {q : (Fin n → Fin 2 → ℝ) × (ℕ → Fin n → ℝ) | κ * n ≤ exchRepOf m q.1 (q.2 k)}
  have hsub : {q : (Fin n → Fin 2 → ℝ) × (ℕ → Fin n → ℝ) | ¬ ∀ (argsort : ∀ {n : ℕ}, (Fin n → ℝ) → Fin n → Fin n)
        (flips : ∀ {n : ℕ}, ℕ → Fin n → Bool)
        (normals : ∀ {n : ℕ}, ℕ → Fin n → ℝ) (ties : String) (t : TieMethod), @normals n = q.2 → parseTies ties = .ok t →
        ∃ r, exchTest argsort flips normals (.vec n fun i => q.1 i 0) (.vec n fun i => q.1 i 1) N m ties = .ok r ∧
          κ * n ≤ r.statistic ∧ r.pValue = 0.5 / (N + 1)} ⊆
      ({q | ¬ NoTies q.1} ∪ {q | φ q.1 ∈ {y | ¬ NoTies y}}) ∪ {q | φ q.1 ∈ {y | ¬ κ * n ≤ exchStatOf m y}} ∪
      ⋃ k ∈ range N.toNat, {q | κ * n ≤ exchRepOf m (φ q.1) (q.2 k)} := by
    intro q hq
    by_contra hcon
    simp only [Set.mem_union, Set.mem_iUnion, not_or, not_exists] at hcon
    obtain ⟨⟨⟨a1, a2⟩, a3⟩, a4⟩ := hcon
    refine hq fun argsort flips normals ties t hnorm ht => ?_
    have a3' : κ * n ≤ exchStatOf m (φ q.1) := not_not.mp a3
    refine ⟨_, exchTest_noTies (by omega) argsort flips normals (not_not.mp a1) (not_not.mp a2) (fun i k j h => hF j h.le) ht hN hm,
      a3', ?_⟩
    have e : ((N.toNat : ℕ) : ℝ) = N := by
      exact_mod_cast Int.toNat_of_nonneg (by omega : 0 ≤ N)
    rw [← e]
    refine pValue_least (fun r hr => ?_) _
    obtain ⟨k, hk, rfl⟩ := List.mem_map.mp hr
    rw [hnorm]
    exact lt_of_lt_of_le (not_le.mp (a4 k (mem_range.mpr (List.mem_range.mp hk)))) a3'
  have b1 : μ {q | ¬ NoTies q.1} = 0 := ae_iff.mp (Measure.quasiMeasurePreserving_fst.ae (noTies_ae (n := n) hQ))
  have b2 : μ {q | φ q.1 ∈ {y | ¬ NoTies y}} = 0 :=
    le_antisymm ((evY _).trans (le_of_eq (ae_iff.mp (noTies_ae (n := n) (atomless_of_uniform hP))))) zero_le
  have b3 := (measure_union_le (μ := μ) _ _).trans (add_le_add b1.le b2.le)
  have b4 := (measure_union_le (μ := μ) _ _).trans (add_le_add b3 ((evY {y | ¬ κ * n ≤ exchStatOf m y}).trans (hn1 n (by omega))))
  have b5 := (measure_biUnion_finset_le (μ := μ) (range N.toNat) fun k =>
    {q : (Fin n → Fin 2 → ℝ) × (ℕ → Fin n → ℝ) | κ * n ≤ exchRepOf m (φ q.1) (q.2 k)}).trans (sum_le_sum fun k _ => evK k)
  refine (measure_mono hsub).trans (((measure_union_le _ _).trans (add_le_add b4 b5)).trans ?_)
  rw [sum_const, card_range, nsmul_eq_mul, ← ENNReal.ofReal_natCast, ← ENNReal.ofReal_mul (by positivity), add_zero, zero_add,
    ← ENNReal.ofReal_add (by positivity) (by positivity)]
  refine ENNReal.ofReal_le_ofReal ?_
  have h3 : (N.toNat : ℝ) * (100 / (κ * n)) ≤ δ / 2 := by
    have hn2' : (n2 : ℝ) ≤ n := by exact_mod_cast (by omega : n2 ≤ n)
    rw [div_lt_iff₀ (by positivity)] at hn2
    rw [← mul_div_assoc, div_le_iff₀ (by positivity)]
    have := mul_le_mul_of_nonneg_right hn2' (by positivity : 0 ≤ κ * (δ / 2))
    nlinarith
  linarith

/-- What the test does to exchangeable pairs. -/
theorem exch_small_law {Q P : Measure (Fin 2 → ℝ)} [IsProbabilityMeasure Q] [IsProbabilityMeasure P] (hP : Uniform P)
    (hQ : Atomless Q) (hc : HasCopula Q P) (he : Exchangeable P) {ε δ : ℝ} (hε : 0 < ε) (hδ : 0 < δ) :
    ∃ n0 : ℕ, ∀ n, n0 ≤ n → iid n Q {x | ¬ ∀ (argsort : ∀ {n : ℕ}, (Fin n → ℝ) → Fin n → Fin n)
      (flips : ∀ {n : ℕ}, ℕ → Fin n → Bool) (normals : ∀ {n : ℕ}, ℕ → Fin n → ℝ) (N m : ℤ) (ties : String) (t : TieMethod),
      1 ≤ N → 0 ≤ m → parseTies ties = .ok t →
      ∃ r, exchTest argsort flips normals (.vec n fun i => x i 0) (.vec n fun i => x i 1) N m ties = .ok r ∧
        0 ≤ r.statistic ∧ r.statistic ≤ ε * n} ≤ ENNReal.ofReal δ := by
  obtain ⟨F, hF, hFQ⟩ := hc
  set η : ℝ := min 1 ε / 14 with hη
  have hm : 0 < min 1 ε := lt_min one_pos hε
  have hη0 : 0 < η := by positivity
  have hsmall : (2 * (η + 2 * (3 * η))) ^ 2 ≤ ε := by
    have e : 2 * (η + 2 * (3 * η)) = min 1 ε := by
      rw [hη]
      ring
    rw [e]
    calc min 1 ε ^ 2 = min 1 ε * min 1 ε := sq _
      _ ≤ 1 * ε := mul_le_mul (min_le_left _ _) (min_le_right _ _) hm.le zero_le_one
      _ = ε := one_mul _
  obtain ⟨n1, h1⟩ := close_likely hP hη0 hδ
  obtain ⟨n2, h2⟩ := exists_nat_gt (1 / η)
  refine ⟨n1 + n2 + 1, fun n hn => ?_⟩
  have : IsProbabilityMeasure (iid n Q) := by unfold iid; infer_instance
  have hFm : Measurable fun (x : Fin 2 → ℝ) j => F j (x j) :=
    measurable_pi_lambda _ fun j => (hF j).measurable.comp (measurable_pi_apply j)
  set φ : (Fin n → Fin 2 → ℝ) → Fin n → Fin 2 → ℝ := fun x i j => F j (x i j) with hφ
  have hφm : Measurable φ := measurable_pi_lambda _ fun i => hFm.comp (measurable_pi_apply i)
  have hφQ : (iid n Q).map φ = iid n P := by
    have h := Measure.pi_map_pi (μ := fun _ : Fin n => Q) (f := fun _ (x : Fin 2 → ℝ) j => F j (x j)) fun _ => hFm.aemeasurable
    rw [hFQ] at h
    exact h
  have evY : ∀ E : Set (Fin n → Fin 2 → ℝ), iid n Q {x | φ x ∈ E} ≤ iid n P E := fun E => by
    rw [← hφQ]
    exact Measure.le_map_apply hφm.aemeasurable E
  have hnη : 1 / ((n : ℝ) + 1) ≤ η := by
    have hn2 : (n2 : ℝ) ≤ n := by exact_mod_cast (by omega : n2 ≤ n)
    rw [div_lt_iff₀ hη0] at h2
    rw [div_le_iff₀ (by positivity)]
    nlinarith
  refine (measure_mono (t := ({x | ¬ NoTies x} ∪ {x | φ x ∈ {y | ¬ NoTies y}}) ∪ {x | φ x ∈ {y | ¬ CloseTo P η y}})
    fun x hx => ?_).trans ?_
  · by_contra hcon
    simp only [Set.mem_union, not_or] at hcon
    obtain ⟨⟨a1, a2⟩, a3⟩ := hcon
    refine hx fun argsort flips normals N m ties t hN hm ht => ?_
    refine ⟨_, exchTest_noTies (by omega) argsort flips normals (not_not.mp a1) (not_not.mp a2) (fun i k j h => hF j h.le) ht hN hm,
      exchTestStat_nonneg _ _ _, ?_⟩
    refine (exchStat_small hP he (by positivity : 0 ≤ 3 * η) (not_not.mp a3)
      (unitRanks_near hP (by omega) hη0 hnη (not_not.mp a3)) _).trans ?_
    rw [mul_comm ε]
    exact mul_le_mul_of_nonneg_left hsmall (Nat.cast_nonneg n)
  · have b1 : iid n Q {x | ¬ NoTies x} = 0 := ae_iff.mp (noTies_ae (n := n) hQ)
    have b2 : iid n Q {x | φ x ∈ {y | ¬ NoTies y}} = 0 :=
      le_antisymm ((evY _).trans (le_of_eq (ae_iff.mp (noTies_ae (n := n) (atomless_of_uniform hP))))) zero_le
    have b3 := (measure_union_le (μ := iid n Q) _ _).trans (add_le_add b1.le b2.le)
    refine ((measure_union_le _ _).trans (add_le_add b3 ((evY {y | ¬ CloseTo P η y}).trans (h1 n (by omega))))).trans ?_
    rw [add_zero, zero_add]

end Copulae
