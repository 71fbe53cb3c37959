import Verif.Spec.Spearman
import Verif.Lemmas.EmpConsistency

/-!
Spearman's rho of a sample without ties, and its closeness to that of the law.
-/

namespace Copulae

open MeasureTheory ProbabilityTheory Finset Spec CopulaMeasure

variable {n d : ℕ}

theorem rankOf_eq {x : Fin n → ℝ} (hx : Function.Injective x) (i : Fin n) :
    rankOf x i = (((ordPerm x) i : Fin n) : ℕ) + 1 := by
  classical
  have hcard := cntLt_of_perm (ordPerm x) i
  have e : univ.filter (fun k => x k ≤ x i) = insert i (univ.filter fun j => ordPerm x j < ordPerm x i) := by
    ext k
    simp only [mem_filter, mem_univ, true_and, mem_insert, ordPerm_lt hx, le_iff_lt_or_eq]
    constructor
    · rintro (h | h)
      · exact Or.inr h
      · exact Or.inl (hx h)
    · rintro (h | h)
      · exact Or.inr (by rw [h])
      · exact Or.inl h
  unfold rankOf
  rw [Nat.card_eq_fintype_card, Fintype.card_subtype, e, card_insert_of_notMem (by simp), Nat.cast_add, Nat.cast_one]
  congr 2

theorem sum_rank {x : Fin n → ℝ} (hx : Function.Injective x) : ∑ i, rankOf x i = n * (n + 1) / 2 := by
  have h : ∀ m : ℕ, ∑ k ∈ range m, ((k : ℝ) + 1) = (m : ℝ) * (m + 1) / 2 := fun m => by
    induction m with
    | zero => simp
    | succ m ih => rw [sum_range_succ, ih]; push_cast; ring
  simp_rw [rankOf_eq hx]
  rw [Equiv.sum_comp (ordPerm x) fun k : Fin n => ((k : ℕ) : ℝ) + 1, Fin.sum_univ_eq_sum_range (fun k : ℕ => (k : ℝ) + 1), h]

theorem sum_rank_sq {x : Fin n → ℝ} (hx : Function.Injective x) : ∑ i, rankOf x i ^ 2 = n * (n + 1) * (2 * n + 1) / 6 := by
  have h : ∀ m : ℕ, ∑ k ∈ range m, ((k : ℝ) + 1) ^ 2 = (m : ℝ) * (m + 1) * (2 * m + 1) / 6 := fun m => by
    induction m with
    | zero => simp
    | succ m ih => rw [sum_range_succ, ih]; push_cast; ring
  simp_rw [rankOf_eq hx]
  rw [Equiv.sum_comp (ordPerm x) fun k : Fin n => (((k : ℕ) : ℝ) + 1) ^ 2,
    Fin.sum_univ_eq_sum_range (fun k : ℕ => ((k : ℝ) + 1) ^ 2), h]

theorem rankOf_mem {x : Fin n → ℝ} (hx : Function.Injective x) (i : Fin n) : 0 ≤ rankOf x i ∧ rankOf x i ≤ n := by
  rw [rankOf_eq hx]
  have : (((ordPerm x i : Fin n) : ℕ) : ℝ) + 1 ≤ n := by exact_mod_cast (ordPerm x i).isLt
  exact ⟨by positivity, this⟩

theorem sum_centered (u v : Fin n → ℝ) (a b : ℝ) :
    ∑ i, (u i - a) * (v i - b) = ∑ i, u i * v i - b * ∑ i, u i - a * ∑ i, v i + n * (a * b) := by
  have e : ∀ i, (u i - a) * (v i - b) = u i * v i - b * u i - a * v i + a * b := fun i => by ring
  simp_rw [e, sum_add_distrib, sum_sub_distrib, ← mul_sum, sum_const, card_univ, Fintype.card_fin, nsmul_eq_mul]
  ring

theorem sum_centered_sq (hn : 2 ≤ n) {x : Fin n → ℝ} (hx : Function.Injective x) :
    ∑ i, (rankOf x i - (∑ k, rankOf x k) / n) ^ 2 = n * (n ^ 2 - 1) / 12 := by
  have hn' : (n : ℝ) ≠ 0 := by exact_mod_cast (by omega : n ≠ 0)
  simp_rw [pow_two]
  rw [sum_centered, ← sum_congr rfl fun i _ => pow_two (rankOf x i), sum_rank_sq hx, sum_rank hx]
  field_simp
  ring

/-- Spearman's rho from the sum of the products of the ranks. -/
theorem sampleRho_eq (hn : 2 ≤ n) {x y : Fin n → ℝ} (hx : Function.Injective x) (hy : Function.Injective y) :
    sampleRho x y = 12 / (n ^ 2 - 1) * ((∑ i, rankOf x i * rankOf y i) / n) - 3 * (n + 1) / (n - 1) := by
  have hn2 : (2 : ℝ) ≤ n := by exact_mod_cast hn
  have h1 : (n : ℝ) - 1 ≠ 0 := by linarith
  have h2 : (n : ℝ) + 1 ≠ 0 := by linarith
  have h3 : (n : ℝ) ≠ 0 := by linarith
  have h4 : (0 : ℝ) ≤ n * (n ^ 2 - 1) / 12 := by
    have : (0 : ℝ) ≤ n ^ 2 - 1 := by nlinarith
    positivity
  unfold sampleRho pearson
  rw [sum_centered_sq hn hx, sum_centered_sq hn hy, Real.sqrt_mul_self h4, sum_centered, sum_rank hx, sum_rank hy,
    show (n : ℝ) ^ 2 - 1 = (n - 1) * (n + 1) by ring]
  field_simp
  ring

/-- The ranks are close to the values of the distribution function if the frequencies are on a grid. -/
theorem rank_near {x : Fin n → ℝ} (hn : 0 < n) (hx : Function.Injective x) {F : ℝ → ℝ} (hF : Monotone F) {m : ℕ} (hm : 0 < m) {η : ℝ}
    (hg : ∀ k : ℕ, k ≤ m → |(Nat.card {i // x i ∈ {y | F y ≤ (k : ℝ) / m}} : ℝ) / n - (k : ℝ) / m| < η) (i : Fin n)
    (h0 : 0 ≤ F (x i)) (h1 : F (x i) ≤ 1) : |rankOf x i / n - F (x i)| ≤ 1 / m + η := by
  have hn' : (0 : ℝ) < n := by exact_mod_cast hn
  have hm' : (0 : ℝ) < m := by exact_mod_cast hm
  have hη : 0 < η := lt_of_le_of_lt (abs_nonneg _) (hg 0 (Nat.zero_le _))
  have hlow : ∀ g : ℝ, IsLowerSet {y | F y ≤ g} := fun g a b hab ha => (hF hab).trans ha
  set U := F (x i) with hU
  set k := ⌈U * m⌉₊ with hk
  have hkm : k ≤ m := Nat.ceil_le.mpr (by nlinarith)
  have hk1 : U * m ≤ k := Nat.le_ceil _
  have hk2 : (k : ℝ) < U * m + 1 := Nat.ceil_lt_add_one (by positivity)
  rw [abs_le, rankOf_eq hx]
  constructor
  · rcases h0.eq_or_lt with h | h
    · rw [← h]
      have : (0 : ℝ) ≤ ((((ordPerm x) i : Fin n) : ℕ) + 1) / n := by positivity
      have : (0 : ℝ) < 1 / m := by positivity
      linarith
    · have hk0 : 0 < k := Nat.ceil_pos.mpr (by positivity)
      have hc := (abs_lt.mp (hg (k - 1) (by omega))).1
      have hcast : ((k - 1 : ℕ) : ℝ) = k - 1 := by rw [Nat.cast_sub hk0, Nat.cast_one]
      rw [hcast] at hc
      have hgU : ((k : ℝ) - 1) / m < U := by rw [div_lt_iff₀ hm']; linarith
      have hnot : x i ∉ {y | F y ≤ ((k : ℝ) - 1) / m} := fun h => absurd hgU (not_lt.mpr h)
      rw [mem_lower_iff hx (hlow _), not_lt] at hnot
      have hle : (Nat.card {j // x j ∈ {y | F y ≤ ((k : ℝ) - 1) / m}} : ℝ) / n ≤ ((((ordPerm x) i : Fin n) : ℕ) + 1) / n := by
        refine div_le_div_of_nonneg_right ?_ hn'.le
        have : (Nat.card {j // x j ∈ {y | F y ≤ ((k : ℝ) - 1) / m}} : ℝ) ≤ (((ordPerm x) i : Fin n) : ℕ) := by exact_mod_cast hnot
        linarith
      have hgl : U - 1 / m ≤ ((k : ℝ) - 1) / m := by
        rw [le_div_iff₀ hm', sub_mul, one_div, inv_mul_cancel₀ hm'.ne']
        linarith
      linarith
  · have hc := (abs_lt.mp (hg k hkm)).2
    have hin : x i ∈ {y | F y ≤ (k : ℝ) / m} := by
      show U ≤ k / m
      rw [le_div_iff₀ hm']
      exact hk1
    rw [mem_lower_iff hx (hlow _)] at hin
    have hle : (((((ordPerm x) i : Fin n) : ℕ) : ℝ) + 1) / n ≤ (Nat.card {j // x j ∈ {y | F y ≤ (k : ℝ) / m}} : ℝ) / n := by
      refine div_le_div_of_nonneg_right ?_ hn'.le
      exact_mod_cast hin
    have hgl : (k : ℝ) / m ≤ U + 1 / m := by
      rw [div_le_iff₀ hm', add_mul, one_div, inv_mul_cancel₀ hm'.ne']
      linarith
    linarith

/-- The sample's rho from ranks close to `U` and `V`. -/
theorem sampleRho_near (hn : 2 ≤ n) {x y : Fin n → ℝ} (hx : Function.Injective x) (hy : Function.Injective y) {U V : Fin n → ℝ}
    (hU : ∀ i, 0 ≤ U i ∧ U i ≤ 1) {γ η e : ℝ} (h1 : ∀ i, |rankOf x i / n - U i| ≤ γ)
    (h2 : ∀ i, |rankOf y i / n - V i| ≤ γ) (h3 : |(∑ i, U i * V i) / n - e| < η) :
    |sampleRho x y - (12 * e - 3)| < 12 * (2 * γ + η) + 18 / (n - 1) := by
  have hn2 : (2 : ℝ) ≤ n := by exact_mod_cast hn
  have hn0 : (0 : ℝ) < n := by linarith
  set q : ℝ := (∑ i, rankOf x i / n * (rankOf y i / n)) / n with hq
  have hr : ∀ {z : Fin n → ℝ}, Function.Injective z → ∀ i, 0 ≤ rankOf z i / n ∧ rankOf z i / n ≤ 1 := fun hz i =>
    ⟨div_nonneg (rankOf_mem hz i).1 hn0.le, by rw [div_le_one hn0]; exact (rankOf_mem hz i).2⟩
  have hqd : |q - (∑ i, U i * V i) / n| ≤ 2 * γ := by
    rw [hq, ← sub_div, ← sum_sub_distrib, abs_div, abs_of_pos hn0, div_le_iff₀ hn0]
    refine (abs_sum_le_sum_abs _ _).trans ?_
    have : ∀ i ∈ univ, |rankOf x i / n * (rankOf y i / n) - U i * V i| ≤ 2 * γ := by
      intro i _
      have e1 : rankOf x i / n * (rankOf y i / n) - U i * V i =
          (rankOf x i / n - U i) * (rankOf y i / n) + U i * (rankOf y i / n - V i) := by ring
      rw [e1]
      refine (abs_add_le _ _).trans ?_
      rw [abs_mul, abs_mul, abs_of_nonneg (hr hy i).1, abs_of_nonneg (hU i).1]
      have a1 := h1 i
      have a2 := h2 i
      have b1 : |rankOf x i / n - U i| * (rankOf y i / n) ≤ |rankOf x i / n - U i| :=
        mul_le_of_le_one_right (abs_nonneg _) (hr hy i).2
      have b2 : U i * |rankOf y i / n - V i| ≤ |rankOf y i / n - V i| := mul_le_of_le_one_left (abs_nonneg _) (hU i).2
      linarith
    refine (sum_le_card_nsmul _ _ _ this).trans (le_of_eq ?_)
    rw [card_univ, Fintype.card_fin, nsmul_eq_mul]
    ring
  have hq01 : 0 ≤ q ∧ q ≤ 1 := by
    have hterm : ∀ i ∈ univ, rankOf x i / n * (rankOf y i / n) ≤ 1 := fun i _ =>
      mul_le_one₀ (hr hx i).2 (hr hy i).1 (hr hy i).2
    refine ⟨div_nonneg (sum_nonneg fun i _ => mul_nonneg (hr hx i).1 (hr hy i).1) hn0.le, ?_⟩
    rw [hq, div_le_one hn0]
    refine (sum_le_card_nsmul _ _ _ hterm).trans (le_of_eq ?_)
    rw [card_univ, Fintype.card_fin, nsmul_eq_mul, mul_one]
  have hm1 : (0 : ℝ) < n - 1 := by linarith
  have hp1 : (0 : ℝ) < n + 1 := by linarith
  have hval : sampleRho x y - (12 * e - 3) = 12 * (q - e) + (12 * q / ((n - 1) * (n + 1)) - 6 / (n - 1)) := by
    have hs : (∑ i, rankOf x i * rankOf y i) / n = n ^ 2 * q := by
      have : ∀ i, rankOf x i / n * (rankOf y i / n) = rankOf x i * rankOf y i / n ^ 2 := fun i => by field_simp
      rw [hq]
      simp_rw [this]
      rw [← sum_div]
      field_simp
    rw [sampleRho_eq hn hx hy, hs, show (n : ℝ) ^ 2 - 1 = (n - 1) * (n + 1) by ring]
    field_simp
    ring
  have hA : |q - e| < 2 * γ + η := by
    have := abs_sub_le q ((∑ i, U i * V i) / n) e
    linarith
  have hB : |12 * q / ((n - 1) * (n + 1)) - 6 / (n - 1)| ≤ 18 / (n - 1) := by
    have c1 : 12 * q / ((n - 1) * (n + 1)) ≤ 12 / ((n : ℝ) - 1) := by
      rw [div_le_div_iff₀ (mul_pos hm1 hp1) hm1]
      nlinarith [mul_pos hm1 hp1, hq01.2]
    have c2 : 0 ≤ 12 * q / (((n : ℝ) - 1) * (n + 1)) := div_nonneg (by linarith [hq01.1]) (mul_pos hm1 hp1).le
    have c3 : 0 < 6 / ((n : ℝ) - 1) := by positivity
    have c4 : (18 : ℝ) / (n - 1) = 12 / (n - 1) + 6 / (n - 1) := by ring
    rw [abs_le]
    constructor <;> linarith
  rw [hval]
  have := abs_add_le (12 * (q - e)) (12 * q / (((n : ℝ) - 1) * (n + 1)) - 6 / (n - 1))
  rw [abs_mul, abs_of_pos (by norm_num : (0 : ℝ) < 12)] at this
  linarith

/-- The transformations of `HasCopula` can be taken into the unit interval. -/
theorem hasCopula_unit {Q P : Measure (Fin d → ℝ)} [IsProbabilityMeasure P] (hP : Uniform P) (h : HasCopula Q P) :
    ∃ F : Fin d → ℝ → ℝ, (∀ j, Monotone (F j)) ∧ Q.map (fun x j => F j (x j)) = P ∧ ∀ j y, 0 ≤ F j y ∧ F j y ≤ 1 := by
  obtain ⟨F, hF, hQ⟩ := h
  have hFm : Measurable fun (x : Fin d → ℝ) j => F j (x j) :=
    measurable_pi_lambda _ fun j => (hF j).measurable.comp (measurable_pi_apply j)
  have hcm : Measurable fun (u : Fin d → ℝ) j => max 0 (min 1 (u j)) := by fun_prop
  refine ⟨fun j y => max 0 (min 1 (F j y)), fun j a b hab => max_le_max le_rfl (min_le_min le_rfl (hF j hab)), ?_,
    fun j y => ⟨le_max_left _ _, max_le zero_le_one (min_le_left _ _)⟩⟩
  have : Q.map (fun x j => max 0 (min 1 (F j (x j)))) = (Q.map fun x j => F j (x j)).map fun u j => max 0 (min 1 (u j)) :=
    (Measure.map_map hcm hFm).symm
  rw [this, hQ]
  conv_rhs => rw [← Measure.map_id (μ := P)]
  refine Measure.map_congr ?_
  filter_upwards [uniform_ae' hP] with u hu
  funext j
  rw [min_eq_right (hu j).2.le, max_eq_right (hu j).1.le]
  rfl

theorem pairMean_fst (hn : 2 ≤ n) (g : (Fin d → ℝ) → ℝ) (x : Fin n → Fin d → ℝ) :
    pairMean (fun p => g p.1) x = (∑ i, g (x i)) / n := by
  have hn2 : (2 : ℝ) ≤ n := by exact_mod_cast hn
  have e : ∑ p ∈ pairsOf n, g (x p.1) = (n - 1) * ∑ i, g (x i) := by
    have h1 : ∑ p ∈ pairsOf n, g (x p.1) = ∑ i, ∑ k ∈ univ.filter (fun k => i ≠ k), g (x i) := by
      rw [pairsOf, sum_filter, ← univ_product_univ, sum_product]
      refine sum_congr rfl fun i _ => ?_
      rw [sum_filter]
    rw [h1, mul_sum]
    refine sum_congr rfl fun i _ => ?_
    rw [sum_const, filter_ne, card_erase_of_mem (mem_univ _), card_univ, Fintype.card_fin, nsmul_eq_mul,
      Nat.cast_sub (by omega), Nat.cast_one]
  have h1 : (n : ℝ) - 1 ≠ 0 := by linarith
  unfold pairMean
  rw [e]
  field_simp

/-- Samples that have ties or a pair of columns whose rho is not within `ε` of that of the copula are unlikely. -/
theorem sampleRho_close {Q P : Measure (Fin d → ℝ)} [IsProbabilityMeasure Q] [IsProbabilityMeasure P] (hP : Uniform P)
    (hQ : Atomless Q) (hc : HasCopula Q P) {ε δ : ℝ} (hε : 0 < ε) (hδ : 0 < δ) :
    ∃ N : ℕ, 2 ≤ N ∧ ∀ n, N ≤ n → iid n Q {x | ¬ (NoTies x ∧ ∀ a b,
      |sampleRho (fun i => x i a) (fun i => x i b) - spearmanRho P a b| < ε)} ≤ ENNReal.ofReal δ := by
  obtain ⟨F, hF, hFQ, hF01⟩ := hasCopula_unit hP hc
  have hFm : Measurable fun (x : Fin d → ℝ) j => F j (x j) :=
    measurable_pi_lambda _ fun j => (hF j).measurable.comp (measurable_pi_apply j)
  have hFj : ∀ j, Measurable fun x : Fin d → ℝ => F j (x j) := fun j => (hF j).measurable.comp (measurable_pi_apply j)
  obtain ⟨m, hm⟩ := exists_nat_gt (96 / ε)
  have hm' : (0 : ℝ) < m := lt_trans (by positivity) hm
  have hm0 : 0 < m := by exact_mod_cast hm'
  set η : ℝ := ε / 144 with hη
  have hη0 : 0 < η := by positivity
  set K : ℝ := (d * (m + 1)) * (1 / (4 * η ^ 2)) + d * d * (4 / η ^ 2) with hK
  obtain ⟨N1, hN1⟩ := exists_nat_gt (K / δ)
  obtain ⟨N2, hN2⟩ := exists_nat_gt (72 / ε)
  refine ⟨N1 + N2 + 2, by omega, fun n hn => ?_⟩
  have hn1 : (N1 : ℝ) + N2 + 2 ≤ n := by exact_mod_cast hn
  have hN1' : (0 : ℝ) ≤ N1 := Nat.cast_nonneg _
  have hN2' : (0 : ℝ) ≤ N2 := Nat.cast_nonneg _
  have hn2 : 2 ≤ n := by omega
  have hnm : (0 : ℝ) < n - 1 := by linarith
  have hn0 : (0 : ℝ) < n := by linarith
  set g : Fin d → Fin d → (Fin d → ℝ) → ℝ := fun a b x => F a (x a) * F b (x b) with hgdef
  have hgm : ∀ a b, Measurable fun p : (Fin d → ℝ) × (Fin d → ℝ) => g a b p.1 := fun a b =>
    ((hFj a).mul (hFj b)).comp measurable_fst
  have hgb : ∀ a b (p : (Fin d → ℝ) × (Fin d → ℝ)), |g a b p.1| ≤ 1 := fun a b p => by
    simp only [hgdef]
    rw [abs_mul, abs_of_nonneg (hF01 a _).1, abs_of_nonneg (hF01 b _).1]
    exact mul_le_one₀ (hF01 a _).2 (hF01 b _).1 (hF01 b _).2
  have hint : ∀ a b, ∫ p : (Fin d → ℝ) × (Fin d → ℝ), g a b p.1 ∂(Q.prod Q) = ∫ u, u a * u b ∂P := by
    intro a b
    rw [integral_fun_fst (fun x => g a b x), probReal_univ, one_smul]
    conv_rhs => rw [← hFQ]
    rw [integral_map hFm.aemeasurable (by
      exact ((measurable_pi_apply a).mul (measurable_pi_apply b)).aestronglyMeasurable)]
  set bad1 : Fin d × Fin (m + 1) → Set (Fin n → Fin d → ℝ) := fun p =>
    {x | η ≤ |(Nat.card {i // x i ∈ {z : Fin d → ℝ | F p.1 (z p.1) ≤ ((p.2 : ℕ) : ℝ) / m}} : ℝ) / n - ((p.2 : ℕ) : ℝ) / m|} with hbad1
  set bad2 : Fin d × Fin d → Set (Fin n → Fin d → ℝ) := fun p =>
    {x | η ≤ |pairMean (fun q => g p.1 p.2 q.1) x - ∫ q, g p.1 p.2 q.1 ∂(Q.prod Q)|} with hbad2
  have hsub : {x : Fin n → Fin d → ℝ | ¬ (NoTies x ∧ ∀ a b,
      |sampleRho (fun i => x i a) (fun i => x i b) - spearmanRho P a b| < ε)} ⊆
      {x | ¬ NoTies x} ∪ ((⋃ p, bad1 p) ∪ ⋃ p, bad2 p) := by
    intro x hx
    by_contra hcon
    rw [Set.mem_union, not_or, Set.mem_union, not_or, Set.mem_iUnion, not_exists, Set.mem_iUnion, not_exists] at hcon
    obtain ⟨h1, h2, h3⟩ := hcon
    have hx' : NoTies x := not_not.mp h1
    refine hx ⟨hx', fun a b => ?_⟩
    have hinj : ∀ j, Function.Injective fun i => x i j := fun j i k h => by_contra fun hne => hx' j i k hne h
    have hnear : ∀ j i, |rankOf (fun i => x i j) i / n - F j (x i j)| ≤ 1 / m + η := by
      intro j i
      refine rank_near (by omega) (hinj j) (hF j) hm0 (fun k hk => ?_) i (hF01 j _).1 (hF01 j _).2
      exact not_le.mp (h2 (j, ⟨k, by omega⟩))
    have h4 : |pairMean (fun q => g a b q.1) x - ∫ q, g a b q.1 ∂(Q.prod Q)| < η := not_le.mp (h3 (a, b))
    rw [pairMean_fst hn2, hint] at h4
    have := sampleRho_near hn2 (hinj a) (hinj b) (fun i => hF01 a (x i a)) (hnear a) (hnear b) h4
    refine lt_trans this ?_
    have c1 : 1 / (m : ℝ) < ε / 96 := by
      rw [div_lt_iff₀ hε] at hm
      rw [div_lt_div_iff₀ hm' (by norm_num)]
      linarith
    have c2 : 18 / ((n : ℝ) - 1) < ε / 4 := by
      rw [div_lt_iff₀ hε] at hN2
      rw [div_lt_div_iff₀ hnm (by norm_num)]
      nlinarith
    rw [hη]
    linarith
  have hb1 : ∀ p, iid n Q (bad1 p) ≤ ENNReal.ofReal (1 / (4 * η ^ 2) / (n - 1)) := by
    intro p
    have hms : MeasurableSet {z : Fin d → ℝ | F p.1 (z p.1) ≤ ((p.2 : ℕ) : ℝ) / m} := (hFj p.1) measurableSet_Iic
    have hp0 : (0 : ℝ) ≤ ((p.2 : ℕ) : ℝ) / m := by positivity
    have hp1 : ((p.2 : ℕ) : ℝ) / m ≤ 1 := by
      rw [div_le_one hm']
      exact_mod_cast Nat.lt_succ_iff.mp p.2.isLt
    have hval : Q.real {z : Fin d → ℝ | F p.1 (z p.1) ≤ ((p.2 : ℕ) : ℝ) / m} = ((p.2 : ℕ) : ℝ) / m := by
      have h := uniform_le hP p.1 hp0 hp1
      have hms' : MeasurableSet {x : Fin d → ℝ | x p.1 ≤ ((p.2 : ℕ) : ℝ) / m} := measurable_pi_apply p.1 measurableSet_Iic
      rw [← hFQ, map_measureReal_apply hFm hms'] at h
      exact h
    have := (iid_frequency (L := Q) (n := n) (by omega) hms hη0).2
    rw [hval] at this
    refine this.trans (ENNReal.ofReal_le_ofReal ?_)
    rw [div_div]
    refine one_div_le_one_div_of_le (by positivity) ?_
    nlinarith [sq_nonneg η, pow_pos hη0 2]
  have hb2 : ∀ p, iid n Q (bad2 p) ≤ ENNReal.ofReal (4 / η ^ 2 / (n - 1)) := by
    intro p
    refine (pairMean_close (P := Q) (hgm p.1 p.2) (hgb p.1 p.2) hn2 hη0).trans (le_of_eq ?_)
    rw [div_div, mul_comm]
  have h0 := noTies_ae (n := n) hQ
  rw [ae_iff] at h0
  refine (measure_mono hsub).trans ((measure_union_le _ _).trans ?_)
  rw [h0, zero_add]
  refine (measure_union_le _ _).trans ((add_le_add ((measure_iUnion_fintype_le _ _).trans (sum_le_sum fun p _ => hb1 p))
    ((measure_iUnion_fintype_le _ _).trans (sum_le_sum fun p _ => hb2 p))).trans ?_)
  simp only [sum_const, card_univ, Fintype.card_prod, Fintype.card_fin, nsmul_eq_mul]
  rw [← ENNReal.ofReal_natCast, ← ENNReal.ofReal_natCast, ← ENNReal.ofReal_mul (by positivity), ← ENNReal.ofReal_mul (by positivity),
    ← ENNReal.ofReal_add (by positivity) (by positivity)]
  refine ENNReal.ofReal_le_ofReal ?_
  push_cast
  have e : (d : ℝ) * (m + 1) * (1 / (4 * η ^ 2) / (n - 1)) + d * d * (4 / η ^ 2 / (n - 1)) = K / (n - 1) := by
    rw [hK]
    ring
  rw [e, div_le_iff₀ hnm]
  rw [div_lt_iff₀ hδ] at hN1
  nlinarith

end Copulae
