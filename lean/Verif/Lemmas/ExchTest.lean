import Verif.Lemmas.RadSymTest
import Verif.Spec.Exch

/-!
The test of exchangeability on large samples.
-/

namespace Copulae

open MeasureTheory ProbabilityTheory Finset Spec CopulaMeasure

variable {d n : ℕ}

/-! ### The statistic -/

theorem cn_frac (v : Fin n → Fin 2 → ℝ) (a b : ℝ) : cn (fun i => v i 0) (fun i => v i 1) a b = fracLe v ![a, b] := by
  unfold cn fracLe
  rw [← sum_ind_prod v ![a, b]]
  refine congrArg (· / (n : ℝ)) (sum_congr rfl fun i _ => ?_)
  rw [Fin.prod_univ_two]
  congr

/-- The points at which the statistic is evaluated. -/
noncomputable def exchPoints (m : ℤ) (v : Fin n → Fin 2 → ℝ) : List (ℝ × ℝ) :=
  if 0 < m then exchGrid m.toNat else List.ofFn fun i => (v i 0, v i 1)

theorem exchTestStat_frac (v : Fin n → Fin 2 → ℝ) (g : List (ℝ × ℝ)) :
    exchTestStat (fun i => v i 0) (fun i => v i 1) g =
      (g.map fun q => (fracLe v ![q.1, q.2] - fracLe v ![q.2, q.1]) ^ 2).sum * n / g.length := by
  unfold exchTestStat
  simp only [cn_frac, sq]

theorem exchTestStat_le {v : Fin n → Fin 2 → ℝ} {η : ℝ} (hη : ∀ a b, |fracLe v ![a, b] - fracLe v ![b, a]| ≤ η) (g : List (ℝ × ℝ)) :
    exchTestStat (fun i => v i 0) (fun i => v i 1) g ≤ n * η ^ 2 := by
  rw [exchTestStat_frac]
  rcases Nat.eq_zero_or_pos g.length with h0 | h0
  · rw [h0]
    simp only [CharP.cast_eq_zero, div_zero]
    positivity
  have h0' : (0 : ℝ) < g.length := by exact_mod_cast h0
  have h1 : (g.map fun q => (fracLe v ![q.1, q.2] - fracLe v ![q.2, q.1]) ^ 2).sum ≤ g.length * η ^ 2 := by
    have := List.sum_le_card_nsmul (g.map fun q => (fracLe v ![q.1, q.2] - fracLe v ![q.2, q.1]) ^ 2) (η ^ 2) fun x hx => by
      obtain ⟨q, -, rfl⟩ := List.mem_map.mp hx
      rw [← sq_abs]
      exact pow_le_pow_left₀ (abs_nonneg _) (hη _ _) 2
    simpa using this
  rw [div_le_iff₀ h0']
  have := mul_le_mul_of_nonneg_right h1 (Nat.cast_nonneg n : (0 : ℝ) ≤ n)
  linarith

theorem le_exchTestStat_grid {v : Fin n → Fin 2 → ℝ} {g : List (ℝ × ℝ)} {q : ℝ × ℝ} (hq : q ∈ g) {c : ℝ} (hc : 0 ≤ c)
    (h : c ≤ |fracLe v ![q.1, q.2] - fracLe v ![q.2, q.1]|) :
    c ^ 2 / g.length * n ≤ exchTestStat (fun i => v i 0) (fun i => v i 1) g := by
  rw [exchTestStat_frac]
  have h1 : c ^ 2 ≤ (g.map fun q => (fracLe v ![q.1, q.2] - fracLe v ![q.2, q.1]) ^ 2).sum := by
    refine le_trans ?_ (List.single_le_sum (fun x hx => ?_) _ (List.mem_map.mpr ⟨q, hq, rfl⟩))
    · rw [← sq_abs (fracLe v _ - _)]
      exact pow_le_pow_left₀ hc h 2
    · obtain ⟨r, -, rfl⟩ := List.mem_map.mp hx
      exact sq_nonneg _
  have h2 := mul_le_mul_of_nonneg_right h1 (Nat.cast_nonneg n : (0 : ℝ) ≤ n)
  rw [div_mul_eq_mul_div]
  exact div_le_div_of_nonneg_right h2 (Nat.cast_nonneg _)

theorem exchTestStat_sample (hn : 0 < n) (v : Fin n → Fin 2 → ℝ) :
    exchTestStat (fun i => v i 0) (fun i => v i 1) (List.ofFn fun i => (v i 0, v i 1)) =
      ∑ k, (fracLe v (v k) - fracLe v ![v k 1, v k 0]) ^ 2 := by
  have hn' : (n : ℝ) ≠ 0 := by exact_mod_cast hn.ne'
  rw [exchTestStat_frac, List.length_ofFn, mul_div_assoc, div_self hn', mul_one, List.map_ofFn, List.sum_ofFn]
  refine sum_congr rfl fun k _ => ?_
  have e : ![v k 0, v k 1] = v k := by
    funext j
    fin_cases j <;> rfl
  simp only [Function.comp_apply, e]

section stat
variable {P : Measure (Fin 2 → ℝ)} [IsProbabilityMeasure P]

theorem swapGap_near (hP : Uniform P) {ε δ : ℝ} (hδ : 0 ≤ δ) {y v : Fin n → Fin 2 → ℝ} (hy : CloseTo P ε y)
    (hv : ∀ i j, |v i j - y i j| ≤ δ) (w : Fin 2 → ℝ) :
    |(fracLe v w - fracLe v ![w 1, w 0]) - exchGap P w| ≤ 2 * (ε + 2 * δ) := by
  have h1 := abs_le.mp (fracLe_near hP hδ hy hv w)
  have h2 := abs_le.mp (fracLe_near hP hδ hy hv ![w 1, w 0])
  push_cast at h1 h2
  unfold exchGap
  rw [abs_le]
  constructor <;> linarith [h1.1, h1.2, h2.1, h2.2]

theorem exchGap_continuous (hP : Uniform P) : Continuous (exchGap P) := by
  unfold exchGap
  refine (distFn_continuous hP).sub ((distFn_continuous hP).comp ?_)
  refine continuous_pi fun j => ?_
  fin_cases j
  · exact continuous_apply 1
  · exact continuous_apply 0

omit [IsProbabilityMeasure P] in
theorem exchGap_zero (he : Exchangeable P) (w : Fin 2 → ℝ) : exchGap P w = 0 := by
  unfold exchGap
  rw [sub_eq_zero]
  conv_lhs => rw [← he]
  unfold distFn pairLaw
  have hm : Measurable fun x : Fin 2 → ℝ => ![x 1, x 0] := by
    refine measurable_pi_lambda _ fun j => ?_
    fin_cases j
    · exact measurable_pi_apply 1
    · exact measurable_pi_apply 0
  rw [map_measureReal_apply hm (measurableSet_le w)]
  congr 1
  ext x
  simp [Fin.forall_fin_two, and_comm]

theorem exchStat_small (hP : Uniform P) (he : Exchangeable P) {ε δ : ℝ} (hδ : 0 ≤ δ) {y v : Fin n → Fin 2 → ℝ}
    (hy : CloseTo P ε y) (hv : ∀ i j, |v i j - y i j| ≤ δ) (g : List (ℝ × ℝ)) :
    exchTestStat (fun i => v i 0) (fun i => v i 1) g ≤ n * (2 * (ε + 2 * δ)) ^ 2 := by
  refine exchTestStat_le (fun a b => ?_) g
  have := swapGap_near hP hδ hy hv ![a, b]
  rw [exchGap_zero he, sub_zero] at this
  simpa using this

theorem exchStat_large (hP : Uniform P) (hn : 0 < n) {ε δ c : ℝ} (hδ : 0 ≤ δ) {y v : Fin n → Fin 2 → ℝ}
    (hy : CloseTo P ε y) (hv : ∀ i j, |v i j - y i j| ≤ δ) (hc : 2 * (ε + 2 * δ) + 2 * (2 * δ) ≤ c / 2) (hc0 : 0 ≤ c) :
    (Nat.card {i // c ≤ |exchGap P (y i)|} : ℝ) * (c / 2) ^ 2 ≤
      exchTestStat (fun i => v i 0) (fun i => v i 1) (List.ofFn fun i => (v i 0, v i 1)) := by
  classical
  rw [exchTestStat_sample hn, Nat.card_eq_fintype_card, Fintype.card_subtype, ← nsmul_eq_mul, ← sum_const]
  refine (sum_le_sum fun k hk => ?_).trans (sum_le_sum_of_subset_of_nonneg (filter_subset _ _) fun k _ _ => sq_nonneg _)
  have hk' := (mem_filter.mp hk).2
  have h1 := swapGap_near hP hδ hy hv (v k)
  have h2 := abs_le.mp (distFn_near hP hδ (v := y k) (w := v k) fun j => by rw [abs_sub_comm]; exact hv k j)
  have h3 := abs_le.mp (distFn_near hP hδ (v := ![y k 1, y k 0]) (w := ![v k 1, v k 0]) fun j => by
    rw [abs_sub_comm]
    fin_cases j
    · exact hv k 1
    · exact hv k 0)
  push_cast at h2 h3
  rw [← sq_abs (fracLe v (v k) - _)]
  refine pow_le_pow_left₀ (by linarith) ?_ 2
  have h4 : |exchGap P (y k)| ≤ |exchGap P (v k)| + 2 * (2 * δ) := by
    have e : exchGap P (y k) = exchGap P (v k) + (exchGap P (y k) - exchGap P (v k)) := by ring
    rw [e]
    refine (abs_add_le _ _).trans (add_le_add le_rfl ?_)
    unfold exchGap
    rw [abs_le]
    constructor <;> linarith [h2.1, h2.2, h3.1, h3.2]
  have h5 : |exchGap P (v k)| ≤ |fracLe v (v k) - fracLe v ![v k 1, v k 0]| + 2 * (ε + 2 * δ) := by
    have e : exchGap P (v k) = (fracLe v (v k) - fracLe v ![v k 1, v k 0]) -
      ((fracLe v (v k) - fracLe v ![v k 1, v k 0]) - exchGap P (v k)) := by ring
    rw [e]
    exact (abs_sub _ _).trans (add_le_add le_rfl h1)
  linarith

theorem exchStat_large_grid (hP : Uniform P) {ε δ c : ℝ} (hδ : 0 ≤ δ) {y v : Fin n → Fin 2 → ℝ} (hy : CloseTo P ε y)
    (hv : ∀ i j, |v i j - y i j| ≤ δ) (hc : 2 * (ε + 2 * δ) ≤ c / 2) (hc0 : 0 ≤ c) {g : List (ℝ × ℝ)} {q : ℝ × ℝ} (hq : q ∈ g)
    (hg : c ≤ |exchGap P ![q.1, q.2]|) :
    (c / 2) ^ 2 / g.length * n ≤ exchTestStat (fun i => v i 0) (fun i => v i 1) g := by
  refine le_exchTestStat_grid hq (by linarith) ?_
  have h1 := swapGap_near hP hδ hy hv ![q.1, q.2]
  have e : exchGap P ![q.1, q.2] = (fracLe v ![q.1, q.2] - fracLe v ![q.2, q.1]) -
    ((fracLe v ![q.1, q.2] - fracLe v ![q.2, q.1]) - exchGap P ![q.1, q.2]) := by ring
  rw [e] at hg
  have h2 := hg.trans (abs_sub _ _)
  have h3 : |fracLe v ![q.1, q.2] - fracLe v ![q.2, q.1] - exchGap P ![q.1, q.2]| ≤ 2 * (ε + 2 * δ) := h1
  linarith

end stat

/-! ### The replicates -/

theorem ind_bound (p : Prop) [Decidable p] : 0 ≤ ind p ∧ ind p ≤ 1 := by
  unfold ind
  split_ifs <;> norm_num

/-- Few ranks lie in a short interval. -/
theorem card_ranks_between {x : Fin n → ℝ} (hx : Function.Injective x) {a b : ℝ} (hab : a ≤ b) :
    (Nat.card {i // a < ((rankdata .average x i : ℚ) : ℝ) ∧ ((rankdata .average x i : ℚ) : ℝ) ≤ b} : ℝ) ≤ b - a + 1 := by
  classical
  have hr : ∀ i, ((rankdata .average x i : ℚ) : ℝ) = (((ordPerm x i : Fin n) : ℕ) : ℝ) + 1 := fun i => by
    rw [rankdata_eq_of_injective .average x hx, rankdata_ordinal_perm]
    push_cast
    ring
  rw [Nat.card_eq_fintype_card, Fintype.card_subtype]
  have h1 : (univ.filter fun i => a < ((rankdata .average x i : ℚ) : ℝ) ∧ ((rankdata .average x i : ℚ) : ℝ) ≤ b).card ≤
      (Finset.Ioc ⌊a⌋ ⌊b⌋).card := by
    refine card_le_card_of_injOn (fun i => (((ordPerm x i : Fin n) : ℕ) : ℤ) + 1) (fun i hi => ?_) fun i _ k _ h => ?_
    · have hi' := (mem_filter.mp hi).2
      rw [hr] at hi'
      rw [Finset.coe_Ioc, Set.mem_Ioc]
      constructor
      · rw [Int.floor_lt]
        push_cast
        exact hi'.1
      · rw [Int.le_floor]
        push_cast
        exact hi'.2
    · refine (ordPerm x).injective (Fin.ext ?_)
      have h' : (((ordPerm x i : Fin n) : ℕ) : ℤ) + 1 = (((ordPerm x k : Fin n) : ℕ) : ℤ) + 1 := h
      omega
  have h2 : ((Finset.Ioc ⌊a⌋ ⌊b⌋).card : ℝ) = ⌊b⌋ - ⌊a⌋ := by
    have : ((Finset.Ioc ⌊a⌋ ⌊b⌋).card : ℤ) = ⌊b⌋ - ⌊a⌋ := by
      rw [Int.card_Ioc, Int.toNat_of_nonneg (sub_nonneg.mpr (Int.floor_le_floor hab))]
    exact_mod_cast this
  have h3 : ((univ.filter fun i => a < ((rankdata .average x i : ℚ) : ℝ) ∧ ((rankdata .average x i : ℚ) : ℝ) ≤ b).card : ℝ) ≤
      ((Finset.Ioc ⌊a⌋ ⌊b⌋).card : ℝ) := by exact_mod_cast h1
  have h4 := Int.floor_le b
  have h5 := Int.lt_floor_add_one a
  linarith

/-- The distribution functions of the ranks have bounded difference quotients. -/
theorem cn_diff (hn : 0 < n) {x : Fin n → ℝ} (hx : Function.Injective x) (v : Fin n → ℝ) (c y : ℝ) :
    0 ≤ (cn (fun i => ((rankdata .average x i : ℚ) : ℝ) / (n + 1)) v (c + 1 / √n) y -
      cn (fun i => ((rankdata .average x i : ℚ) : ℝ) / (n + 1)) v (c - 1 / √n) y) / (2 * (1 / √n)) ∧
    (cn (fun i => ((rankdata .average x i : ℚ) : ℝ) / (n + 1)) v (c + 1 / √n) y -
      cn (fun i => ((rankdata .average x i : ℚ) : ℝ) / (n + 1)) v (c - 1 / √n) y) / (2 * (1 / √n)) ≤ 3 := by
  classical
  have hn' : (0 : ℝ) < n := by exact_mod_cast hn
  have hn1 : (1 : ℝ) ≤ n := by exact_mod_cast hn
  have hs : 0 < √(n : ℝ) := Real.sqrt_pos.mpr hn'
  have hs1 : 1 ≤ √(n : ℝ) := Real.one_le_sqrt.mpr hn1
  have hsq : √(n : ℝ) * √n = n := Real.mul_self_sqrt hn'.le
  set h := 1 / √(n : ℝ) with hh
  have hh0 : 0 < h := by positivity
  set u : Fin n → ℝ := fun i => ((rankdata .average x i : ℚ) : ℝ) / (n + 1) with hu
  have e : cn u v (c + h) y - cn u v (c - h) y = (∑ i, (ind (u i ≤ c + h) - ind (u i ≤ c - h)) * ind (v i ≤ y)) / n := by
    unfold cn
    rw [← sub_div, ← sum_sub_distrib]
    simp only [sub_mul]
  have hterm : ∀ i, 0 ≤ (ind (u i ≤ c + h) - ind (u i ≤ c - h)) * ind (v i ≤ y) ∧
      (ind (u i ≤ c + h) - ind (u i ≤ c - h)) * ind (v i ≤ y) ≤ if c - h < u i ∧ u i ≤ c + h then 1 else 0 := by
    intro i
    have hy := ind_bound (v i ≤ y)
    by_cases h2 : u i ≤ c - h
    · have h1 : u i ≤ c + h := by linarith
      rw [ind, if_pos h1, ind, if_pos h2, sub_self, zero_mul, if_neg fun h3 => absurd h3.1 (not_lt.mpr h2)]
      exact ⟨le_rfl, le_rfl⟩
    · by_cases h1 : u i ≤ c + h
      · rw [ind, if_pos h1, ind, if_neg h2, if_pos ⟨not_le.mp h2, h1⟩, sub_zero, one_mul]
        exact hy
      · rw [ind, if_neg h1, ind, if_neg h2, if_neg fun h3 => h1 h3.2, sub_zero, zero_mul]
        exact ⟨le_rfl, le_rfl⟩
  have h0 : 0 ≤ ∑ i, (ind (u i ≤ c + h) - ind (u i ≤ c - h)) * ind (v i ≤ y) := sum_nonneg fun i _ => (hterm i).1
  have h1 : ∑ i, (ind (u i ≤ c + h) - ind (u i ≤ c - h)) * ind (v i ≤ y) ≤ 2 * h * (n + 1) + 1 := by
    refine (sum_le_sum fun i _ => (hterm i).2).trans ?_
    have hcard := card_ranks_between hx (a := (c - h) * (n + 1)) (b := (c + h) * (n + 1)) (by nlinarith)
    rw [Nat.card_eq_fintype_card, Fintype.card_subtype, card_eq_sum_ones, Nat.cast_sum, sum_filter] at hcard
    refine le_trans (le_of_eq (sum_congr rfl fun i _ => ?_)) (hcard.trans (le_of_eq (by ring)))
    have hi : (c - h < u i ∧ u i ≤ c + h) ↔ ((c - h) * (n + 1) < ((rankdata .average x i : ℚ) : ℝ) ∧
        ((rankdata .average x i : ℚ) : ℝ) ≤ (c + h) * (n + 1)) := by
      rw [hu]
      simp only
      rw [lt_div_iff₀ (by positivity), div_le_iff₀ (by positivity)]
    by_cases hp : c - h < u i ∧ u i ≤ c + h
    · rw [if_pos hp, if_pos (hi.mp hp)]
      simp
    · rw [if_neg hp, if_neg (fun hq => hp (hi.mpr hq))]
  rw [e]
  refine ⟨by positivity, ?_⟩
  rw [div_le_iff₀ (by positivity), div_le_iff₀ hn']
  refine h1.trans ?_
  have hhn : h * n = √n := by
    rw [hh, one_div, inv_mul_eq_div, div_eq_iff hs.ne']
    exact hsq.symm
  have hh1 : h ≤ 1 := by
    rw [hh, div_le_one hs]
    exact hs1
  nlinarith

theorem derCn_bound (hn : 0 < n) {y : Fin n → Fin 2 → ℝ} (hy : NoTies y) (a b : ℝ) :
    (0 ≤ derCn1 (fun i => unitRanks y i 0) (fun i => unitRanks y i 1) a b ∧
      derCn1 (fun i => unitRanks y i 0) (fun i => unitRanks y i 1) a b ≤ 3) ∧
    0 ≤ derCn2 (fun i => unitRanks y i 0) (fun i => unitRanks y i 1) a b ∧
      derCn2 (fun i => unitRanks y i 0) (fun i => unitRanks y i 1) a b ≤ 3 := by
  have hinj : ∀ j, Function.Injective fun k => y k j := fun j a b hab => by_contra fun hne => hy j a b hne hab
  refine ⟨cn_diff hn (hinj 0) _ _ _, ?_⟩
  rw [← derCn_swap]
  exact cn_diff hn (hinj 1) _ _ _

theorem exchInflu_bound (hn : 0 < n) {y : Fin n → Fin 2 → ℝ} (hy : NoTies y) (a b : ℝ) (k : Fin n) :
    exchInflu (fun i => unitRanks y i 0) (fun i => unitRanks y i 1) a b k ^ 2 ≤ 100 / n := by
  have hn' : (0 : ℝ) < n := by exact_mod_cast hn
  obtain ⟨⟨a1, a2⟩, a3, a4⟩ := derCn_bound hn hy a b
  obtain ⟨⟨b1, b2⟩, b3, b4⟩ := derCn_bound hn hy b a
  have mul_bound : ∀ D : ℝ, 0 ≤ D → D ≤ 3 → ∀ (p : Prop) [Decidable p], 0 ≤ D * ind p ∧ D * ind p ≤ 3 := fun D h1 h2 p _ => by
    have := ind_bound p
    constructor <;> nlinarith
  have ii : ∀ (p q : Prop) [Decidable p] [Decidable q], 0 ≤ ind p * ind q ∧ ind p * ind q ≤ 1 := fun p q _ _ => by
    have h1 := ind_bound p
    have h2 := ind_bound q
    constructor <;> nlinarith
  unfold exchInflu
  rw [div_pow, Real.sq_sqrt hn'.le]
  refine div_le_div_of_nonneg_right ?_ hn'.le
  have c1 := ii (unitRanks y k 0 ≤ a) (unitRanks y k 1 ≤ b)
  have c2 := ii (unitRanks y k 0 ≤ b) (unitRanks y k 1 ≤ a)
  have d1 := mul_bound _ a1 a2 (unitRanks y k 0 ≤ a)
  have d2 := mul_bound _ a3 a4 (unitRanks y k 1 ≤ b)
  have d3 := mul_bound _ b1 b2 (unitRanks y k 0 ≤ b)
  have d4 := mul_bound _ b3 b4 (unitRanks y k 1 ≤ a)
  rw [show (100 : ℝ) = 10 ^ 2 by norm_num]
  refine sq_le_sq' ?_ ?_ <;> linarith [c1.1, c1.2, c2.1, c2.2, d1.1, d1.2, d2.1, d2.2, d3.1, d3.2, d4.1, d4.2]

/-- The second moment of a linear combination of centred normal variates. -/
theorem multiplier_moment (b : Fin n → ℝ) :
    Integrable (fun z : Fin n → ℝ => (∑ k, (z k - ∑ j, z j / n) * b k) ^ 2) (Measure.pi fun _ => gaussianReal 0 1) ∧
      ∫ z : Fin n → ℝ, (∑ k, (z k - ∑ j, z j / n) * b k) ^ 2 ∂(Measure.pi fun _ => gaussianReal 0 1) ≤ ∑ k, b k ^ 2 := by
  set m := ∑ k, b k / n with hm
  have e : ∀ z : Fin n → ℝ, ∑ k, (z k - ∑ j, z j / n) * b k = ∑ k, (b k - m) * z k := by
    intro z
    simp only [sub_mul, sum_sub_distrib, hm, ← mul_sum, ← sum_div]
    rw [sum_congr rfl fun k _ => mul_comm (z k) (b k)]
    ring
  simp only [e]
  set X : Fin n → ℝ → ℝ := fun k x => (b k - m) * x with hX
  have hXp : ∀ k, MemLp (X k) 2 (gaussianReal 0 1) := fun k => IsGaussian.memLp_two_id.const_mul _
  have hYp : ∀ k, MemLp (fun z : Fin n → ℝ => X k (z k)) 2 (Measure.pi fun _ => gaussianReal 0 1) := fun k =>
    (hXp k).comp_measurePreserving (measurePreserving_eval (fun _ : Fin n => gaussianReal 0 1) k)
  have hS : MemLp (fun z : Fin n → ℝ => ∑ k, X k (z k)) 2 (Measure.pi fun _ => gaussianReal 0 1) :=
    memLp_finsetSum _ fun k _ => hYp k
  have hmean : ∫ z : Fin n → ℝ, ∑ k, X k (z k) ∂(Measure.pi fun _ => gaussianReal 0 1) = 0 := by
    rw [integral_finsetSum _ fun k _ => (hYp k).integrable (by norm_num)]
    refine sum_eq_zero fun k _ => ?_
    have hmp := measurePreserving_eval (fun _ : Fin n => gaussianReal 0 1) k
    have h := integral_map (f := X k) hmp.measurable.aemeasurable (by rw [hmp.map_eq]; exact (hXp k).1)
    rw [hmp.map_eq] at h
    refine h.symm.trans ?_
    rw [hX]
    simp only
    rw [integral_const_mul, integral_id_gaussianReal, mul_zero]
  have hvar := variance_sum_pi (μ := fun _ : Fin n => gaussianReal 0 1) hXp
  have hvar' : Var[fun z : Fin n → ℝ => ∑ k, X k (z k); Measure.pi fun _ => gaussianReal 0 1] = ∑ k, (b k - m) ^ 2 := by
    rw [show (fun z : Fin n → ℝ => ∑ k, X k (z k)) = ∑ k, fun z : Fin n → ℝ => X k (z k) by funext z; simp, hvar]
    refine sum_congr rfl fun k _ => ?_
    rw [hX]
    simp only
    rw [variance_const_mul]
    have : Var[fun x : ℝ => x; gaussianReal 0 1] = ((1 : NNReal) : ℝ) := variance_id_gaussianReal
    rw [this]
    simp
  refine ⟨hS.integrable_sq, ?_⟩
  have h2 := variance_eq_sub hS
  rw [hmean, hvar'] at h2
  have h3 : ∫ z : Fin n → ℝ, (∑ k, (b k - m) * z k) ^ 2 ∂(Measure.pi fun _ => gaussianReal 0 1) = ∑ k, (b k - m) ^ 2 := by
    rw [h2]
    simp
    rfl
  rw [h3]
  have h4 : ∑ k, (b k - m) ^ 2 = ∑ k, b k ^ 2 - n * m ^ 2 := by
    have h5 : ∑ k, b k = n * m := by
      rw [hm, ← sum_div]
      rcases Nat.eq_zero_or_pos n with h0 | h0
      · subst h0
        simp
      · have : (n : ℝ) ≠ 0 := by exact_mod_cast h0.ne'
        field_simp
    simp only [sub_sq, sum_add_distrib, sum_sub_distrib, sum_const, card_univ, Fintype.card_fin, nsmul_eq_mul]
    rw [← sum_mul, ← mul_sum, h5]
    ring
  rw [h4]
  have : 0 ≤ n * m ^ 2 := by positivity
  linarith

theorem list_moment {Ω ι : Type*} [MeasurableSpace Ω] {μ : Measure Ω} {f : ι → Ω → ℝ} {C : ℝ} (h1 : ∀ q, Integrable (f q) μ)
    (h2 : ∀ q, ∫ z, f q z ∂μ ≤ C) (g : List ι) :
    Integrable (fun z => (g.map fun q => f q z).sum) μ ∧ ∫ z, (g.map fun q => f q z).sum ∂μ ≤ g.length * C := by
  induction g with
  | nil => simp
  | cons q g ih =>
    simp only [List.map_cons, List.sum_cons, List.length_cons]
    refine ⟨(h1 q).add ih.1, ?_⟩
    rw [integral_add (h1 q) ih.1]
    push_cast
    linarith [h2 q, ih.2]

/-- Large replicates are unlikely, whatever the data. -/
theorem multiplier_tail (hn : 0 < n) {y : Fin n → Fin 2 → ℝ} (hy : NoTies y) (g : List (ℝ × ℝ)) {s : ℝ} (hs : 0 < s) :
    (Measure.pi fun _ : Fin n => gaussianReal 0 1)
      {z | s ≤ exchMultiplier (fun i => unitRanks y i 0) (fun i => unitRanks y i 1) g z} ≤ ENNReal.ofReal (100 / s) := by
  have hn' : (0 : ℝ) < n := by exact_mod_cast hn
  have hsum : ∀ q : ℝ × ℝ, ∑ k, exchInflu (fun i => unitRanks y i 0) (fun i => unitRanks y i 1) q.1 q.2 k ^ 2 ≤ 100 := fun q => by
    refine (sum_le_sum fun k _ => exchInflu_bound hn hy q.1 q.2 k).trans (le_of_eq ?_)
    rw [sum_const, card_univ, Fintype.card_fin, nsmul_eq_mul]
    field_simp
  have hl := list_moment (μ := Measure.pi fun _ : Fin n => gaussianReal 0 1)
    (f := fun (q : ℝ × ℝ) z => (∑ k, (z k - ∑ j, z j / n) *
      exchInflu (fun i => unitRanks y i 0) (fun i => unitRanks y i 1) q.1 q.2 k) ^ 2)
    (fun q => (multiplier_moment _).1) (fun q => (multiplier_moment _).2.trans (hsum q)) g
  have e : ∀ z, exchMultiplier (fun i => unitRanks y i 0) (fun i => unitRanks y i 1) g z =
      (g.map fun q => (∑ k, (z k - ∑ j, z j / n) *
        exchInflu (fun i => unitRanks y i 0) (fun i => unitRanks y i 1) q.1 q.2 k) ^ 2).sum / g.length := fun z => by
    simp only [exchMultiplier, sq]
  simp only [e]
  have hmean : ∫ z : Fin n → ℝ, (g.map fun q => (∑ k, (z k - ∑ j, z j / n) *
        exchInflu (fun i => unitRanks y i 0) (fun i => unitRanks y i 1) q.1 q.2 k) ^ 2).sum / g.length
        ∂(Measure.pi fun _ => gaussianReal 0 1) ≤ 100 := by
    rw [integral_div]
    rcases Nat.eq_zero_or_pos g.length with h0 | h0
    · rw [h0]
      norm_num
    · have h0' : (0 : ℝ) < g.length := by exact_mod_cast h0
      rw [div_le_iff₀ h0']
      linarith [hl.2]
  have hmk := mul_meas_ge_le_integral_of_nonneg (μ := Measure.pi fun _ : Fin n => gaussianReal 0 1)
    (f := fun z => (g.map fun q => (∑ k, (z k - ∑ j, z j / n) *
        exchInflu (fun i => unitRanks y i 0) (fun i => unitRanks y i 1) q.1 q.2 k) ^ 2).sum / g.length)
    (Filter.Eventually.of_forall fun z => div_nonneg (List.sum_nonneg fun a ha => by
      obtain ⟨q, -, rfl⟩ := List.mem_map.mp ha
      exact sq_nonneg _) (Nat.cast_nonneg _)) (hl.1.div_const _) s
  rw [← ENNReal.ofReal_toReal (measure_ne_top _ _)]
  refine ENNReal.ofReal_le_ofReal ?_
  rw [le_div_iff₀ hs]
  have h3 := hmk.trans hmean
  rw [measureReal_def] at h3
  linarith

/-! ### Measurability -/

section measurability
variable {Ω : Type*} [MeasurableSpace Ω]

theorem measurable_ind {f g : Ω → ℝ} (hf : Measurable f) (hg : Measurable g) : Measurable fun ω => ind (f ω ≤ g ω) := by
  unfold ind
  exact Measurable.ite (measurableSet_le hf hg) measurable_const measurable_const

theorem measurable_cn {u v : Ω → Fin n → ℝ} (hu : ∀ i, Measurable fun ω => u ω i) (hv : ∀ i, Measurable fun ω => v ω i) {a b : Ω → ℝ}
    (ha : Measurable a) (hb : Measurable b) : Measurable fun ω => cn (u ω) (v ω) (a ω) (b ω) := by
  unfold cn
  exact (Finset.measurable_sum _ fun i _ => (measurable_ind (hu i) ha).mul (measurable_ind (hv i) hb)).div_const _

theorem measurable_clipCn : Measurable (clipCn n) := by
  unfold clipCn
  exact Measurable.ite (measurableSet_lt measurable_id measurable_const) measurable_const
    (Measurable.ite (measurableSet_lt measurable_const measurable_id) measurable_const measurable_id)

theorem measurable_derCn1 {u v : Ω → Fin n → ℝ} (hu : ∀ i, Measurable fun ω => u ω i) (hv : ∀ i, Measurable fun ω => v ω i)
    {a b : Ω → ℝ} (ha : Measurable a) (hb : Measurable b) : Measurable fun ω => derCn1 (u ω) (v ω) (a ω) (b ω) := by
  unfold derCn1
  have hc := measurable_clipCn (n := n).comp ha
  exact ((measurable_cn hu hv (hc.add_const _) hb).sub (measurable_cn hu hv (hc.sub_const _) hb)).div_const _

theorem measurable_derCn2 {u v : Ω → Fin n → ℝ} (hu : ∀ i, Measurable fun ω => u ω i) (hv : ∀ i, Measurable fun ω => v ω i)
    {a b : Ω → ℝ} (ha : Measurable a) (hb : Measurable b) : Measurable fun ω => derCn2 (u ω) (v ω) (a ω) (b ω) := by
  unfold derCn2
  have hc := measurable_clipCn (n := n).comp hb
  exact ((measurable_cn hu hv ha (hc.add_const _)).sub (measurable_cn hu hv ha (hc.sub_const _))).div_const _

theorem measurable_exchInflu {u v : Ω → Fin n → ℝ} (hu : ∀ i, Measurable fun ω => u ω i) (hv : ∀ i, Measurable fun ω => v ω i)
    {a b : Ω → ℝ} (ha : Measurable a) (hb : Measurable b) (k : Fin n) : Measurable fun ω => exchInflu (u ω) (v ω) (a ω) (b ω) k := by
  unfold exchInflu
  have h1 := measurable_derCn1 hu hv ha hb
  have h2 := measurable_derCn2 hu hv ha hb
  have h3 := measurable_derCn1 hu hv hb ha
  have h4 := measurable_derCn2 hu hv hb ha
  exact ((((((measurable_ind (hu k) ha).mul (measurable_ind (hv k) hb)).sub (h1.mul (measurable_ind (hu k) ha))).sub
    (h2.mul (measurable_ind (hv k) hb))).sub ((measurable_ind (hu k) hb).mul (measurable_ind (hv k) ha))).add
    (h3.mul (measurable_ind (hu k) hb))).add (h4.mul (measurable_ind (hv k) ha)) |>.div_const _

theorem measurable_exchMultiplier {v : Ω → Fin n → Fin 2 → ℝ} (hv : ∀ i j, Measurable fun ω => v ω i j) {z : Ω → Fin n → ℝ}
    (hz : ∀ i, Measurable fun ω => z ω i) (m : ℤ) :
    Measurable fun ω => exchMultiplier (fun i => v ω i 0) (fun i => v ω i 1) (exchPoints m (v ω)) (z ω) := by
  have hp : ∀ {a b : Ω → ℝ}, Measurable a → Measurable b → Measurable fun ω =>
      (∑ k, (z ω k - ∑ j, z ω j / n) * exchInflu (fun i => v ω i 0) (fun i => v ω i 1) (a ω) (b ω) k) *
      ∑ k, (z ω k - ∑ j, z ω j / n) * exchInflu (fun i => v ω i 0) (fun i => v ω i 1) (a ω) (b ω) k := by
    intro a b ha hb
    have h1 : Measurable fun ω => ∑ k, (z ω k - ∑ j, z ω j / n) *
        exchInflu (fun i => v ω i 0) (fun i => v ω i 1) (a ω) (b ω) k :=
      Finset.measurable_sum _ fun k _ => ((hz k).sub (Finset.measurable_sum _ fun j _ => (hz j).div_const _)).mul
        (measurable_exchInflu (fun i => hv i 0) (fun i => hv i 1) ha hb k)
    exact h1.mul h1
  unfold exchMultiplier exchPoints
  split_ifs with hm
  · refine Measurable.div_const ?_ _
    generalize exchGrid m.toNat = g
    induction g with
    | nil => simp
    | cons q g ih =>
      simp only [List.map_cons, List.sum_cons]
      exact (hp measurable_const measurable_const).add ih
  · simp only [List.map_ofFn, List.sum_ofFn, List.length_ofFn, Function.comp_apply]
    exact (Finset.measurable_sum _ fun i _ => hp (hv i 0) (hv i 1)).div_const _

end measurability

theorem measurable_unitRanks (i : Fin n) (j : Fin d) : Measurable fun y : Fin n → Fin d → ℝ => unitRanks y i j := by
  have hc : ∀ {p : (Fin n → Fin d → ℝ) → Fin n → Prop}, (∀ k, MeasurableSet {y | p y k}) → ∀ [∀ y, DecidablePred (p y)],
      Measurable fun y => (((univ.filter fun k => p y k).card : ℕ) : ℝ) := by
    intro p hp _
    have e : ∀ y, (((univ.filter fun k => p y k).card : ℕ) : ℝ) = ∑ k, if p y k then (1 : ℝ) else 0 := fun y => by
      rw [card_eq_sum_ones, Nat.cast_sum, sum_filter]
      simp
    simp only [e]
    exact Finset.measurable_sum _ fun k _ => Measurable.ite (hp k) measurable_const measurable_const
  have hij : ∀ k : Fin n, Measurable fun y : Fin n → Fin d → ℝ => y k j := fun k =>
    (measurable_pi_apply j).comp (measurable_pi_apply k)
  unfold unitRanks
  simp only [rankdata]
  push_cast
  refine Measurable.div_const ?_ _
  refine Measurable.div_const ?_ _
  have h1 : Measurable fun y : Fin n → Fin d → ℝ => ((cntLt (fun k => y k j) i : ℕ) : ℝ) :=
    hc fun k => measurableSet_lt (hij k) (hij i)
  have h2 : Measurable fun y : Fin n → Fin d → ℝ => ((cntEq (fun k => y k j) i : ℕ) : ℝ) :=
    hc fun k => measurableSet_eq_fun (hij k) (hij i)
  exact (h1.add_const _).add (h1.add h2)

end Copulae
