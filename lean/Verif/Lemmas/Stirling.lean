import Mathlib.Combinatorics.Enumerative.Stirling
import Mathlib.Algebra.BigOperators.Intervals
import Mathlib.Algebra.BigOperators.Ring.Finset
import Mathlib.Tactic.Ring
import Mathlib.Tactic.Linarith
import Mathlib.Tactic.Push
import Verif.Model.Special

namespace Copulae

/-- Signed Stirling numbers of the first kind. -/
def s1 (n k : ℕ) : ℤ := (-1) ^ (n + k) * (Nat.stirlingFirst n k : ℤ)

/-- Stirling numbers of the second kind. -/
def s2 (n k : ℕ) : ℤ := (Nat.stirlingSecond n k : ℤ)

theorem s1_succ_succ (n k : ℕ) : s1 (n + 1) (k + 1) = s1 n k - n * s1 n (k + 1) := by
  unfold s1
  rw [Nat.stirlingFirst_succ_succ]
  push_cast
  ring

theorem s2_succ_succ (n k : ℕ) : s2 (n + 1) (k + 1) = (k + 1) * s2 n (k + 1) + s2 n k := by
  unfold s2
  rw [Nat.stirlingSecond_succ_succ]
  push_cast
  ring

theorem s1_succ_zero (n : ℕ) : s1 (n + 1) 0 = 0 := by simp [s1]
theorem s2_succ_zero (n : ℕ) : s2 (n + 1) 0 = 0 := by simp [s2]
theorem s1_zero_zero : s1 0 0 = 1 := by simp [s1]
theorem s2_zero_zero : s2 0 0 = 1 := by simp [s2]
theorem s1_eq_zero {n k : ℕ} (h : n < k) : s1 n k = 0 := by
  simp [s1, Nat.stirlingFirst_eq_zero_of_lt h]
theorem s2_eq_zero {n k : ℕ} (h : n < k) : s2 n k = 0 := by
  simp [s2, Nat.stirlingSecond_eq_zero_of_lt h]
theorem s1_self (n : ℕ) : s1 n n = 1 := by
  simp [s1, Nat.stirlingFirst_self, ← two_mul]
theorem s2_self (n : ℕ) : s2 n n = 1 := by simp [s2, Nat.stirlingSecond_self]
theorem s2_nonneg (n k : ℕ) : 0 ≤ s2 n k := by simp [s2]

theorem getD_map_range {α : Type*} (f : ℕ → α) (k j : ℕ) (h : j < k) (d : α) :
    ((List.range k).map f).getD j d = f j := by
  rw [List.getD_eq_getElem?_getD]
  simp [h]

theorem init_row (f : ℕ → ℤ) (k : ℕ) (hk : 1 ≤ k) (h0 : f 0 = 1) (h1 : ∀ j, 1 ≤ j → f j = 0) :
    (1 :: List.replicate (k - 1) 0 : List ℤ) = (List.range k).map f := by
  obtain ⟨k, rfl⟩ : ∃ m, k = m + 1 := ⟨k - 1, by omega⟩
  rw [List.range_succ_eq_map, List.map_cons, h0, List.map_map]
  congr 1
  rw [Nat.add_sub_cancel]
  symm
  rw [List.eq_replicate_iff]
  refine ⟨by simp, ?_⟩
  intro b hb
  simp only [List.mem_map, List.mem_range, Function.comp] at hb
  obtain ⟨a, -, rfl⟩ := hb
  exact h1 _ (by omega)

theorem stirlingFirstStep_row (n k : ℕ) (hn : 1 ≤ n) :
    stirlingFirstStep ((List.range k).map fun j => s1 n (j + 1)) n
      = (List.range k).map fun j => s1 (n + 1) (j + 1) := by
  unfold stirlingFirstStep
  rw [List.length_map, List.length_range]
  apply List.map_congr_left
  intro j hj
  rw [List.mem_range] at hj
  split_ifs with h
  · subst h
    rw [getD_map_range _ _ _ hj, s1_succ_succ]
    obtain ⟨m, rfl⟩ : ∃ m, n = m + 1 := ⟨n - 1, by omega⟩
    rw [s1_succ_zero]; ring
  · rw [getD_map_range _ _ _ (by omega), getD_map_range _ _ _ hj, s1_succ_succ]
    rw [show j - 1 + 1 = j by omega]

theorem stirlingFirst_fold (k m : ℕ) (hk : 1 ≤ k) :
    (List.range' 1 m).foldl stirlingFirstStep (1 :: List.replicate (k - 1) 0)
      = (List.range k).map fun j => s1 (m + 1) (j + 1) := by
  induction m with
  | zero =>
    rw [init_row (fun j => s1 (0 + 1) (j + 1)) k hk]
    · rfl
    · exact s1_self 1
    · intro j hj; exact s1_eq_zero (by omega)
  | succ m ih =>
    rw [List.range'_1_concat, List.foldl_append, ih]
    simp only [List.foldl_cons, List.foldl_nil]
    rw [Nat.add_comm 1 m]
    exact stirlingFirstStep_row (m + 1) k (by omega)

theorem stirlingSecondStep_row (n k i : ℕ) (hn : 1 ≤ n) :
    stirlingSecondStep ((List.range k).map fun j => s2 n (j + 1)) i
      = (List.range k).map fun j => s2 (n + 1) (j + 1) := by
  unfold stirlingSecondStep
  rw [List.length_map, List.length_range]
  apply List.map_congr_left
  intro j hj
  rw [List.mem_range] at hj
  split_ifs with h
  · subst h
    rw [getD_map_range _ _ _ hj, s2_succ_succ]
    obtain ⟨m, rfl⟩ : ∃ m, n = m + 1 := ⟨n - 1, by omega⟩
    rw [s2_succ_zero]; simp
  · rw [getD_map_range _ _ _ hj, getD_map_range _ _ (j - 1) (by omega), s2_succ_succ]
    rw [show j - 1 + 1 = j by omega]

theorem stirlingSecond_fold (k m : ℕ) (hk : 1 ≤ k) :
    (List.range' 1 m).foldl stirlingSecondStep (1 :: List.replicate (k - 1) 0)
      = (List.range k).map fun j => s2 (m + 1) (j + 1) := by
  induction m with
  | zero =>
    rw [init_row (fun j => s2 (0 + 1) (j + 1)) k hk]
    · rfl
    · exact s2_self 1
    · intro j hj; exact s2_eq_zero (by omega)
  | succ m ih =>
    rw [List.range'_1_concat, List.foldl_append, ih]
    simp only [List.foldl_cons, List.foldl_nil]
    exact stirlingSecondStep_row (m + 1) k _ (by omega)

theorem getLast_map_range {α : Type*} (f : ℕ → α) (k : ℕ) (hk : 1 ≤ k) :
    ((List.range k).map f).getLast? = some (f (k - 1)) := by
  obtain ⟨k, rfl⟩ : ∃ m, k = m + 1 := ⟨k - 1, by omega⟩
  rw [List.range_succ, List.map_append]
  simp

theorem stirlingFirst_eq {n k : ℕ} (h : k ≤ n) : stirlingFirst n k = .ok (s1 n k) := by
  unfold stirlingFirst
  rw [if_neg (by omega)]
  split_ifs with h1 h2
  · rcases h1 with h1 | h1
    · obtain rfl : n = 0 := by exact_mod_cast h1
      obtain rfl : k = 0 := by omega
      rfl
    · obtain rfl : n = k := by exact_mod_cast h1
      rw [s1_self]
  · obtain rfl : k = 0 := by exact_mod_cast h2
    obtain ⟨m, rfl⟩ : ∃ m, n = m + 1 := ⟨n - 1, by push Not at h1; omega⟩
    rw [s1_succ_zero]
  · push Not at h1
    have hk : 1 ≤ k := by omega
    simp only [Int.toNat_natCast]
    rw [stirlingFirst_fold k (n - 1) hk, getLast_map_range _ _ hk]
    simp only
    rw [show n - 1 + 1 = n by omega, show k - 1 + 1 = k by omega]

theorem stirlingSecond_eq {n k : ℕ} (h : k ≤ n) : stirlingSecond n k = .ok (s2 n k) := by
  unfold stirlingSecond
  rw [if_neg (by omega)]
  split_ifs with h1 h2
  · rcases h1 with h1 | h1
    · obtain rfl : n = 0 := by exact_mod_cast h1
      obtain rfl : k = 0 := by omega
      rfl
    · obtain rfl : n = k := by exact_mod_cast h1
      rw [s2_self]
  · obtain rfl : k = 0 := by exact_mod_cast h2
    obtain ⟨m, rfl⟩ : ∃ m, n = m + 1 := ⟨n - 1, by push Not at h1; omega⟩
    rw [s2_succ_zero]
  · push Not at h1
    have hk : 1 ≤ k := by omega
    simp only [Int.toNat_natCast]
    rw [stirlingSecond_fold k (n - 1) hk, getLast_map_range _ _ hk]
    simp only
    rw [show n - 1 + 1 = n by omega, show k - 1 + 1 = k by omega]

theorem mapM_ok {α β : Type} (f : α → Except PyErr β) (g : α → β) (l : List α)
    (h : ∀ a ∈ l, f a = .ok (g a)) : l.mapM f = .ok (l.map g) := by
  induction l with
  | nil => rfl
  | cons a l ih =>
    rw [List.mapM_cons, h a (by simp), ih fun b hb => h b (List.mem_cons_of_mem _ hb)]
    rfl

theorem stirlingFirstAll_eq (n : ℕ) :
    stirlingFirstAll n = .ok ((List.range n).map fun k => s1 n (k + 1)) := by
  unfold stirlingFirstAll
  apply mapM_ok
  intro k hk
  rw [List.mem_range] at hk
  exact_mod_cast stirlingFirst_eq (n := n) (k := k + 1) (by omega)

theorem stirlingSecondAll_eq (n : ℕ) :
    stirlingSecondAll n = .ok ((List.range n).map fun k => s2 n (k + 1)) := by
  unfold stirlingSecondAll
  apply mapM_ok
  intro k hk
  rw [List.mem_range] at hk
  exact_mod_cast stirlingSecond_eq (n := n) (k := k + 1) (by omega)

open Finset in
/-- Falling factorials in terms of powers. -/
theorem falling_eq_sum_s1 {R : Type*} [CommRing R] (n : ℕ) (x : R) :
    ∏ i ∈ range n, (x - i) = ∑ k ∈ range (n + 1), (s1 n k : R) * x ^ k := by
  induction n with
  | zero => simp [s1_zero_zero]
  | succ n ih =>
    rw [prod_range_succ, ih, sum_range_succ' _ (n + 1), s1_succ_zero]
    simp only [s1_succ_succ]
    push_cast
    simp only [sub_mul, zero_mul, add_zero, sum_sub_distrib]
    have h1 : ∑ k ∈ range (n + 1), (n : R) * (s1 n (k + 1) : R) * x ^ (k + 1)
        = n * ∑ k ∈ range (n + 1), (s1 n k : R) * x ^ k - n * (s1 n 0 : R) := by
      rw [sum_range_succ, s1_eq_zero (show n < n + 1 by omega),
        sum_range_succ' (fun k => (s1 n k : R) * x ^ k) n, mul_add, mul_sum]
      simp [mul_assoc]
    have h0 : (n : R) * (s1 n 0 : R) = 0 := by
      cases n with
      | zero => simp
      | succ m => rw [s1_succ_zero]; simp
    rw [h1, h0, mul_sub, sub_zero, mul_comm _ (n : R)]
    congr 1
    rw [sum_mul]
    apply sum_congr rfl
    intro k _
    rw [pow_succ]; ring

open Finset in
/-- Powers in terms of falling factorials. -/
theorem pow_eq_sum_s2 {R : Type*} [CommRing R] (n : ℕ) (x : R) :
    x ^ n = ∑ k ∈ range (n + 1), (s2 n k : R) * ∏ i ∈ range k, (x - i) := by
  induction n with
  | zero => simp [s2_zero_zero]
  | succ n ih =>
    rw [pow_succ, ih, sum_range_succ' _ (n + 1), s2_succ_zero]
    simp only [s2_succ_succ]
    push_cast
    simp only [zero_mul, add_zero, add_mul, sum_add_distrib]
    have h1 : ∑ k ∈ range (n + 1), ((k : R) + 1) * (s2 n (k + 1) : R) *
          ∏ i ∈ range (k + 1), (x - i)
        = ∑ k ∈ range (n + 1), (k : R) * (s2 n k : R) * ∏ i ∈ range k, (x - i) := by
      rw [sum_range_succ' (fun k => (k : R) * (s2 n k : R) * ∏ i ∈ range k, (x - i)) n,
        sum_range_succ, s2_eq_zero (show n < n + 1 by omega)]
      simp
    have h2 : ∀ k : ℕ, ((k : R) + 1) * (s2 n (k + 1) : R) = k * (s2 n (k + 1) : R)
        + 1 * (s2 n (k + 1) : R) := fun k => by ring
    rw [sum_mul]
    have h3 : ∀ k ∈ range (n + 1), (s2 n k : R) * (∏ i ∈ range k, (x - i)) * x
        = (k : R) * (s2 n k : R) * (∏ i ∈ range k, (x - i))
          + (s2 n k : R) * ∏ i ∈ range (k + 1), (x - i) := by
      intro k _
      rw [prod_range_succ]; ring
    rw [sum_congr rfl h3, sum_add_distrib, ← h1]
    simp only [add_mul, sum_add_distrib]

end Copulae
