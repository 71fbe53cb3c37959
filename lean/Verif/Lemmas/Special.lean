import Mathlib.Analysis.SpecificLimits.Normed
import Mathlib.Analysis.Normed.Ring.InfiniteSum
import Mathlib.Data.Nat.Choose.Sum
import Mathlib.Data.Nat.Factorial.BigOperators
import Mathlib.Data.Nat.Choose.Cast
import Mathlib.Tactic.FieldSimp
import Verif.Lemmas.Stirling

namespace Copulae

/-! ### Eulerian numbers -/

/-- Eulerian numbers, by the usual recurrence
`A(n+1,k+1) = (k+2) A(n,k+1) + (n-k) A(n,k)`, `A(n+1,0) = A(n,0)`. -/
def eulerianSpec : ℕ → ℕ → ℤ
  | 0, 0 => 1
  | 0, _ + 1 => 0
  | n + 1, 0 => eulerianSpec n 0
  | n + 1, k + 1 => (k + 2) * eulerianSpec n (k + 1) + ((n : ℤ) - k) * eulerianSpec n k

open Finset

/-- The explicit alternating sum. -/
def eulerAlt (n k : ℕ) : ℤ :=
  ∑ j ∈ range (k + 1), (-1) ^ j * ((n + 1).choose j : ℤ) * ((k + 1 - j : ℕ) : ℤ) ^ n

theorem list_sum_range_map {M : Type*} [AddCommMonoid M] (n : ℕ) (f : ℕ → M) :
    ((List.range n).map f).sum = ∑ i ∈ range n, f i := by
  induction n with
  | zero => simp
  | succ n ih => rw [List.range_succ, List.map_append, List.sum_append, ih, sum_range_succ]; simp

theorem eulerianSum_eq (n k : ℕ) : eulerianSum n k = eulerAlt n k := by
  unfold eulerianSum eulerAlt
  exact list_sum_range_map _ _

theorem eulerAlt_zero (n : ℕ) : eulerAlt n 0 = 1 := by simp [eulerAlt]

theorem eulerAlt_zero_succ (k : ℕ) : eulerAlt 0 (k + 1) = 0 := by
  unfold eulerAlt
  rw [sum_range_succ', sum_range_succ']
  have : ∑ j ∈ range k, (-1 : ℤ) ^ (j + 1 + 1) * ((0 + 1).choose (j + 1 + 1) : ℤ)
      * ((k + 1 + 1 - (j + 1 + 1) : ℕ) : ℤ) ^ 0 = 0 := by
    apply sum_eq_zero
    intro j _
    rw [Nat.choose_eq_zero_of_lt (by omega)]
    simp
  rw [this]
  simp

theorem eulerAlt_succ (n k : ℕ) :
    eulerAlt (n + 1) (k + 1) = (k + 2) * eulerAlt n (k + 1) + ((n : ℤ) - k) * eulerAlt n k := by
  unfold eulerAlt
  rw [sum_range_succ' _ (k + 1), sum_range_succ' _ (k + 1), mul_add, mul_sum, mul_sum]
  rw [add_right_comm (∑ i ∈ range (k + 1), ((k : ℤ) + 2) * _), ← sum_add_distrib]
  congr 1
  · apply sum_congr rfl
    intro j hj
    rw [mem_range] at hj
    have e1 : k + 1 + 1 - (j + 1) = k + 1 - j := by omega
    rw [e1, Nat.choose_succ_succ (n + 1) j]
    have hc : ((j : ℤ) + 1) * ((n + 1).choose (j + 1) : ℤ) = (n + 1 - j) * ((n + 1).choose j : ℤ) := by
      rcases le_or_gt j (n + 1) with h | h
      · have := Nat.choose_succ_right_eq (n + 1) j
        have h2 : (((n + 1).choose (j + 1) * (j + 1) : ℕ) : ℤ)
            = (((n + 1).choose j * (n + 1 - j) : ℕ) : ℤ) := by rw [this]
        push_cast [Nat.cast_sub h] at h2
        linarith
      · rw [Nat.choose_eq_zero_of_lt h, Nat.choose_eq_zero_of_lt (by omega)]
        simp
    have e2 : ((k + 1 - j : ℕ) : ℤ) = k + 1 - j := by
      rw [Nat.cast_sub (by omega)]; push_cast; ring
    rw [e2, pow_succ ((k : ℤ) + 1 - j) n, pow_succ (-1 : ℤ) j]
    push_cast
    linear_combination (-(-1) ^ j * ((k : ℤ) + 1 - j) ^ n) * (-hc)
  · simp
    ring

theorem eulerAlt_eq_spec (n k : ℕ) : eulerAlt n k = eulerianSpec n k := by
  induction n generalizing k with
  | zero =>
    cases k with
    | zero => rw [eulerAlt_zero]; rfl
    | succ k => rw [eulerAlt_zero_succ]; rfl
  | succ n ih =>
    cases k with
    | zero => rw [eulerAlt_zero, eulerianSpec, ← ih, eulerAlt_zero]
    | succ k => rw [eulerAlt_succ, eulerianSpec, ih, ih]

theorem eulerianSpec_zero (n : ℕ) : eulerianSpec n 0 = 1 := by
  rw [← eulerAlt_eq_spec, eulerAlt_zero]

theorem eulerianSpec_eq_zero {n k : ℕ} (hn : 1 ≤ n) (h : n ≤ k) : eulerianSpec n k = 0 := by
  induction n generalizing k with
  | zero => omega
  | succ n ih =>
    obtain ⟨k, rfl⟩ : ∃ m, k = m + 1 := ⟨k - 1, by omega⟩
    rw [eulerianSpec]
    rcases Nat.eq_zero_or_pos n with h0 | h0
    · subst h0
      cases k with
      | zero => simp [eulerianSpec]
      | succ k => simp [eulerianSpec]
    · rw [ih h0 (by omega), ih h0 (by omega)]; simp

theorem eulerianSpec_symm {n k : ℕ} (h : k < n) :
    eulerianSpec n (n - 1 - k) = eulerianSpec n k := by
  induction n generalizing k with
  | zero => omega
  | succ n ih =>
    rw [Nat.add_sub_cancel]
    rcases Nat.eq_zero_or_pos n with h0 | h0
    · subst h0
      obtain rfl : k = 0 := by omega
      rfl
    cases k with
    | zero =>
      obtain ⟨m, rfl⟩ : ∃ m, n = m + 1 := ⟨n - 1, by omega⟩
      rw [Nat.sub_zero, eulerianSpec_zero, eulerianSpec, eulerianSpec_eq_zero h0 le_rfl]
      have := ih (k := 0) (by omega)
      rw [Nat.add_sub_cancel, Nat.sub_zero, eulerianSpec_zero] at this
      rw [this]; push_cast; ring
    | succ k =>
      rcases Nat.lt_or_ge (k + 1) n with hk | hk
      · obtain ⟨m, hm⟩ : ∃ m, n = m + 1 + (k + 1) := ⟨n - 1 - (k + 1), by omega⟩
        have e1 : n - (k + 1) = m + 1 := by omega
        rw [e1, eulerianSpec, eulerianSpec]
        have i1 := ih (k := k + 1) hk
        have i2 := ih (k := k) (by omega)
        rw [show n - 1 - (k + 1) = m by omega] at i1
        rw [show n - 1 - k = m + 1 by omega] at i2
        rw [i1, i2]
        have : (n : ℤ) = m + 1 + (k + 1) := by exact_mod_cast hm
        rw [this]; ring
      · obtain rfl : n = k + 1 := by omega
        rw [Nat.sub_self, eulerianSpec_zero, eulerianSpec, eulerianSpec_eq_zero h0 le_rfl]
        have := ih (k := 0) (by omega)
        rw [Nat.add_sub_cancel, Nat.sub_zero, eulerianSpec_zero] at this
        rw [this]; push_cast; ring

theorem eulerianSpec_sum (n : ℕ) : ∑ k ∈ range (n + 1), eulerianSpec n k = (n.factorial : ℤ) := by
  induction n with
  | zero => simp [eulerianSpec]
  | succ n ih =>
    rw [sum_range_succ' _ (n + 1)]
    simp only [eulerianSpec]
    rw [sum_add_distrib]
    have h1 : ∑ k ∈ range (n + 1), ((k : ℤ) + 2) * eulerianSpec n (k + 1) + eulerianSpec n 0
        = ∑ k ∈ range (n + 1), ((k : ℤ) + 1) * eulerianSpec n k := by
      have hz : eulerianSpec n (n + 1) = 0 := by
        rcases Nat.eq_zero_or_pos n with h0 | h0
        · subst h0; rfl
        · exact eulerianSpec_eq_zero h0 (by omega)
      rw [sum_range_succ, hz, sum_range_succ' (fun k : ℕ => ((k : ℤ) + 1) * eulerianSpec n k) n]
      push_cast
      rw [mul_zero, add_zero, one_mul]
      congr 1
    rw [add_right_comm, h1, ← sum_add_distrib, Nat.factorial_succ]
    push_cast
    rw [← ih, mul_sum]
    apply sum_congr rfl
    intro k _; ring

theorem eulerian_eq {n k : ℕ} (hn : 1 ≤ n) (h : k ≤ n) :
    eulerian n k = .ok (eulerianSpec n k) := by
  unfold eulerian
  rw [if_neg (by omega)]
  split_ifs with h1 h2 h3
  · obtain rfl : k = n := by exact_mod_cast h1
    rw [eulerianSpec_eq_zero hn le_rfl]
  · obtain rfl : k = 0 := by exact_mod_cast h2
    rw [eulerianSpec_zero]
  · rw [eulerianSum_eq, eulerAlt_eq_spec, ← eulerianSpec_symm (n := n) (k := k) (by omega)]
    congr 2
    omega
  · rw [eulerianSum_eq, eulerAlt_eq_spec]
    simp

theorem eulerianAll_eq {n : ℕ} (hn : 1 ≤ n) :
    eulerianAll n = .ok ((List.range n).map fun k => eulerianSpec n k) := by
  unfold eulerianAll
  rw [if_neg (by omega)]
  apply mapM_ok
  intro k hk
  rw [List.mem_range] at hk
  exact eulerian_eq hn hk.le

/-! ### Horner scheme -/

theorem horner_fold {R : Type*} [CommSemiring R] (l : List R) (c x : R) :
    l.reverse.foldl (fun r j => j + r * x) c
      = ∑ i ∈ range l.length, l.getD i 0 * x ^ i + c * x ^ l.length := by
  induction l generalizing c with
  | nil => simp
  | cons a l ih =>
    rw [List.reverse_cons, List.foldl_append]
    simp only [List.foldl_cons, List.foldl_nil]
    rw [ih, List.length_cons, sum_range_succ']
    simp only [List.getD_cons_succ, List.getD_cons_zero, pow_zero, mul_one, add_mul, sum_mul]
    rw [add_comm a, add_right_comm]
    congr 1
    congr 1
    · apply sum_congr rfl
      intro i _; ring
    · ring

theorem polynEval_eq {R : Type} [CommSemiring R] (coef : List R) (x : R) (h : coef ≠ []) :
    polynEval coef x = .ok (∑ i ∈ range coef.length, coef.getD i 0 * x ^ i) := by
  unfold polynEval
  rw [List.getLast?_eq_some_getLast h]
  have hl : coef = coef.dropLast ++ [coef.getLast h] := (List.dropLast_append_getLast h).symm
  have key : coef.dropLast.reverse.foldl (fun r j => j + r * x) (coef.getLast h)
      = ∑ i ∈ range coef.length, coef.getD i 0 * x ^ i := by
    rw [horner_fold]
    conv_rhs => rw [hl]
    rw [List.length_append, List.length_singleton, sum_range_succ]
    congr 1
    · apply sum_congr rfl
      intro i hi
      rw [mem_range] at hi
      rw [List.getD_eq_getElem?_getD, List.getD_eq_getElem?_getD, List.getElem?_append_left hi]
    · rw [List.getD_eq_getElem?_getD, List.getElem?_append_right le_rfl]
      simp
  simp only
  split_ifs with h1
  · rw [← key]
    congr 1
    have : coef.dropLast = [] := by
      apply List.eq_nil_of_length_eq_zero
      rw [List.length_dropLast, h1]
    rw [this]; rfl
  · rw [key]

end Copulae
