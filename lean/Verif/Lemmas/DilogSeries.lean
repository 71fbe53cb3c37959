import Mathlib.Analysis.Real.Pi.Bounds
import Mathlib.Analysis.SpecialFunctions.Pow.Real
import Verif.Model.Dilog
import Verif.Lemmas.Dilog
import Verif.Lemmas.DebyeTail

/-!
The series of `dilog_series_1` and `dilog_series_2`: what the loops compute and how far that is from the sums.
-/

namespace Copulae

open Finset

/-- The tail of a nonnegative series with geometric bound. -/
theorem tail_le_geom {f : ℕ → ℝ} {a x c : ℝ} {n : ℕ} (h : HasSum f a) (hx0 : 0 ≤ x) (hx1 : x < 1)
    (h0 : ∀ j, 0 ≤ f (j + n)) (hb : ∀ j, f (j + n) ≤ c * x ^ j) :
    0 ≤ a - ∑ i ∈ range n, f i ∧ a - ∑ i ∈ range n, f i ≤ c / (1 - x) := by
  have h' := (hasSum_nat_add_iff' n).mpr h
  have hg := (hasSum_geometric_of_lt_one hx0 hx1).mul_left c
  exact ⟨h'.nonneg h0, by rw [div_eq_mul_inv]; exact hasSum_le hb h' hg⟩

/-! ### The power series -/

/-- The terms of the power series. -/
noncomputable def dilogTerm (x : ℝ) (n : ℕ) : ℝ := x ^ (n + 1) / ((n : ℝ) + 1) ^ 2

theorem dilogTerm_nonneg {x : ℝ} (h : 0 ≤ x) (n : ℕ) : 0 ≤ dilogTerm x n := by
  unfold dilogTerm
  positivity

theorem dilog_tail1 {x : ℝ} (h0 : 0 ≤ x) (h1 : x < 1) (n : ℕ) :
    0 ≤ Spec.dilog x - ∑ i ∈ range n, dilogTerm x i ∧
      Spec.dilog x - ∑ i ∈ range n, dilogTerm x i ≤ dilogTerm x n / (1 - x) := by
  refine tail_le_geom (hasSum_dilog h0 h1.le) h0 h1 (fun j => dilogTerm_nonneg h0 _) fun j => ?_
  unfold dilogTerm
  have e : x ^ (j + n + 1) = x ^ (n + 1) * x ^ j := by rw [← pow_add]; congr 1; ring
  rw [e, div_mul_eq_mul_div]
  have : ((n : ℝ) + 1) ^ 2 ≤ (((j + n : ℕ) : ℝ) + 1) ^ 2 := by
    push_cast
    have : (0 : ℝ) ≤ j := Nat.cast_nonneg j
    gcongr
    linarith
  gcongr

/-- The loop of `dilog_series_1` returns a partial sum that passes the stopping test. -/
theorem dilogLoop1_eq {x : ℝ} (h0 : 0 < x) (h1 : x ≤ 1 / 4) (fuel k : ℕ) (hk : 2 ≤ k) (hf : 29 ≤ k + fuel)
    (hf0 : k ≤ 28) :
    ∃ n, dilogLoop1 x fuel k (dilogTerm x (k - 2)) (∑ i ∈ range (k - 1), dilogTerm x i) =
        .fin (∑ i ∈ range (n + 1), dilogTerm x i) ∧
      dilogTerm x n < cEPS * ∑ i ∈ range (n + 1), dilogTerm x i := by
  induction fuel generalizing k with
  | zero => omega
  | succ f ih =>
    obtain ⟨m, rfl⟩ : ∃ m, k = m + 2 := ⟨k - 2, by omega⟩
    have et : dilogTerm x (m + 2 - 2) * (x * ((((m + 2 : ℕ) : ℝ) - 1) / ((m + 2 : ℕ) : ℝ)) ^ 2) =
        dilogTerm x (m + 1) := by
      unfold dilogTerm
      simp only [Nat.add_sub_cancel]
      push_cast
      have a1 : (m : ℝ) + 1 ≠ 0 := by positivity
      have a2 : (m : ℝ) + 2 ≠ 0 := by positivity
      rw [show (m : ℝ) + 2 - 1 = m + 1 by ring, show (m : ℝ) + 1 + 1 = m + 2 by ring]
      field_simp
      ring
    have es : ∑ i ∈ range (m + 2 - 1), dilogTerm x i + dilogTerm x (m + 1) =
        ∑ i ∈ range (m + 1 + 1), dilogTerm x i := by
      rw [sum_range_succ _ (m + 1)]
      rfl
    have hpos : x ≤ ∑ i ∈ range (m + 1 + 1), dilogTerm x i := by
      have := single_le_sum (f := dilogTerm x) (s := range (m + 1 + 1)) (fun i _ => dilogTerm_nonneg h0.le i)
        (mem_range.mpr (Nat.succ_pos _) : 0 ∈ range (m + 1 + 1))
      simpa [dilogTerm] using this
    have hS : 0 < ∑ i ∈ range (m + 1 + 1), dilogTerm x i := h0.trans_le hpos
    have hq : |dilogTerm x (m + 1) / ∑ i ∈ range (m + 1 + 1), dilogTerm x i| < cEPS ↔
        dilogTerm x (m + 1) < cEPS * ∑ i ∈ range (m + 1 + 1), dilogTerm x i := by
      rw [abs_of_nonneg (div_nonneg (dilogTerm_nonneg h0.le _) hS.le), div_lt_iff₀ hS]
    rw [dilogLoop1]
    simp only [et, es]
    by_cases hc : dilogTerm x (m + 1) < cEPS * ∑ i ∈ range (m + 1 + 1), dilogTerm x i
    · rw [if_pos (hq.mpr hc)]
      exact ⟨m + 1, rfl, hc⟩
    · rw [if_neg (fun h => hc (hq.mp h))]
      by_cases hm : m + 2 = 28
      · exfalso
        apply hc
        obtain rfl : m = 26 := by omega
        have hb : dilogTerm x (26 + 1) ≤ x * (1 / 4) ^ 27 := by
          unfold dilogTerm
          rw [pow_succ, mul_comm]
          have : x ^ (26 + 1) ≤ (1 / 4) ^ 27 := pow_le_pow_left₀ h0.le h1 27
          refine (div_le_self (by positivity) (by norm_num)).trans ?_
          gcongr
        refine hb.trans_lt ?_
        have : cEPS * x ≤ cEPS * ∑ i ∈ range (26 + 1 + 1), dilogTerm x i :=
          mul_le_mul_of_nonneg_left hpos (by norm_num [cEPS])
        refine lt_of_lt_of_le ?_ this
        rw [mul_comm]
        refine mul_lt_mul_of_pos_right ?_ h0
        norm_num [cEPS]
      · have := ih (m + 3) (by omega) (by omega) (by omega)
        simpa using this

/-- `dilog_series_1` up to 1/4, with a relative bound. -/
theorem dilogSeries1_accuracy {x : ℝ} (h0 : 0 < x) (h1 : x ≤ 1 / 4) :
    ∃ r, dilogSeries1 x = .fin r ∧ |r - Spec.dilog x| ≤ cEPS / 3 * Spec.dilog x := by
  obtain ⟨n, e, h⟩ := dilogLoop1_eq h0 h1 998 2 le_rfl (by norm_num) (by norm_num)
  have e1 : dilogTerm x (2 - 2) = x := by simp [dilogTerm]
  have e2 : ∑ i ∈ range (2 - 1), dilogTerm x i = x := by simp [dilogTerm]
  rw [e1, e2] at e
  refine ⟨_, e, ?_⟩
  obtain ⟨t0, t1⟩ := dilog_tail1 h0.le (by linarith) (n + 1)
  have h2 : dilogTerm x (n + 1) ≤ x * dilogTerm x n := by
    unfold dilogTerm
    push_cast
    rw [pow_succ, mul_div_assoc', mul_comm]
    gcongr
    linarith
  have h3 : dilogTerm x (n + 1) / (1 - x) ≤ dilogTerm x n / 3 := by
    rw [div_le_div_iff₀ (by linarith) (by norm_num)]
    have := dilogTerm_nonneg h0.le n
    nlinarith
  rw [abs_sub_comm, abs_of_nonneg t0]
  have : cEPS * ∑ i ∈ range (n + 1), dilogTerm x i ≤ cEPS * Spec.dilog x :=
    mul_le_mul_of_nonneg_left (by linarith) (by norm_num [cEPS])
  linarith

/-! ### The accelerated series -/

/-- The terms of the accelerated series. -/
noncomputable def dilogTerm2 (x : ℝ) (n : ℕ) : ℝ := x ^ (n + 1) / (((n : ℝ) + 1) ^ 2 * ((n : ℝ) + 2))

theorem dilogTerm2_nonneg {x : ℝ} (h : 0 ≤ x) (n : ℕ) : 0 ≤ dilogTerm2 x n := by
  unfold dilogTerm2
  positivity

theorem hasSum_dilog2 {x : ℝ} (h0 : 0 < x) (h1 : x < 1) :
    HasSum (dilogTerm2 x) (Spec.dilog x - (1 - x) * Real.log (1 - x) / x - 1) := by
  have hl := Real.hasSum_pow_div_log_of_abs_lt_one (x := x) (by rw [abs_of_pos h0]; exact h1)
  have hl1 : HasSum (fun n : ℕ => x ^ (n + 1) / ((n : ℝ) + 2)) (-Real.log (1 - x) / x - 1) := by
    have h := ((hasSum_nat_add_iff' 1).mpr hl).div_const x
    have e : (-Real.log (1 - x) - ∑ i ∈ range 1, x ^ (i + 1) / ((i : ℝ) + 1)) / x =
        -Real.log (1 - x) / x - 1 := by
      simp
      field_simp
    rw [e] at h
    refine h.congr_fun' fun n => ?_
    push_cast
    have : (n : ℝ) + 2 ≠ 0 := by positivity
    rw [show (n : ℝ) + 1 + 1 = n + 2 by ring]
    field_simp
    ring
  have h := ((hasSum_dilog h0.le h1.le).sub hl).add hl1
  have e : Spec.dilog x - -Real.log (1 - x) + (-Real.log (1 - x) / x - 1) =
      Spec.dilog x - (1 - x) * Real.log (1 - x) / x - 1 := by
    field_simp
    ring
  rw [e] at h
  refine h.congr_fun' fun n => ?_
  unfold dilogTerm2
  have a1 : (n : ℝ) + 1 ≠ 0 := by positivity
  have a2 : (n : ℝ) + 2 ≠ 0 := by positivity
  field_simp
  ring

theorem dilog_tail2 {x : ℝ} (h0 : 0 < x) (h1 : x < 1) (n : ℕ) :
    0 ≤ (Spec.dilog x - (1 - x) * Real.log (1 - x) / x - 1) - ∑ i ∈ range n, dilogTerm2 x i ∧
      (Spec.dilog x - (1 - x) * Real.log (1 - x) / x - 1) - ∑ i ∈ range n, dilogTerm2 x i ≤
        dilogTerm2 x n / (1 - x) := by
  refine tail_le_geom (hasSum_dilog2 h0 h1) h0.le h1 (fun j => dilogTerm2_nonneg h0.le _) fun j => ?_
  unfold dilogTerm2
  have e : x ^ (j + n + 1) = x ^ (n + 1) * x ^ j := by rw [← pow_add]; congr 1; ring
  rw [e, div_mul_eq_mul_div]
  have : ((n : ℝ) + 1) ^ 2 * ((n : ℝ) + 2) ≤ (((j + n : ℕ) : ℝ) + 1) ^ 2 * (((j + n : ℕ) : ℝ) + 2) := by
    push_cast
    have : (0 : ℝ) ≤ j := Nat.cast_nonneg j
    gcongr <;> linarith
  gcongr

/-- The loop of `dilog_series_2` returns a partial sum: all terms, or as many as the stopping test asks for. -/
theorem dilogLoop2_eq {x : ℝ} (h0 : 0 < x) (fuel k : ℕ) (hk : 2 ≤ k) :
    ∃ n, dilogLoop2 x fuel k (x ^ (k - 1)) (∑ i ∈ range (k - 1), dilogTerm2 x i) =
        ∑ i ∈ range (n + 1), dilogTerm2 x i ∧
      (n + 2 = k + fuel ∨ dilogTerm2 x n < 0.5 * cEPS * ∑ i ∈ range (n + 1), dilogTerm2 x i) := by
  induction fuel generalizing k with
  | zero =>
    obtain ⟨m, rfl⟩ : ∃ m, k = m + 2 := ⟨k - 2, by omega⟩
    exact ⟨m, rfl, Or.inl rfl⟩
  | succ f ih =>
    obtain ⟨m, rfl⟩ : ∃ m, k = m + 2 := ⟨k - 2, by omega⟩
    have ey : x ^ (m + 2 - 1) * x = x ^ (m + 2) := by
      rw [show m + 2 - 1 = m + 1 from rfl, ← pow_succ]
    have et : x ^ (m + 2) / (((m + 2 : ℕ) : ℝ) * ((m + 2 : ℕ) : ℝ) * (((m + 2 : ℕ) : ℝ) + 1)) =
        dilogTerm2 x (m + 1) := by
      unfold dilogTerm2
      push_cast
      congr 1
      ring
    have es : ∑ i ∈ range (m + 2 - 1), dilogTerm2 x i + dilogTerm2 x (m + 1) =
        ∑ i ∈ range (m + 1 + 1), dilogTerm2 x i := by
      rw [sum_range_succ _ (m + 1)]
      rfl
    have hS : 0 < ∑ i ∈ range (m + 1 + 1), dilogTerm2 x i := by
      have := single_le_sum (f := dilogTerm2 x) (s := range (m + 1 + 1))
        (fun i _ => dilogTerm2_nonneg h0.le i) (mem_range.mpr (Nat.succ_pos _) : 0 ∈ range (m + 1 + 1))
      refine lt_of_lt_of_le ?_ this
      unfold dilogTerm2
      positivity
    rw [dilogLoop2]
    simp only [ey, et, es]
    split_ifs with hc
    · refine ⟨m + 1, rfl, Or.inr ?_⟩
      have := hc.2
      rwa [abs_of_nonneg (div_nonneg (dilogTerm2_nonneg h0.le _) hS.le), div_lt_iff₀ hS] at this
    · obtain ⟨n, e, h⟩ := ih (m + 3) (by omega)
      refine ⟨n, by simpa using e, ?_⟩
      rcases h with h | h
      · exact Or.inl (by omega)
      · exact Or.inr h

/-- The polynomial used by `dilog_series_2` for small arguments. -/
theorem dilogHorner_accuracy {x : ℝ} (h0 : 0 < x) (h1 : x ≤ 0.01) :
    |(x - 1) * (1 + [8, 7, 6, 5, 4, 3, 2].foldl (fun (z : ℝ) (k : ℕ) => x * (1 / (k : ℝ) + z)) 0) -
      (1 - x) * Real.log (1 - x) / x| ≤ 1.2e-17 := by
  have hl := Real.hasSum_pow_div_log_of_abs_lt_one (x := x) (by rw [abs_of_pos h0]; linarith)
  have ht := tail_le_geom (n := 8) (c := x ^ 9 / 9) hl h0.le (by linarith) (fun j => by positivity) fun j => by
    have e : x ^ (j + 8 + 1) = x ^ 9 * x ^ j := by rw [← pow_add]; congr 1; ring
    rw [e, div_mul_eq_mul_div]
    have : (9 : ℝ) ≤ ((j + 8 : ℕ) : ℝ) + 1 := by
      push_cast
      have : (0 : ℝ) ≤ j := Nat.cast_nonneg j
      linarith
    gcongr
  have hx8 : x ^ 8 ≤ 0.01 ^ 8 := pow_le_pow_left₀ h0.le h1 8
  set T := -Real.log (1 - x) - ∑ i ∈ range 8, x ^ (i + 1) / ((i : ℝ) + 1) with hT
  have e : (x - 1) * (1 + [8, 7, 6, 5, 4, 3, 2].foldl (fun (z : ℝ) (k : ℕ) => x * (1 / (k : ℝ) + z)) 0) -
      (1 - x) * Real.log (1 - x) / x = (1 - x) / x * T := by
    rw [hT]
    simp only [List.foldl_cons, List.foldl_nil, sum_range_succ, sum_range_zero]
    push_cast
    field_simp
    ring
  rw [e, abs_of_nonneg (mul_nonneg (div_nonneg (by linarith) h0.le) ht.1)]
  have h2 : (1 - x) / x * T ≤ (1 - x) / x * (x ^ 9 / 9 / (1 - x)) :=
    mul_le_mul_of_nonneg_left ht.2 (div_nonneg (by linarith) h0.le)
  have h3 : (1 - x) / x * (x ^ 9 / 9 / (1 - x)) = x ^ 8 / 9 := by
    have : 1 - x ≠ 0 := by linarith
    field_simp
  rw [h3] at h2
  refine h2.trans ?_
  norm_num at hx8 ⊢
  linarith

/-- `dilog_series_2` up to 1/2. -/
theorem dilogSeries2_accuracy {x : ℝ} (h0 : 0 < x) (h1 : x ≤ 1 / 2) :
    |dilogSeries2 x - Spec.dilog x| ≤ 7e-17 := by
  obtain ⟨n, e, h⟩ := dilogLoop2_eq h0 98 2 le_rfl
  have e1 : x ^ (2 - 1) = x := by simp
  have e2 : ∑ i ∈ range (2 - 1), dilogTerm2 x i = 0.5 * x := by
    simp [dilogTerm2]
    ring
  rw [e1, e2] at e
  obtain ⟨t0, t1⟩ := dilog_tail2 h0 (by linarith) (n + 1)
  have h2 : dilogTerm2 x (n + 1) ≤ x * dilogTerm2 x n := by
    unfold dilogTerm2
    push_cast
    rw [pow_succ, mul_div_assoc', mul_comm]
    gcongr <;> linarith
  have hn := dilogTerm2_nonneg h0.le n
  have h3 : dilogTerm2 x (n + 1) / (1 - x) ≤ dilogTerm2 x n := by
    rw [div_le_iff₀ (by linarith)]
    nlinarith
  have hsum : ∑ i ∈ range (n + 1), dilogTerm2 x i ≤ 1 / 2 := by
    have hs : ∀ i, dilogTerm2 x i ≤ (1 / 4) * (1 / 2) ^ i := by
      intro i
      unfold dilogTerm2
      have a : x ^ (i + 1) ≤ (1 / 2) ^ (i + 1) := pow_le_pow_left₀ h0.le h1 _
      have b : (2 : ℝ) ≤ ((i : ℝ) + 1) ^ 2 * ((i : ℝ) + 2) := by
        have : (0 : ℝ) ≤ i := Nat.cast_nonneg i
        nlinarith [sq_nonneg (i : ℝ)]
      calc x ^ (i + 1) / (((i : ℝ) + 1) ^ 2 * ((i : ℝ) + 2)) ≤ (1 / 2) ^ (i + 1) / 2 := by gcongr
        _ = (1 / 4) * (1 / 2) ^ i := by rw [pow_succ]; ring
    have hg := (hasSum_geometric_of_lt_one (r := (1 / 2 : ℝ)) (by norm_num) (by norm_num)).mul_left (1 / 4)
    have := sum_le_hasSum (range (n + 1)) (fun i _ => by positivity) hg
    refine (sum_le_sum fun i _ => hs i).trans (this.trans ?_)
    norm_num
  have hterm : dilogTerm2 x n ≤ 5.6e-17 := by
    rcases h with h | h
    · obtain rfl : n = 98 := by omega
      unfold dilogTerm2
      have a : x ^ (98 + 1) ≤ (1 / 2) ^ (98 + 1) := pow_le_pow_left₀ h0.le h1 _
      refine (div_le_self (by positivity) (by norm_num)).trans (a.trans (by norm_num))
    · have : 0.5 * cEPS * ∑ i ∈ range (n + 1), dilogTerm2 x i ≤ 0.5 * cEPS * (1 / 2) :=
        mul_le_mul_of_nonneg_left hsum (by norm_num [cEPS])
      refine (h.le.trans this).trans (by norm_num [cEPS])
  unfold dilogSeries2
  simp only [e]
  rw [abs_le]
  split_ifs with hx
  · constructor <;> norm_num at hterm ⊢ <;> linarith
  · have hh := abs_le.mp (dilogHorner_accuracy h0 (not_lt.mp hx))
    obtain ⟨l, u⟩ := hh
    constructor <;> norm_num at hterm l u ⊢ <;> linarith

end Copulae
