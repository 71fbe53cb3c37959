import Verif.Lemmas.LogSum
import Verif.Model.GumbelCoef

namespace Copulae

open Finset

/-- Generalised binomial coefficient `x (x-1) ... (x-d+1) / d!`. -/
noncomputable def genBinom (x : ℝ) (d : ℕ) : ℝ := (∏ i ∈ range d, (x - i)) / (d.factorial : ℝ)

theorem gamma_falling (x : ℝ) (d : ℕ) (h : ∀ m : ℕ, x + 1 - d ≠ -m) :
    Real.Gamma (x + 1) = (∏ i ∈ range d, (x - i)) * Real.Gamma (x + 1 - d) := by
  induction d with
  | zero => simp
  | succ d ih =>
    have h' : ∀ m : ℕ, x + 1 - d ≠ -m := by
      intro m hm
      apply h (m + 1)
      push_cast; linarith
    have h0 : x - d ≠ 0 := by
      intro h0
      apply h 0
      push_cast; linarith
    rw [ih h', prod_range_succ, show x + 1 - (d : ℝ) = (x - d) + 1 by ring,
      Real.Gamma_add_one h0]
    push_cast
    rw [show x + 1 - ((d : ℝ) + 1) = x - d by ring]
    ring

theorem not_pole_of_pos {x : ℝ} (h : 0 < x) : ¬ ∃ m : ℕ, x = -m := by
  rintro ⟨m, hm⟩
  have : (0 : ℝ) ≤ m := Nat.cast_nonneg m
  linarith

theorem pole_falling {x : ℝ} (hx : 0 ≤ x) (d : ℕ) (h : ∃ m : ℕ, x + 1 - d = -m) :
    ∏ i ∈ range d, (x - i) = 0 := by
  obtain ⟨m, hm⟩ := h
  have hlt : m + 1 ≤ d := by
    have : (m : ℝ) + 1 ≤ d := by linarith
    exact_mod_cast this
  apply prod_eq_zero (i := d - 1 - m) (mem_range.mpr (by omega))
  have : ((d - 1 - m : ℕ) : ℝ) = d - 1 - m := by
    rw [Nat.sub_sub, Nat.cast_sub (by omega)]; push_cast; ring
  rw [this]; linarith

theorem gammaFl_nat (d : ℕ) : gammaFl ((d : ℝ) + 1) = .fin (d.factorial : ℝ) := by
  unfold gammaFl
  rw [if_neg (not_pole_of_pos (by positivity)), Real.Gamma_nat_eq_factorial]

theorem gammalnFl_nat (d : ℕ) :
    gammalnFl ((d : ℝ) + 1) = .fin (Real.log (d.factorial : ℝ)) := by
  unfold gammalnFl
  rw [if_neg (not_pole_of_pos (by positivity)), Real.Gamma_nat_eq_factorial, abs_of_nonneg]
  positivity

theorem comb_eq {x : ℝ} (hx : 0 ≤ x) (d : ℕ) : comb x d false = .fin (genBinom x d) := by
  have hfac : (d.factorial : ℝ) ≠ 0 := by positivity
  unfold comb
  simp only [Bool.false_eq_true, if_false]
  rw [gammaFl_nat]
  have h1 : gammaFl (x + 1) = .fin (Real.Gamma (x + 1)) := by
    unfold gammaFl
    rw [if_neg (not_pole_of_pos (by linarith))]
  rw [h1]
  by_cases hp : ∃ m : ℕ, x + 1 - d = -m
  · rw [gammaFl, if_pos hp, Fl.pinf_mul_fin, Fl.infSign_pos (by positivity), genBinom,
      pole_falling hx d hp, zero_div]
    rfl
  · rw [gammaFl, if_neg hp]
    push Not at hp
    have hne := Real.Gamma_ne_zero hp
    rw [Fl.fin_mul_fin, Fl.fin_div_fin' _ (mul_ne_zero hne hfac), gamma_falling x d hp, genBinom]
    congr 1
    field_simp

theorem comb_log_eq {x : ℝ} (hx : 0 ≤ x) (d : ℕ) :
    comb x d true = Fl.log (.fin |genBinom x d|) := by
  have hfac : (d.factorial : ℝ) ≠ 0 := by positivity
  unfold comb
  simp only [if_true]
  rw [gammalnFl_nat]
  have hpos : 0 < Real.Gamma (x + 1) := Real.Gamma_pos_of_pos (by linarith)
  have h1 : gammalnFl (x + 1) = .fin (Real.log (Real.Gamma (x + 1))) := by
    unfold gammalnFl
    rw [if_neg (not_pole_of_pos (by linarith)), abs_of_pos hpos]
  rw [h1]
  by_cases hp : ∃ m : ℕ, x + 1 - d = -m
  · rw [gammalnFl, if_pos hp, genBinom, pole_falling hx d hp]
    simp
  · rw [gammalnFl, if_neg hp]
    push Not at hp
    have hne := Real.Gamma_ne_zero hp
    have hg := gamma_falling x d hp
    have hP : (∏ i ∈ range d, (x - i)) ≠ 0 := by
      intro h; rw [h, zero_mul] at hg; exact hpos.ne' hg
    rw [genBinom, Fl.log_pos (abs_pos.mpr (div_ne_zero hP hfac)), Fl.fin_sub_fin, Fl.fin_sub_fin]
    congr 1
    have hposf : (0 : ℝ) < d.factorial := by positivity
    rw [abs_div, abs_of_pos hposf, Real.log_div (abs_pos.mpr hP).ne' hfac]
    rw [← abs_of_pos hpos, hg, abs_mul, Real.log_mul (abs_pos.mpr hP).ne' (abs_pos.mpr hne).ne']
    ring

theorem genBinom_nat (n d : ℕ) : genBinom n d = (n.choose d : ℝ) := by
  have : (d.factorial : ℝ) ≠ 0 := by positivity
  rw [genBinom, falling_cast]; field_simp

/-- `k! S(n,k) = Σ_m (-1)^(k-m) C(k,m) m^n`. -/
theorem s2_explicit (n k : ℕ) : (k.factorial : ℝ) * (s2 n k : ℝ)
    = ∑ m ∈ range (k + 1), (-1) ^ (k + m) * (k.choose m : ℝ) * (m : ℝ) ^ n := by
  induction n generalizing k with
  | zero =>
    cases k with
    | zero => simp [s2_zero_zero]
    | succ k =>
      rw [s2_eq_zero (by omega)]
      have := add_pow (-1 : ℝ) 1 (k + 1)
      simp only [neg_add_cancel, one_pow, mul_one] at this
      rw [zero_pow (by omega)] at this
      simp only [pow_zero, mul_one]
      rw [Int.cast_zero, mul_zero, ← mul_zero ((-1 : ℝ) ^ (k + 1)), this, mul_sum]
      have hh : ∑ m ∈ range (k + 1 + 1), (-1 : ℝ) ^ (k + 1 + m) * ((k + 1).choose m : ℝ)
          = (-1) ^ (k + 1) * ∑ m ∈ range (k + 1 + 1), (-1 : ℝ) ^ m * ((k + 1).choose m : ℝ) := by
        rw [mul_sum]
        exact sum_congr rfl fun m _ => by rw [pow_add]; ring
      rw [hh, ← this]
      simp only [mul_zero]
      rw [← mul_sum, ← this, mul_zero]
  | succ n ih =>
    cases k with
    | zero => rw [s2_succ_zero]; simp
    | succ k =>
      have h1 := ih (k + 1)
      have h2 := ih k
      have e : ((k + 1).factorial : ℝ) * (s2 (n + 1) (k + 1) : ℝ)
          = (k + 1) * (((k + 1).factorial : ℝ) * (s2 n (k + 1) : ℝ)
            + (k.factorial : ℝ) * (s2 n k : ℝ)) := by
        rw [s2_succ_succ, Nat.factorial_succ]; push_cast; ring
      rw [e, h1, h2]
      -- split off `m = 0`
      rw [sum_range_succ' _ (k + 1), sum_range_succ' _ (k + 1)]
      have h3 : ∑ m ∈ range (k + 1), (-1 : ℝ) ^ (k + m) * (k.choose m : ℝ) * (m : ℝ) ^ n
          = ∑ m ∈ range (k + 1), (-1 : ℝ) ^ (k + (m + 1)) * (k.choose (m + 1) : ℝ)
              * ((m + 1 : ℕ) : ℝ) ^ n
            + (-1 : ℝ) ^ (k + 0) * (k.choose 0 : ℝ) * ((0 : ℕ) : ℝ) ^ n := by
        rw [sum_range_succ (fun m => (-1 : ℝ) ^ (k + (m + 1)) * (k.choose (m + 1) : ℝ)
              * ((m + 1 : ℕ) : ℝ) ^ n) k, Nat.choose_succ_self,
          sum_range_succ' (fun m => (-1 : ℝ) ^ (k + m) * (k.choose m : ℝ) * (m : ℝ) ^ n) k]
        simp
      rw [h3]
      have h4 : ∀ m ∈ range (k + 1),
          (-1 : ℝ) ^ (k + 1 + (m + 1)) * ((k + 1).choose (m + 1) : ℝ)
            * ((m + 1 : ℕ) : ℝ) ^ (n + 1)
          = (k + 1) * ((-1 : ℝ) ^ (k + 1 + (m + 1)) * ((k + 1).choose (m + 1) : ℝ)
              * ((m + 1 : ℕ) : ℝ) ^ n
            + (-1 : ℝ) ^ (k + (m + 1)) * (k.choose (m + 1) : ℝ) * ((m + 1 : ℕ) : ℝ) ^ n) := by
        intro m _
        have hc : ((k + 1).choose (m + 1) : ℝ) * ((m : ℝ) + 1) = (k + 1) * (k.choose m : ℝ) := by
          have := Nat.add_one_mul_choose_eq k m
          have h5 : (((k + 1) * k.choose m : ℕ) : ℝ)
              = (((k + 1).choose (m + 1) * (m + 1) : ℕ) : ℝ) := by rw [this]
          push_cast at h5; linarith
        have hp : ((k + 1).choose (m + 1) : ℝ) = k.choose m + k.choose (m + 1) := by
          rw [Nat.choose_succ_succ]; push_cast; ring
        push_cast
        have e1 : (-1 : ℝ) ^ (k + 1 + (m + 1)) = (-1) ^ (k + m) := by ring_nf
        have e2 : (-1 : ℝ) ^ (k + (m + 1)) = -(-1) ^ (k + m) := by ring_nf
        rw [e1, e2, pow_succ]
        linear_combination (-1 : ℝ) ^ (k + m) * ((m : ℝ) + 1) ^ n * hc
          + (-(-1 : ℝ) ^ (k + m) * ((m : ℝ) + 1) ^ n * (k + 1)) * hp
      rw [sum_congr rfl h4, ← mul_sum, sum_add_distrib]
      cases n with
      | zero => simp; left; ring
      | succ n => simp

/-- The coefficients `a_{d,k}(α)` of the Gumbel polynomial:
`(-1)^(d-k) Σ_j α^j s(d,j) S(j,k)`. -/
noncomputable def gumbelA (d : ℕ) (α : ℝ) (k : ℕ) : ℝ :=
  (-1) ^ (d + k) * ∑ j ∈ range (d + 1), α ^ j * (s1 d j : ℝ) * (s2 j k : ℝ)

theorem gumbelA_succ (d : ℕ) (α : ℝ) (k : ℕ) :
    gumbelA (d + 1) α (k + 1) = (d - α * (k + 1)) * gumbelA d α (k + 1) + α * gumbelA d α k := by
  unfold gumbelA
  have h : ∑ j ∈ range (d + 1 + 1), α ^ j * (s1 (d + 1) j : ℝ) * (s2 j (k + 1) : ℝ)
      = (α * (k + 1) - d) * ∑ j ∈ range (d + 1), α ^ j * (s1 d j : ℝ) * (s2 j (k + 1) : ℝ)
        + α * ∑ j ∈ range (d + 1), α ^ j * (s1 d j : ℝ) * (s2 j k : ℝ) := by
    rw [sum_range_succ' _ (d + 1), s1_succ_zero]
    simp only [s1_succ_succ]
    have e : ∀ j : ℕ, α ^ (j + 1) * (((s1 d j - d * s1 d (j + 1) : ℤ)) : ℝ) * (s2 (j + 1) (k + 1) : ℝ)
        = α * (k + 1) * (α ^ j * (s1 d j : ℝ) * (s2 j (k + 1) : ℝ))
          + α * (α ^ j * (s1 d j : ℝ) * (s2 j k : ℝ))
          - d * (α ^ (j + 1) * (s1 d (j + 1) : ℝ) * (s2 (j + 1) (k + 1) : ℝ)) := by
      intro j
      push_cast
      have : (s2 (j + 1) (k + 1) : ℝ) = (k + 1) * (s2 j (k + 1) : ℝ) + (s2 j k : ℝ) := by
        rw [s2_succ_succ]; push_cast; ring
      rw [pow_succ]
      linear_combination α ^ j * α * (s1 d j : ℝ) * this
    simp only [e]
    rw [sum_sub_distrib, sum_add_distrib, ← mul_sum, ← mul_sum, ← mul_sum]
    have e3 : ∑ j ∈ range (d + 1), α ^ (j + 1) * (s1 d (j + 1) : ℝ) * (s2 (j + 1) (k + 1) : ℝ)
        = ∑ j ∈ range (d + 1), α ^ j * (s1 d j : ℝ) * (s2 j (k + 1) : ℝ) := by
      rw [sum_range_succ, s1_eq_zero (show d < d + 1 by omega),
        sum_range_succ' (fun j => α ^ j * (s1 d j : ℝ) * (s2 j (k + 1) : ℝ)) d,
        s2_eq_zero (show 0 < k + 1 by omega)]
      simp
    rw [e3]
    simp
    ring
  rw [h]
  have e1 : (-1 : ℝ) ^ (d + 1 + (k + 1)) = (-1) ^ (d + k) := by ring_nf
  have e2 : (-1 : ℝ) ^ (d + (k + 1)) = -(-1) ^ (d + k) := by ring_nf
  rw [e1, e2]; ring

theorem gumbelA_eq_zero {d k : ℕ} (α : ℝ) (h : d < k) : gumbelA d α k = 0 := by
  unfold gumbelA
  rw [sum_eq_zero, mul_zero]
  intro j hj
  rw [mem_range] at hj
  rw [s2_eq_zero (show j < k by omega)]; simp

theorem gumbelA_zero_right {d : ℕ} (α : ℝ) (hd : 1 ≤ d) : gumbelA d α 0 = 0 := by
  unfold gumbelA
  rw [sum_eq_zero, mul_zero]
  intro j _
  cases j with
  | zero =>
    obtain ⟨d, rfl⟩ : ∃ m, d = m + 1 := ⟨d - 1, by omega⟩
    rw [s1_succ_zero]; simp
  | succ j => rw [s2_succ_zero]; simp

theorem gumbelA_zero_zero (α : ℝ) : gumbelA 0 α 0 = 1 := by
  simp [gumbelA, s1_zero_zero, s2_zero_zero]

theorem gumbelA_nonneg {α : ℝ} (h0 : 0 < α) (h1 : α ≤ 1) (d k : ℕ) : 0 ≤ gumbelA d α k := by
  induction d generalizing k with
  | zero =>
    cases k with
    | zero => rw [gumbelA_zero_zero]; norm_num
    | succ k => rw [gumbelA_eq_zero α (by omega)]
  | succ d ih =>
    cases k with
    | zero => rw [gumbelA_zero_right α (by omega)]
    | succ k =>
      rcases le_or_gt (k + 1) d with h | h
      · rw [gumbelA_succ]
        have h2 : α * ((k : ℝ) + 1) ≤ d := by
          have : (k : ℝ) + 1 ≤ d := by exact_mod_cast h
          have : (0 : ℝ) ≤ k := Nat.cast_nonneg k
          nlinarith
        have := mul_nonneg (sub_nonneg.mpr h2) (ih (k + 1))
        have := mul_nonneg h0.le (ih k)
        linarith
      · rw [gumbelA_succ, gumbelA_eq_zero α h]
        have := mul_nonneg h0.le (ih k)
        linarith

theorem gumbelA_pos {α : ℝ} (h0 : 0 < α) (h1 : α < 1) {d k : ℕ} (hk : 1 ≤ k) (hkd : k ≤ d) :
    0 < gumbelA d α k := by
  induction d generalizing k with
  | zero => omega
  | succ d ih =>
    obtain ⟨k, rfl⟩ : ∃ m, k = m + 1 := ⟨k - 1, by omega⟩
    rw [gumbelA_succ]
    rcases le_or_gt (k + 1) d with h | h
    · have h2 : α * ((k : ℝ) + 1) < d := by
        have : (k : ℝ) + 1 ≤ d := by exact_mod_cast h
        have : (0 : ℝ) ≤ k := Nat.cast_nonneg k
        nlinarith
      have := mul_pos (sub_pos.mpr h2) (ih (k := k + 1) (by omega) h)
      have := mul_nonneg h0.le (gumbelA_nonneg h0 h1.le d k)
      linarith
    · obtain rfl : k = d := by omega
      rw [gumbelA_eq_zero α h, mul_zero, zero_add]
      apply mul_pos h0
      rcases Nat.eq_zero_or_pos k with hk0 | hk0
      · subst hk0; rw [gumbelA_zero_zero]; norm_num
      · exact ih hk0 le_rfl

/-- The coefficients as Sibuya sums. -/
theorem gumbelA_sibuya (d : ℕ) (α : ℝ) (k : ℕ) :
    gumbelA d α k = (d.factorial : ℝ) / (k.factorial : ℝ) *
      ∑ m ∈ range (k + 1), (k.choose m : ℝ) * genBinom (α * m) d * (-1) ^ (d + m) := by
  have hk : (k.factorial : ℝ) ≠ 0 := by positivity
  have hd : (d.factorial : ℝ) ≠ 0 := by positivity
  rw [div_mul_eq_mul_div, eq_div_iff hk, gumbelA, mul_comm, ← mul_assoc, mul_comm _ ((-1 : ℝ) ^ _),
    mul_assoc, mul_sum]
  have e : ∀ j ∈ range (d + 1), (k.factorial : ℝ) * (α ^ j * (s1 d j : ℝ) * (s2 j k : ℝ))
      = ∑ m ∈ range (k + 1), (-1) ^ (k + m) * (k.choose m : ℝ) * ((s1 d j : ℝ) * (α * m) ^ j) := by
    intro j _
    have := s2_explicit j k
    calc (k.factorial : ℝ) * (α ^ j * (s1 d j : ℝ) * (s2 j k : ℝ))
        = α ^ j * (s1 d j : ℝ) * ((k.factorial : ℝ) * (s2 j k : ℝ)) := by ring
      _ = _ := by
        rw [this, mul_sum]
        exact sum_congr rfl fun m _ => by rw [mul_pow]; ring
  rw [sum_congr rfl e, sum_comm, mul_sum, mul_sum]
  apply sum_congr rfl
  intro m _
  rw [← mul_sum, ← falling_eq_sum_s1, genBinom]
  have e1 : (-1 : ℝ) ^ (d + k) * (-1) ^ (k + m) = (-1) ^ (d + m) := by
    rw [← pow_add, show d + k + (k + m) = (d + m) + 2 * k by ring, pow_add, pow_mul]; simp
  rw [← e1]
  field_simp

end Copulae
