import Verif.Model.SpecFunc
import Verif.Lemmas.ListPoly
import Verif.Lemmas.DebyeApprox
import Verif.Lemmas.DebyeTail
import Verif.Lemmas.Zeta3

/-!
C94: `debye_1` and `debye_2` compute the Debye functions, on every branch of the code.
-/

namespace Copulae

open LP Polynomial

/-! ### The Chebyshev branch -/

theorem cheb_clenshaw (y : ℝ) (l : List ℚ) (m : ℕ) :
    cheb y m l = (Chebyshev.T ℝ (m : ℤ)).eval y * ((l.map ((↑) : ℚ → ℝ)).reverse.foldl (chebStep y) (0, 0)).1
      - (Chebyshev.T ℝ ((m : ℤ) - 1)).eval y * ((l.map ((↑) : ℚ → ℝ)).reverse.foldl (chebStep y) (0, 0)).2 := by
  induction l generalizing m with
  | nil => simp [cheb]
  | cons a l ih =>
    rw [List.map_cons, List.reverse_cons, List.foldl_append]
    simp only [List.foldl_cons, List.foldl_nil, chebStep]
    rw [cheb, ih (m + 1)]
    have hT := Chebyshev.T_add_one ℝ (m : ℤ)
    have hT' : (Chebyshev.T ℝ ((m : ℤ) + 1)).eval y =
        2 * y * (Chebyshev.T ℝ (m : ℤ)).eval y - (Chebyshev.T ℝ ((m : ℤ) - 1)).eval y := by
      rw [hT]
      simp
    push_cast
    rw [hT', add_sub_cancel_right]
    ring

theorem chebEval_cheb (c0 : ℚ) (cs : List ℚ) (y : ℝ) :
    chebEval ((c0 :: cs).map ((↑) : ℚ → ℝ)) y (-1) 1 = cheb y 0 (c0 / 2 :: cs) := by
  rw [cheb, cheb_clenshaw, List.map_cons, chebEval]
  simp
  norm_num
  ring

/-- The coefficients of the code, as rational numbers. -/
def debye1Q : List ℚ :=
  [2.4006597190381410194, 0.1937213042189360089, -0.62329124554895770e-02, 0.3511174770206480e-03,
    -0.228222466701231e-04, 0.15805467875030e-05, -0.1135378197072e-06, 0.83583361188e-08,
    -0.6264424787e-09, 0.476033489e-10, -0.36574154e-11, 0.2835431e-12, -0.221473e-13, 0.17409e-14,
    -0.1376e-15, 0.109e-16, -0.9e-18]

def debye2Q : List ℚ :=
  [2.5943810232570770282, 0.2863357204530719834, -0.102062656158046713e-01, 0.6049109775346844e-03,
    -0.405257658950210e-04, 0.28633826328811e-05, -0.2086394303065e-06, 0.155237875826e-07,
    -0.11731280087e-08, 0.897358589e-10, -0.69317614e-11, 0.5398057e-12, -0.423241e-13, 0.33378e-14,
    -0.2645e-15, 0.211e-16, -0.17e-17, 0.1e-18]

theorem debye1Q_cast : debye1Constants = debye1Q.map ((↑) : ℚ → ℝ) := by
  simp only [debye1Constants, debye1Q, List.map_cons, List.map_nil]
  push_cast
  rfl

theorem debye2Q_cast : debye2Constants = debye2Q.map ((↑) : ℚ → ℝ) := by
  simp only [debye2Constants, debye2Q, List.map_cons, List.map_nil]
  push_cast
  rfl

/-- Halve the first coefficient. -/
def halfHead : List ℚ → List ℚ
  | [] => []
  | c :: cs => c / 2 :: cs

set_option maxRecDepth 100000 in
theorem debye1_coeff : absSum 1 (add (toCheb (scale 8 (intE 0 boseEven))) (smul (-1) (halfHead debye1Q)))
    ≤ 4 / 10 ^ 19 := by decide +kernel

set_option maxRecDepth 100000 in
theorem debye2_coeff :
    absSum 1 (add (toCheb (scale 8 (smul 2 (intE 1 boseEven)))) (smul (-1) (halfHead debye2Q)))
      ≤ 6 / 10 ^ 19 := by decide +kernel

theorem chebEval_half {l : List ℚ} (hl : l ≠ []) (y : ℝ) :
    chebEval (l.map ((↑) : ℚ → ℝ)) y (-1) 1 = cheb y 0 (halfHead l) := by
  cases l with
  | nil => exact absurd rfl hl
  | cons c cs => exact chebEval_cheb c cs y

theorem cheb_close (p c : List ℚ) (ε : ℚ) (h : absSum 1 (add (toCheb (scale 8 p)) (smul (-1) c)) ≤ ε)
    {x : ℝ} (h0 : 0 ≤ x) (h4 : x ≤ 4) : |eval p (x ^ 2) - cheb (x * x / 8 - 1) 0 c| ≤ ε := by
  have hy : |x * x / 8 - 1| ≤ 1 := by
    rw [abs_le]
    constructor <;> nlinarith
  have e : eval p (x ^ 2) - cheb (x * x / 8 - 1) 0 c =
      cheb (x * x / 8 - 1) 0 (add (toCheb (scale 8 p)) (smul (-1) c)) := by
    rw [cheb_add, cheb_smul, cheb_toCheb, eval_scale]
    push_cast
    rw [show (8 : ℝ) * (1 + (x * x / 8 - 1)) = x ^ 2 by ring]
    ring
  rw [e]
  exact (abs_cheb_le hy 0 _).trans (by exact_mod_cast h)

theorem debye1_mid {x : ℝ} (h0 : 0 < x) (h4 : x ≤ 4) :
    |chebEval debye1Constants (x * x / 8 - 1) (-1) 1 - 0.25 * x - Spec.debye1 x| ≤ 1 / 10 ^ 18 := by
  rw [debye1Q_cast, chebEval_half (by simp [debye1Q])]
  have h1 := cheb_close _ _ _ debye1_coeff h0.le h4
  have h2 := debye1_poly h0 h4
  push_cast at h1
  rw [abs_le] at *
  constructor <;> linarith [h1.1, h1.2, h2.1, h2.2]

theorem debye2_mid {x : ℝ} (h0 : 0 < x) (h4 : x ≤ 4) :
    |chebEval debye2Constants (x * x / 8 - 1) (-1) 1 - x / 3 - Spec.debye2 x| ≤ 1 / 10 ^ 18 := by
  rw [debye2Q_cast, chebEval_half (by simp [debye2Q])]
  have h1 := cheb_close _ _ _ debye2_coeff h0.le h4
  have h2 := debye2_poly h0 h4
  rw [eval_smul] at h1
  push_cast at h1
  rw [abs_le] at *
  constructor <;> linarith [h1.1, h1.2, h2.1, h2.2]

/-! ### The branch near zero -/

set_option maxRecDepth 100000 in
theorem debye1_head : (intE 0 boseEven).take 2 = [1, 1 / 36] ∧ absSum 1 ((intE 0 boseEven).drop 2) ≤ 1 := by
  decide +kernel

set_option maxRecDepth 100000 in
theorem debye2_head : (smul 2 (intE 1 boseEven)).take 2 = [1, 1 / 24] ∧
    absSum 1 ((smul 2 (intE 1 boseEven)).drop 2) ≤ 1 := by
  decide +kernel

theorem eval_take_two (p : List ℚ) (a b : ℚ) (h : p.take 2 = [a, b]) (z : ℝ) :
    eval p z = a + b * z + z ^ 2 * eval (p.drop 2) z := by
  conv_lhs => rw [← List.take_append_drop 2 p, h]
  simp
  ring

theorem eval_near_zero (p : List ℚ) (a b : ℚ) (h : p.take 2 = [a, b]) (h1 : absSum 1 (p.drop 2) ≤ 1)
    {x : ℝ} (h0 : 0 < x) (hx : x ≤ 1 / 10 ^ 7) : |eval p (x ^ 2) - (a + b * x ^ 2)| ≤ 1 / 10 ^ 28 := by
  have hz : x ^ 2 ≤ 1 / 10 ^ 14 := by
    have := pow_le_pow_left₀ h0.le hx 2
    norm_num at this ⊢
    linarith
  have he : |eval (p.drop 2) (x ^ 2)| ≤ 1 := by
    have := abs_eval_le (c := 1) (t := x ^ 2) (by
      rw [abs_of_nonneg (by positivity)]; push_cast; linarith) (p.drop 2)
    exact this.trans (by exact_mod_cast h1)
  rw [eval_take_two p a b h, add_sub_cancel_left, abs_mul, abs_of_nonneg (by positivity)]
  have hz2 : (x ^ 2) ^ 2 ≤ (1 / 10 ^ 14) ^ 2 := pow_le_pow_left₀ (by positivity) hz 2
  calc (x ^ 2) ^ 2 * |eval (p.drop 2) (x ^ 2)| ≤ (x ^ 2) ^ 2 * 1 := by gcongr
    _ ≤ (1 / 10 ^ 14) ^ 2 := by rw [mul_one]; exact hz2
    _ = 1 / 10 ^ 28 := by norm_num

theorem debye1_small {x : ℝ} (h0 : 0 < x) (hx : x < 2 * cSQRTEPS) :
    |1 - 0.25 * x + x ^ 2 / 36 - Spec.debye1 x| ≤ 1 / 10 ^ 18 := by
  have hx' : x ≤ 1 / 10 ^ 7 := by
    unfold cSQRTEPS at hx
    norm_num at hx ⊢
    linarith
  have h1 := eval_near_zero _ _ _ debye1_head.1 debye1_head.2 h0 hx'
  have h2 := debye1_poly h0 (by linarith)
  push_cast at h1
  rw [abs_le] at *
  constructor <;> linarith [h1.1, h1.2, h2.1, h2.2]

theorem debye2_small {x : ℝ} (h0 : 0 < x) (hx : x < 2 * cSQRT2 * cSQRTEPS) :
    |1 - x / 3 + x ^ 2 / 24 - Spec.debye2 x| ≤ 1 / 10 ^ 18 := by
  have hx' : x ≤ 1 / 10 ^ 7 := by
    unfold cSQRTEPS cSQRT2 at hx
    norm_num at hx ⊢
    linarith
  have h1 := eval_near_zero _ _ _ debye2_head.1 debye2_head.2 h0 hx'
  have h2 := debye2_poly h0 (by linarith)
  rw [eval_smul] at h1
  push_cast at h1
  rw [abs_le] at *
  constructor <;> linarith [h1.1, h1.2, h2.1, h2.2]

/-! ### The exponential branches -/

theorem horner_sum (r : ℝ) (t : ℕ → ℝ) (n s : ℕ) :
    (List.range' s n).foldr (fun i total => total * r + t i) 0 = ∑ j ∈ Finset.range n, r ^ j * t (s + j) := by
  induction n generalizing s with
  | zero => simp
  | succ n ih =>
    rw [List.range'_succ, List.foldr_cons, ih, Finset.sum_range_succ', Finset.sum_mul]
    congr 1
    · refine Finset.sum_congr rfl fun j _ => ?_
      rw [show s + 1 + j = s + (j + 1) by ring]
      ring
    · simp

theorem loop_sum (r : ℝ) (t : ℕ → ℝ) (n : ℕ) :
    ((List.range n).map (· + 1)).reverse.foldl (fun total i => total * r + t i) 0 * r =
      ∑ j ∈ Finset.range n, r ^ (j + 1) * t (j + 1) := by
  have e : (List.range n).map (· + 1) = List.range' 1 n := by
    rw [List.range'_eq_map_range]
    exact List.map_congr_left fun a _ => add_comm a 1
  rw [List.foldl_reverse, e, horner_sum, Finset.sum_mul]
  refine Finset.sum_congr rfl fun j _ => ?_
  rw [add_comm 1 j]
  ring

theorem exp_pow_succ (x : ℝ) (j : ℕ) : Real.exp (-x) ^ (j + 1) = Real.exp (-((j : ℝ) + 1) * x) := by
  rw [← Real.exp_nat_mul]
  congr 1
  push_cast
  ring

theorem nexp_large {x : ℝ} (h4 : 4 < x) : 50 ≤ ((⌊-cLOGMIN / x⌋₊ : ℝ) + 1) * x := by
  have h1 := Nat.lt_floor_add_one (-cLOGMIN / x)
  rw [div_lt_iff₀ (by linarith)] at h1
  have : (50 : ℝ) ≤ -cLOGMIN := by unfold cLOGMIN; norm_num
  linarith

theorem debye1_series_close {x : ℝ} (h4 : 4 < x) : |debye1Series x - Spec.debye1 x| ≤ 2 / 10 ^ 18 := by
  have h1 := debye1_tail h4.le ⌊-cLOGMIN / x⌋₊
  have h2 := exp_neg_small (nexp_large h4)
  have hx0 : 0 < x := by linarith
  have e : debye1Series x = 1.64493406684822644 / x - ∑ n ∈ Finset.range ⌊-cLOGMIN / x⌋₊,
        Real.exp (-((n : ℝ) + 1) * x) * (1 / (n + 1) + 1 / (x * (n + 1) ^ 2)) := by
    unfold debye1Series
    simp only
    congr 1
    have := loop_sum (Real.exp (-x)) (fun i => (1 + 1 / (x * i)) / i) ⌊-cLOGMIN / x⌋₊
    unfold debye1Step
    rw [this]
    refine Finset.sum_congr rfl fun j _ => ?_
    rw [exp_pow_succ]
    congr 1
    push_cast
    field_simp
  have h3 : |1.64493406684822644 / x - Real.pi ^ 2 / 6 / x| ≤ 1 / 10 ^ 18 := by
    rw [← sub_div, abs_div, abs_of_pos hx0, div_le_iff₀ hx0]
    refine pi_sq_const.trans ?_
    linarith
  rw [neg_mul_eq_neg_mul] at h2
  rw [e]
  rw [abs_le] at *
  constructor <;> linarith [h1.1, h1.2, h3.1, h3.2]

theorem debye1_big {x : ℝ} (h : -(cLN2 + cLOGEPS) < x) :
    |(1.64493406684822644 - Real.exp (-x) * (x + 1)) / x - Spec.debye1 x| ≤ 2 / 10 ^ 18 := by
  have h35 : 35 ≤ x := by unfold cLN2 cLOGEPS at h; norm_num at h; linarith
  have h1 := debye1_tail (by linarith) 1
  have h2 := exp_neg_small (y := 2 * x) (by linarith)
  have hx0 : 0 < x := by linarith
  have h3 : |1.64493406684822644 / x - Real.pi ^ 2 / 6 / x| ≤ 1 / 10 ^ 18 := by
    rw [← sub_div, abs_div, abs_of_pos hx0, div_le_iff₀ hx0]
    refine pi_sq_const.trans ?_
    linarith
  have e : (1.64493406684822644 - Real.exp (-x) * (x + 1)) / x =
      1.64493406684822644 / x - Real.exp (-x) * (1 + 1 / x) := by field_simp
  rw [e]
  simp only [Finset.sum_range_one, Nat.cast_zero, Nat.cast_one, zero_add, one_pow, mul_one, div_one] at h1
  rw [show (-1 : ℝ) * x = -x by ring, show (-(1 + 1) : ℝ) * x = -(2 * x) by ring] at h1
  rw [abs_le] at *
  constructor <;> linarith [h1.1, h1.2, h3.1, h3.2]

theorem debye1_huge {x : ℝ} (h : -cLOGMIN ≤ x) :
    |1.64493406684822644 / x - Spec.debye1 x| ≤ 2 / 10 ^ 18 := by
  have h35 : 700 ≤ x := by unfold cLOGMIN at h; norm_num at h; linarith
  have h1 := debye1_tail (by linarith) 0
  have h2 := exp_neg_small (y := x) (by linarith)
  have hx0 : 0 < x := by linarith
  have h3 : |1.64493406684822644 / x - Real.pi ^ 2 / 6 / x| ≤ 1 / 10 ^ 18 := by
    rw [← sub_div, abs_div, abs_of_pos hx0, div_le_iff₀ hx0]
    refine pi_sq_const.trans ?_
    linarith
  simp only [Finset.sum_range_zero, Nat.cast_zero, zero_add, sub_zero] at h1
  rw [show (-1 : ℝ) * x = -x by ring] at h1
  rw [abs_le] at *
  constructor <;> linarith [h1.1, h1.2, h3.1, h3.2]

theorem zeta3_hasSum : ∃ Z : ℝ, HasSum (fun n : ℕ => 1 / ((n : ℝ) + 1) ^ 3) Z ∧
    |4.80822761263837714 - 4 * Z| ≤ 4 / 10 ^ 18 := by
  have hs : Summable fun n : ℕ => 1 / ((n : ℝ) + 1) ^ 3 := by
    have := summable_inv_cube.mul_left (1 / 2)
    refine this.congr fun n => ?_
    ring
  refine ⟨_, hs.hasSum, ?_⟩
  have := zeta3_const hs.hasSum
  rw [abs_le]
  constructor <;> linarith [this.1, this.2]

theorem zeta3_div {Z x : ℝ} (hZ : |4.80822761263837714 - 4 * Z| ≤ 4 / 10 ^ 18) (h4 : 4 ≤ x) :
    |4.80822761263837714 / x ^ 2 - 4 * Z / x ^ 2| ≤ 1 / 10 ^ 18 := by
  have hx0 : 0 < x ^ 2 := by positivity
  rw [← sub_div, abs_div, abs_of_pos hx0, div_le_iff₀ hx0]
  refine hZ.trans ?_
  nlinarith

theorem debye2_series_close {x : ℝ} (h4 : 4 < x) : |debye2Series x - Spec.debye2 x| ≤ 2 / 10 ^ 18 := by
  obtain ⟨Z, hZ, hc⟩ := zeta3_hasSum
  have h1 := debye2_tail h4.le hZ ⌊-cLOGMIN / x⌋₊
  have h2 := exp_neg_small (nexp_large h4)
  have hx0 : 0 < x := by linarith
  have e : debye2Series x = 4.80822761263837714 / x ^ 2 - 2 * ∑ n ∈ Finset.range ⌊-cLOGMIN / x⌋₊,
        Real.exp (-((n : ℝ) + 1) * x) *
          (1 / (n + 1) + 2 / (x * (n + 1) ^ 2) + 2 / (x ^ 2 * (n + 1) ^ 3)) := by
    unfold debye2Series
    simp only
    congr 1
    have := loop_sum (Real.exp (-x)) (fun i => (1 + 2 / (x * i) + 2 / (x * i) ^ 2) / i) ⌊-cLOGMIN / x⌋₊
    unfold debye2Step
    rw [mul_assoc, this]
    congr 1
    refine Finset.sum_congr rfl fun j _ => ?_
    rw [exp_pow_succ]
    congr 1
    push_cast
    field_simp
  have h3 := zeta3_div hc h4.le
  rw [neg_mul_eq_neg_mul] at h2
  rw [e]
  rw [abs_le] at *
  constructor <;> linarith [h1.1, h1.2, h3.1, h3.2]

theorem debye2_big {x : ℝ} (h : -(cLN2 + cLOGEPS) ≤ x) :
    |(4.80822761263837714 - 2 * (2 + 2 * x + x ^ 2) * Real.exp (-x)) / x ^ 2 - Spec.debye2 x| ≤ 2 / 10 ^ 18 := by
  have h35 : 35 ≤ x := by unfold cLN2 cLOGEPS at h; norm_num at h; linarith
  obtain ⟨Z, hZ, hc⟩ := zeta3_hasSum
  have h1 := debye2_tail (by linarith : 4 ≤ x) hZ 1
  have h2 := exp_neg_small (y := 2 * x) (by linarith)
  have hx0 : 0 < x := by linarith
  have h3 := zeta3_div hc (by linarith : 4 ≤ x)
  have e : (4.80822761263837714 - 2 * (2 + 2 * x + x ^ 2) * Real.exp (-x)) / x ^ 2 =
      4.80822761263837714 / x ^ 2 - 2 * (Real.exp (-x) * (1 + 2 / x + 2 / x ^ 2)) := by field_simp; ring
  rw [e]
  simp only [Finset.sum_range_one, Nat.cast_zero, Nat.cast_one, zero_add, one_pow, mul_one, div_one] at h1
  rw [show (-1 : ℝ) * x = -x by ring, show (-(1 + 1) : ℝ) * x = -(2 * x) by ring] at h1
  rw [abs_le] at *
  constructor <;> linarith [h1.1, h1.2, h3.1, h3.2]

theorem debye2_huge {x : ℝ} (h : -cLOGMIN ≤ x) :
    |4.80822761263837714 / x ^ 2 - Spec.debye2 x| ≤ 2 / 10 ^ 18 := by
  have h35 : 700 ≤ x := by unfold cLOGMIN at h; norm_num at h; linarith
  obtain ⟨Z, hZ, hc⟩ := zeta3_hasSum
  have h1 := debye2_tail (by linarith : 4 ≤ x) hZ 0
  have h2 := exp_neg_small (y := x) (by linarith)
  have h3 := zeta3_div hc (by linarith : 4 ≤ x)
  simp only [Finset.sum_range_zero, Nat.cast_zero, zero_add, mul_zero, sub_zero] at h1
  rw [show (-1 : ℝ) * x = -x by ring] at h1
  rw [abs_le] at *
  constructor <;> linarith [h1.1, h1.2, h3.1, h3.2]

/-! ### C94 -/

/-- C94: for every positive real argument `debye_1` (with exact arithmetic) is within 2e-18 of the
first Debye function. -/
theorem debye1K_accurate {x : ℝ} (h0 : 0 < x) :
    ∃ v : ℝ, debye1K (.fin x) = .fin v ∧ |v - Spec.debye1 x| ≤ 2 / 10 ^ 18 := by
  have two : (1 : ℝ) / 10 ^ 18 ≤ 2 / 10 ^ 18 := by norm_num
  unfold debye1K
  simp only
  rw [if_neg (by linarith)]
  split_ifs with a b c d
  · exact ⟨_, rfl, (debye1_small h0 a).trans two⟩
  · exact ⟨_, rfl, (debye1_mid h0 b).trans two⟩
  · exact ⟨_, rfl, debye1_series_close (by linarith)⟩
  · exact ⟨_, rfl, debye1_big (by linarith)⟩
  · exact ⟨_, rfl, debye1_huge (by linarith)⟩

/-- C94: the same for `debye_2`. -/
theorem debye2K_accurate {x : ℝ} (h0 : 0 < x) :
    ∃ v : ℝ, debye2K (.fin x) = .fin v ∧ |v - Spec.debye2 x| ≤ 2 / 10 ^ 18 := by
  have two : (1 : ℝ) / 10 ^ 18 ≤ 2 / 10 ^ 18 := by norm_num
  unfold debye2K
  simp only
  rw [if_neg (by linarith)]
  split_ifs with a b c d
  · exact ⟨_, rfl, (debye2_small h0 a).trans two⟩
  · exact ⟨_, rfl, (debye2_mid h0 b).trans two⟩
  · exact ⟨_, rfl, debye2_series_close (by linarith)⟩
  · exact ⟨_, rfl, debye2_big (by linarith)⟩
  · exact ⟨_, rfl, debye2_huge (by linarith)⟩

example := debye2K_accurate (x := 5) (by norm_num)

/-- C94: the remaining arguments: the limit 1 at zero, the limit 0 at infinity, NaN below zero. -/
theorem debyeK_ends :
    debye1K (.fin 0) = .fin 1 ∧ debye2K (.fin 0) = .fin 1 ∧ debye1K .pinf = .fin 0 ∧ debye2K .pinf = .fin 0 ∧
      ∀ x : ℝ, x < 0 → debye1K (.fin x) = .nan ∧ debye2K (.fin x) = .nan := by
  refine ⟨?_, ?_, rfl, rfl, fun x hx => ⟨by simp [debye1K, hx], by simp [debye2K, hx]⟩⟩
  · have : (0 : ℝ) < 2 * cSQRTEPS := by unfold cSQRTEPS; norm_num
    simp [debye1K, this]
  · have : (0 : ℝ) < 2 * cSQRT2 * cSQRTEPS := by unfold cSQRTEPS cSQRT2; norm_num
    simp [debye2K, this]

/-- The approximation is not the identity of two notations: at 4 the code switches from the Chebyshev
series to the exponential series, and the values on both sides agree to 4e-18. -/
example (x : ℝ) (hx : 4 < x) : ∃ v w : ℝ, debye1K (.fin 4) = .fin v ∧ debye1K (.fin x) = .fin w ∧
    |v - w| ≤ |Spec.debye1 4 - Spec.debye1 x| + 4 / 10 ^ 18 := by
  obtain ⟨v, hv, h1⟩ := debye1K_accurate (x := 4) (by norm_num)
  obtain ⟨w, hw, h2⟩ := debye1K_accurate (x := x) (by linarith)
  refine ⟨v, w, hv, hw, ?_⟩
  have e : v - w = (v - Spec.debye1 4) + (Spec.debye1 4 - Spec.debye1 x) - (w - Spec.debye1 x) := by ring
  rw [e]
  have := abs_sub (v - Spec.debye1 4 + (Spec.debye1 4 - Spec.debye1 x)) (w - Spec.debye1 x)
  have := abs_add_le (v - Spec.debye1 4) (Spec.debye1 4 - Spec.debye1 x)
  linarith

end Copulae
