import Verif.Props.SpecFunc
import Verif.Props.DebyeAccuracy
import Verif.Lemmas.Clausen

/-!
C132: `clausen` computes the Clausen function of its documentation.
-/

namespace Copulae

open LP Polynomial

/-! ### Chebyshev series just outside the interval -/

theorem cheb_hyp {y s : ℝ} (h : s ^ 2 = y ^ 2 - 1) (n : ℕ) :
    (Chebyshev.T ℝ (n : ℤ)).eval y = ((y + s) ^ n + (y - s) ^ n) / 2 ∧
      (Chebyshev.T ℝ ((n : ℤ) + 1)).eval y = ((y + s) ^ (n + 1) + (y - s) ^ (n + 1)) / 2 := by
  induction n with
  | zero => simp
  | succ n ih =>
    have hT := Chebyshev.T_add_two ℝ (n : ℤ)
    push_cast
    refine ⟨ih.2, ?_⟩
    rw [show (n : ℤ) + 1 + 1 = n + 2 by ring, hT]
    simp only [Polynomial.eval_sub, Polynomial.eval_mul, Polynomial.eval_X, Polynomial.eval_ofNat]
    rw [ih.1, ih.2]
    have e1 : (y + s) ^ (n + 1 + 1) = (y + s) ^ n * (2 * y * (y + s) - 1) := by
      rw [pow_succ, pow_succ, mul_assoc]
      congr 1
      linear_combination h
    have e2 : (y - s) ^ (n + 1 + 1) = (y - s) ^ n * (2 * y * (y - s) - 1) := by
      rw [pow_succ, pow_succ, mul_assoc]
      congr 1
      linear_combination h
    rw [e1, e2, pow_succ, pow_succ]
    ring

theorem abs_T_le {y : ℝ} (h0 : -1 ≤ y) (h1 : y ≤ 1 + 1 / 10 ^ 7) (n : ℕ) :
    |(Chebyshev.T ℝ (n : ℤ)).eval y| ≤ (1001 / 1000 : ℝ) ^ n := by
  rcases le_total y 1 with h | h
  · refine (Chebyshev.abs_eval_T_real_le_one n (abs_le.mpr ⟨h0, h⟩)).trans ?_
    exact one_le_pow₀ (by norm_num)
  · have hs : Real.sqrt (y ^ 2 - 1) ^ 2 = y ^ 2 - 1 := Real.sq_sqrt (by nlinarith)
    rw [(cheb_hyp hs n).1]
    have hs0 := Real.sqrt_nonneg (y ^ 2 - 1)
    have hsy : Real.sqrt (y ^ 2 - 1) ≤ y := by
      rw [Real.sqrt_le_left (by linarith)]
      linarith
    have hs1 : Real.sqrt (y ^ 2 - 1) ≤ 6 / 10 ^ 4 := by
      rw [Real.sqrt_le_left (by norm_num)]
      nlinarith
    have ha : y + Real.sqrt (y ^ 2 - 1) ≤ 1001 / 1000 := by linarith
    have hb : y - Real.sqrt (y ^ 2 - 1) ≤ 1001 / 1000 := by linarith
    have h1 : (y + Real.sqrt (y ^ 2 - 1)) ^ n ≤ (1001 / 1000 : ℝ) ^ n := pow_le_pow_left₀ (by linarith) ha n
    have h2 : (y - Real.sqrt (y ^ 2 - 1)) ^ n ≤ (1001 / 1000 : ℝ) ^ n := pow_le_pow_left₀ (by linarith) hb n
    have h3 : 0 ≤ (y + Real.sqrt (y ^ 2 - 1)) ^ n := pow_nonneg (by linarith) n
    have h4 : 0 ≤ (y - Real.sqrt (y ^ 2 - 1)) ^ n := pow_nonneg (by linarith) n
    rw [abs_of_nonneg (by linarith)]
    linarith

theorem abs_cheb_wide {y : ℝ} (h0 : -1 ≤ y) (h1 : y ≤ 1 + 1 / 10 ^ 7) (m : ℕ) (l : List ℚ) :
    |cheb y m l| ≤ (1001 / 1000 : ℝ) ^ m * absSum (1001 / 1000) l := by
  induction l generalizing m with
  | nil => simp [cheb, absSum]
  | cons a l ih =>
    have hT := abs_T_le h0 h1 m
    calc |cheb y m (a :: l)| ≤ |(a : ℝ)| * |(Chebyshev.T ℝ (m : ℤ)).eval y| + |cheb y (m + 1) l| := by
          rw [← abs_mul]; exact abs_add_le _ _
      _ ≤ |(a : ℝ)| * (1001 / 1000 : ℝ) ^ m + (1001 / 1000 : ℝ) ^ (m + 1) * absSum (1001 / 1000) l := by
          gcongr; exact ih _
      _ = (1001 / 1000 : ℝ) ^ m * ((absSum (1001 / 1000) (a :: l) : ℚ) : ℝ) := by
          simp only [absSum, List.foldr_cons]
          push_cast
          ring

/-! ### The first half period -/

/-- The coefficients of the code, as rational numbers. -/
def clausenQ : List ℚ :=
  [2.142694363766688447e+00, 0.723324281221257925e-01, 0.101642475021151164e-02,
    0.3245250328531645e-04, 0.133315187571472e-05, 0.6213240591653e-07, 0.313004135337e-08,
    0.16635723056e-09, 0.919659293e-11, 0.52400462e-12, 0.3058040e-13, 0.18197e-14, 0.1100e-15,
    0.68e-17, 0.4e-18]

theorem clausenQ_cast : clausenConstants = clausenQ.map ((↑) : ℚ → ℝ) := by
  simp only [clausenConstants, clausenQ, List.map_cons, List.map_nil]
  push_cast
  rfl

set_option maxRecDepth 100000 in
theorem clausen_coeff : absSum (1001 / 1000)
    (add (toCheb (scale (3.14159265358979323846264338328 ^ 2 / 2) clausenP)) (smul (-1) (halfHead clausenQ)))
      ≤ 29 / 10 ^ 20 := by decide +kernel

set_option maxRecDepth 100000 in
theorem clausenP_small : absSum 1 clausenP.tail ≤ 1 := by decide +kernel

theorem clausen_cheb {x : ℝ} (h0 : 0 ≤ x) (h1 : x ≤ cPI + 1 / 10 ^ 8) :
    |eval clausenP (x ^ 2) - chebEval clausenConstants (2 * (x * x / cPI ^ 2 - 0.5)) (-1) 1| ≤ 29 / 10 ^ 20 := by
  have hP := cPI_pos
  set y : ℝ := 2 * (x * x / cPI ^ 2 - 0.5) with hy
  have hy0 : -1 ≤ y := by
    have : 0 ≤ x * x / cPI ^ 2 := by positivity
    rw [hy]
    linarith
  have hy1 : y ≤ 1 + 1 / 10 ^ 7 := by
    have : x * x / cPI ^ 2 ≤ 1 + 1 / (2 * 10 ^ 7) := by
      rw [div_le_iff₀ (by positivity)]
      have h2 : x * x ≤ (cPI + 1 / 10 ^ 8) * (cPI + 1 / 10 ^ 8) := by gcongr
      refine h2.trans ?_
      unfold cPI
      norm_num
    rw [hy]
    norm_num at this ⊢
    linarith
  have e : eval clausenP (x ^ 2) = cheb y 0 (toCheb (scale (3.14159265358979323846264338328 ^ 2 / 2) clausenP)) := by
    rw [cheb_toCheb, eval_scale]
    congr 1
    rw [hy]
    have : ((3.14159265358979323846264338328 ^ 2 / 2 : ℚ) : ℝ) = cPI ^ 2 / 2 := by
      unfold cPI
      push_cast
      rfl
    rw [this]
    field_simp
    ring
  rw [clausenQ_cast, chebEval_half (by simp [clausenQ]), e]
  have h := abs_cheb_wide hy0 hy1 0
    (add (toCheb (scale (3.14159265358979323846264338328 ^ 2 / 2) clausenP)) (smul (-1) (halfHead clausenQ)))
  rw [cheb_add, cheb_smul, pow_zero, one_mul] at h
  push_cast at h
  rw [sub_eq_add_neg, ← neg_one_mul]
  refine h.trans ?_
  have := (Rat.cast_le (K := ℝ)).mpr clausen_coeff
  push_cast at this
  exact this

theorem clausenCore_close {x : ℝ} (h0 : 0 ≤ x) (h1 : x ≤ cPI + 1 / 10 ^ 8) :
    ∃ v, clausenCore (.fin x) 1 = .fin v ∧ |v - Spec.clausen x| ≤ 1 / 10 ^ 18 := by
  have hP := cPI_pos
  have h16 : x ≤ 3.1416 := h1.trans (by unfold cPI; norm_num)
  rcases h0.eq_or_lt with rfl | hpos
  · refine ⟨0, by simp [clausenCore], ?_⟩
    simp [Spec.clausen]
  have hp := clausen_poly h0 (by norm_num at h16 ⊢; linarith)
  simp only [clausenCore]
  rw [if_neg hpos.ne']
  split_ifs with hc
  · refine ⟨x * (1 - Real.log x), ?_, ?_⟩
    · rw [Fl.log_pos hpos, Fl.fin_sub_fin, Fl.fin_mul_fin, Fl.fin_mul_fin, mul_one]
    · have hx : x ≤ 1 / 10 ^ 15 := hc.le.trans (by unfold cPI cEPS; norm_num)
      have e : eval clausenP (x ^ 2) = 1 + x ^ 2 * eval clausenP.tail (x ^ 2) := by simp [clausenP]
      have hx2 : x ^ 2 ≤ 1 / 10 ^ 30 := by
        have := pow_le_pow_left₀ h0 hx 2
        norm_num at this ⊢
        linarith
      have ht : |eval clausenP.tail (x ^ 2)| ≤ 1 := by
        have := abs_eval_small (c := 1) (t := x ^ 2) (by
          rw [abs_of_nonneg (by positivity)]; push_cast; linarith) clausenP_small
        exact_mod_cast this
      have hxt : |x ^ 2 * eval clausenP.tail (x ^ 2)| ≤ 1 / 10 ^ 30 := by
        rw [abs_mul, abs_of_nonneg (by positivity)]
        calc _ ≤ x ^ 2 * 1 := by gcongr
          _ ≤ _ := by linarith
      rw [e] at hp
      generalize x ^ 2 * eval clausenP.tail (x ^ 2) = r at *
      have e2 : x * (1 - Real.log x) - Spec.clausen x =
          -(Spec.clausen x - x * (1 + r - Real.log x)) - x * r := by ring
      rw [e2]
      have h3 : |x * r| ≤ 1 * (1 / 10 ^ 30) := by
        rw [abs_mul, abs_of_pos hpos]
        gcongr
        linarith
      have h4 : x * (7 / 10 ^ 27) ≤ 1 * (7 / 10 ^ 27) := by gcongr; linarith
      have h5 := abs_sub (-(Spec.clausen x - x * (1 + r - Real.log x))) (x * r)
      rw [abs_neg] at h5
      have : (1 : ℝ) * (7 / 10 ^ 27) + 1 * (1 / 10 ^ 30) ≤ 1 / 10 ^ 18 := by norm_num
      linarith
  · set sr := chebEval clausenConstants (2 * (x * x / cPI ^ 2 - 0.5)) (-1) 1 with hsr
    refine ⟨x * (sr - Real.log x), ?_, ?_⟩
    · rw [Fl.log_pos hpos, Fl.fin_sub_fin, Fl.fin_mul_fin, Fl.fin_mul_fin, mul_one]
    · have hq := clausen_cheb h0 h1
      rw [← hsr] at hq
      have e2 : x * (sr - Real.log x) - Spec.clausen x =
          -(Spec.clausen x - x * (eval clausenP (x ^ 2) - Real.log x)) - x * (eval clausenP (x ^ 2) - sr) := by ring
      rw [e2]
      have h3 : |x * (eval clausenP (x ^ 2) - sr)| ≤ 3.1416 * (29 / 10 ^ 20) := by
        rw [abs_mul, abs_of_pos hpos]
        gcongr
      have h4 : x * (7 / 10 ^ 27) ≤ 3.1416 * (7 / 10 ^ 27) := by gcongr
      have h5 := abs_sub (-(Spec.clausen x - x * (eval clausenP (x ^ 2) - Real.log x)))
        (x * (eval clausenP (x ^ 2) - sr))
      rw [abs_neg] at h5
      have : (3.1416 : ℝ) * (7 / 10 ^ 27) + 3.1416 * (29 / 10 ^ 20) ≤ 1 / 10 ^ 18 := by norm_num
      linarith

/-! ### Continuity of the Clausen function -/

theorem log_eps : -Real.log (2 / 10 ^ 20) ≤ 47 := by
  rw [← Real.log_inv, Real.log_le_iff_le_exp (by norm_num), show (47 : ℝ) = ((47 : ℕ) : ℝ) * 1 by norm_num, Real.exp_nat_mul]
  calc ((2 : ℝ) / 10 ^ 20)⁻¹ ≤ 2.7 ^ 47 := by norm_num
    _ ≤ Real.exp 1 ^ 47 := by
      gcongr
      linarith [Real.exp_one_gt_d9]

set_option maxRecDepth 100000 in
theorem sincK_abs : absSum (1024 / 100) sincK ≤ 1 := by decide +kernel

theorem clausen_modulus {a d : ℝ} (ha : 0 ≤ a) (hd : 0 ≤ d) (he : d ≤ 2 / 10 ^ 20) (hb : a + d ≤ 16 / 5) :
    |Spec.clausen (a + d) - Spec.clausen a| ≤ 13 / 10 ^ 19 := by
  rcases hd.eq_or_lt with rfl | hd0
  · rw [add_zero, sub_self, abs_zero]; norm_num
  have hi : ∀ x : ℝ, 0 ≤ x → x ≤ 16 / 5 → IntervalIntegrable sincLog MeasureTheory.volume 0 x := fun x h0 h2 => by
    refine ContinuousOn.intervalIntegrable ?_
    rw [Set.uIcc_of_le h0]
    exact sincLog_continuousOn.mono (Set.Icc_subset_Icc le_rfl h2)
  have hI : ∫ t in a..(a + d), sincLog t = (∫ t in (0 : ℝ)..(a + d), sincLog t) - ∫ t in (0 : ℝ)..a, sincLog t :=
    (intervalIntegral.integral_interval_sub_left (hi _ (by linarith) hb) (hi _ ha (by linarith))).symm
  have hbd : |∫ t in a..(a + d), sincLog t| ≤ 12 * d := by
    have h := intervalIntegral.norm_integral_le_of_norm_le_const (a := a) (b := a + d) (C := 12) (f := sincLog)
      (fun t ht => by
        rw [Set.uIoc_of_le (by linarith)] at ht
        have ht0 : 0 ≤ t := by linarith [ht.1]
        have ht2 : t ≤ 16 / 5 := ht.2.trans hb
        have h1 := sincLog_close ht0 ht2
        have hz : t ^ 2 ≤ 1024 / 100 := by nlinarith
        have h2 := abs_eval_small (t := t ^ 2) (c := 1024 / 100) (by
          rw [abs_of_nonneg (by positivity)]; push_cast; exact hz) sincK_abs
        push_cast at h2
        have h3 : |t ^ 2 * eval sincK (t ^ 2)| ≤ 1024 / 100 * 1 := by
          rw [abs_mul, abs_of_nonneg (by positivity : (0 : ℝ) ≤ t ^ 2)]
          gcongr
        rw [Real.norm_eq_abs, abs_le]
        rw [abs_le] at h1 h3
        constructor <;> linarith [h1.1, h1.2, h3.1, h3.2])
    rwa [add_sub_cancel_left, abs_of_pos hd0, Real.norm_eq_abs] at h
  have hg : |(a + d - (a + d) * Real.log (a + d)) - (a - a * Real.log a)| ≤ 52 * (2 / 10 ^ 20) := by
    have hl1 : -(2 : ℝ) ≤ -Real.log (a + d) := by
      have := Real.log_le_sub_one_of_pos (by linarith : 0 < a + d)
      have h2 : Real.log (a + d) ≤ 2 := by
        rw [Real.log_le_iff_le_exp (by linarith)]
        have := Real.add_one_le_exp (2 : ℝ)
        have h3 := Real.quadratic_le_exp_of_nonneg (by norm_num : (0 : ℝ) ≤ 2)
        linarith
      linarith
    have hl2 : Real.log d ≤ Real.log (a + d) := Real.log_le_log hd0 (by linarith)
    have hl3 : -d * Real.log d ≤ 48 * (2 / 10 ^ 20) := by
      have h1 := Real.log_le_sub_one_of_pos (by positivity : 0 < (2 / 10 ^ 20) / d)
      rw [Real.log_div (by norm_num) hd0.ne'] at h1
      have h2 : d * (Real.log (2 / 10 ^ 20) - Real.log d) ≤ d * ((2 / 10 ^ 20) / d - 1) := by gcongr
      have h3 : d * ((2 / 10 ^ 20) / d - 1) = 2 / 10 ^ 20 - d := by field_simp
      have h4 : d * -Real.log (2 / 10 ^ 20) ≤ 2 / 10 ^ 20 * 47 := by
        calc _ ≤ d * 47 := by gcongr; exact log_eps
          _ ≤ _ := by gcongr
      nlinarith
    have hl4 : |a * Real.log a - a * Real.log (a + d)| ≤ d := by
      rcases ha.eq_or_lt with rfl | ha0
      · simpa using hd
      · have h1 := Real.log_le_sub_one_of_pos (by positivity : 0 < (a + d) / a)
        rw [Real.log_div (by positivity) ha0.ne'] at h1
        have h2 : a * (Real.log (a + d) - Real.log a) ≤ a * ((a + d) / a - 1) := by gcongr
        have h3 : a * ((a + d) / a - 1) = d := by field_simp; ring
        have h4 : a * Real.log a ≤ a * Real.log (a + d) := by gcongr; linarith
        rw [abs_le]
        constructor <;> linarith
    have h5 : d * Real.log d ≤ d * Real.log (a + d) := by gcongr
    have h6 : d * Real.log (a + d) ≤ d * 2 := by gcongr; linarith
    rw [abs_le] at hl4 ⊢
    constructor <;> nlinarith [hl4.1, hl4.2]
  rw [clausen_sinc (by linarith) hb, clausen_sinc ha (by linarith)]
  have e : (a + d - (a + d) * Real.log (a + d) + ∫ t in (0 : ℝ)..(a + d), sincLog t) -
      (a - a * Real.log a + ∫ t in (0 : ℝ)..a, sincLog t) =
      ((a + d - (a + d) * Real.log (a + d)) - (a - a * Real.log a)) + ∫ t in a..(a + d), sincLog t := by
    rw [hI]; ring
  rw [e]
  refine (abs_add_le _ _).trans ?_
  have : 12 * d ≤ 12 * (2 / 10 ^ 20) := by gcongr
  have h2 : (52 : ℝ) * (2 / 10 ^ 20) + 12 * (2 / 10 ^ 20) ≤ 13 / 10 ^ 19 := by norm_num
  linarith

/-- Points which differ by less than 2e-20, one of them perhaps just below zero. -/
theorem clausen_near {a b : ℝ} (ha : 0 ≤ a) (ha2 : a ≤ 16 / 5) (hb2 : b ≤ 16 / 5) (h : |a - b| ≤ 2 / 10 ^ 20) :
    |Spec.clausen a - Spec.clausen b| ≤ 26 / 10 ^ 19 := by
  rw [abs_le] at h
  have w : (13 : ℝ) / 10 ^ 19 ≤ 26 / 10 ^ 19 := by norm_num
  rcases le_total 0 b with hb | hb
  · rcases le_total a b with hab | hab
    · have := clausen_modulus ha (by linarith : 0 ≤ b - a) (by linarith) (by linarith)
      rw [add_sub_cancel, abs_sub_comm] at this
      exact this.trans w
    · have := clausen_modulus hb (by linarith : 0 ≤ a - b) (by linarith) (by linarith)
      rw [add_sub_cancel] at this
      exact this.trans w
  · have h0 : Spec.clausen 0 = 0 := by simp [Spec.clausen]
    have h1 := clausen_modulus le_rfl ha (by linarith) (by linarith)
    have h2 := clausen_modulus le_rfl (by linarith : 0 ≤ -b) (by linarith) (by linarith)
    rw [zero_add, h0, sub_zero] at h1 h2
    rw [clausen_neg, abs_neg] at h2
    have := abs_sub (Spec.clausen a) (Spec.clausen b)
    norm_num at h1 h2 ⊢
    linarith

/-! ### C132 -/

theorem clausenK_first {x : ℝ} (h0 : 0 ≤ x) (h1 : x < 2 * cPI) :
    ∃ v, clausenK (.fin x) = .fin v ∧ |v - Spec.clausen x| ≤ 4 / 10 ^ 18 := by
  have hP := cPI_pos
  unfold clausenK
  simp only
  rw [if_neg (by linarith), angleRestrict_lt h0 h1]
  unfold clausenTail
  by_cases hc : cPI < x
  · rw [if_pos (by rw [gt_iff_lt, Fl.fin_lt_fin]; exact hc), Fl.fin_sub_fin, Fl.fin_add_fin, clausenCore_neg]
    have hz0 : 0 ≤ 6.28125 - x + 1.9353071795864769253e-03 := by
      unfold cPI at h1
      norm_num at h1 ⊢
      linarith
    have hz1 : 6.28125 - x + 1.9353071795864769253e-03 ≤ cPI + 1 / 10 ^ 8 := by
      unfold cPI at hc ⊢
      norm_num at hc ⊢
      linarith
    obtain ⟨v, hv, hd⟩ := clausenCore_close hz0 hz1
    refine ⟨-v, by rw [hv, Fl.neg_fin], ?_⟩
    have hnear : |(6.28125 - x + 1.9353071795864769253e-03) - (2 * Real.pi - x)| ≤ 2 / 10 ^ 20 := by
      have h3 := Real.pi_gt_d20
      have h4 := Real.pi_lt_d20
      rw [abs_le]
      constructor <;> norm_num at h3 h4 ⊢ <;> linarith
    have hn := clausen_near hz0 (hz1.trans (by unfold cPI; norm_num)) (by
      have h4 := Real.pi_lt_d2
      unfold cPI at hc
      norm_num at hc h4 ⊢
      linarith) hnear
    rw [clausen_reflect] at hn
    rw [abs_le] at *
    norm_num at hd hn ⊢
    constructor <;> linarith [hd.1, hd.2, hn.1, hn.2]
  · rw [if_neg (by rw [gt_iff_lt, Fl.fin_lt_fin]; exact hc)]
    obtain ⟨v, hv, hd⟩ := clausenCore_close h0 (by linarith)
    exact ⟨v, hv, hd.trans (by norm_num)⟩

/-- C132, the part that holds: for every argument between `-2 PI` and `2 PI` (the constant of the code) `clausen`, in
exact arithmetic, is within 4e-18 of the integral of the documentation. Missing: the arguments outside
(`clausen_value_violation`). -/
theorem clausen_accurate_partial {x : ℝ} (h : |x| < 2 * cPI) :
    ∃ v, clausenK (.fin x) = .fin v ∧ |v - Spec.clausen x| ≤ 4 / 10 ^ 18 := by
  rcases le_total 0 x with h0 | h0
  · exact clausenK_first h0 (by rwa [abs_of_nonneg h0] at h)
  · obtain ⟨v, hv, hd⟩ := clausenK_first (x := -x) (by linarith) (by rwa [abs_of_nonpos h0] at h)
    have ho := clausen_odd (.fin (-x))
    rw [Fl.neg_fin, neg_neg, hv, Fl.neg_fin] at ho
    refine ⟨-v, ho, ?_⟩
    rw [clausen_neg] at hd
    rw [← abs_neg]
    convert hd using 2
    ring

example := clausen_accurate_partial (x := -6) (by unfold cPI; norm_num [abs_of_pos])

/-- The integral of the documentation has period `2 π`. -/
theorem clausen_spec_period (x : ℝ) : Spec.clausen (x + 2 * Real.pi) = Spec.clausen x := by
  have := clausen_reflect (-x)
  rw [clausen_neg, neg_neg] at this
  rw [← this]
  congr 1
  ring

/-- C132 is violated: at every argument from `2 PI` on the code returns NaN, although the integral is the number it
takes one period before, which the code can compute. -/
theorem clausen_value_violation {x : ℝ} (h0 : 0 ≤ x) (h1 : x < 2 * cPI) (h2 : 2 * cPI ≤ x + 2 * Real.pi) :
    clausenK (.fin (x + 2 * Real.pi)) = .nan ∧
      ∃ v, clausenK (.fin x) = .fin v ∧ |v - Spec.clausen (x + 2 * Real.pi)| ≤ 4 / 10 ^ 18 := by
  refine ⟨clausen_nan (by rw [abs_of_nonneg (by linarith [Real.pi_pos])]; exact h2), ?_⟩
  rw [clausen_spec_period]
  exact clausenK_first h0 h1

/-- Both theorems apply to a whole interval, and the values are not zero: at a right angle the code is near Catalan's
constant 0.9159..., and above 17/20. -/
example : ∃ v, clausenK (.fin (Real.pi / 2)) = .fin v ∧ 17 / 20 < v := by
  have hp := Real.pi_gt_d4
  have hp' := Real.pi_lt_d4
  obtain ⟨v, hv, hd⟩ := clausen_accurate_partial (x := Real.pi / 2) (by
    rw [abs_of_pos (by positivity)]
    unfold cPI
    norm_num at hp' ⊢
    linarith)
  refine ⟨v, hv, ?_⟩
  have hx : (0 : ℝ) ≤ Real.pi / 2 := by positivity
  have h1 := clausen_sinc hx (by linarith)
  have h2 : 0 ≤ ∫ t in (0 : ℝ)..(Real.pi / 2), sincLog t := by
    refine intervalIntegral.integral_nonneg hx fun t ht => ?_
    rw [sincLog, neg_nonneg]
    exact Real.log_nonpos (sinc_half_pos ht.1 (by linarith [ht.2])).le (Real.sinc_le_one _)
  have h3 : Real.log (Real.pi / 2) ≤ 456 / 1000 := by
    rw [Real.log_le_iff_le_exp (by positivity)]
    have := Real.sum_le_exp_of_nonneg (by norm_num : (0 : ℝ) ≤ 456 / 1000) 4
    norm_num [Finset.sum_range_succ, Nat.factorial] at this hp'
    linarith
  rw [abs_le] at hd
  norm_num at hp hd
  nlinarith

end Copulae
