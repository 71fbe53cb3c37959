import Verif.Lemmas.DilogSeries
import Verif.Model.FlAlg

/-!
C118: `dilog` computes the dilogarithm of every real number, on every branch of the code.
C119: `dilog` at NaN and at the infinities, and the logarithm of the polylogarithm of order two.
-/

namespace Copulae

open Set Filter Topology

theorem cPI_near : |cPI - Real.pi| ≤ 1e-20 := by
  have h1 := Real.pi_gt_d20
  have h2 := Real.pi_lt_d20
  rw [abs_le]
  unfold cPI
  constructor <;> norm_num at h1 h2 ⊢ <;> linarith

theorem cPI_sq : |cPI ^ 2 - Real.pi ^ 2| ≤ 1e-19 := by
  have h1 := Real.pi_gt_d20
  have h2 := Real.pi_lt_d20
  have h := abs_le.mp cPI_near
  have hc : cPI ≤ 3.15 := by norm_num [cPI]
  rw [show cPI ^ 2 - Real.pi ^ 2 = (cPI - Real.pi) * (cPI + Real.pi) by ring, abs_mul]
  have a : |cPI + Real.pi| ≤ 10 := by
    rw [abs_le]
    constructor <;> norm_num [cPI] at h1 h2 ⊢ <;> linarith
  calc |cPI - Real.pi| * |cPI + Real.pi| ≤ 1e-20 * 10 :=
        mul_le_mul cPI_near a (abs_nonneg _) (by norm_num)
    _ = 1e-19 := by norm_num

/-! ### The series around 1 -/

/-- The polynomial of the series around 1, in terms of the distance `e` to 1. -/
noncomputable def dilogNear (e : ℝ) : ℝ :=
  ∑ i ∈ Finset.range 8, (-1) ^ i * (e ^ (i + 1) / ((i : ℝ) + 1) ^ 2 - e ^ i * (e * Real.log e) / ((i : ℝ) + 1))

theorem dilogNear_fold {x : ℝ} :
    [8, 7, 6, 5, 4, 3, 2, 1].foldl (dilogNearStep x) 0 = dilogNear (x - 1) := by
  simp only [List.foldl_cons, List.foldl_nil, dilogNearStep, dilogNear, Finset.sum_range_succ,
    Finset.sum_range_zero]
  push_cast
  ring

theorem hasDerivAt_dilogNear {e : ℝ} (h : 0 < e) :
    HasDerivAt dilogNear (-Real.log e * ((1 - e ^ 8) / (1 + e))) e := by
  have hl : HasDerivAt (fun e => e * Real.log e) (Real.log e + 1) e := by
    simpa using Real.hasDerivAt_mul_log h.ne'
  have hi : ∀ i ∈ Finset.range 8, HasDerivAt
      (fun e : ℝ => (-1) ^ i * (e ^ (i + 1) / ((i : ℝ) + 1) ^ 2 - e ^ i * (e * Real.log e) / ((i : ℝ) + 1)))
      ((-1) ^ i * (-Real.log e * e ^ i)) e := by
    intro i _
    have d1 := (hasDerivAt_pow (i + 1) e).div_const (((i : ℝ) + 1) ^ 2)
    have d2 := ((hasDerivAt_pow i e).mul hl).div_const ((i : ℝ) + 1)
    refine ((d1.sub d2).const_mul ((-1) ^ i)).congr_deriv ?_
    have a : (i : ℝ) + 1 ≠ 0 := by positivity
    congr 1
    rcases i with _ | i
    · simp
    · push_cast
      push_cast at a
      field_simp
      ring
  have h8 := HasDerivAt.fun_sum hi
  refine h8.congr_deriv ?_
  have : 1 + e ≠ 0 := by positivity
  simp only [Finset.sum_range_succ, Finset.sum_range_zero]
  field_simp
  ring

theorem dilogNear_accuracy {x : ℝ} (h1 : 1 < x) (h2 : x ≤ 1.01) :
    |dilogNear (x - 1) + Real.pi ^ 2 / 6 - Spec.dilog x| ≤ 2e-17 := by
  set R : ℝ → ℝ := fun e => Spec.dilog (1 + e) - dilogNear e with hR
  have hc : Continuous R := by
    refine (continuous_dilog.comp (by fun_prop)).sub ?_
    unfold dilogNear
    have := Real.continuous_mul_log
    fun_prop
  have hd : ∀ e, 0 < e → HasDerivAt R (-(Real.log e * e ^ 8 / (1 + e))) e := by
    intro e he
    have d1 : HasDerivAt (fun e => Spec.dilog (1 + e)) (-(Real.log (1 - (1 + e)) / (1 + e)) * 1) e := by
      have h : HasDerivAt (fun e : ℝ => 1 + e) 1 e := by simpa using (hasDerivAt_id e).const_add 1
      exact (hasDerivAt_dilog (by positivity) (by linarith)).comp e h
    refine (d1.sub (hasDerivAt_dilogNear he)).congr_deriv ?_
    rw [show (1 : ℝ) - (1 + e) = -e by ring, Real.log_neg_eq_log]
    have : 1 + e ≠ 0 := by positivity
    field_simp
    ring
  have he : 0 < x - 1 := by linarith
  obtain ⟨c, hcm, h⟩ := exists_hasDerivAt_eq_slope R (fun e => -(Real.log e * e ^ 8 / (1 + e))) he hc.continuousOn
    fun e hm => hd e hm.1
  have c0 : 0 < c := hcm.1
  have c1 : c ≤ 0.01 := by have := hcm.2; norm_num at h2 ⊢; linarith
  have r0 : R 0 = Real.pi ^ 2 / 6 := by
    simp [hR, dilog_one, dilogNear]
  have rx : R (x - 1) = Spec.dilog x - dilogNear (x - 1) := by
    simp only [hR]
    rw [add_sub_cancel]
  rw [sub_zero, r0, rx, eq_div_iff he.ne'] at h
  have e : dilogNear (x - 1) + Real.pi ^ 2 / 6 - Spec.dilog x = Real.log c * c ^ 8 / (1 + c) * (x - 1) := by
    linarith
  rw [e, abs_mul, abs_div, abs_mul, abs_of_pos he, abs_of_pos (by positivity : 0 < c ^ 8),
    abs_of_pos (by positivity : 0 < 1 + c)]
  have hlog : |Real.log c| * c ≤ 0.2 := by
    rw [abs_of_nonpos (Real.log_nonpos c0.le (by linarith))]
    have hs : 0 < √c := Real.sqrt_pos.mpr c0
    have hsq : √c * √c = c := Real.mul_self_sqrt c0.le
    have hs1 : √c ≤ 0.1 := by
      rw [Real.sqrt_le_left (by norm_num)]
      norm_num at c1 ⊢
      linarith
    have hl : -Real.log c ≤ 2 * (√c)⁻¹ := by
      have := Real.log_le_sub_one_of_pos (inv_pos.mpr hs)
      rw [Real.log_inv] at this
      have hc2 : Real.log c = 2 * Real.log (√c) := by
        rw [Real.log_sqrt c0.le]
        ring
      rw [hc2]
      linarith
    calc -Real.log c * c ≤ 2 * (√c)⁻¹ * c := mul_le_mul_of_nonneg_right hl c0.le
      _ = 2 * (√c)⁻¹ * (√c * √c) := by rw [hsq]
      _ = 2 * √c := by field_simp
      _ ≤ 0.2 := by norm_num at hs1 ⊢; linarith
  have h7 : c ^ 7 ≤ 0.01 ^ 7 := pow_le_pow_left₀ c0.le c1 7
  have hb : |Real.log c| * c ^ 8 / (1 + c) ≤ 0.2 * 0.01 ^ 7 := by
    refine (div_le_self (by positivity) (by linarith)).trans ?_
    rw [pow_succ, mul_comm (c ^ 7) c, ← mul_assoc]
    exact mul_le_mul hlog h7 (by positivity) (by norm_num)
  calc |Real.log c| * c ^ 8 / (1 + c) * (x - 1) ≤ 0.2 * 0.01 ^ 7 * 0.01 :=
        mul_le_mul hb (by norm_num at h2 ⊢; linarith) he.le (by norm_num)
    _ = 2e-17 := by norm_num

/-! ### Next to 1 -/

theorem dilog_le_two_mul {x : ℝ} (h0 : 0 ≤ x) (h1 : x ≤ 1 / 2) : Spec.dilog x ≤ 2 * x := by
  have h := (dilog_tail1 h0 (by linarith) 0).2
  simp only [Finset.range_zero, Finset.sum_empty, sub_zero] at h
  refine h.trans ?_
  rw [div_le_iff₀ (by linarith)]
  simp [dilogTerm]
  nlinarith

theorem dilog_nonneg {x : ℝ} (h0 : 0 ≤ x) (h1 : x ≤ 1 / 2) : 0 ≤ Spec.dilog x := by
  have h := (dilog_tail1 h0 (by linarith) 0).1
  simpa using h

theorem dilog_at_one {x : ℝ} (h1 : x ≤ 1) (h2 : |x - 1| ≤ cEPS * 10) :
    |cPI ^ 2 / 6 - Spec.dilog x| ≤ 8.6e-14 := by
  have hp := abs_le.mp cPI_sq
  rcases h1.eq_or_lt with rfl | h1
  · rw [dilog_one, abs_le]
    constructor <;> norm_num at hp ⊢ <;> linarith
  set d := 1 - x with hd
  have d0 : 0 < d := by linarith
  have d1 : d ≤ 2.3e-15 := by
    rw [abs_of_neg (by linarith)] at h2
    norm_num [cEPS] at h2 ⊢
    linarith
  have d2 : d ≤ 1 / 2 := d1.trans (by norm_num)
  have hx : Spec.dilog x = Real.pi ^ 2 / 6 - Spec.dilog d - Real.log x * Real.log d := by
    rw [dilog_reflect (by linarith) h1]
  have hl : |Real.log x| ≤ d / (1 - d) := by
    rw [abs_of_nonpos (Real.log_nonpos (by linarith) h1.le)]
    have := Real.one_sub_inv_le_log_of_pos (show 0 < x by linarith)
    have e : d / (1 - d) = x⁻¹ - 1 := by
      have : x ≠ 0 := by linarith
      rw [hd, sub_sub_cancel, sub_div, div_self this, one_div]
    rw [e]
    linarith
  have hexp : Real.exp (-34) ≤ 2.3e-15 := by
    have h3 : (2.71828 : ℝ) ^ 34 ≤ Real.exp 1 ^ 34 := pow_le_pow_left₀ (by norm_num) (by
      have := Real.exp_one_gt_d9
      norm_num at this ⊢
      linarith) 34
    rw [← Real.exp_nat_mul] at h3
    rw [Real.exp_neg]
    have h4 : Real.exp ((34 : ℕ) * 1) = Real.exp 34 := by norm_num
    rw [h4] at h3
    refine (inv_anti₀ (by positivity) h3).trans (by norm_num)
  have hlogc : -34 ≤ Real.log 2.3e-15 := by
    rw [Real.le_log_iff_exp_le (by norm_num)]
    exact hexp
  have hld : d * -Real.log d ≤ 35 * 2.3e-15 := by
    have h3 := Real.log_le_sub_one_of_pos (show 0 < 2.3e-15 / d by positivity)
    rw [Real.log_div (by norm_num) d0.ne'] at h3
    have h4 : -Real.log d ≤ 2.3e-15 / d - 1 + 34 := by linarith
    calc d * -Real.log d ≤ d * (2.3e-15 / d - 1 + 34) := mul_le_mul_of_nonneg_left h4 d0.le
      _ = 2.3e-15 + 33 * d := by field_simp; ring
      _ ≤ 35 * 2.3e-15 := by norm_num at d1 ⊢; linarith
  have hlogd : Real.log d ≤ 0 := Real.log_nonpos d0.le (by linarith)
  have hprod : |Real.log x * Real.log d| ≤ 8.1e-14 := by
    rw [abs_mul, abs_of_nonpos hlogd]
    calc |Real.log x| * -Real.log d ≤ d / (1 - d) * -Real.log d :=
          mul_le_mul_of_nonneg_right hl (by linarith)
      _ = d * -Real.log d / (1 - d) := by ring
      _ ≤ 35 * 2.3e-15 / (1 - 2.3e-15) := by
          have : 1 - d ≥ 1 - 2.3e-15 := by linarith
          have h0 : (0 : ℝ) < 1 - 2.3e-15 := by norm_num
          gcongr
      _ ≤ 8.1e-14 := by norm_num
  have hs0 := dilog_nonneg d0.le d2
  have hs1 := dilog_le_two_mul d0.le d2
  have hpr := abs_le.mp hprod
  rw [hx, abs_le]
  constructor <;> norm_num at hp d1 hpr ⊢ <;> linarith

/-! ### All branches -/

/-- `dilog_xge0` of nonnegative numbers. -/
theorem dilogXge0_accuracy {x : ℝ} (h0 : 0 ≤ x) :
    ∃ r, dilogXge0 x = .fin r ∧ |r - Spec.dilog x| ≤ 8.6e-14 ∧
      (2.3e-15 < |x - 1| → |r - Spec.dilog x| ≤ 8e-17) := by
  have hp := abs_le.mp cPI_sq
  have weak : ∀ r : ℝ, |r - Spec.dilog x| ≤ 8e-17 → |r - Spec.dilog x| ≤ 8.6e-14 ∧
      (2.3e-15 < |x - 1| → |r - Spec.dilog x| ≤ 8e-17) :=
    fun r h => ⟨h.trans (by norm_num), fun _ => h⟩
  unfold dilogXge0
  simp only
  split_ifs with b1 b2 b3 b4 b5 b6 b7
  · refine ⟨_, rfl, weak _ ?_⟩
    have hs := abs_le.mp (dilogSeries2_accuracy (x := 1 / x) (by positivity) (by
      rw [div_le_div_iff₀ (by linarith) (by norm_num)]
      linarith))
    rw [dilog_inv (by linarith), abs_le]
    constructor <;> norm_num at hp hs ⊢ <;> nlinarith
  · have x1 : 1 < x := lt_trans (by norm_num) b2
    refine ⟨_, rfl, weak _ ?_⟩
    have hs := abs_le.mp (dilogSeries2_accuracy (x := 1 - 1 / x)
      (by rw [sub_pos, div_lt_one (by linarith)]; exact x1) (by
        have : 1 / 2 ≤ 1 / x := by
          rw [div_le_div_iff₀ (by norm_num) (by linarith)]
          linarith
        linarith))
    rw [dilog_landen x1, abs_le]
    constructor <;> norm_num at hp hs ⊢ <;> linarith
  · refine ⟨_, rfl, weak _ ?_⟩
    have hs := abs_le.mp (dilogNear_accuracy b3 (not_lt.mp b2))
    rw [dilogNear_fold, abs_le]
    constructor <;> norm_num at hp hs ⊢ <;> nlinarith
  · refine ⟨_, rfl, dilog_at_one (not_lt.mp b3) b4, fun h => absurd (h.trans_le b4) ?_⟩
    norm_num [cEPS]
  · refine ⟨_, rfl, weak _ ?_⟩
    have x1 : x < 1 := by
      refine lt_of_le_of_ne (not_lt.mp b3) ?_
      rintro rfl
      apply b4
      norm_num [cEPS]
    have hs := abs_le.mp (dilogSeries2_accuracy (x := 1 - x) (by linarith) (by norm_num at b5 ⊢; linarith))
    rw [dilog_reflect (by norm_num at b5 ⊢; linarith) x1, abs_le]
    constructor <;> norm_num at hp hs ⊢ <;> linarith
  · refine ⟨_, rfl, weak _ ?_⟩
    exact (dilogSeries2_accuracy (by norm_num at b6 ⊢; linarith) (by norm_num at b5 ⊢; linarith)).trans (by norm_num)
  · obtain ⟨r, e, h⟩ := dilogSeries1_accuracy b7 (by norm_num at b6 ⊢; linarith)
    refine ⟨r, e, weak _ (h.trans ?_)⟩
    have hx : Spec.dilog x ≤ 1 / 2 := by
      refine (dilog_le_two_mul h0 (by norm_num at b6 ⊢; linarith)).trans ?_
      norm_num at b6 ⊢
      linarith
    have : cEPS / 3 * Spec.dilog x ≤ cEPS / 3 * (1 / 2) := mul_le_mul_of_nonneg_left hx (by norm_num [cEPS])
    refine this.trans (by norm_num [cEPS])
  · obtain rfl : x = 0 := le_antisymm (not_lt.mp b7) h0
    refine ⟨0, rfl, weak _ ?_⟩
    rw [dilog_zero]
    norm_num

theorem dilogK_nonneg {x : ℝ} (h : 0 ≤ x) : dilogK (.fin x) = dilogXge0 x := by
  unfold dilogK
  rw [if_pos (show Fl.fin 0 ≤ Fl.fin x from Fl.fin_le_fin.mpr h)]
  rfl

theorem dilogK_neg {x : ℝ} (h : x < 0) :
    dilogK (.fin x) = .fin 0.5 * dilogXge0 (x * x) - dilogXge0 (-x) := by
  unfold dilogK
  rw [if_neg (show ¬ Fl.fin 0 ≤ Fl.fin x by rw [Fl.fin_le_fin]; linarith), Fl.neg_fin, Fl.fin_mul_fin]
  rfl

/-- C118: for every real number `dilog` returns a finite number within 2e-13 of the dilogarithm; within 2e-16 if the
absolute value differs from 1 by more than 2.3e-15. -/
theorem dilog_accuracy (x : ℝ) :
    ∃ r, dilogK (.fin x) = .fin r ∧ |r - Spec.dilog x| ≤ 2e-13 ∧
      (2.3e-15 < |(|x| - 1)| → |r - Spec.dilog x| ≤ 2e-16) := by
  rcases le_or_gt 0 x with h | h
  · obtain ⟨r, e, h1, h2⟩ := dilogXge0_accuracy h
    refine ⟨r, by rw [dilogK_nonneg h, e], h1.trans (by norm_num), fun hx => (h2 ?_).trans (by norm_num)⟩
    rwa [abs_of_nonneg h] at hx
  · obtain ⟨r1, e1, h1, h1'⟩ := dilogXge0_accuracy (x := -x) (by linarith)
    obtain ⟨r2, e2, h2, h2'⟩ := dilogXge0_accuracy (x := x * x) (mul_self_nonneg x)
    refine ⟨0.5 * r2 - r1, by rw [dilogK_neg h, e1, e2, Fl.fin_mul_fin, Fl.fin_sub_fin], ?_, fun hx => ?_⟩
    · have hs := dilog_square (x := -x) (by linarith)
      rw [neg_neg, neg_sq, sq] at hs
      rw [abs_le] at h1 h2 ⊢
      rw [hs]
      constructor <;> norm_num at h1 h2 ⊢ <;> linarith
    · rw [abs_of_neg h] at hx
      have hx2 : 2.3e-15 < |x * x - 1| := by
        have : x * x - 1 = (-x - 1) * (-x + 1) := by ring
        rw [this, abs_mul]
        have h1 : 1 ≤ |-x + 1| := by
          rw [abs_of_pos (by linarith)]
          linarith
        nlinarith [abs_nonneg (-x - 1)]
      have h1 := abs_le.mp (h1' hx)
      have h2 := abs_le.mp (h2' hx2)
      have hs := dilog_square (x := -x) (by linarith)
      rw [neg_neg, neg_sq, sq] at hs
      rw [abs_le, hs]
      constructor <;> norm_num at h1 h2 ⊢ <;> linarith

/-- C118: small positive arguments, with a relative bound. -/
theorem dilog_accuracy_small {x : ℝ} (h0 : 0 < x) (h1 : x ≤ 1 / 4) :
    ∃ r, dilogK (.fin x) = .fin r ∧ |r - Spec.dilog x| ≤ cEPS / 3 * Spec.dilog x := by
  rw [dilogK_nonneg h0.le]
  unfold dilogXge0
  simp only
  rw [if_neg (by linarith), if_neg (by norm_num; linarith), if_neg (by linarith), if_neg, if_neg (by norm_num; linarith),
    if_neg (by norm_num; linarith), if_pos h0]
  · exact dilogSeries1_accuracy h0 h1
  · rw [abs_of_neg (by linarith)]
    norm_num [cEPS]
    linarith

example := dilog_accuracy_small (x := 1 / 5) (by norm_num) (by norm_num)

/-- The dilogarithm the statements are about: the series of the name on the unit interval, `π²/6` at 1. -/
theorem spec_dilog_series {x : ℝ} (h0 : 0 ≤ x) (h1 : x ≤ 1) :
    Spec.dilog x = ∑' n : ℕ, x ^ (n + 1) / ((n : ℝ) + 1) ^ 2 ∧ Spec.dilog 1 = Real.pi ^ 2 / 6 :=
  ⟨(hasSum_dilog h0 h1).tsum_eq.symm, dilog_one⟩

example := spec_dilog_series (x := 1 / 2) (by norm_num) (by norm_num)

/-- C119, violated: `dilog(nan)` is 0, `dilog(-inf)` is NaN (the limit is minus infinity). `dilog(inf)` is minus
infinity as it should be. -/
theorem dilog_nonfinite :
    dilogK .nan = .fin 0 ∧ dilogK .ninf = .nan ∧ dilogK .pinf = .ninf := by
  have hp : dilogGe0 .pinf = .ninf := by
    unfold dilogGe0
    change Fl.fin (cPI * cPI / 3) - Fl.fin 0 - Fl.fin 0.5 * Fl.pinf = .ninf
    have e : Fl.fin 0.5 * Fl.pinf = .pinf := by
      change Fl.infSign (0.5) = .pinf
      unfold Fl.infSign
      norm_num
    rw [e, Fl.fin_sub_fin]
    rfl
  have e2 : Fl.fin 0.5 * Fl.ninf = .ninf := by
    change Fl.infSign (-0.5) = .ninf
    unfold Fl.infSign
    norm_num
  have hn : ¬ (Fl.fin 0 ≤ Fl.nan) := fun h => h
  have hm : ¬ (Fl.fin 0 ≤ Fl.ninf) := fun h => h
  refine ⟨?_, ?_, ?_⟩
  · unfold dilogK
    rw [if_neg hn]
    change Fl.fin 0.5 * Fl.fin 0 - Fl.fin 0 = .fin 0
    rw [Fl.fin_mul_fin, Fl.fin_sub_fin]
    norm_num
  · unfold dilogK
    rw [if_neg hm]
    change Fl.fin 0.5 * dilogGe0 Fl.pinf - dilogGe0 Fl.pinf = .nan
    rw [hp, e2]
    rfl
  · unfold dilogK
    rw [if_pos (show Fl.fin 0 ≤ Fl.pinf from trivial), hp]

/-- C119, violated: `poly_log(z, 2, log=True)` is the dilogarithm itself, not its logarithm: already at 1/4 both differ. -/
theorem polyLogTwo_log_ignored :
    (∀ z, polyLogTwo z true = polyLogTwo z false) ∧
    polyLogTwo (.fin (1 / 4)) true ≠ Fl.log (polyLogTwo (.fin (1 / 4)) false) := by
  refine ⟨fun _ => rfl, ?_⟩
  obtain ⟨r, e, h⟩ := dilog_accuracy_small (x := 1 / 4) (by norm_num) le_rfl
  have h1 : Spec.dilog (1 / 4) ≤ 1 / 2 := (dilog_le_two_mul (by norm_num) (by norm_num)).trans (by norm_num)
  have h2 : 1 / 4 ≤ Spec.dilog (1 / 4) := by
    have := (dilog_tail1 (x := 1 / 4) (by norm_num) (by norm_num) 1).1
    simp [dilogTerm] at this
    norm_num at this ⊢
    linarith
  have h3 : cEPS / 3 * Spec.dilog (1 / 4) ≤ 1 / 100 := by
    have : cEPS / 3 * Spec.dilog (1 / 4) ≤ cEPS / 3 * (1 / 2) := mul_le_mul_of_nonneg_left h1 (by norm_num [cEPS])
    refine this.trans (by norm_num [cEPS])
  have hr := abs_le.mp (h.trans h3)
  have r0 : 0 < r := by linarith
  unfold polyLogTwo
  rw [e, Fl.log_pos r0]
  intro hh
  have : r = Real.log r := by injection hh
  have := Real.log_le_sub_one_of_pos r0
  linarith

end Copulae
