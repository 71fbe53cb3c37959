import Verif.Lemmas.DilogComplex
import Verif.Props.Clausen
import Verif.Props.Dilog

/-!
The expansion of the complex dilogarithm around the unit circle, in the logarithm of the modulus.
-/

namespace Copulae

open Complex Set

/-- Taylor's formula for a chain of derivatives, on the left of 0. -/
theorem taylor_chain (n : ℕ) {A C : ℝ} (f : ℕ → ℝ → ℂ)
    (hd : ∀ i < n, ∀ a ∈ Icc (-A) 0, HasDerivAt (f i) (f (i + 1) a) a)
    (hb : ∀ a ∈ Icc (-A) 0, ‖f n a‖ ≤ C) {a : ℝ} (ha : a ∈ Icc (-A) 0) :
    ‖f 0 a - ∑ i ∈ Finset.range n, ((a ^ i / i.factorial : ℝ) : ℂ) * f i 0‖ ≤ C * |a| ^ n / n.factorial := by
  induction n generalizing f a with
  | zero => simpa using hb a ha
  | succ n ih =>
    have ih' := @ih (fun i => f (i + 1)) (fun i hi => hd (i + 1) (by omega)) hb
    set e : ℝ → ℂ := fun t => f 0 (-t) - ∑ i ∈ Finset.range (n + 1), (((-t) ^ i / i.factorial : ℝ) : ℂ) * f i 0
    have hde : ∀ t ∈ Icc 0 A, HasDerivAt e
        (-(f 1 (-t) - ∑ i ∈ Finset.range n, (((-t) ^ i / i.factorial : ℝ) : ℂ) * f (i + 1) 0)) t := by
      intro t ht
      have d0 := (hd 0 (by omega) (-t) ⟨by linarith [ht.2], by linarith [ht.1]⟩).scomp t (hasDerivAt_neg t)
      have ds : HasDerivAt (fun t : ℝ => ∑ i ∈ Finset.range (n + 1), (((-t) ^ i / i.factorial : ℝ) : ℂ) * f i 0)
          (-∑ i ∈ Finset.range n, (((-t) ^ i / i.factorial : ℝ) : ℂ) * f (i + 1) 0) t := by
        have hi : ∀ i ∈ Finset.range (n + 1), HasDerivAt
            (fun t : ℝ => (((-t) ^ i / i.factorial : ℝ) : ℂ) * f i 0)
            (((i * (-t) ^ (i - 1) * -1 / i.factorial : ℝ) : ℂ) * f i 0) t := fun i _ =>
          (((hasDerivAt_neg t).pow i).div_const _).ofReal_comp.mul_const _
        refine (HasDerivAt.fun_sum hi).congr_deriv ?_
        rw [Finset.sum_range_succ', ← Finset.sum_neg_distrib]
        simp only [Nat.cast_zero, zero_mul, zero_div, ofReal_zero, add_zero]
        refine Finset.sum_congr rfl fun i _ => ?_
        rw [← neg_mul, ← ofReal_neg]
        congr 2
        rw [Nat.factorial_succ]
        rw [add_tsub_cancel_right]
        push_cast
        field_simp
      refine (d0.sub ds).congr_deriv ?_
      simp only [neg_smul, one_smul]
      ring
    have hfac : (0 : ℝ) < (n + 1).factorial := by positivity
    have key := image_norm_le_of_norm_deriv_right_le_deriv_boundary' (f := e) (a := 0) (b := A)
      (B := fun t => C * t ^ (n + 1) / (n + 1).factorial) (B' := fun t => C * t ^ n / n.factorial)
      (fun t ht => (hde t ht).continuousAt.continuousWithinAt)
      (fun t ht => (hde t ⟨ht.1, ht.2.le⟩).hasDerivWithinAt)
      (by
        have : e 0 = 0 := by
          simp only [e, neg_zero]
          rw [Finset.sum_range_succ']
          simp
        rw [this]
        simp)
      (by fun_prop)
      (fun t ht => by
        have := (((hasDerivAt_pow (n + 1) t).const_mul C).div_const ((n + 1).factorial : ℝ)).hasDerivWithinAt
          (s := Ici t)
        refine this.congr_deriv ?_
        rw [Nat.factorial_succ, add_tsub_cancel_right]
        push_cast
        field_simp)
      (fun t ht => by
        have := ih' (a := -t) ⟨by linarith [ht.2], by linarith [ht.1]⟩
        rw [abs_neg, abs_of_nonneg ht.1] at this
        rw [norm_neg]
        exact this)
    have h1 := key (x := -a) ⟨by linarith [ha.2], by linarith [ha.1]⟩
    simp only [e, neg_neg] at h1
    rwa [abs_of_nonpos ha.2]

/-- The point of the ray through `u` with logarithm `a` of the modulus. -/
noncomputable def liW (u : ℂ) (a : ℝ) : ℂ := (Real.exp a : ℂ) * u

noncomputable def liP (u : ℂ) (a : ℝ) : ℂ := liW u a / (1 - liW u a)

noncomputable def liM (u : ℂ) (a : ℝ) : ℂ := liP u a * (1 + liP u a)

/-- The dilogarithm along a ray and its derivatives with respect to the logarithm of the modulus. -/
noncomputable def liH (u : ℂ) : ℕ → ℝ → ℂ
  | 0, a => Spec.li2 (liW u a)
  | 1, a => -Complex.log (1 - liW u a)
  | 2, a => liP u a
  | 3, a => liM u a
  | 4, a => (1 + 2 * liP u a) * liM u a
  | 5, a => liM u a + 6 * liM u a ^ 2
  | 6, a => (1 + 2 * liP u a) * (liM u a + 12 * liM u a ^ 2)
  | _, a => liM u a + 30 * liM u a ^ 2 + 120 * liM u a ^ 3

theorem hasDerivAt_liW (u : ℂ) (a : ℝ) : HasDerivAt (liW u) (liW u a) a :=
  ((Real.hasDerivAt_exp a).ofReal_comp).mul_const u

theorem liW_re {u : ℂ} (hu : u.re ≤ 3 / 4) {a : ℝ} (ha : a ≤ 0) : (liW u a).re ≤ 3 / 4 := by
  rw [liW, re_ofReal_mul]
  have h1 : Real.exp a ≤ 1 := by simpa using ha
  have h2 := Real.exp_pos a
  rcases le_total u.re 0 with h | h
  · nlinarith
  · nlinarith

theorem hasDerivAt_liP {u : ℂ} {a : ℝ} (h : 1 - liW u a ≠ 0) : HasDerivAt (liP u) (liM u a) a := by
  refine ((hasDerivAt_liW u a).div ((hasDerivAt_liW u a).const_sub 1) h).congr_deriv ?_
  rw [liM, liP]
  field_simp
  ring

theorem hasDerivAt_liM {u : ℂ} {a : ℝ} (h : 1 - liW u a ≠ 0) :
    HasDerivAt (liM u) ((1 + 2 * liP u a) * liM u a) a := by
  refine ((hasDerivAt_liP h).mul ((hasDerivAt_liP h).const_add 1)).congr_deriv ?_
  ring

theorem hasDerivAt_liH {u : ℂ} (hu0 : u ≠ 0) (hu : u.re ≤ 3 / 4) (i : ℕ) (hi : i < 7) {a : ℝ} (ha : a ≤ 0) :
    HasDerivAt (liH u i) (liH u (i + 1) a) a := by
  have hre := liW_re hu ha
  have hpl : liW u a ∈ liPlane := liPlane_of_re (by linarith)
  have hsl : 1 - liW u a ∈ slitPlane := hpl
  have h1 := slitPlane_ne_zero hsl
  have h0 : liW u a ≠ 0 := mul_ne_zero (by exact_mod_cast (Real.exp_pos a).ne') hu0
  have dP := hasDerivAt_liP h1
  have dM := hasDerivAt_liM h1
  have dn := (dP.const_mul 2).const_add 1
  have hM : liM u a = liP u a * (1 + liP u a) := rfl
  interval_cases i
  · have := (hasDerivAt_li2 hpl h0).comp a (hasDerivAt_liW u a)
    refine this.congr_deriv ?_
    rw [div_mul_cancel₀ _ h0]
    rfl
  · have := (((hasDerivAt_liW u a).const_sub 1).clog_real hsl).neg
    refine this.congr_deriv ?_
    change _ = liP u a
    rw [liP]
    field_simp
  · exact dP
  · exact dM
  · refine (dn.mul dM).congr_deriv ?_
    change _ = liM u a + 6 * liM u a ^ 2
    rw [hM]
    ring
  · refine (dM.add ((dM.pow 2).const_mul 6)).congr_deriv ?_
    change _ = (1 + 2 * liP u a) * (liM u a + 12 * liM u a ^ 2)
    push_cast
    ring
  · refine (dn.mul (dM.add ((dM.pow 2).const_mul 12))).congr_deriv ?_
    change _ = liM u a + 30 * liM u a ^ 2 + 120 * liM u a ^ 3
    push_cast
    rw [hM]
    simp only [Pi.add_apply, Pi.pow_apply, hM]
    ring

/-! ### The derivatives on the unit circle -/

theorem liW_zero (u : ℂ) : liW u 0 = u := by simp [liW]

theorem liP_zero {c s : ℝ} (h : c ^ 2 + s ^ 2 = 1) (hc : 1 - c ≠ 0) :
    liP ⟨c, s⟩ 0 = ⟨-1 / 2, s / (2 * (1 - c))⟩ := by
  have h1 : (1 : ℂ) - ⟨c, s⟩ ≠ 0 := fun e => hc (by simpa using congrArg re e)
  rw [liP, liW_zero, div_eq_iff h1]
  have hs : s * s = (1 - c) * (1 + c) := by linarith [h]
  apply Complex.ext
  · simp only [mul_re, sub_re, one_re, sub_im, one_im]
    field_simp
    linear_combination -hs
  · simp only [mul_im, sub_re, one_re, sub_im, one_im]
    field_simp
    ring

theorem liM_zero {c s : ℝ} (h : c ^ 2 + s ^ 2 = 1) (hc : 1 - c ≠ 0) :
    liM ⟨c, s⟩ 0 = ((-0.5 / (1 - c) : ℝ) : ℂ) := by
  have hs : s * s = (1 - c) * (1 + c) := by linarith [h]
  rw [liM, liP_zero h hc]
  apply Complex.ext
  · simp only [mul_re, add_re, one_re, add_im, one_im, ofReal_re]
    norm_num
    field_simp
    linear_combination (-4) * hs
  · simp only [mul_im, add_re, one_re, add_im, one_im, ofReal_im]
    ring

theorem liN_zero {c s : ℝ} (h : c ^ 2 + s ^ 2 = 1) (hc : 1 - c ≠ 0) :
    1 + 2 * liP ⟨c, s⟩ 0 = ((s / (1 - c) : ℝ) : ℂ) * I := by
  rw [liP_zero h hc, show (2 : ℂ) = ((2 : ℝ) : ℂ) by norm_num]
  apply Complex.ext
  · rw [add_re, re_ofReal_mul, mul_I_re, ofReal_im, one_re]
    norm_num
  · rw [add_im, im_ofReal_mul, mul_I_im, ofReal_re, one_im]
    field_simp
    ring

theorem norm_one_sub_sq (c s : ℝ) (h : c ^ 2 + s ^ 2 = 1) : ‖(1 : ℂ) - ⟨c, s⟩‖ ^ 2 = 2 * (1 - c) := by
  rw [← normSq_eq_norm_sq, normSq_apply]
  simp only [sub_re, one_re, sub_im, one_im]
  linear_combination h

theorem liH_one {c s : ℝ} (h : c ^ 2 + s ^ 2 = 1) (hc : 1 - c ≠ 0) :
    liH ⟨c, s⟩ 1 0 = ⟨-0.5 * Real.log (2 * (1 - c)), -atan2 (-s) (1 - c)⟩ := by
  have h1 : (1 : ℂ) - ⟨c, s⟩ ≠ 0 := fun e => hc (by simpa using congrArg re e)
  change -Complex.log (1 - liW ⟨c, s⟩ 0) = _
  rw [liW_zero]
  apply Complex.ext
  · rw [neg_re, log_re, ← norm_one_sub_sq c s h, Real.log_pow]
    push_cast
    ring
  · rw [neg_im, log_im, atan2]
    congr 2
    apply Complex.ext <;> simp

/-- The Taylor polynomial, as `dilogc_series_3` sums it. -/
theorem liH_sum {c s : ℝ} (h : c ^ 2 + s ^ 2 = 1) (hc : 1 - c ≠ 0) (a θ v : ℝ) :
    (⟨((series3Re θ c (1 - c)).tail.foldl (series3Step a) (1, 1, 0, (series3Re θ c (1 - c)).headD 0)).2.2.2,
      v + ((series3Im c s (1 - c)).foldl (series3Step a) (1, 1, 0, 0)).2.2.2⟩ : ℂ) -
      ∑ i ∈ Finset.range 7, ((a ^ i / i.factorial : ℝ) : ℂ) * liH ⟨c, s⟩ i 0 =
    ⟨cPI ^ 2 / 6 + 0.25 * (θ ^ 2 - 2 * cPI * |θ|), v⟩ - Spec.li2 ⟨c, s⟩ := by
  have hM := liM_zero h hc
  have hN := liN_zero h hc
  have hs : s * s = (1 - c) * (1 + c) := by linarith [h]
  have h0 : liH ⟨c, s⟩ 0 0 = Spec.li2 ⟨c, s⟩ := by
    change Spec.li2 (liW _ 0) = _
    rw [liW_zero]
  have h1 := liH_one h hc
  have h2 : liH ⟨c, s⟩ 2 0 = ⟨-0.5, 0.5 * s / (1 - c)⟩ := by
    change liP _ 0 = _
    rw [liP_zero h hc]
    apply Complex.ext <;> simp only <;> norm_num
    field_simp
  have h3 : liH ⟨c, s⟩ 3 0 = ⟨-0.5 / (1 - c), 0⟩ := by
    change liM _ 0 = _
    rw [hM]
    rfl
  have h4 : liH ⟨c, s⟩ 4 0 = ⟨0, -0.5 * s / (1 - c) ^ 2⟩ := by
    change (1 + 2 * liP _ 0) * liM _ 0 = _
    rw [hM, hN, mul_comm]
    apply Complex.ext
    · rw [re_ofReal_mul, mul_I_re, ofReal_im]
      simp
    · rw [im_ofReal_mul, mul_I_im, ofReal_re]
      field_simp
  have h5 : liH ⟨c, s⟩ 5 0 = ⟨0.5 * (2 + c) / (1 - c) ^ 2, 0⟩ := by
    change liM _ 0 + 6 * liM _ 0 ^ 2 = _
    rw [hM]
    have e : (-0.5 / (1 - c)) + 6 * (-0.5 / (1 - c)) ^ 2 = 0.5 * (2 + c) / (1 - c) ^ 2 := by
      field_simp
      ring
    have := congrArg ((↑) : ℝ → ℂ) e
    push_cast at this ⊢
    rw [this]
    apply Complex.ext
    · have := ofReal_re (0.5 * (2 + c) / (1 - c) ^ 2)
      push_cast at this
      simpa using this
    · have := ofReal_im (0.5 * (2 + c) / (1 - c) ^ 2)
      push_cast at this
      simpa using this
  have h6 : liH ⟨c, s⟩ 6 0 = ⟨0, 0.5 * s / (1 - c) ^ 5 * (8 * (1 - c) - s * s * (3 + c))⟩ := by
    change (1 + 2 * liP _ 0) * (liM _ 0 + 12 * liM _ 0 ^ 2) = _
    rw [hM, hN, hs]
    have e : (s / (1 - c)) * ((-0.5 / (1 - c)) + 12 * (-0.5 / (1 - c)) ^ 2) =
        0.5 * s / (1 - c) ^ 5 * (8 * (1 - c) - (1 - c) * (1 + c) * (3 + c)) := by
      field_simp
      ring
    rw [show (((s / (1 - c) : ℝ) : ℂ) * I) * (((-0.5 / (1 - c) : ℝ) : ℂ) + 12 * ((-0.5 / (1 - c) : ℝ) : ℂ) ^ 2) =
      (((s / (1 - c)) * ((-0.5 / (1 - c)) + 12 * (-0.5 / (1 - c)) ^ 2) : ℝ) : ℂ) * I by push_cast; ring, e]
    apply Complex.ext
    · rw [mul_I_re, ofReal_im, neg_zero]
    · rw [mul_I_im, ofReal_re]
  simp only [Finset.sum_range_succ, Finset.range_zero, Finset.sum_empty, h0, h1, h2, h3, h4, h5, h6]
  apply Complex.ext
  · simp only [sub_re, add_re, re_ofReal_mul, series3Re, List.tail_cons, List.foldl_cons, List.foldl_nil,
      series3Step, List.headD_cons, zero_re]
    norm_num [Nat.factorial]
    ring
  · simp only [sub_im, add_im, im_ofReal_mul, series3Im, List.foldl_cons, List.foldl_nil, series3Step, zero_im]
    norm_num [Nat.factorial]
    ring

/-- The distance to 1 of the points on the rays the third series is used for. -/
theorem liW_far {c s : ℝ} (h : c ^ 2 + s ^ 2 = 1) (hc : c ≤ 0.747) {a : ℝ} (ha : a ∈ Icc (Real.log 0.98) 0) :
    0.7 ≤ ‖1 - liW ⟨c, s⟩ a‖ ∧ ‖liW ⟨c, s⟩ a‖ ≤ 1 := by
  have e1 : Real.exp a ≤ 1 := by simpa using ha.2
  have e0 : 0.98 ≤ Real.exp a := by
    rw [← Real.log_le_iff_le_exp (by norm_num)]
    exact ha.1
  set q := Real.exp a with hq
  constructor
  · rw [← pow_le_pow_iff_left₀ (by norm_num) (norm_nonneg _) two_ne_zero, ← normSq_eq_norm_sq, normSq_apply]
    simp only [liW, ← hq, sub_re, one_re, sub_im, one_im, re_ofReal_mul, im_ofReal_mul]
    have hsum : (1 - q * c) * (1 - q * c) + (0 - q * s) * (0 - q * s) = 1 - 2 * q * c + q ^ 2 := by
      linear_combination q ^ 2 * h
    rw [hsum]
    have h1 : q * c ≤ q * 0.747 := by gcongr
    norm_num at *
    nlinarith
  · rw [liW, norm_mul, norm_real, Real.norm_eq_abs, abs_of_pos (by rw [← hq]; norm_num at e0; linarith),
      norm_pair (r := 1) (by norm_num) (by linarith), mul_one]
    exact e1

theorem liH_seven {c s : ℝ} (h : c ^ 2 + s ^ 2 = 1) (hc : c ≤ 0.747) {a : ℝ} (ha : a ∈ Icc (Real.log 0.98) 0) :
    ‖liH ⟨c, s⟩ 7 a‖ ≤ 1200 := by
  obtain ⟨h1, h2⟩ := liW_far h hc ha
  have n1 : 1 - liW ⟨c, s⟩ a ≠ 0 := by
    rw [← norm_pos_iff]
    norm_num at h1
    linarith
  have hM : liM ⟨c, s⟩ a = liW ⟨c, s⟩ a / (1 - liW ⟨c, s⟩ a) ^ 2 := by
    rw [liM, liP]
    field_simp
    ring
  have hm : ‖liM ⟨c, s⟩ a‖ ≤ 2.05 := by
    rw [hM, norm_div, norm_pow]
    calc _ ≤ 1 / (0.7 : ℝ) ^ 2 := by gcongr
      _ ≤ 2.05 := by norm_num
  change ‖liM _ a + 30 * liM _ a ^ 2 + 120 * liM _ a ^ 3‖ ≤ _
  refine (norm_add_le _ _).trans ((add_le_add_left (norm_add_le _ _) _).trans ?_)
  rw [norm_mul, norm_mul, norm_pow, norm_pow]
  simp only [Complex.norm_ofNat]
  calc _ ≤ (2.05 : ℝ) + 30 * 2.05 ^ 2 + 120 * 2.05 ^ 3 := by gcongr
    _ ≤ 1200 := by norm_num

theorem dilogcSeries3_close {r x y : ℝ} (h0 : 0.98 < r) (h1 : r < 1) (h : r ^ 2 = x ^ 2 + y ^ 2) (hx : x ≤ 0.732) :
    ∃ a b, dilogcSeries3 r x y = (.fin a, .fin b) ∧ ‖(⟨a, b⟩ : ℂ) - Spec.li2 ⟨x, y⟩‖ ≤ 5 / 10 ^ 13 := by
  have hr0 : 0 < r := by norm_num at h0; linarith
  set c := x / r with hc
  set s := y / r with hs
  have hcs : c ^ 2 + s ^ 2 = 1 := by
    rw [hc, hs]
    field_simp
    exact h.symm
  have hc1 : c ≤ 0.747 := by
    rw [hc, div_le_iff₀ hr0]
    norm_num at *
    linarith
  have hc0 : 1 - c ≠ 0 := by norm_num at hc1; intro e; linarith
  have hz : (r * ⟨c, s⟩ : ℂ) = ⟨x, y⟩ := polar_pair hr0.ne'
  set θ := atan2 y x with hθ
  have hu : (⟨c, s⟩ : ℂ) = exp (θ * I) := by
    have := norm_mul_exp_arg_mul_I (⟨x, y⟩ : ℂ)
    rw [norm_pair hr0.le h, ← hz] at this
    have hr' : (r : ℂ) ≠ 0 := by exact_mod_cast hr0.ne'
    rw [hz] at this
    exact (mul_left_cancel₀ hr' (this.trans hz.symm)).symm
  have hθπ : |θ| ≤ Real.pi := abs_arg_le_pi _
  have hP := cPI_near
  have hp3 := Real.pi_gt_d2
  have hp4 := Real.pi_lt_d2
  obtain ⟨v, hv, hvd⟩ := clausen_accurate_partial (x := θ) (by
    rw [abs_le] at hP
    norm_num at hP hp3
    linarith)
  refine ⟨((series3Re θ c (1 - c)).tail.foldl (series3Step (Real.log r))
      (1, 1, 0, (series3Re θ c (1 - c)).headD 0)).2.2.2,
    v + ((series3Im c s (1 - c)).foldl (series3Step (Real.log r)) (1, 1, 0, 0)).2.2.2, ?_, ?_⟩
  · unfold dilogcSeries3
    simp only
    rw [← hθ, hv, Fl.fin_add_fin]
  have hmem : Real.log r ∈ Icc (- -Real.log 0.98) 0 := by
    rw [neg_neg]
    exact ⟨Real.log_le_log (by norm_num) h0.le, Real.log_nonpos hr0.le h1.le⟩
  have hu0 : (⟨c, s⟩ : ℂ) ≠ 0 := by rw [hu]; exact exp_ne_zero _
  have ht := taylor_chain 7 (A := -Real.log 0.98) (liH ⟨c, s⟩) (C := 1200)
    (fun i hi a ha => hasDerivAt_liH hu0 (by
      change c ≤ 3 / 4
      norm_num at hc1
      linarith) i hi ha.2)
    (fun a ha => liH_seven hcs hc1 (by rwa [neg_neg] at ha)) hmem
  have hl : liH ⟨c, s⟩ 0 (Real.log r) = Spec.li2 ⟨x, y⟩ := by
    change Spec.li2 (liW _ _) = _
    rw [liW, Real.exp_log hr0, hz]
  rw [hl] at ht
  have hlog : |Real.log r| ≤ 1 / 49 := by
    rw [abs_of_nonpos hmem.2]
    have := Real.log_le_sub_one_of_pos (inv_pos.mpr hr0)
    rw [Real.log_inv] at this
    have h2 : r⁻¹ ≤ 50 / 49 := by
      rw [inv_le_comm₀ hr0 (by norm_num)]
      norm_num at h0 ⊢
      linarith
    linarith
  have hrem : (1200 : ℝ) * |Real.log r| ^ 7 / (Nat.factorial 7 : ℕ) ≤ 4 / 10 ^ 13 := by
    calc _ ≤ (1200 : ℝ) * (1 / 49) ^ 7 / (Nat.factorial 7 : ℕ) := by gcongr
      _ ≤ _ := by norm_num [Nat.factorial]
  have hsum := liH_sum hcs hc0 (Real.log r) θ v
  have hre := li2_circle_re (θ := θ) (by linarith)
  have him := li2_circle_im (θ := θ) (by linarith)
  rw [← hu] at hre him
  have hdiff : ‖(⟨cPI ^ 2 / 6 + 0.25 * (θ ^ 2 - 2 * cPI * |θ|), v⟩ : ℂ) - Spec.li2 ⟨c, s⟩‖ ≤ 1 / 10 ^ 17 := by
    refine (norm_le_abs_re_add_abs_im _).trans ?_
    simp only [sub_re, sub_im, hre, him]
    have hq := cPI_sq
    have e : cPI ^ 2 / 6 + 0.25 * (θ ^ 2 - 2 * cPI * |θ|) - (Real.pi ^ 2 / 6 + θ ^ 2 / 4 - Real.pi * |θ| / 2) =
        (cPI ^ 2 - Real.pi ^ 2) / 6 - (cPI - Real.pi) * |θ| / 2 := by ring
    rw [e]
    have h3 : |(cPI - Real.pi) * |θ| / 2| ≤ 1e-20 * 4 / 2 := by
      rw [abs_div, abs_mul, abs_abs, abs_of_pos (by norm_num : (0 : ℝ) < 2)]
      gcongr
      linarith
    have h4 := abs_sub ((cPI ^ 2 - Real.pi ^ 2) / 6) ((cPI - Real.pi) * |θ| / 2)
    rw [abs_div, abs_of_pos (by norm_num : (0 : ℝ) < 6)] at h4
    norm_num at *
    linarith
  rw [← hsum] at hdiff
  refine (norm_sub_le_norm_sub_add_norm_sub _
    (∑ i ∈ Finset.range 7, ((Real.log r ^ i / i.factorial : ℝ) : ℂ) * liH ⟨c, s⟩ i 0) _).trans ?_
  rw [norm_sub_rev] at ht
  have h6 := add_le_add hdiff (ht.trans hrem)
  refine h6.trans ?_
  norm_num

end Copulae
