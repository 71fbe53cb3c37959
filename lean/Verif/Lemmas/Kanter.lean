import Mathlib.Analysis.SpecialFunctions.Gamma.Beta
import Mathlib.Analysis.SpecialFunctions.Pow.Deriv
import Mathlib.Analysis.SpecialFunctions.Trigonometric.Sinc
import Mathlib.Analysis.SpecialFunctions.Trigonometric.Deriv
import Mathlib.MeasureTheory.Integral.IntervalIntegral.FundThmCalculus

/-!
The integral behind the sampler of positive stable variates (Kanter, Chambers–Mallows–Stuck): for `0 < α < 1`

`∫_0^π sin u ^ k / (sin (α u) ^ (α k) * sin ((1 - α) u) ^ ((1 - α) k)) du = π k! / (Γ (1 + α k) Γ (1 + (1 - α) k))`.

The curve `z = ρ e^{iu}` with `1 + z = σ e^{iαu}` makes `(1 + z)^k z^{-αk}` real, and this function has an explicit
antiderivative.
-/

namespace Copulae

open Real Set Filter Topology

/-- `sin (c u) / c`, extended to `c = 0`. -/
noncomputable def sinDiv (c u : ℝ) : ℝ := if c = 0 then u else sin (c * u) / c

theorem inv_Gamma_rec (s : ℝ) : (Gamma s)⁻¹ = s * (Gamma (s + 1))⁻¹ := by
  rcases eq_or_ne s 0 with h | h
  · rw [h, Gamma_zero, inv_zero, zero_mul]
  · rw [Gamma_add_one h, mul_inv, ← mul_assoc, mul_inv_cancel₀ h, one_mul]

/-- The binomial sum of `sinDiv` at `π` is the generalised binomial coefficient. -/
theorem sum_sinDiv (k : ℕ) : ∀ x : ℝ,
    ∑ j ∈ Finset.range (k + 1), (k.choose j : ℝ) * sinDiv (j - x) π
      = π * k.factorial * ((Gamma (1 + x))⁻¹ * (Gamma (1 + k - x))⁻¹) := by
  induction k with
  | zero =>
    intro x
    simp only [zero_add, Finset.sum_range_one, Nat.choose_self, Nat.cast_one, one_mul, Nat.cast_zero,
      zero_sub, Nat.factorial_zero, mul_one, add_zero, sinDiv]
    rcases eq_or_ne x 0 with h | h
    · subst h
      simp
    · rw [if_neg (by simpa using h)]
      have h1 := Real.Gamma_mul_Gamma_one_sub x
      have h2 : (Gamma x)⁻¹ * (Gamma (1 - x))⁻¹ = sin (π * x) / π := by
        rw [← mul_inv, h1, inv_div]
      have h3 := inv_Gamma_rec x
      rw [add_comm 1 x]
      rw [h3] at h2
      have hpi := Real.pi_ne_zero
      have h4 : (Gamma (x + 1))⁻¹ * (Gamma (1 - x))⁻¹ = sin (π * x) / π / x := by
        rw [← h2]
        field_simp
      rw [h4, neg_mul, Real.sin_neg, mul_comm x π]
      field_simp
  | succ k ih =>
    intro x
    have e : ∑ j ∈ Finset.range (k + 1 + 1), ((k + 1).choose j : ℝ) * sinDiv (j - x) π
        = (∑ j ∈ Finset.range (k + 1), (k.choose j : ℝ) * sinDiv (j - x) π)
          + ∑ j ∈ Finset.range (k + 1), (k.choose j : ℝ) * sinDiv (j - (x - 1)) π := by
      have h0 : ∑ j ∈ Finset.range (k + 1), ((k + 1).choose (j + 1) : ℝ) * sinDiv ((j + 1 : ℕ) - x) π
          = (∑ j ∈ Finset.range (k + 1), (k.choose (j + 1) : ℝ) * sinDiv ((j + 1 : ℕ) - x) π)
            + ∑ j ∈ Finset.range (k + 1), (k.choose j : ℝ) * sinDiv (j - (x - 1)) π := by
        rw [← Finset.sum_add_distrib]
        refine Finset.sum_congr rfl fun j _ => ?_
        rw [Nat.choose_succ_succ, show ((j : ℝ) - (x - 1)) = ((j + 1 : ℕ) : ℝ) - x by push_cast; ring]
        push_cast
        ring
      have hA : (∑ j ∈ Finset.range (k + 1), (k.choose (j + 1) : ℝ) * sinDiv ((j + 1 : ℕ) - x) π)
          + ((k + 1).choose 0 : ℝ) * sinDiv ((0 : ℕ) - x) π
          = ∑ j ∈ Finset.range (k + 1), (k.choose j : ℝ) * sinDiv (j - x) π := by
        rw [Finset.sum_range_succ _ k, Nat.choose_succ_self, Finset.sum_range_succ' _ k]
        simp
      rw [Finset.sum_range_succ' _ (k + 1), h0, ← hA]
      ring
    rw [e, ih x, ih (x - 1)]
    have g1 : (Gamma (1 + (x - 1)))⁻¹ = x * (Gamma (1 + x))⁻¹ := by
      rw [show 1 + (x - 1) = x by ring, inv_Gamma_rec x, add_comm x 1]
    have g2 : (Gamma (1 + k - x))⁻¹ = (1 + k - x) * (Gamma (1 + (k + 1 : ℕ) - x))⁻¹ := by
      rw [inv_Gamma_rec (1 + k - x)]
      congr 3
      push_cast
      ring
    have g3 : (1 : ℝ) + k - (x - 1) = 1 + (k + 1 : ℕ) - x := by push_cast; ring
    rw [g1, g2, g3, Nat.factorial_succ]
    push_cast
    ring

/-- `|z|` on the curve. -/
noncomputable def kRho (α u : ℝ) : ℝ := α * sinc (α * u) / ((1 - α) * sinc ((1 - α) * u))

/-- `|1 + z|` on the curve. -/
noncomputable def kSig (α u : ℝ) : ℝ := sin u / sin ((1 - α) * u)

theorem sinc_pos {x : ℝ} (h0 : 0 ≤ x) (h1 : x < π) : 0 < sinc x := by
  rcases h0.eq_or_lt with h | h
  · rw [← h, sinc_zero]; exact one_pos
  · rw [sinc_of_ne_zero h.ne']
    exact div_pos (sin_pos_of_pos_of_lt_pi h h1) h

section
variable {α : ℝ} (h0 : 0 < α) (h1 : α < 1)

include h0 h1

theorem kSin_pos {u : ℝ} (hu : 0 < u) (hu1 : u ≤ π) : 0 < sin (α * u) ∧ 0 < sin ((1 - α) * u) :=
  ⟨sin_pos_of_pos_of_lt_pi (by positivity) (by nlinarith [pi_pos]),
    sin_pos_of_pos_of_lt_pi (mul_pos (by linarith) hu) (by nlinarith [pi_pos])⟩

theorem kRho_pos {u : ℝ} (hu : 0 ≤ u) (hu1 : u ≤ π) : 0 < kRho α u := by
  have a := sinc_pos (x := α * u) (by positivity) (by nlinarith [pi_pos])
  have b := sinc_pos (x := (1 - α) * u) (mul_nonneg (by linarith) hu) (by nlinarith [pi_pos])
  have : 0 < 1 - α := by linarith
  unfold kRho
  positivity

theorem kRho_eq {u : ℝ} (hu : 0 < u) : kRho α u = sin (α * u) / sin ((1 - α) * u) := by
  have : 0 < 1 - α := by linarith
  unfold kRho
  rw [sinc_of_ne_zero (by positivity), sinc_of_ne_zero (by positivity)]
  rcases eq_or_ne (sin ((1 - α) * u)) 0 with h | h
  · rw [h]; simp
  · field_simp

theorem kRho_continuousOn : ContinuousOn (kRho α) (Icc 0 π) := by
  intro u hu
  have b := sinc_pos (x := (1 - α) * u) (mul_nonneg (by linarith) hu.1) (by nlinarith [pi_pos, hu.2])
  have : 0 < 1 - α := by linarith
  refine ContinuousAt.continuousWithinAt ?_
  unfold kRho
  refine ContinuousAt.div ?_ ?_ (by positivity)
  · exact (continuous_const.mul (continuous_sinc.comp (continuous_const.mul continuous_id))).continuousAt
  · exact (continuous_const.mul (continuous_sinc.comp (continuous_const.mul continuous_id))).continuousAt

theorem kRho_pi : kRho α π = 1 := by
  rw [kRho_eq h0 h1 pi_pos, show (1 - α) * π = π - α * π by ring, sin_pi_sub,
    div_self (kSin_pos h0 h1 pi_pos le_rfl).1.ne']

/-- `1 + z = σ e^{iαu}`. -/
theorem kTriangle {u : ℝ} (hu : 0 < u) (hu1 : u ≤ π) :
    1 + (kRho α u : ℂ) * Complex.exp (u * Complex.I) = kSig α u * Complex.exp ((α * u : ℝ) * Complex.I) := by
  have hs := (kSin_pos h0 h1 hu hu1).2
  have e : sin ((1 - α) * u) = sin u * cos (α * u) - cos u * sin (α * u) := by
    rw [show (1 - α) * u = u - α * u by ring, sin_sub]
  rw [kRho_eq h0 h1 hu, kSig]
  rw [Complex.exp_mul_I, Complex.exp_mul_I, ← Complex.ofReal_cos, ← Complex.ofReal_sin, ← Complex.ofReal_cos,
    ← Complex.ofReal_sin]
  apply Complex.ext
  · simp only [Complex.add_re, Complex.one_re, Complex.mul_re, Complex.ofReal_re, Complex.ofReal_im, zero_mul,
      sub_zero, Complex.I_re, Complex.I_im, mul_zero, add_zero, mul_one, sub_self]
    rw [div_mul_eq_mul_div, div_mul_eq_mul_div, eq_div_iff hs.ne', add_mul, div_mul_cancel₀ _ hs.ne', e]
    ring
  · simp only [Complex.add_im, Complex.one_im, Complex.mul_im, Complex.ofReal_re, Complex.ofReal_im, zero_mul,
      Complex.I_re, Complex.I_im, mul_zero, add_zero, mul_one, Complex.mul_re, Complex.add_re, sub_zero, zero_add]
    field_simp

theorem kBinom {u : ℝ} (hu : 0 < u) (hu1 : u ≤ π) (k : ℕ) :
    (∑ j ∈ Finset.range (k + 1), (k.choose j : ℝ) * kRho α u ^ j * cos ((j - α * k) * u) = kSig α u ^ k) ∧
    ∑ j ∈ Finset.range (k + 1), (k.choose j : ℝ) * kRho α u ^ j * sin ((j - α * k) * u) = 0 := by
  have h : ∑ j ∈ Finset.range (k + 1), (((k.choose j : ℝ) * kRho α u ^ j : ℝ) : ℂ)
      * Complex.exp ((((j : ℝ) - α * k) * u : ℝ) * Complex.I) = ((kSig α u ^ k : ℝ) : ℂ) := by
    have b := add_pow ((kRho α u : ℂ) * Complex.exp (u * Complex.I)) 1 k
    rw [add_comm ((kRho α u : ℂ) * Complex.exp (u * Complex.I)) 1, kTriangle h0 h1 hu hu1, mul_pow] at b
    have c := congrArg (· * Complex.exp (-((α * u : ℝ) * Complex.I)) ^ k) b
    rw [mul_assoc, ← mul_pow, ← Complex.exp_add, add_neg_cancel, Complex.exp_zero, one_pow, mul_one,
      Finset.sum_mul] at c
    rw [Complex.ofReal_pow, c]
    refine Finset.sum_congr rfl fun j _ => ?_
    rw [mul_pow, one_pow, mul_one, ← Complex.exp_nat_mul, ← Complex.exp_nat_mul]
    have : Complex.exp ((((j : ℝ) - α * k) * u : ℝ) * Complex.I)
        = Complex.exp (j * (u * Complex.I)) * Complex.exp (k * -((α * u : ℝ) * Complex.I)) := by
      rw [← Complex.exp_add]
      congr 1
      push_cast
      ring
    rw [this]
    push_cast
    ring
  constructor
  · have := congrArg Complex.re h
    rw [Complex.re_sum, Complex.ofReal_re] at this
    rw [← this]
    refine Finset.sum_congr rfl fun j _ => ?_
    rw [Complex.re_ofReal_mul, Complex.exp_ofReal_mul_I_re]
  · have := congrArg Complex.im h
    rw [Complex.im_sum, Complex.ofReal_im] at this
    rw [← this]
    refine Finset.sum_congr rfl fun j _ => ?_
    rw [Complex.im_ofReal_mul, Complex.exp_ofReal_mul_I_im]

/-- The integrand. -/
theorem kInt_eq {u : ℝ} (hu : 0 < u) (hu1 : u ≤ π) (k : ℕ) :
    kSig α u ^ k * kRho α u ^ (-(α * k))
      = sin u ^ k / (sin (α * u) ^ (α * k) * sin ((1 - α) * u) ^ ((1 - α) * k)) := by
  obtain ⟨a, b⟩ := kSin_pos h0 h1 hu hu1
  rw [kRho_eq h0 h1 hu, kSig, div_pow, div_rpow a.le b.le, rpow_neg a.le, rpow_neg b.le, ← rpow_natCast _ k,
    ← rpow_natCast _ k]
  have : sin ((1 - α) * u) ^ (k : ℝ) = sin ((1 - α) * u) ^ ((1 - α) * k) * sin ((1 - α) * u) ^ (α * k) := by
    rw [← rpow_add b]
    congr 1
    ring
  rw [this]
  have p1 := rpow_pos_of_pos a (α * k)
  have p2 := rpow_pos_of_pos b (α * k)
  have p3 := rpow_pos_of_pos b ((1 - α) * k)
  field_simp

/-- The antiderivative. -/
noncomputable def kPrim (α : ℝ) (k : ℕ) (u : ℝ) : ℝ :=
  ∑ j ∈ Finset.range (k + 1), (k.choose j : ℝ) * (kRho α u ^ ((j : ℝ) - α * k) * sinDiv (j - α * k) u)

omit h0 h1 in
theorem sinDiv_continuous (c : ℝ) : Continuous (sinDiv c) := by
  unfold sinDiv
  split
  · exact continuous_id
  · fun_prop

theorem kPrim_hasDerivAt {u : ℝ} (hu : 0 < u) (hu1 : u < π) (k : ℕ) :
    HasDerivAt (kPrim α k) (kSig α u ^ k * kRho α u ^ (-(α * k))) u := by
  have hp := kRho_pos h0 h1 hu.le hu1.le
  obtain ⟨a, b⟩ := kSin_pos h0 h1 hu hu1.le
  have hd : ∃ d, HasDerivAt (kRho α) d u := by
    have hq : HasDerivAt (fun v => sin (α * v) / sin ((1 - α) * v)) _ u :=
      HasDerivAt.div (((hasDerivAt_id u).const_mul α).sin) (((hasDerivAt_id u).const_mul (1 - α)).sin) b.ne'
    refine ⟨_, hq.congr_of_eventuallyEq ?_⟩
    filter_upwards [lt_mem_nhds hu] with v hv
    exact kRho_eq h0 h1 hv
  obtain ⟨d, hd⟩ := hd
  have hs : ∀ c : ℝ, HasDerivAt (fun v => kRho α v ^ c * sinDiv c v)
      (kRho α u ^ c * (cos (c * u) + d / kRho α u * sin (c * u))) u := by
    intro c
    have h2 := hd.rpow_const (p := c) (Or.inl hp.ne')
    rcases eq_or_ne c 0 with hc | hc
    · subst hc
      have : (fun v => kRho α v ^ (0 : ℝ) * sinDiv 0 v) = id := by
        funext v
        simp [sinDiv]
      rw [this]
      simpa using hasDerivAt_id u
    · have h3 : HasDerivAt (sinDiv c) (cos (c * u)) u := by
        have h4 := (((hasDerivAt_id u).const_mul c).sin).div_const c
        have e : (fun v => sin (c * id v) / c) = sinDiv c := by
          funext v
          rw [sinDiv, if_neg hc]
          rfl
        rw [e] at h4
        refine h4.congr_deriv ?_
        simp only [id, mul_one]
        field_simp
      refine (h2.mul h3).congr_deriv ?_
      rw [sinDiv, if_neg hc, rpow_sub_one hp.ne']
      field_simp
      ring
  have hsum : HasDerivAt (kPrim α k) (∑ j ∈ Finset.range (k + 1), (k.choose j : ℝ) *
      (kRho α u ^ ((j : ℝ) - α * k) * (cos ((j - α * k) * u) + d / kRho α u * sin ((j - α * k) * u)))) u := by
    unfold kPrim
    refine HasDerivAt.fun_sum fun j _ => ?_
    exact (hs _).const_mul _
  refine hsum.congr_deriv ?_
  obtain ⟨c1, c2⟩ := kBinom h0 h1 hu hu1.le k
  have e : ∀ j : ℕ, kRho α u ^ ((j : ℝ) - α * k) = kRho α u ^ j * kRho α u ^ (-(α * k)) := fun j => by
    rw [← rpow_natCast, ← rpow_add hp]
    rfl
  have : ∑ j ∈ Finset.range (k + 1), (k.choose j : ℝ) *
      (kRho α u ^ ((j : ℝ) - α * k) * (cos ((j - α * k) * u) + d / kRho α u * sin ((j - α * k) * u)))
      = kRho α u ^ (-(α * k)) * (∑ j ∈ Finset.range (k + 1), (k.choose j : ℝ) * kRho α u ^ j * cos ((j - α * k) * u))
        + kRho α u ^ (-(α * k)) * (d / kRho α u) *
          ∑ j ∈ Finset.range (k + 1), (k.choose j : ℝ) * kRho α u ^ j * sin ((j - α * k) * u) := by
    rw [Finset.mul_sum, Finset.mul_sum, ← Finset.sum_add_distrib]
    refine Finset.sum_congr rfl fun j _ => ?_
    rw [e]
    ring
  rw [this, c1, c2]
  ring

theorem kInt_nonneg {u : ℝ} (hu : 0 < u) (hu1 : u < π) (k : ℕ) : 0 ≤ kSig α u ^ k * kRho α u ^ (-(α * k)) := by
  have hp := kRho_pos h0 h1 hu.le hu1.le
  obtain ⟨a, b⟩ := kSin_pos h0 h1 hu hu1.le
  have := sin_pos_of_pos_of_lt_pi hu hu1
  unfold kSig
  positivity

theorem kPrim_continuousOn (k : ℕ) : ContinuousOn (kPrim α k) (Icc 0 π) := by
  unfold kPrim
  refine continuousOn_finsetSum _ fun j _ => ?_
  refine continuousOn_const.mul (ContinuousOn.mul ?_ (sinDiv_continuous _).continuousOn)
  exact (kRho_continuousOn h0 h1).rpow_const fun u hu => Or.inl (kRho_pos h0 h1 hu.1 hu.2).ne'

theorem kInt_integrable (k : ℕ) :
    MeasureTheory.IntegrableOn (fun u => kSig α u ^ k * kRho α u ^ (-(α * k))) (Ioc 0 π) := by
  refine intervalIntegral.integrableOn_deriv_of_nonneg (kPrim_continuousOn h0 h1 k) ?_ ?_
  · intro u hu
    exact kPrim_hasDerivAt h0 h1 hu.1 hu.2 k
  · intro u hu
    exact kInt_nonneg h0 h1 hu.1 hu.2 k

/-- The value of the integral. -/
theorem kInt_value (k : ℕ) :
    ∫ u in (0 : ℝ)..π, kSig α u ^ k * kRho α u ^ (-(α * k))
      = π * k.factorial * ((Gamma (1 + α * k))⁻¹ * (Gamma (1 + (1 - α) * k))⁻¹) := by
  rw [intervalIntegral.integral_eq_sub_of_hasDerivAt_of_le pi_pos.le (kPrim_continuousOn h0 h1 k)
    (fun u hu => kPrim_hasDerivAt h0 h1 hu.1 hu.2 k)
    ((intervalIntegrable_iff_integrableOn_Ioc_of_le pi_pos.le).mpr (kInt_integrable h0 h1 k))]
  have e0 : kPrim α k 0 = 0 := by
    unfold kPrim
    refine Finset.sum_eq_zero fun j _ => ?_
    have : sinDiv ((j : ℝ) - α * k) 0 = 0 := by
      unfold sinDiv
      split <;> simp
    rw [this]
    ring
  have e1 : kPrim α k π = ∑ j ∈ Finset.range (k + 1), (k.choose j : ℝ) * sinDiv (j - α * k) π := by
    unfold kPrim
    refine Finset.sum_congr rfl fun j _ => ?_
    rw [kRho_pi h0 h1, one_rpow, one_mul]
  rw [e0, e1, sub_zero, sum_sinDiv]
  congr 4
  ring

end

end Copulae
