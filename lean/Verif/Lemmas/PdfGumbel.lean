import Verif.Lemmas.PdfClayton
import Verif.Props.GumbelCoef

/-!
Derivatives of the Gumbel generator, `gumbel_poly`, and the value of the Gumbel density.
-/

namespace Copulae

open Finset

/-- The polynomial of the Gumbel copula. -/
noncomputable def gumbelP (d : ℕ) (α x : ℝ) : ℝ := ∑ k ∈ range (d + 1), gumbelA d α k * x ^ k

/-- Its derivative. -/
noncomputable def gumbelP' (d : ℕ) (α x : ℝ) : ℝ :=
  ∑ k ∈ range (d + 1), gumbelA d α k * (k * x ^ (k - 1))

theorem gumbelP_hasDerivAt (d : ℕ) (α x : ℝ) : HasDerivAt (gumbelP d α) (gumbelP' d α x) x := by
  unfold gumbelP gumbelP'
  exact HasDerivAt.fun_sum fun k _ => (hasDerivAt_pow k x).const_mul _

theorem gumbelP_succ (d : ℕ) (α x : ℝ) :
    gumbelP (d + 1) α x = (α * x + d) * gumbelP d α x - α * x * gumbelP' d α x := by
  have h1 : gumbelP (d + 1) α x = ∑ k ∈ range (d + 1), gumbelA (d + 1) α (k + 1) * x ^ (k + 1) := by
    rw [gumbelP, sum_range_succ', gumbelA_zero_right α (by omega)]
    simp
  have h2 : x * gumbelP' d α x = ∑ k ∈ range (d + 1), gumbelA d α k * (k * x ^ k) := by
    rw [gumbelP', mul_sum]
    apply sum_congr rfl
    intro k _
    cases k with
    | zero => simp
    | succ k => simp only [Nat.add_sub_cancel, pow_succ]; ring
  have h3 : ∑ k ∈ range (d + 1), (d - α * ((k : ℝ) + 1)) * gumbelA d α (k + 1) * x ^ (k + 1) =
      ∑ k ∈ range (d + 1), (d - α * k) * gumbelA d α k * x ^ k := by
    have e := sum_range_succ' (fun k : ℕ => (d - α * (k : ℝ)) * gumbelA d α k * x ^ k) (d + 1)
    rw [sum_range_succ] at e
    have z1 : gumbelA d α (d + 1) = 0 := gumbelA_eq_zero α (by omega)
    have z2 : (d : ℝ) * gumbelA d α 0 = 0 := by
      rcases Nat.eq_zero_or_pos d with h | h
      · simp [h]
      · rw [gumbelA_zero_right α h, mul_zero]
    simp only [z1, Nat.cast_zero, mul_zero, zero_mul, add_zero, sub_zero, z2, Nat.cast_add,
      Nat.cast_one] at e
    exact e.symm
  rw [h1]
  simp only [gumbelA_succ, add_mul]
  rw [sum_add_distrib, h3, mul_assoc α x (gumbelP' d α x), h2]
  unfold gumbelP
  rw [mul_sum, mul_sum, mul_sum, ← sum_add_distrib, ← sum_add_distrib, ← sum_sub_distrib]
  apply sum_congr rfl
  intro k _
  rw [pow_succ]
  ring

/-- Derivatives of the generator `exp (-s ^ α)`. -/
noncomputable def gumbelPsiK (α : ℝ) (k : ℕ) (s : ℝ) : ℝ :=
  (-1) ^ k * Real.exp (-s ^ α) * gumbelP k α (s ^ α) / s ^ k

theorem gumbelPsiK_zero (α s : ℝ) : gumbelPsiK α 0 s = Real.exp (-s ^ α) := by
  simp [gumbelPsiK, gumbelP, gumbelA_zero_zero]

theorem gumbelPsiK_hasDerivAt (α : ℝ) (k : ℕ) {s : ℝ} (hs : 0 < s) :
    HasDerivAt (gumbelPsiK α k) (gumbelPsiK α (k + 1) s) s := by
  have h1 : HasDerivAt (fun s : ℝ => s ^ α) (α * s ^ (α - 1)) s :=
    Real.hasDerivAt_rpow_const (Or.inl hs.ne')
  have h2 := (h1.neg.exp.const_mul ((-1 : ℝ) ^ k)).mul ((gumbelP_hasDerivAt k α (s ^ α)).comp s h1)
  have h3 := h2.div (hasDerivAt_pow k s) (pow_ne_zero k hs.ne')
  refine h3.congr_deriv ?_
  have e : s ^ (α - 1) = s ^ α / s := by rw [Real.rpow_sub hs, Real.rpow_one]
  simp only [Pi.neg_apply, Function.comp, Pi.mul_apply]
  rw [gumbelPsiK, gumbelP_succ, e]
  have hk : (k : ℝ) * s ^ (k - 1) = k * (s ^ k / s) := by
    cases k with
    | zero => simp
    | succ k => rw [Nat.add_sub_cancel, pow_succ, mul_div_assoc, div_self hs.ne', mul_one]
  rw [hk]
  have hsk : s ^ k ≠ 0 := pow_ne_zero k hs.ne'
  rw [pow_succ s k, pow_succ (-1 : ℝ) k]
  field_simp
  ring

theorem gumbelP_pos {α x : ℝ} (h0 : 0 < α) (h1 : α ≤ 1) {d : ℕ} (hx : 0 < x) :
    0 < gumbelP d α x := by
  have hnn : ∀ k ∈ range (d + 1), 0 ≤ gumbelA d α k * x ^ k := fun k _ =>
    mul_nonneg (gumbelA_nonneg h0 h1 d k) (by positivity)
  have hd : gumbelA d α d = α ^ d := by
    induction d with
    | zero => rw [gumbelA_zero_zero]; simp
    | succ d ih =>
      rw [gumbelA_succ, gumbelA_eq_zero α (by omega), ih (fun k _ =>
        mul_nonneg (gumbelA_nonneg h0 h1 d k) (by positivity))]
      ring
  refine sum_pos' hnn ⟨d, by simp, ?_⟩
  rw [hd]
  positivity

theorem gumbelP_one (d : ℕ) (x : ℝ) : gumbelP d 1 x = x ^ d := by
  unfold gumbelP
  simp only [gumbelA_one]
  simp

theorem gumbelP_shift {d : ℕ} (hd : 1 ≤ d) (α x : ℝ) :
    gumbelP d α x = ∑ k ∈ range d, gumbelA d α (k + 1) * x ^ (k + 1) := by
  rw [gumbelP, sum_range_succ', gumbelA_zero_right α hd]
  simp

end Copulae
