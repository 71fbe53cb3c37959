import Verif.Lemmas.ListPoly
import Mathlib.Analysis.Calculus.Deriv.Mul
import Mathlib.Analysis.Calculus.Deriv.Add

/-!
Derivatives and positivity of rational polynomials on intervals, for computations by the kernel.
-/

namespace Copulae

namespace LP

/-- Coefficients of the derivative. -/
def derivL : List ℚ → List ℚ
  | [] => []
  | _ :: l => add l (0 :: derivL l)

theorem eval_hasDerivAt (l : List ℚ) (t : ℝ) : HasDerivAt (eval l) (eval (derivL l) t) t := by
  induction l with
  | nil => exact hasDerivAt_const t (0 : ℝ)
  | cons a l ih =>
    have h := ((hasDerivAt_id t).mul ih).const_add (a : ℝ)
    refine h.congr_deriv ?_
    simp only [derivL, eval_add, eval_cons, id_eq]
    push_cast
    ring

/-- The polynomial in `s` where `t = c + h s`. -/
def shift (c h : ℚ) (p : List ℚ) : List ℚ := p.foldr (fun a r => add [a] (mul [c, h] r)) []

theorem eval_shift (c h : ℚ) (p : List ℚ) (s : ℝ) : eval (shift c h p) s = eval p (c + h * s) := by
  induction p with
  | nil => rfl
  | cons a p ih =>
    have e : shift c h (a :: p) = add [a] (mul [c, h] (shift c h p)) := rfl
    rw [e, eval_add, eval_mul, ih]
    simp only [eval_cons, eval_nil]
    ring

/-- A test which is enough for the polynomial to be non-negative on `[c - h, c + h]`: the constant term dominates. -/
def dominated (p : List ℚ) (c h : ℚ) : Bool :=
  match shift c h p with
  | [] => true
  | a :: l => decide (absSum 1 l ≤ a)

/-- The same, after at most `n` bisections. -/
def posOn : ℕ → List ℚ → ℚ → ℚ → Bool
  | 0, p, c, h => dominated p c h
  | n + 1, p, c, h => dominated p c h || (posOn n p (c - h / 2) (h / 2) && posOn n p (c + h / 2) (h / 2))

theorem dominated_sound {p : List ℚ} {c h : ℚ} (hh : 0 < h) (hd : dominated p c h = true) {t : ℝ}
    (ht : |t - c| ≤ h) : 0 ≤ eval p t := by
  have hh' : (0 : ℝ) < h := by exact_mod_cast hh
  have e : eval p t = eval (shift c h p) ((t - c) / h) := by
    rw [eval_shift]
    congr 1
    field_simp
    ring
  have hs : |(t - c) / h| ≤ ((1 : ℚ) : ℝ) := by
    rw [abs_div, abs_of_pos hh', Rat.cast_one, div_le_one hh']
    exact ht
  rw [e]
  unfold dominated at hd
  cases hq : shift c h p with
  | nil => simp
  | cons a l =>
    rw [hq] at hd
    have hal : absSum 1 l ≤ a := of_decide_eq_true hd
    have hal' : ((absSum 1 l : ℚ) : ℝ) ≤ a := by exact_mod_cast hal
    have h1 := abs_eval_le hs l
    have hs' : |(t - c) / h| ≤ 1 := by simpa using hs
    have h2 : |(t - c) / h * eval l ((t - c) / h)| ≤ absSum 1 l := by
      rw [abs_mul]
      calc _ ≤ 1 * |eval l ((t - c) / h)| := by gcongr
        _ ≤ _ := by rw [one_mul]; exact h1
    rw [eval_cons]
    linarith [(abs_le.mp h2).1]

theorem posOn_sound (n : ℕ) {p : List ℚ} {c h : ℚ} (hh : 0 < h) (hd : posOn n p c h = true) {t : ℝ}
    (ht : |t - c| ≤ h) : 0 ≤ eval p t := by
  induction n generalizing c h with
  | zero => exact dominated_sound hh hd ht
  | succ n ih =>
    simp only [posOn, Bool.or_eq_true, Bool.and_eq_true] at hd
    rcases hd with hd | ⟨h1, h2⟩
    · exact dominated_sound hh hd ht
    · rw [abs_le] at ht
      rcases le_total t c with hc | hc
      · refine ih (half_pos hh) h1 ?_
        rw [abs_le]
        push_cast
        constructor <;> linarith
      · refine ih (half_pos hh) h2 ?_
        rw [abs_le]
        push_cast
        constructor <;> linarith

/-- On the unit interval. -/
theorem posOn_unit (n : ℕ) {p : List ℚ} (hd : posOn n p (1 / 2) (1 / 2) = true) {t : ℝ} (h0 : 0 ≤ t) (h1 : t ≤ 1) :
    0 ≤ eval p t := by
  refine posOn_sound n (by norm_num) hd ?_
  rw [abs_le]
  push_cast
  constructor <;> linarith

end LP

end Copulae
