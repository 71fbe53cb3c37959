import Mathlib.MeasureTheory.Integral.IntervalIntegral.FundThmCalculus
import Mathlib.Analysis.SpecialFunctions.Integrals.Basic
import Mathlib.Analysis.SpecialFunctions.Trigonometric.Chebyshev.RootsExtrema

/-!
Polynomials with rational coefficients as lists, for computations by the kernel, with bounds on intervals.
-/

namespace Copulae

namespace LP

/-- Value of the polynomial with coefficients `l`, lowest first. -/
noncomputable def eval (l : List ℚ) (t : ℝ) : ℝ := l.foldr (fun a s => (a : ℝ) + t * s) 0

@[simp] theorem eval_nil (t : ℝ) : eval [] t = 0 := rfl

@[simp] theorem eval_cons (a : ℚ) (l : List ℚ) (t : ℝ) : eval (a :: l) t = a + t * eval l t := rfl

def add : List ℚ → List ℚ → List ℚ
  | [], q => q
  | p, [] => p
  | a :: p, b :: q => (a + b) :: add p q

theorem eval_add (p q : List ℚ) (t : ℝ) : eval (add p q) t = eval p t + eval q t := by
  induction p generalizing q with
  | nil => simp [add]
  | cons a p ih =>
    cases q with
    | nil => simp [add]
    | cons b q =>
      simp only [add, eval_cons, ih]
      push_cast
      ring

def smul (c : ℚ) (p : List ℚ) : List ℚ := p.map (c * ·)

theorem eval_smul (c : ℚ) (p : List ℚ) (t : ℝ) : eval (smul c p) t = c * eval p t := by
  induction p with
  | nil => simp [smul]
  | cons a p ih =>
    simp only [smul, List.map_cons, eval_cons] at ih ⊢
    rw [ih]
    push_cast
    ring

def mul : List ℚ → List ℚ → List ℚ
  | [], _ => []
  | a :: p, q => add (smul a q) (0 :: mul p q)

theorem eval_mul (p q : List ℚ) (t : ℝ) : eval (mul p q) t = eval p t * eval q t := by
  induction p with
  | nil => simp [mul]
  | cons a p ih =>
    simp only [mul, eval_add, eval_smul, eval_cons, ih]
    push_cast
    ring

/-- Sum of the absolute values of the terms at `c`. -/
def absSum (c : ℚ) (l : List ℚ) : ℚ := l.foldr (fun a s => |a| + c * s) 0

theorem absSum_nonneg {c : ℚ} (hc : 0 ≤ c) (l : List ℚ) : 0 ≤ absSum c l := by
  induction l with
  | nil => exact le_rfl
  | cons a l ih => exact add_nonneg (abs_nonneg a) (mul_nonneg hc ih)

theorem abs_eval_le {c : ℚ} {t : ℝ} (h : |t| ≤ c) (l : List ℚ) : |eval l t| ≤ absSum c l := by
  induction l with
  | nil => simp [absSum]
  | cons a l ih =>
    have hc : (0 : ℝ) ≤ c := (abs_nonneg t).trans h
    rw [eval_cons]
    calc |(a : ℝ) + t * eval l t| ≤ |(a : ℝ)| + |t| * |eval l t| := by
          rw [← abs_mul]; exact abs_add_le _ _
      _ ≤ |(a : ℝ)| + c * absSum c l := by gcongr
      _ = ((absSum c (a :: l) : ℚ) : ℝ) := by simp [absSum]

theorem continuous_eval (l : List ℚ) : Continuous (eval l) := by
  induction l with
  | nil => exact continuous_const
  | cons a l ih => exact continuous_const.add (continuous_id.mul ih)

/-- Coefficients of the polynomial in `t²`. -/
def spread : List ℚ → List ℚ
  | [] => []
  | a :: l => a :: 0 :: spread l

theorem eval_spread (l : List ℚ) (t : ℝ) : eval (spread l) t = eval l (t ^ 2) := by
  induction l with
  | nil => rfl
  | cons a l ih =>
    simp only [spread, eval_cons, ih]
    push_cast
    ring

/-- Coefficients of `∫₀¹ s^m p((x s)²) ds` as a polynomial in `x²`. -/
def intE : ℕ → List ℚ → List ℚ
  | _, [] => []
  | m, a :: l => a / (m + 1) :: intE (m + 2) l

theorem integral_intE (m : ℕ) (l : List ℚ) (x : ℝ) :
    ∫ s in (0 : ℝ)..1, s ^ m * eval l ((x * s) ^ 2) = eval (intE m l) (x ^ 2) := by
  induction l generalizing m with
  | nil => simp [intE]
  | cons a l ih =>
    have e : (fun s : ℝ => s ^ m * eval (a :: l) ((x * s) ^ 2)) =
        fun s => (a : ℝ) * s ^ m + x ^ 2 * (s ^ (m + 2) * eval l ((x * s) ^ 2)) := by
      funext s
      rw [eval_cons]
      ring
    have hc : Continuous fun s : ℝ => s ^ (m + 2) * eval l ((x * s) ^ 2) :=
      (continuous_pow _).mul ((continuous_eval l).comp (by fun_prop))
    have h1 : Continuous fun s : ℝ => (a : ℝ) * s ^ m := by fun_prop
    have h2 : Continuous fun s : ℝ => x ^ 2 * (s ^ (m + 2) * eval l ((x * s) ^ 2)) := continuous_const.mul hc
    rw [e, intervalIntegral.integral_add (h1.intervalIntegrable _ _) (h2.intervalIntegrable _ _),
      intervalIntegral.integral_const_mul,
      intervalIntegral.integral_const_mul, ih, integral_pow]
    simp only [intE, eval_cons]
    push_cast
    simp
    ring

/-! ### Chebyshev series -/

open Polynomial

/-- Value of `Σ c_k T_{m+k}(y)`. -/
noncomputable def cheb (y : ℝ) (m : ℕ) : List ℚ → ℝ
  | [] => 0
  | a :: l => a * (Chebyshev.T ℝ (m : ℤ)).eval y + cheb y (m + 1) l

theorem cheb_add (y : ℝ) (m : ℕ) (p q : List ℚ) : cheb y m (add p q) = cheb y m p + cheb y m q := by
  induction p generalizing q m with
  | nil => simp [add, cheb]
  | cons a p ih =>
    cases q with
    | nil => simp [add, cheb]
    | cons b q =>
      simp only [add, cheb, ih]
      push_cast
      ring

theorem cheb_smul (y : ℝ) (m : ℕ) (c : ℚ) (p : List ℚ) : cheb y m (smul c p) = c * cheb y m p := by
  induction p generalizing m with
  | nil => simp [smul, cheb]
  | cons a p ih =>
    simp only [smul, List.map_cons, cheb] at ih ⊢
    rw [ih]
    push_cast
    ring

theorem abs_cheb_le {y : ℝ} (hy : |y| ≤ 1) (m : ℕ) (l : List ℚ) : |cheb y m l| ≤ absSum 1 l := by
  induction l generalizing m with
  | nil => simp [cheb, absSum]
  | cons a l ih =>
    have hT : |(Chebyshev.T ℝ (m : ℤ)).eval y| ≤ 1 := Chebyshev.abs_eval_T_real_le_one m hy
    calc |cheb y m (a :: l)| ≤ |(a : ℝ)| * |(Chebyshev.T ℝ (m : ℤ)).eval y| + |cheb y (m + 1) l| := by
          rw [← abs_mul]; exact abs_add_le _ _
      _ ≤ |(a : ℝ)| * 1 + absSum 1 l := by gcongr; exact ih _
      _ = ((absSum 1 (a :: l) : ℚ) : ℝ) := by simp [absSum]

/-- `2 y Σ c_k T_{k+1}`, as coefficients of `T_0, T_1, ...`. -/
theorem cheb_shift (y : ℝ) (m : ℕ) (l : List ℚ) :
    2 * y * cheb y (m + 1) l = cheb y m l + cheb y (m + 2) l := by
  induction l generalizing m with
  | nil => simp [cheb]
  | cons a l ih =>
    simp only [cheb]
    have h := Chebyshev.T_add_two ℝ (m : ℤ)
    have e : ((m + 1 : ℕ) : ℤ) = (m : ℤ) + 1 := by push_cast; ring
    have e' : ((m + 2 : ℕ) : ℤ) = (m : ℤ) + 2 := by push_cast; ring
    rw [e, e', h]
    simp only [Polynomial.eval_sub, Polynomial.eval_mul, Polynomial.eval_X, Polynomial.eval_ofNat]
    have := ih (m + 1)
    linear_combination this

/-- Coefficients of `(1 + y) Σ c_k T_k(y)`. -/
def mulOne : List ℚ → List ℚ
  | [] => []
  | a :: l => add (add (a :: l) [0, a]) (add (smul (1 / 2) l) (0 :: 0 :: smul (1 / 2) l))

theorem cheb_mulOne (y : ℝ) (l : List ℚ) : cheb y 0 (mulOne l) = (1 + y) * cheb y 0 l := by
  cases l with
  | nil => simp [mulOne, cheb]
  | cons a l =>
    have h := cheb_shift y 0 l
    simp only [mulOne, cheb_add, cheb_smul, cheb, zero_add, Nat.cast_zero, Nat.cast_one, Chebyshev.T_zero,
      Chebyshev.T_one, eval_X, eval_one] at h ⊢
    push_cast
    linear_combination (1 / 2 : ℝ) * h.symm

/-- Chebyshev coefficients of the polynomial with coefficients `l` in `1 + y`. -/
def toCheb : List ℚ → List ℚ
  | [] => []
  | a :: l => add [a] (mulOne (toCheb l))

theorem cheb_toCheb (y : ℝ) (l : List ℚ) : cheb y 0 (toCheb l) = eval l (1 + y) := by
  induction l with
  | nil => rfl
  | cons a l ih =>
    rw [toCheb, cheb_add, cheb_mulOne, ih, eval_cons]
    simp [cheb]

/-- Change of the unit: the polynomial in `t` as one in `t / c`. -/
def scale (c : ℚ) : List ℚ → List ℚ
  | [] => []
  | a :: l => a :: smul c (scale c l)

theorem eval_scale (c : ℚ) (l : List ℚ) (t : ℝ) : eval (scale c l) t = eval l (c * t) := by
  induction l with
  | nil => rfl
  | cons a l ih =>
    simp only [scale, eval_cons, eval_smul, ih]
    ring

end LP

end Copulae
