import Mathlib.Analysis.SpecialFunctions.Pow.Real
import Mathlib.Analysis.SpecialFunctions.Log.Basic

/-!
Floating point values as the model sees them: exact reals plus `nan`, `+inf`
and `-inf`, with the IEEE / C99 (= NumPy) rules for the special values.

Simplifications: finite operations are exact (no rounding, no overflow), and
there is a single zero (`-0.0` is identified with `0.0`; a division of a
non-zero number by zero takes the sign of the numerator).
-/

namespace Copulae

open Classical

/-- An IEEE double, up to rounding. -/
inductive Fl
  | nan
  | ninf
  | fin (x : ℝ)
  | pinf

namespace Fl

instance : Coe ℝ Fl := ⟨Fl.fin⟩
instance : Inhabited Fl := ⟨.nan⟩
instance : Zero Fl := ⟨.fin 0⟩
instance : One Fl := ⟨.fin 1⟩

/-- `np.isnan` -/
def isNan : Fl → Prop
  | .nan => True
  | _ => False

/-- `np.isfinite` -/
def isFin : Fl → Prop
  | .fin _ => True
  | _ => False

/-- `a < b`; comparisons with NaN are false. -/
def lt : Fl → Fl → Prop
  | .nan, _ => False
  | _, .nan => False
  | .fin a, .fin b => a < b
  | .ninf, .ninf => False
  | .ninf, _ => True
  | _, .ninf => False
  | .pinf, _ => False
  | .fin _, .pinf => True

/-- `a <= b`; comparisons with NaN are false. -/
def le : Fl → Fl → Prop
  | .nan, _ => False
  | _, .nan => False
  | .fin a, .fin b => a ≤ b
  | .ninf, _ => True
  | _, .ninf => False
  | _, .pinf => True
  | .pinf, .fin _ => False

/-- `a == b`; NaN is not equal to itself. -/
def beq : Fl → Fl → Prop
  | .fin a, .fin b => a = b
  | .ninf, .ninf => True
  | .pinf, .pinf => True
  | _, _ => False

instance : LT Fl := ⟨lt⟩
instance : LE Fl := ⟨le⟩

/-- `-a` -/
def neg : Fl → Fl
  | .nan => .nan
  | .ninf => .pinf
  | .fin a => .fin (-a)
  | .pinf => .ninf

/-- `a + b` -/
noncomputable def add : Fl → Fl → Fl
  | .nan, _ => .nan
  | _, .nan => .nan
  | .fin a, .fin b => .fin (a + b)
  | .ninf, .pinf => .nan
  | .pinf, .ninf => .nan
  | .ninf, _ => .ninf
  | _, .ninf => .ninf
  | .pinf, _ => .pinf
  | _, .pinf => .pinf

instance : Neg Fl := ⟨neg⟩
noncomputable instance : Add Fl := ⟨add⟩
/-- `a - b` -/
noncomputable instance : Sub Fl := ⟨fun a b => a + (-b)⟩

/-- Infinity with the sign of a non-zero real, NaN for zero (`inf * a`). -/
noncomputable def infSign (a : ℝ) : Fl :=
  if 0 < a then .pinf else if a < 0 then .ninf else .nan

/-- `a * b` -/
noncomputable def mul : Fl → Fl → Fl
  | .nan, _ => .nan
  | _, .nan => .nan
  | .fin a, .fin b => .fin (a * b)
  | .pinf, .pinf => .pinf
  | .ninf, .ninf => .pinf
  | .pinf, .ninf => .ninf
  | .ninf, .pinf => .ninf
  | .pinf, .fin b => infSign b
  | .fin a, .pinf => infSign a
  | .ninf, .fin b => infSign (-b)
  | .fin a, .ninf => infSign (-a)

noncomputable instance : Mul Fl := ⟨mul⟩

/-- `a / b` with NumPy semantics (no exception; zero is positive zero). -/
noncomputable def div : Fl → Fl → Fl
  | .nan, _ => .nan
  | _, .nan => .nan
  | .fin a, .fin b => if b = 0 then infSign a else .fin (a / b)
  | .fin _, _ => .fin 0
  | .pinf, .fin b => if 0 ≤ b then .pinf else .ninf
  | .ninf, .fin b => if 0 ≤ b then .ninf else .pinf
  | _, _ => .nan

noncomputable instance : Div Fl := ⟨div⟩

/-- `np.log` -/
noncomputable def log : Fl → Fl
  | .nan => .nan
  | .ninf => .nan
  | .pinf => .pinf
  | .fin a => if 0 < a then .fin (Real.log a) else if a = 0 then .ninf else .nan

/-- `np.exp` -/
noncomputable def exp : Fl → Fl
  | .nan => .nan
  | .ninf => .fin 0
  | .pinf => .pinf
  | .fin a => .fin (Real.exp a)

/-- `np.log1p` -/
noncomputable def log1p (a : Fl) : Fl := log (.fin 1 + a)

/-- `np.expm1` -/
noncomputable def expm1 (a : Fl) : Fl := exp a - .fin 1

/-- `np.abs` -/
noncomputable def abs : Fl → Fl
  | .nan => .nan
  | .ninf => .pinf
  | .pinf => .pinf
  | .fin a => .fin |a|

/-- `np.sign` -/
noncomputable def sign : Fl → Fl
  | .nan => .nan
  | .ninf => .fin (-1)
  | .pinf => .fin 1
  | .fin a => .fin (if 0 < a then 1 else if a < 0 then -1 else 0)

/-- `np.maximum`: NaN is contagious. -/
noncomputable def maximum : Fl → Fl → Fl
  | .nan, _ => .nan
  | _, .nan => .nan
  | .fin a, .fin b => .fin (max a b)
  | .pinf, _ => .pinf
  | _, .pinf => .pinf
  | .ninf, b => b
  | a, .ninf => a

/-- Real power of a finite base and a finite exponent, C `pow`. -/
noncomputable def powFin (a y : ℝ) : Fl :=
  if y = 0 then .fin 1
  else if 0 < a then .fin (a ^ y)
  else if a = 0 then (if 0 < y then .fin 0 else .pinf)
  else if h : ∃ k : ℤ, (k : ℝ) = y then .fin (a ^ h.choose) else .nan

/-- `np.power(a, y)` / `a ** y`, C `pow`. -/
noncomputable def pow : Fl → Fl → Fl
  | .fin a, .fin y => powFin a y
  | .fin a, .nan => if a = 1 then .fin 1 else .nan
  | .fin a, .pinf => if |a| < 1 then .fin 0 else if |a| = 1 then .fin 1 else .pinf
  | .fin a, .ninf => if |a| < 1 then .pinf else if |a| = 1 then .fin 1 else .fin 0
  | .pinf, .fin y => if y = 0 then .fin 1 else if 0 < y then .pinf else .fin 0
  | .pinf, .pinf => .pinf
  | .pinf, .ninf => .fin 0
  | .pinf, .nan => .nan
  | .ninf, .fin y =>
      if y = 0 then .fin 1 else if y < 0 then .fin 0
      else if ∃ k : ℤ, (2 * k + 1 : ℝ) = y then .ninf else .pinf
  | .ninf, .pinf => .pinf
  | .ninf, .ninf => .fin 0
  | .ninf, .nan => .nan
  | .nan, .fin y => if y = 0 then .fin 1 else .nan
  | .nan, _ => .nan

noncomputable instance : Pow Fl Fl := ⟨pow⟩

/-! ### Rewriting rules -/

@[simp] theorem fin_lt_fin {a b : ℝ} : (Fl.fin a < Fl.fin b) ↔ a < b := Iff.rfl
@[simp] theorem fin_le_fin {a b : ℝ} : (Fl.fin a ≤ Fl.fin b) ↔ a ≤ b := Iff.rfl
@[simp] theorem not_nan_lt {a : Fl} : ¬ (Fl.nan < a) := by cases a <;> exact id
@[simp] theorem not_lt_nan {a : Fl} : ¬ (a < Fl.nan) := by cases a <;> exact id
@[simp] theorem not_nan_le {a : Fl} : ¬ (Fl.nan ≤ a) := by cases a <;> exact id
@[simp] theorem not_le_nan {a : Fl} : ¬ (a ≤ Fl.nan) := by cases a <;> exact id
@[simp] theorem fin_le_pinf {a : ℝ} : Fl.fin a ≤ Fl.pinf := trivial
@[simp] theorem fin_lt_pinf {a : ℝ} : Fl.fin a < Fl.pinf := trivial
@[simp] theorem ninf_le_fin {a : ℝ} : Fl.ninf ≤ Fl.fin a := trivial
@[simp] theorem ninf_lt_fin {a : ℝ} : Fl.ninf < Fl.fin a := trivial
@[simp] theorem not_pinf_le_fin {a : ℝ} : ¬ (Fl.pinf ≤ Fl.fin a) := id
@[simp] theorem not_pinf_lt_fin {a : ℝ} : ¬ (Fl.pinf < Fl.fin a) := id
@[simp] theorem not_fin_le_ninf {a : ℝ} : ¬ (Fl.fin a ≤ Fl.ninf) := id
@[simp] theorem not_fin_lt_ninf {a : ℝ} : ¬ (Fl.fin a < Fl.ninf) := id

@[simp] theorem fin_inj {a b : ℝ} : Fl.fin a = Fl.fin b ↔ a = b :=
  ⟨fun h => by injection h, fun h => by rw [h]⟩

@[simp] theorem neg_fin (a : ℝ) : -Fl.fin a = Fl.fin (-a) := rfl
@[simp] theorem neg_pinf : -Fl.pinf = Fl.ninf := rfl
@[simp] theorem neg_ninf : -Fl.ninf = Fl.pinf := rfl
@[simp] theorem neg_nan : -Fl.nan = Fl.nan := rfl
@[simp] theorem fin_add_fin (a b : ℝ) : Fl.fin a + Fl.fin b = Fl.fin (a + b) := rfl
@[simp] theorem fin_sub_fin (a b : ℝ) : Fl.fin a - Fl.fin b = Fl.fin (a - b) := by
  show Fl.fin (a + -b) = _
  rw [sub_eq_add_neg]
@[simp] theorem fin_mul_fin (a b : ℝ) : Fl.fin a * Fl.fin b = Fl.fin (a * b) := rfl
theorem fin_div_fin (a b : ℝ) :
    Fl.fin a / Fl.fin b = if b = 0 then infSign a else Fl.fin (a / b) := rfl
theorem fin_div_fin' (a : ℝ) {b : ℝ} (h : b ≠ 0) : Fl.fin a / Fl.fin b = Fl.fin (a / b) := by
  rw [fin_div_fin, if_neg h]
@[simp] theorem nan_add (a : Fl) : Fl.nan + a = Fl.nan := by cases a <;> rfl
@[simp] theorem add_nan (a : Fl) : a + Fl.nan = Fl.nan := by cases a <;> rfl
@[simp] theorem nan_mul (a : Fl) : Fl.nan * a = Fl.nan := by cases a <;> rfl
@[simp] theorem mul_nan (a : Fl) : a * Fl.nan = Fl.nan := by cases a <;> rfl
@[simp] theorem nan_sub (a : Fl) : Fl.nan - a = Fl.nan := by cases a <;> rfl
@[simp] theorem sub_nan (a : Fl) : a - Fl.nan = Fl.nan := by cases a <;> rfl
@[simp] theorem nan_div (a : Fl) : Fl.nan / a = Fl.nan := by cases a <;> rfl
@[simp] theorem div_nan (a : Fl) : a / Fl.nan = Fl.nan := by cases a <;> rfl
@[simp] theorem fin_add_pinf (a : ℝ) : Fl.fin a + Fl.pinf = Fl.pinf := rfl
@[simp] theorem pinf_add_fin (a : ℝ) : Fl.pinf + Fl.fin a = Fl.pinf := rfl
@[simp] theorem fin_add_ninf (a : ℝ) : Fl.fin a + Fl.ninf = Fl.ninf := rfl
@[simp] theorem ninf_add_fin (a : ℝ) : Fl.ninf + Fl.fin a = Fl.ninf := rfl
@[simp] theorem pinf_add_pinf : Fl.pinf + Fl.pinf = Fl.pinf := rfl
@[simp] theorem ninf_add_ninf : Fl.ninf + Fl.ninf = Fl.ninf := rfl
@[simp] theorem pinf_sub_fin (a : ℝ) : Fl.pinf - Fl.fin a = Fl.pinf := rfl
@[simp] theorem ninf_sub_fin (a : ℝ) : Fl.ninf - Fl.fin a = Fl.ninf := rfl
@[simp] theorem fin_sub_pinf (a : ℝ) : Fl.fin a - Fl.pinf = Fl.ninf := rfl
@[simp] theorem fin_sub_ninf (a : ℝ) : Fl.fin a - Fl.ninf = Fl.pinf := rfl
theorem fin_mul_pinf (a : ℝ) : Fl.fin a * Fl.pinf = infSign a := rfl
theorem pinf_mul_fin (a : ℝ) : Fl.pinf * Fl.fin a = infSign a := rfl
theorem fin_mul_ninf (a : ℝ) : Fl.fin a * Fl.ninf = infSign (-a) := rfl
theorem ninf_mul_fin (a : ℝ) : Fl.ninf * Fl.fin a = infSign (-a) := rfl
theorem infSign_pos {a : ℝ} (h : 0 < a) : infSign a = .pinf := by simp [infSign, h]
theorem infSign_neg {a : ℝ} (h : a < 0) : infSign a = .ninf := by
  simp [infSign, h, not_lt.mpr h.le]
@[simp] theorem infSign_zero : infSign 0 = .nan := by simp [infSign]

@[simp] theorem log_nan : log .nan = .nan := rfl
@[simp] theorem log_pinf : log .pinf = .pinf := rfl
@[simp] theorem log_ninf : log .ninf = .nan := rfl
theorem log_pos {a : ℝ} (h : 0 < a) : log (.fin a) = .fin (Real.log a) := by simp [log, h]
@[simp] theorem log_zero : log (.fin 0) = .ninf := by simp [log]
theorem log_neg {a : ℝ} (h : a < 0) : log (.fin a) = .nan := by
  simp [log, not_lt.mpr h.le, h.ne]
@[simp] theorem exp_fin (a : ℝ) : exp (.fin a) = .fin (Real.exp a) := rfl
@[simp] theorem exp_ninf : exp .ninf = .fin 0 := rfl
@[simp] theorem exp_pinf : exp .pinf = .pinf := rfl
@[simp] theorem exp_nan : exp .nan = .nan := rfl
@[simp] theorem expm1_fin (a : ℝ) : expm1 (.fin a) = .fin (Real.exp a - 1) := by simp [expm1]
theorem log1p_pos {a : ℝ} (h : -1 < a) : log1p (.fin a) = .fin (Real.log (1 + a)) := by
  rw [log1p, fin_add_fin, log_pos (by linarith)]

theorem pow_def (a y : ℝ) : (Fl.fin a) ^ (Fl.fin y) = powFin a y := rfl
theorem pow_pos {a : ℝ} (h : 0 < a) (y : ℝ) : (Fl.fin a) ^ (Fl.fin y) = .fin (a ^ y) := by
  rw [pow_def, powFin]
  by_cases hy : y = 0
  · simp [hy]
  · simp [hy, h]
theorem zero_pow_pos {y : ℝ} (h : 0 < y) : (Fl.fin 0) ^ (Fl.fin y) = .fin 0 := by
  simp [pow_def, powFin, h, h.ne']
theorem zero_pow_neg {y : ℝ} (h : y < 0) : (Fl.fin 0) ^ (Fl.fin y) = .pinf := by
  simp [pow_def, powFin, h.ne, not_lt.mpr h.le]
theorem pinf_pow_pos {y : ℝ} (h : 0 < y) : Fl.pinf ^ (Fl.fin y) = .pinf := by
  show pow _ _ = _
  simp [pow, h, h.ne']
theorem pinf_pow_neg {y : ℝ} (h : y < 0) : Fl.pinf ^ (Fl.fin y) = .fin 0 := by
  show pow _ _ = _
  simp [pow, h.ne, not_lt.mpr h.le]
theorem nan_pow {y : ℝ} (h : y ≠ 0) : Fl.nan ^ (Fl.fin y) = .nan := by
  show pow _ _ = _
  simp [pow, h]

@[simp] theorem maximum_fin (a b : ℝ) : maximum (.fin a) (.fin b) = .fin (max a b) := rfl
@[simp] theorem maximum_pinf (a : Fl) (h : a ≠ .nan) : maximum .pinf a = .pinf := by
  cases a <;> first | rfl | exact absurd rfl h
@[simp] theorem maximum_ninf_fin (a : ℝ) : maximum .ninf (.fin a) = .fin a := rfl
@[simp] theorem maximum_nan (a : Fl) : maximum .nan a = .nan := by cases a <;> rfl
theorem sign_pos {a : ℝ} (h : 0 < a) : sign (.fin a) = .fin 1 := by simp [sign, h]
theorem sign_neg {a : ℝ} (h : a < 0) : sign (.fin a) = .fin (-1) := by
  simp [sign, h, not_lt.mpr h.le]
@[simp] theorem sign_zero : sign (.fin 0) = .fin 0 := by simp [sign]
@[simp] theorem abs_fin (a : ℝ) : abs (.fin a) = .fin |a| := rfl

end Fl

/-- Left-to-right sum of an array, `ndarray.sum()`. -/
noncomputable def Fl.sum (l : List Fl) : Fl := l.foldl (· + ·) (.fin 0)

end Copulae
