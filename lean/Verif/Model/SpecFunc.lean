import Mathlib.Algebra.Order.Floor.Ring
import Verif.Model.Num

/-!
Real element functions of `special/_specfunc.pyx`: Chebyshev evaluation, Clausen and Debye functions.
Decimal constants are taken at their decimal value.
-/

namespace Copulae

open Classical

/-- _specfunc.pyx:14 `PI`. -/
noncomputable def cPI : ℝ := 3.14159265358979323846264338328

/-- _specfunc.pyx:15 `DBL_EPSILON`. -/
noncomputable def cEPS : ℝ := 2.220446049250313e-16

/-- _specfunc.pyx:16 `SQRT_DBL_EPSILON`. -/
noncomputable def cSQRTEPS : ℝ := 1.4901161193847656e-08

/-- _specfunc.pyx:17 `LOG_DBL_EPSILON`. -/
noncomputable def cLOGEPS : ℝ := -36.04365338911715

/-- _specfunc.pyx:18 `LOG_DBL_MIN`. -/
noncomputable def cLOGMIN : ℝ := -708.3964185322641

/-- _specfunc.pyx:19 `M_LN2`. -/
noncomputable def cLN2 : ℝ := 0.69314718055994530941723212146

/-- _specfunc.pyx:20 `M_SQRT2`. -/
noncomputable def cSQRT2 : ℝ := 1.41421356237309504880168872421

/-- _specfunc.pyx:22-38. -/
noncomputable def clausenConstants : List ℝ :=
  [2.142694363766688447e+00, 0.723324281221257925e-01, 0.101642475021151164e-02,
    0.3245250328531645e-04, 0.133315187571472e-05, 0.6213240591653e-07, 0.313004135337e-08,
    0.16635723056e-09, 0.919659293e-11, 0.52400462e-12, 0.3058040e-13, 0.18197e-14, 0.1100e-15,
    0.68e-17, 0.4e-18]

/-- _specfunc.pyx:40-58. -/
noncomputable def debye1Constants : List ℝ :=
  [2.4006597190381410194, 0.1937213042189360089, -0.62329124554895770e-02, 0.3511174770206480e-03,
    -0.228222466701231e-04, 0.15805467875030e-05, -0.1135378197072e-06, 0.83583361188e-08,
    -0.6264424787e-09, 0.476033489e-10, -0.36574154e-11, 0.2835431e-12, -0.221473e-13, 0.17409e-14,
    -0.1376e-15, 0.109e-16, -0.9e-18]

/-- _specfunc.pyx:60-79. -/
noncomputable def debye2Constants : List ℝ :=
  [2.5943810232570770282, 0.2863357204530719834, -0.102062656158046713e-01, 0.6049109775346844e-03,
    -0.405257658950210e-04, 0.28633826328811e-05, -0.2086394303065e-06, 0.155237875826e-07,
    -0.11731280087e-08, 0.897358589e-10, -0.69317614e-11, 0.5398057e-12, -0.423241e-13, 0.33378e-14,
    -0.2645e-15, 0.211e-16, -0.17e-17, 0.1e-18]

/-- _specfunc.pyx:193-194: `d, dd = y2 * d - dd + constants[i], d`. -/
noncomputable def chebStep (y : ℝ) (s : ℝ × ℝ) (c : ℝ) : ℝ × ℝ := (2 * y * s.1 - s.2 + c, s.1)

/-- _specfunc.pyx:186-196 `cheb_eval`; the loop runs over the indices n-1, ..., 1. The constants are
never empty; the value for the empty list is arbitrary. -/
noncomputable def chebEval : List ℝ → ℝ → ℝ → ℝ → ℝ
  | [], _, _, _ => 0
  | c0 :: cs, x, a, b =>
    let y := (2 * x - a - b) / (b - a)
    let s := cs.reverse.foldl (chebStep y) (0, 0)
    y * s.1 - s.2 + 0.5 * c0

/-- _specfunc.pyx:169-183 `angle_restrict_pos_err` of a finite angle. -/
noncomputable def angleRestrict (θ : ℝ) : Fl :=
  let y : ℝ := 2 * (⌊θ / (2 * cPI)⌋ : ℝ)
  let r := θ - y * 2 * (2 * cPI)
  if |θ| > 0.0625 / cEPS then .nan
  else if r > 2 * cPI then .fin (r - 2 * cPI)
  else if r < 0 then .fin (r + 2 * cPI)
  else .fin r

/-- _specfunc.pyx:252-261, after the reflection of angles above `PI`. -/
noncomputable def clausenCore (x : Fl) (sgn : ℝ) : Fl :=
  match x with
  | .fin x =>
    if x = 0 then .fin 0
    else if x < cPI * cEPS then .fin x * (.fin 1 - Fl.log (.fin x)) * .fin sgn
    else
      let sr := chebEval clausenConstants (2 * (x * x / cPI ^ 2 - 0.5)) (-1) 1
      .fin x * (.fin sr - Fl.log (.fin x)) * .fin sgn
  | _ => .nan

/-- _specfunc.pyx:248-261, after the restriction of the angle. -/
noncomputable def clausenTail (x : Fl) (sgn : ℝ) : Fl :=
  if x > .fin cPI then
    clausenCore (.fin 6.28125 - x + .fin 1.9353071795864769253e-03) (-sgn)
  else clausenCore x sgn

/-- _specfunc.pyx:237-261 `_clausen`. For an infinite or NaN argument all comparisons after the sign
change are false and the arithmetic gives NaN. -/
noncomputable def clausenK : Fl → Fl
  | .fin x => if x < 0 then clausenTail (angleRestrict (-x)) (-1) else clausenTail (angleRestrict x) 1
  | _ => .nan

/-- _specfunc.pyx:286-288: one pass of the loop of `_debye_1`. -/
noncomputable def debye1Step (x total : ℝ) (i : ℕ) : ℝ :=
  total * Real.exp (-x) + (1 + 1 / (x * i)) / i

/-- _specfunc.pyx:282-290, the series of `_debye_1`; the loop runs over nexp, ..., 1. -/
noncomputable def debye1Series (x : ℝ) : ℝ :=
  let nexp := ⌊-cLOGMIN / x⌋₊
  let total := ((List.range nexp).map (· + 1)).reverse.foldl (debye1Step x) 0
  1.64493406684822644 / x - total * Real.exp (-x)

/-- _specfunc.pyx:264-298 `_debye_1`. -/
noncomputable def debye1K : Fl → Fl
  | .fin x =>
    if x < 0 then .nan
    else if x < 2 * cSQRTEPS then .fin (1 - 0.25 * x + x ^ 2 / 36)
    else if x ≤ 4 then .fin (chebEval debye1Constants (x * x / 8 - 1) (-1) 1 - 0.25 * x)
    else if x ≤ -(cLN2 + cLOGEPS) then .fin (debye1Series x)
    else if x < -cLOGMIN then .fin ((1.64493406684822644 - Real.exp (-x) * (x + 1)) / x)
    else .fin (1.64493406684822644 / x)
  | .pinf => .fin 0
  | _ => .nan

/-- _specfunc.pyx:324-327: one pass of the loop of `_debye_2`. -/
noncomputable def debye2Step (x total : ℝ) (i : ℕ) : ℝ :=
  total * Real.exp (-x) + (1 + 2 / (x * i) + 2 / (x * i) ^ 2) / i

/-- _specfunc.pyx:319-329, the series of `_debye_2`. -/
noncomputable def debye2Series (x : ℝ) : ℝ :=
  let nexp := ⌊-cLOGMIN / x⌋₊
  let total := ((List.range nexp).map (· + 1)).reverse.foldl (debye2Step x) 0
  4.80822761263837714 / x ^ 2 - 2 * total * Real.exp (-x)

/-- _specfunc.pyx:301-337 `_debye_2`. -/
noncomputable def debye2K : Fl → Fl
  | .fin x =>
    if x < 0 then .nan
    else if x < 2 * cSQRT2 * cSQRTEPS then .fin (1 - x / 3 + x ^ 2 / 24)
    else if x ≤ 4 then .fin (chebEval debye2Constants (x * x / 8 - 1) (-1) 1 - x / 3)
    else if x < -(cLN2 + cLOGEPS) then .fin (debye2Series x)
    else if x < -cLOGMIN then
      .fin ((4.80822761263837714 - 2 * (2 + 2 * x + x ^ 2) * Real.exp (-x)) / x ^ 2)
    else .fin (4.80822761263837714 / x ^ 2)
  | .pinf => .fin 0
  | _ => .nan

end Copulae
