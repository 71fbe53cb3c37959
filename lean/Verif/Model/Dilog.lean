import Verif.Model.SpecFunc
import Verif.Model.Special

/-!
The dilogarithm of real arguments (`special/_specfunc.pyx:339-441`, `special/dilog.py:8-29`) and the polylogarithm of
order two built on it. Numbers are real numbers with the special values of `Fl`; decimal constants are taken at
their decimal value. The module is compiled with `cdivision` (setup.py:83): a division by zero does not raise.
-/

namespace Copulae

open Classical

/-- _specfunc.pyx:406-412, the loop of `dilog_series_1`; the first argument is the number of passes left. -/
noncomputable def dilogLoop1 (x : ℝ) : ℕ → ℕ → ℝ → ℝ → Fl
  | 0, _, _, _ => .nan
  | fuel + 1, k, term, total =>
    let rk2 := (((k : ℝ) - 1) / k) ^ 2
    let term := term * (x * rk2)
    let total := total + term
    if |term / total| < cEPS then .fin total else dilogLoop1 x fuel (k + 1) term total

/-- _specfunc.pyx:401-415 `dilog_series_1` of a positive number; `range(2, 1000)` has 998 elements. -/
noncomputable def dilogSeries1 (x : ℝ) : Fl := dilogLoop1 x 998 2 x x

/-- _specfunc.pyx:425-430, the loop of `dilog_series_2`: the sum when the loop ends. -/
noncomputable def dilogLoop2 (x : ℝ) : ℕ → ℕ → ℝ → ℝ → ℝ
  | 0, _, _, total => total
  | fuel + 1, k, y, total =>
    let y := y * x
    let ds := y / (k * k * (k + 1))
    let total := total + ds
    if k ≥ 10 ∧ |ds / total| < 0.5 * cEPS then total else dilogLoop2 x fuel (k + 1) y total

/-- _specfunc.pyx:418-441 `dilog_series_2` of a number from 0 (excluded) to 1 (excluded); `range(2, 100)` has 98 elements,
`range(8, 1, -1)` is 8, ..., 2. -/
noncomputable def dilogSeries2 (x : ℝ) : ℝ :=
  let res := dilogLoop2 x 98 2 x (0.5 * x)
  let z := if x > 0.01 then (1 - x) * Real.log (1 - x) / x
    else (x - 1) * (1 + [8, 7, 6, 5, 4, 3, 2].foldl (fun (z : ℝ) (k : ℕ) => x * (1 / (k : ℝ) + z)) 0)
  res + z + 1

/-- _specfunc.pyx:377-379: one pass of the loop of the series around 1. -/
noncomputable def dilogNearStep (x : ℝ) (t3 : ℝ) (i : ℕ) : ℝ :=
  let t2 := Real.log (x - 1)
  let t1 := (-1) ^ (i + 1) * (1 - i * t2) / (i * i)
  (x - 1) * (t3 + t1)

/-- _specfunc.pyx:350-398 `dilog_xge0` of a finite number. The logarithm of zero, computed before the first comparison,
is not used. -/
noncomputable def dilogXge0 (x : ℝ) : Fl :=
  let logx := Real.log x
  if x > 2 then
    let ser := dilogSeries2 (1 / x)
    .fin (cPI * cPI / 3 - ser - 0.5 * logx ^ 2)
  else if x > 1.01 then
    let ser := dilogSeries2 (1 - 1 / x)
    .fin (cPI ^ 2 / 6 + ser - logx * (Real.log (1 - 1 / x) + 0.5 * logx))
  else if x > 1 then
    .fin ([8, 7, 6, 5, 4, 3, 2, 1].foldl (dilogNearStep x) 0 + cPI * cPI / 6)
  else if |x - 1| ≤ cEPS * 10 then .fin (cPI ^ 2 / 6)
  else if x > 0.5 then
    let ser := dilogSeries2 (1 - x)
    .fin (cPI ^ 2 / 6 - ser - logx * Real.log (1 - x))
  else if x > 0.25 then .fin (dilogSeries2 x)
  else if x > 0 then dilogSeries1 x
  else .fin 0

/-- _specfunc.pyx:350-398 `dilog_xge0`. For NaN every comparison is false and `res = 0` is returned. For plus infinity the
first branch is taken: the quotient `ds / total` of the series at 0 is NaN, the series is 0 and the squared
logarithm is infinite. -/
noncomputable def dilogGe0 : Fl → Fl
  | .fin x => dilogXge0 x
  | .pinf => .fin (cPI * cPI / 3) - .fin 0 - .fin 0.5 * (.pinf * .pinf)
  | .ninf => .fin 0
  | .nan => .fin 0

/-- _specfunc.pyx:339-348 `_dilog`. -/
noncomputable def dilogK (x : Fl) : Fl :=
  if x ≥ .fin 0 then dilogGe0 x
  else
    let d1 := dilogGe0 (-x)
    let d2 := dilogGe0 (x * x)
    .fin 0.5 * d2 - d1

/-- special_func.py:189-190: `poly_log(z, 2, 'default', log)` of a real point. -/
noncomputable def polyLogTwo (z : Fl) (_log : Bool) : Fl := dilogK z

end Copulae
