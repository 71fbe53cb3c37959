import Mathlib.Analysis.SpecialFunctions.Complex.Arg
import Verif.Model.Dilog
import Verif.Model.Threads

/-!
The dilogarithm of complex arguments (`special/_specfunc.pyx:146-166, 444-671`, `special/dilog.py:32-58`). Numbers are real
numbers with the special values of `Fl`; decimal constants are taken at their decimal value. A `ComplexResult` is the
pair of its real and imaginary parts. The module is compiled with `cdivision` (setup.py:83).
-/

namespace Copulae

open Classical

/-- `cm.atan2(y, x)`. -/
noncomputable def atan2 (y x : ℝ) : ℝ := Complex.arg ⟨x, y⟩

/-- `cm.hypot(x, y)`. -/
noncomputable def hypot (x y : ℝ) : ℝ := √(x ^ 2 + y ^ 2)

/-- _specfunc.pyx:483-501 `complex_log` of a number other than zero; `1 - z`, of which the code takes the logarithm, is
never zero there (`dilogc_series_2` is called for moduli up to 0.98). -/
noncomputable def complexLog (zr zi : ℝ) : ℝ × ℝ :=
  let ax := |zr|
  let ay := |zi|
  let mn := min ax ay
  let mx := max ax ay
  (Real.log mx + 0.5 * Real.log (1 + (mn / mx) ^ 2), atan2 zi zr)

/-- _specfunc.pyx:553-563, the loop of `dilogc_series_1`: the sum when the loop ends. The first argument after the
constants is the number of passes left. A division by zero gives an infinity or NaN, which is not below the limit. -/
noncomputable def dilogcLoop1 (r alpha beta : ℝ) : ℕ → ℕ → ℝ → ℝ → ℝ → ℝ → ℝ → ℝ × ℝ
  | 0, _, _, _, _, real, imag => (real, imag)
  | fuel + 1, k, ck, sk, rk, real, imag =>
    let ckTmp := ck
    let ck := ck - (alpha * ck + beta * sk)
    let sk := sk - (alpha * sk - beta * ckTmp)
    let rk := rk * r
    let dr := rk / (k * k) * ck
    let di := rk / (k * k) * sk
    let real := real + dr
    let imag := imag + di
    if real ^ 2 + imag ^ 2 ≠ 0 ∧ |(dr * dr + di * di) / (real ^ 2 + imag ^ 2)| < cEPS ^ 2 then (real, imag)
    else dilogcLoop1 r alpha beta fuel (k + 1) ck sk rk real imag

/-- _specfunc.pyx:539-567 `dilogc_series_1` of a modulus between 0 and 1 (both excluded). -/
noncomputable def dilogcSeries1 (r x y : ℝ) : ℝ × ℝ :=
  let cosTheta := x / r
  let sinTheta := y / r
  let alpha := 1 - cosTheta
  let beta := sinTheta
  let ck := cosTheta
  let sk := sinTheta
  let kmax := 50 + ⌊-22 / Real.log r⌋₊
  dilogcLoop1 r alpha beta (kmax - 2) 2 ck sk r (r * ck) (r * sk)

/-- _specfunc.pyx:651-661, the loop of `series_2_c`: the sum when the loop ends. -/
noncomputable def dilogcLoop2 (r alpha beta : ℝ) : ℕ → ℕ → ℝ → ℝ → ℝ → ℝ → ℝ → ℝ × ℝ
  | 0, _, _, _, _, real, imag => (real, imag)
  | fuel + 1, k, ck, sk, rk, real, imag =>
    let ckTmp := ck
    let ck := ck - (alpha * ck + beta * sk)
    let sk := sk - (alpha * sk - beta * ckTmp)
    let rk := rk * r
    let dr := rk / (k * k * (k + 1)) * ck
    let di := rk / (k * k * (k + 1)) * sk
    let real := real + dr
    let imag := imag + di
    if real ^ 2 + imag ^ 2 ≠ 0 ∧ |(dr ^ 2 + di ^ 2) / (real ^ 2 + imag ^ 2)| < cEPS ^ 2 then (real, imag)
    else dilogcLoop2 r alpha beta fuel (k + 1) ck sk rk real imag

/-- _specfunc.pyx:635-665 `series_2_c` of a modulus between 0 and 1 (both excluded). -/
noncomputable def series2c (r x y : ℝ) : ℝ × ℝ :=
  let cosTheta := x / r
  let sinTheta := y / r
  let alpha := 1 - cosTheta
  let beta := sinTheta
  let ck := cosTheta
  let sk := sinTheta
  let kmax := 30 + ⌊18 / -Real.log r⌋₊
  dilogcLoop2 r alpha beta (kmax - 2) 2 ck sk r (0.5 * r * ck) (0.5 * r * sk)

/-- _specfunc.pyx:570-591 `dilogc_series_2`. -/
noncomputable def dilogcSeries2 (r x y : ℝ) : ℝ × ℝ :=
  let r2 := r ^ 2
  if |r| ≤ cEPS * 10 then (0, 0)
  else
    let sumC := series2c r x y
    let lnOmz := complexLog (1 - x) (-y)
    let tx := (lnOmz.1 * x + lnOmz.2 * y) / r2
    let ty := (-lnOmz.1 * y + lnOmz.2 * x) / r2
    let rx := (1 - x) * tx + y * ty
    let ry := (1 - x) * ty - y * tx
    (sumC.1 + rx + 1, sumC.2 + ry)

/-- _specfunc.pyx:603-611, the array `re` of `dilogc_series_3`. -/
noncomputable def series3Re (theta cosTheta omc : ℝ) : List ℝ :=
  [cPI ^ 2 / 6 + 0.25 * (theta ^ 2 - 2 * cPI * |theta|), -0.5 * Real.log (2 * omc), -0.5, -0.5 / omc, 0,
    0.5 * (2 + cosTheta) / omc ^ 2, 0]

/-- _specfunc.pyx:612-620, the array `im` of `dilogc_series_3` without its first element, the Clausen function. -/
noncomputable def series3Im (cosTheta sinTheta omc : ℝ) : List ℝ :=
  [-atan2 (-sinTheta) omc, 0.5 * sinTheta / omc, 0, -0.5 * sinTheta / omc ^ 2, 0,
    0.5 * sinTheta / omc ^ 5 * (8 * omc - sinTheta * sinTheta * (3 + cosTheta))]

/-- _specfunc.pyx:625-629, one pass of the loop of `dilogc_series_3` for one of the two sums; the state is `an`, `nfact`,
`n - 1` and the sum. -/
noncomputable def series3Step (a : ℝ) (s : ℝ × ℝ × ℕ × ℝ) (c : ℝ) : ℝ × ℝ × ℕ × ℝ :=
  let an := s.1 * a
  let n := s.2.2.1 + 1
  let nfact := s.2.1 * n
  (an, nfact, n, s.2.2.2 + an / nfact * c)

/-- _specfunc.pyx:593-633 `dilogc_series_3` of a modulus other than zero. Adding to the Clausen function is done last. -/
noncomputable def dilogcSeries3 (r x y : ℝ) : Fl × Fl :=
  let theta := atan2 y x
  let cosTheta := x / r
  let sinTheta := y / r
  let omc := 1 - cosTheta
  let claus := clausenK (.fin theta)
  let re := series3Re theta cosTheta omc
  let im := series3Im cosTheta sinTheta omc
  let a := Real.log r
  (.fin (re.tail.foldl (series3Step a) (1, 1, 0, re.headD 0)).2.2.2,
    claus + .fin (im.foldl (series3Step a) (1, 1, 0, 0)).2.2.2)

/-- A pair of numbers as a `ComplexResult`. -/
def finPair (p : ℝ × ℝ) : Fl × Fl := (.fin p.1, .fin p.2)

/-- _specfunc.pyx:503-509 `dilogc_fundamental`. -/
noncomputable def dilogcFundamental (r x y : ℝ) : Fl × Fl :=
  if r > 0.98 then dilogcSeries3 r x y
  else if r > 0.25 then finPair (dilogcSeries2 r x y)
  else finPair (dilogcSeries1 r x y)

/-- _specfunc.pyx:512-536 `dilogc_unit_disk` of a number other than 0 and 1. -/
noncomputable def dilogcUnitDisk (x y : ℝ) : Fl × Fl :=
  let r := hypot x y
  let zeta2 := cPI ^ 2 / 6
  if x > 0.732 then
    let xTmp := 1 - x
    let yTmp := -y
    let rTmp := hypot xTmp yTmp
    let tmp := dilogcFundamental rTmp xTmp yTmp
    let lnz := Real.log r
    let lnomz := Real.log rTmp
    let argz := atan2 y x
    let argomz := atan2 yTmp xTmp
    (-tmp.1 + .fin zeta2 - .fin (lnz * lnomz) + .fin (argz * argomz),
      -tmp.2 - .fin (argz * lnomz) - .fin (argomz * lnz))
  else dilogcFundamental r x y

/-- _specfunc.pyx:444-480 `_dilog_complex` of finite numbers. The logarithm of `r` in the last branch, where `r` is not
zero, is NaN for a negative number. -/
noncomputable def dilogComplexK (r theta : ℝ) : Fl × Fl :=
  let x := r * Real.cos theta
  let y := r * Real.sin theta
  let zeta2 := cPI ^ 2 / 6
  let r2 := x * x + y * y
  if |y| < 10 * cEPS then
    (dilogK (.fin x), if x ≥ 1 then .fin (-cPI * Real.log x) else .fin 0)
  else if |r2 - 1| ≤ cEPS then
    let t1 := theta * theta / 4
    let t2 := cPI * |theta| / 2
    (.fin (zeta2 + t1 - t2), clausenK (.fin theta))
  else if r2 < 1 then dilogcUnitDisk x y
  else
    let c := dilogcUnitDisk (x / r2) (-y / r2)
    let lnMinuszRe := Fl.log (.fin r)
    let lnMinuszIm : Fl := .fin ((if theta < 0 then -1 else 1) * (|theta| - cPI))
    let lmz2Re := lnMinuszRe * lnMinuszRe - lnMinuszIm * lnMinuszIm
    let lmz2Im := .fin 2 * lnMinuszRe * lnMinuszIm
    (-c.1 - .fin 0.5 * lmz2Re - .fin zeta2, -c.2 - .fin 0.5 * lmz2Im)

end Copulae
