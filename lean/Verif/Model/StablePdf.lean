import Mathlib.MeasureTheory.Integral.IntervalIntegral.Basic
import Mathlib.Analysis.SpecialFunctions.Gamma.Basic
import Verif.Model.FindRoot
import Verif.Model.Stable

/-!
Model of `skew_stable.pdf` and `logpdf` (`copulae/stats/stable/stable.py`, `pdf.py`, `common.py`).

`scipy.optimize.brentq` and `scipy.integrate.quad` are the parameters `brentq` and `quad`, the search for the mode is
`mode`. `pdf.aux_f2`, used for `alpha == 1` with a skewness other than zero, is the parameter `auxF2`; its model is in
`Verif.Model.StablePdfOne`.
The argument `x` is a one-dimensional array. `np.pi` in formulas is the number `π`; the end point `PI2 = np.pi / 2` of
the angles is the double it is, which is less than `π / 2`. The functions of one number return `none` if they do not
return.
-/

namespace Copulae

open Classical

/-- `np.isclose(a, b, rtol, atol)` for a finite `b`. -/
def Fl.isclose (a : Fl) (b rtol atol : ℝ) : Prop :=
  match a with
  | .fin a => |a - b| ≤ atol + rtol * |b|
  | _ => False

/-- common.py:9 `PI2`, the double nearest to half of the double nearest to `π`. -/
noncomputable def pyPI2 : ℝ := 884279719003555 / 562949953421312

/-- common.py:10 `PI2E`. -/
noncomputable def pyPI2E : ℝ := pyPI2 * (1 - 10 ^ 6)

/-- common.py:7 `LARGE_EXP_POW`. -/
noncomputable def largeExpPow : ℝ := 7083964 / 10000

/-- common.py:13-14 `eplus`. -/
noncomputable def eplus (x : ℝ) : ℝ := x + 1 / 10 ^ 6 * |x|

/-- common.py:26-33 `stable_tail`. -/
noncomputable def stableTail (alpha : ℝ) (log : Bool) : Fl :=
  if alpha = 0 then (if log then .fin (-Real.log 2) else .fin (1 / 2))
  else if alpha = 2 then (if log then .ninf else .fin 0)
  else
    let r := Fl.fin (Real.Gamma alpha / Real.pi * Real.sin (alpha * pyPI2))
    if log then Fl.log r else r

/-- common.py:36-37 `xexp`. -/
noncomputable def xexp (x : Fl) : Fl := if .fin largeExpPow < x then .fin 0 else x * Fl.exp (-x)

/-- pdf.py:65-73 `g1`; `xm` is `x_m_zeta`, `t` is `theta0`. -/
noncomputable def stableG1 (alpha : ℝ) (xm : Fl) (t th : ℝ) : Fl :=
  if |pyPI2 - SignType.sign (alpha - 1) * th| ≤ 14 / 10 ^ 15 then .fin 0
  else
    let att := (th + t) * alpha
    .fin (Real.cos (att - th)) *
      (.fin (Real.cos (alpha * t)) * .fin (Real.cos th) * (xm / .fin (Real.sin att)) ^ Fl.fin alpha)
        ^ Fl.fin (1 / (alpha - 1))

/-- pdf.py:75-76 `g2`. -/
noncomputable def stableG2 (alpha : ℝ) (xm : Fl) (t th : ℝ) : Fl := xexp (stableG1 alpha xm t th)

/-- `while cond(s): s = step(s)`; `none` if it does not end. -/
noncomputable def whileLoop (cond : ℝ → Prop) (step : ℝ → ℝ) (s : ℝ) : Option ℝ :=
  if h : ∃ n, ¬ cond (step^[n] s) then some (step^[Nat.find h] s) else none

/-- pdf.py:94-102, the lower and the upper bound for the search of the angle with `g1 = 1`. -/
noncomputable def stableBounds (alpha : ℝ) (xm : Fl) (t : ℝ) : Option (ℝ × ℝ) :=
  if alpha < 1 then do
    let ll ← whileLoop (fun ll => (stableG1 alpha xm t ((ll + pyPI2) / 2)).isclose 0 (1 / 10 ^ 5) (1 / 10 ^ 8))
      (fun ll => (ll + pyPI2) / 2) (-t)
    if (stableG1 alpha xm t ((ll + pyPI2) / 2)).isclose 1 (1 / 10 ^ 5) (1 / 10 ^ 8) then do
      let uu ← whileLoop (fun uu => (stableG1 alpha xm t ((ll + uu) / 2)).isclose 1 (1 / 10 ^ 5) (1 / 10 ^ 8))
        (fun uu => (ll + uu) / 2) pyPI2
      return (ll, uu)
    else return (ll, pyPI2)
  else return (-t, pyPI2)

/-- pdf.py:107-116, `theta2` and `mid` from the two root searches. `gr1` is finite, so it is not less than the `gr2`
of minus infinity used when the second search fails. -/
noncomputable def stableCentre (brentq : PyFun → ℝ → ℝ → Except PyErr ℝ) (alpha : ℝ) (xm : Fl) (t ll uu : ℝ) :
    Except PyErr (ℝ × Fl) := do
  let r1 ← findRoot brentq (fun th => .ok (stableG1 alpha xm t th - .fin 1)) (.fin ll) (.fin uu) (1 / 10 ^ 6) 1000
  let gr1 := xexp (.fin (r1 + 1))
  match findRoot brentq (fun th => .ok (Fl.log (stableG1 alpha xm t th))) (.fin ll) (.fin uu) (1 / 10 ^ 6) 1000 with
  | .ok r2 =>
    let gr2 := xexp (Fl.exp (.fin r2))
    if gr2 ≤ gr1 then return (r1, gr1) else return (r2, gr2)
  | .error .assertionError => return (r1, gr1)
  | .error .runtimeError => return (r1, gr1)
  | .error e => throw e

/-- pdf.py:118-125, `r1` and `r2`. -/
noncomputable def stableLower (brentq : PyFun → ℝ → ℝ → Except PyErr ℝ) (quad : (ℝ → Fl) → ℝ → ℝ → Fl) (alpha : ℝ)
    (xm : Fl) (t theta2 : ℝ) (mid : Fl) : Except PyErr (Fl × Fl) :=
  let g2 := stableG2 alpha xm t
  let eps : Fl := .fin (1 / 10 ^ 4)
  if eps < mid ∧ g2 (-t) < eps then do
    let theta1 ← findRoot brentq (fun th => .ok (g2 th - eps)) (.fin (-t)) (.fin theta2) (1 / 10 ^ 6) 1000
    return (quad g2 (-t) theta1, quad g2 theta1 theta2)
  else return (.fin 0, quad g2 (-t) theta2)

/-- pdf.py:118, 127-133, `r3` and `r4`. -/
noncomputable def stableUpper (brentq : PyFun → ℝ → ℝ → Except PyErr ℝ) (quad : (ℝ → Fl) → ℝ → ℝ → Fl) (alpha : ℝ)
    (xm : Fl) (t theta2 : ℝ) (mid : Fl) : Except PyErr (Fl × Fl) :=
  let g2 := stableG2 alpha xm t
  let eps : Fl := .fin (1 / 10 ^ 4)
  if eps < mid ∧ g2 pyPI2 < eps then do
    let theta3 ← findRoot brentq (fun th => .ok (g2 th - eps)) (.fin theta2) (.fin pyPI2) (1 / 10 ^ 6) 1000
    return (quad g2 theta2 theta3, quad g2 theta3 pyPI2)
  else return (quad g2 theta2 pyPI2, .fin 0)

/-- pdf.py:118-136, the sum `r` of the integrals. -/
noncomputable def stableInt (brentq : PyFun → ℝ → ℝ → Except PyErr ℝ) (quad : (ℝ → Fl) → ℝ → ℝ → Fl) (alpha : ℝ)
    (xm : Fl) (t theta2 : ℝ) (mid : Fl) : Except PyErr Fl := do
  let lo ← stableLower brentq quad alpha xm t theta2 mid
  let hi ← stableUpper brentq quad alpha xm t theta2 mid
  return lo.1 + lo.2 + hi.1 + hi.2

/-- pdf.py:138. -/
noncomputable def stableScale (alpha : ℝ) (xm : Fl) (log : Bool) (r : Fl) : Fl :=
  let c := .fin alpha / (.fin (Real.pi * |alpha - 1|) * xm)
  if log then Fl.log c + Fl.log r else c * r

/-- pdf.py:38-43 `zeta_tol`. -/
noncomputable def zetaTol (alpha beta bt : ℝ) : ℝ :=
  if bt = 0 then 4 / 10 ^ 16
  else if 1 - |beta| < 1 / 100 ∨ alpha < 1 / 100 then 2 / 10 ^ 15
  else 5 / 10 ^ 5

/-- pdf.py:47-50 `f_zeta`; the logarithm of the gamma function is that of a positive number. -/
noncomputable def fZeta (alpha zeta theta0 : ℝ) (log : Bool) : Fl :=
  if log then
    .fin (Real.log (Real.Gamma (1 + 1 / alpha))) + Fl.log (.fin (Real.cos theta0)) -
      .fin (Real.log Real.pi + Real.log (1 + zeta ^ 2) / (2 * alpha))
  else .fin (Real.Gamma (1 + 1 / alpha) * Real.cos theta0 / (Real.pi * (1 + zeta ^ 2) ^ (1 / (2 * alpha))))

/-- `-np.inf if log else 0`. -/
noncomputable def zeroDensity (log : Bool) : Fl := if log then .ninf else .fin 0

/-- pdf.py:65-138, the rest of `aux_f1` after the special cases; `t` is `theta0`. -/
noncomputable def auxF1Main (brentq : PyFun → ℝ → ℝ → Except PyErr ℝ) (quad : (ℝ → Fl) → ℝ → ℝ → Fl) (alpha : ℝ)
    (x xm : Fl) (t : ℝ) (fzeta : Fl) (log : Bool) : Option (Except PyErr Fl) :=
  let g1 := stableG1 alpha xm t
  let gPi := g1 pyPI2
  let gT0 := g1 (-t)
  if (1 ≤ alpha ∧ (.fin largeExpPow < gPi ∨ gT0.isclose 0 (1 / 10 ^ 5) (1 / 10 ^ 8))) ∨
      (alpha < 1 ∧ (.fin largeExpPow < gT0 ∨ gPi.isclose 0 (1 / 10 ^ 5) (1 / 10 ^ 8))) then
    some (.ok (zeroDensity log))
  else if (if 1 ≤ alpha then g1 (eplus (-t)) else g1 pyPI2E).isNan ∧
      Fl.pyMax xm (xm / Fl.abs x) < .fin (1 / 100) then
    some (.ok fzeta)
  else
    let rest := fun c : Except PyErr (ℝ × Fl) => some do
      let c ← c
      let r ← stableInt brentq quad alpha xm t c.1 c.2
      return stableScale alpha xm log r
    if (1 ≤ alpha ∧ .fin 1 < gPi) ∨ (alpha < 1 ∧ gPi < .fin 1) then
      rest (.ok (pyPI2E, stableG2 alpha xm t pyPI2E))
    else if (1 ≤ alpha ∧ gT0 < .fin 1) ∨ (alpha < 1 ∧ .fin 1 < gT0) then
      rest (.ok (eplus (-t), stableG2 alpha xm t (eplus (-t))))
    else
      match stableBounds alpha xm t with
      | none => none
      | some (ll, uu) =>
        if alpha < 1 ∧ |uu + ll - 0| ≤ 1 / 10 ^ 8 + 1 / 10 ^ 13 * |(0 : ℝ)| then some (.ok (zeroDensity log))
        else rest (stableCentre brentq alpha xm t ll uu)

/-- pdf.py:11-138 `aux_f1`, for `alpha` other than one, so that the tangent is defined. -/
noncomputable def auxF1 (brentq : PyFun → ℝ → ℝ → Except PyErr ℝ) (quad : (ℝ → Fl) → ℝ → ℝ → Fl) (x : Fl)
    (alpha beta : ℝ) (log : Bool) : Option (Except PyErr Fl) :=
  let bt := beta * Real.tan (alpha * Real.pi / 2)
  let zeta := -bt
  let theta0 := min (max (-pyPI2) (Real.arctan bt / alpha)) pyPI2
  let tol := zetaTol alpha beta bt
  let xm := Fl.abs (x - .fin zeta)
  let fzeta := fZeta alpha zeta theta0 log
  if x.isFin ∧ xm ≤ .fin tol * (.fin tol + Fl.maximum (Fl.abs x) (.fin |zeta|)) then some (.ok fzeta)
  else if alpha < 1 / 10 ^ 17 then
    let b := if x < .fin zeta then -beta else beta
    let y := if x < .fin zeta then -x else x
    let r := Fl.fin (Real.log alpha) + Fl.log1p (.fin b) -
      (.fin 1 + Fl.log (.fin 2 * y + .fin (Real.pi * alpha * b)))
    some (.ok (if log then r else Fl.exp r))
  else auxF1Main brentq quad alpha x xm (if x < .fin zeta then -theta0 else theta0) fzeta log

/-- pdf.py:188-204 `pareto`, one element. -/
noncomputable def stablePareto (x : Fl) (alpha beta : ℝ) (log : Bool) : Fl :=
  let b := if x < .fin 0 then -beta else beta
  let y := if x < .fin 0 then -x else x
  if log then
    Fl.fin (Real.log alpha) + Fl.log1p (.fin b) + stableTail alpha true - .fin (1 + alpha) * Fl.log y
  else .fin (alpha * (1 + b)) * stableTail alpha false * y ^ Fl.fin (-(1 + alpha))

/-- `scipy.stats.norm.pdf(x, 0, np.sqrt(2))` -/
noncomputable def normPdfTwo : Fl → Fl
  | .fin x => .fin (Real.exp (-(x ^ 2 / 4)) / (2 * Real.sqrt Real.pi))
  | .nan => .nan
  | _ => .fin 0

/-- `scipy.stats.cauchy.pdf(x)` -/
noncomputable def cauchyPdf : Fl → Fl
  | .fin x => .fin (1 / (Real.pi * (1 + x ^ 2)))
  | .nan => .nan
  | _ => .fin 0

/-- `np.array([f(e) for e in x])` -/
noncomputable def mapRun (f : Fl → Option (Except PyErr Fl)) : List Fl → Option (Except PyErr (List Fl))
  | [] => some (.ok [])
  | x :: xs =>
    match f x with
    | none => none
    | some (.error e) => some (.error e)
    | some (.ok y) =>
      match mapRun f xs with
      | none => none
      | some (.error e) => some (.error e)
      | some (.ok ys) => some (.ok (y :: ys))

/-- stable.py:83-99, the densities of the standardised law. -/
noncomputable def stableStd (brentq : PyFun → ℝ → ℝ → Except PyErr ℝ) (quad : (ℝ → Fl) → ℝ → ℝ → Fl)
    (auxF2 : Fl → ℝ → Bool → Option (Except PyErr Fl)) (alpha beta : ℝ) (log : Bool) (x : List Fl) :
    Option (Except PyErr (List Fl)) :=
  if alpha = 2 then some (.ok (x.map fun e => if log then Fl.log (normPdfTwo e) else normPdfTwo e))
  else if alpha = 1 ∧ beta = 0 then some (.ok (x.map fun e => if log then Fl.log (cauchyPdf e) else cauchyPdf e))
  else if alpha = 1 then mapRun (fun e => auxF2 e beta log) x
  else mapRun (fun e => auxF1 brentq quad e alpha beta log) x

/-- stable.py:104-112: division by the scale; zeros are replaced by the tail approximation if there is any entry other
than zero. -/
noncomputable def stableFinish (alpha beta : ℝ) (gamma : Fl) (log : Bool) (x ans : List Fl) : List Fl :=
  let fin := fun d => if log then d - Fl.log gamma else d / gamma
  List.zipWith (fun e a =>
    if a = .fin 0 then (if ∃ b ∈ ans, b ≠ Fl.fin 0 then fin (stablePareto e alpha beta log) else a) else fin a) x ans

/-- stable.py:44-114 `pdf` of a one-dimensional array; `logpdf` is `log = true`. -/
noncomputable def stablePdf (brentq : PyFun → ℝ → ℝ → Except PyErr ℝ) (quad : (ℝ → Fl) → ℝ → ℝ → Fl)
    (auxF2 : Fl → ℝ → Bool → Option (Except PyErr Fl)) (mode : ℝ → ℝ → Except PyErr Fl) (x : List Fl)
    (alpha beta : ℝ) (gamma delta : Fl) (pm : ℤ) (log : Bool) : Option (Except PyErr (List Fl)) :=
  match (do
      stableCheck alpha beta gamma pm
      stableParam mode alpha delta gamma beta pm : Except PyErr (Fl × Fl)) with
  | .error e => some (.error e)
  | .ok (d, g) =>
    let z := x.map fun e => (e - d) / g
    match stableStd brentq quad auxF2 alpha beta log z with
    | none => none
    | some (.error e) => some (.error e)
    | some (.ok ans) => some (.ok (stableFinish alpha beta g log z ans))

/-- stable.py:189-198 `_mode`; `minScalar f lo hi` is the number `opt.minimize_scalar(f, bounds=[lo, hi])['x']`, `f`
the negative of the density as a function of one number. -/
noncomputable def stableMode (minScalar : (ℝ → Option (Except PyErr (List Fl))) → ℝ → ℝ → Except PyErr Fl)
    (brentq : PyFun → ℝ → ℝ → Except PyErr ℝ) (quad : (ℝ → Fl) → ℝ → ℝ → Fl)
    (auxF2 : Fl → ℝ → Bool → Option (Except PyErr Fl)) (alpha beta : ℝ) : Except PyErr Fl := do
  stableCheck alpha beta (.fin 1) 1
  if alpha * beta = 0 then return .fin 0
  else
    let b := max beta (1 - 1 / 10 ^ 11)
    let e : ℝ := (SignType.sign b : ℝ) * (-(7 / 10))
    minScalar (fun x => (stablePdf brentq quad auxF2 (fun _ _ => .ok (.fin 0)) [.fin x] alpha b (.fin 1) (.fin 0) 0
      false).map fun r => r.map fun l => l.map fun v => -v) (min 0 e) (max 0 e)

end Copulae
