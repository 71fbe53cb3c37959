import Verif.Model.StablePdf

/-!
Model of `pdf.aux_f2` (`copulae/stats/stable/pdf.py`), the density of the stable laws of index one with a skewness.
The conventions are those of `Verif.Model.StablePdf`; the constants `PI` and `PI2` are the numbers `π` and `π / 2`.
-/

namespace Copulae

open Classical

/-- `np.cos(np.pi / 2)`; the argument is rounded. -/
noncomputable def cosHalfPi : ℝ := 6123233995736766 / 10 ^ 32

/-- special/trig.py:37-56 `cospi2` at any number, with the value NumPy returns for `x = 1` (and the same for the other
odd integers). -/
noncomputable def cospi2Rounded (x : ℝ) : ℝ :=
  if Real.cos (x * Real.pi / 2) = 0 then cosHalfPi else Real.cos (x * Real.pi / 2)

/-- pdf.py:168-172 `g1`. -/
noncomputable def oneG1 (beta : ℝ) (ea : Fl) (u : ℝ) : Fl :=
  if |(|u + 1|) - 0| ≤ 1 / 10 ^ 10 + 1 / 10 ^ 5 * |(0 : ℝ)| then .fin 0
  else
    let p2b := Real.pi * (1 / (2 * beta))
    let h := p2b + u * (Real.pi / 2)
    .fin (h / p2b) * Fl.exp (ea + .fin h * tanpi2 u) / .fin (cospi2Rounded u)

/-- pdf.py:174-175 `g2`. -/
noncomputable def oneG2 (beta : ℝ) (ea : Fl) (u : ℝ) : Fl := xexp (oneG1 beta ea u)

/-- pdf.py:141-185 `aux_f2`, for a `beta` other than zero. -/
noncomputable def auxF2 (brentq : PyFun → ℝ → ℝ → Except PyErr ℝ) (quad : (ℝ → Fl) → ℝ → ℝ → Fl) (x : Fl)
    (beta : ℝ) (log : Bool) : Option (Except PyErr Fl) :=
  let i2b := 1 / (2 * beta)
  let ea := .fin (-(Real.pi * i2b)) * x
  if ea = .pinf ∨ ea = .ninf then some (.ok (zeroDensity log))
  else some do
    let root ← findRoot brentq (fun u => .ok (oneG1 beta ea u - .fin 1)) (.fin (-1)) (.fin 1) (1 / 10 ^ 6) 1000
    let r := quad (oneG2 beta ea) (-1) root + quad (oneG2 beta ea) root 1
    if log then return .fin (Real.log (Real.pi / 2)) + .fin (Real.log |i2b|) + Fl.log r
    else return .fin (Real.pi / 2 * |i2b|) * r

end Copulae
