import Verif.Model.Num
import Verif.Model.PyErr

/-!
Debye wrappers of `frank.py` and the dependence measures of the Frank copula built on them.

The compiled functions `debye_1` and `debye_2` (special/_specfunc.pyx:264-337) on nonnegative numbers are
arguments `d1`, `d2` of the model.
-/

namespace Copulae

open Classical

/-- frank.py:222-257 `debye1`, one element. `np.abs`, the compiled function on finite entries, zero at
`+inf`, and the correction `d[x < 0] -= x[x < 0] / 2`. -/
noncomputable def debye1W (d1 : ℝ → ℝ) (x : Fl) : Fl :=
  let d : Fl := match x with
    | .fin a => .fin (d1 |a|)
    | .pinf => .fin 0
    | .ninf => .pinf
    | .nan => .nan
  if x < .fin 0 then d - x / .fin 2 else d

/-- frank.py:260-295 `debye2`, one element. -/
noncomputable def debye2W (d2 : ℝ → ℝ) (x : Fl) : Fl :=
  let d : Fl := match x with
    | .fin a => .fin (d2 |a|)
    | .pinf => .fin 0
    | .ninf => .pinf
    | .nan => .nan
  if x < .fin 0 then d - .fin (2 / 3) * x else d

/-- `np.isclose(x, 0)` with the default tolerances. -/
def iscloseZero (x : ℝ) : Prop := |x| ≤ 1 / 10 ^ 8

/-- frank.py:214-219 `_tau` of a float; Python float division. -/
noncomputable def frankTauOf (d1 : ℝ → ℝ) (θ : ℝ) : Except PyErr Fl :=
  if θ = 0 then .error .zeroDivision
  else .ok (.fin 1 + .fin 4 * (debye1W d1 (.fin θ) - .fin 1) / .fin θ)

/-- frank.py:201-206 `tau`. -/
noncomputable def frankTau (d1 : ℝ → ℝ) (θ : ℝ) : Except PyErr Fl :=
  if iscloseZero θ then .ok (.fin (θ / 9)) else frankTauOf d1 θ

/-- frank.py:193-195, 208-212 `rho` and `_rho`. -/
noncomputable def frankRho (d1 d2 : ℝ → ℝ) (θ : ℝ) : Fl :=
  if iscloseZero θ then .fin (θ / 6)
  else .fin 1 + .fin 12 / .fin θ * (debye2W d2 (.fin θ) - debye1W d1 (.fin θ))

/-- frank.py:62-67 `drho`, one element; `3 * debye1(x) + 2 * debye1(x)` is as in the code. -/
noncomputable def frankDrho (d1 : ℝ → ℝ) (x : Fl) : Fl :=
  .fin 12 * (x / Fl.expm1 x - .fin 3 * debye1W d1 x + .fin 2 * debye1W d1 x) / (x * x)

/-- frank.py:69-74 `dtau`, one element. -/
noncomputable def frankDtau (d1 : ℝ → ℝ) (x : Fl) : Fl :=
  (x / Fl.expm1 x + .fin 1 - debye1W d1 x / x) * ((.fin 2 / x) * (.fin 2 / x))

end Copulae
