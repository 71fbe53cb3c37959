import Verif.Model.Num
import Verif.Model.PyErr
import Verif.Model.Debye

/-!
`special/optimize.py` and the calibration `itau` of the Frank copula which uses it.
-/

namespace Copulae

open Classical

/-- A Python function of a float which may raise. -/
abbrev PyFun := ℝ → Except PyErr Fl

/-- `f(a) * f(b)`. -/
noncomputable def endProduct (f : PyFun) (a b : ℝ) : Except PyErr Fl := do
  let x ← f a
  let y ← f b
  return x * y

/-- optimize.py:57-58: `np.max([0.01 * abs(a), delta])`. -/
noncomputable def expandStep (delta a : ℝ) : ℝ := max (1 / 100 * |a|) delta

/-- optimize.py:53-63, the loop over `range(max_iter)` from finite bounds; overflow of the bounds is out
of model, so the assertion at the head of the body holds. -/
noncomputable def expandLoop (f : PyFun) (delta : ℝ) : ℕ → ℝ → ℝ → Except PyErr (ℝ × ℝ)
  | 0, a, b => .ok (a, b)
  | k + 1, a, b => do
    let p ← endProduct f a b
    if p ≥ .fin 0 then expandLoop f delta k (a - expandStep delta a) (b + expandStep delta b)
    else return (a, b)

/-- optimize.py:50-67 from finite, ordered bounds. -/
noncomputable def findRootFin (brentq : PyFun → ℝ → ℝ → Except PyErr ℝ) (f : PyFun) (a b delta : ℝ)
    (maxIter : ℕ) : Except PyErr ℝ := do
  let ab ← expandLoop f delta maxIter a b
  let p ← endProduct f ab.1 ab.2
  if p < .fin 0 then brentq f ab.1 ab.2 else .error .assertionError

/-- optimize.py:7-67 `find_root`, `f` callable; `brentq` is `scipy.optimize.brentq`. A bound that is not
finite fails the first assertion (or the last one when `max_iter` is 0) before `f` is called. -/
noncomputable def findRoot (brentq : PyFun → ℝ → ℝ → Except PyErr ℝ) (f : PyFun) (a b : Fl)
    (delta : ℝ) (maxIter : ℕ) : Except PyErr ℝ :=
  match a, b with
  | .fin a, .fin b =>
    if a > b then findRootFin brentq f b a delta maxIter else findRootFin brentq f a b delta maxIter
  | _, _ => .error .assertionError

/-- frank.py:106-112 `itau`, one entry of the array; the entry `0` is copied, but only after the root
search for it has been run. -/
noncomputable def frankItau (brentq : PyFun → ℝ → ℝ → Except PyErr ℝ) (d1 : ℝ → ℝ) (t : ℝ) :
    Except PyErr ℝ := do
  let r ← findRoot brentq (fun x => (frankTauOf d1 x).map fun v => v - .fin t)
    (if t > 0 then .fin (22 / 10 ^ 17) else .fin (-10 ^ 20))
    (if t > 0 then .fin (10 ^ 20) else .fin (-(22 / 10 ^ 17))) (1 / 10 ^ 6) 1000
  return if t = 0 then t else r

end Copulae
