import Mathlib.Analysis.SpecialFunctions.Trigonometric.Arctan
import Verif.Model.Archimedean
import Verif.Model.Measures
import Verif.Model.Seeding

/-!
Model of `skew_stable.rvs` (`copulae/stats/stable/stable.py`), of the trigonometric helpers it calls
(`copulae/special/trig.py`) and of `GumbelCopula.random` (`copulae/archimedean/gumbel.py`).

The random numbers drawn are arguments: `v` for `np.random.uniform(size=n)`, `w` for
`np.random.standard_exponential(n)`, `ca` for `cauchy.rvs(size=n)`. The numerical search for the mode, needed for
`pm=2` only, is the parameter `mode`.
-/

namespace Copulae

open Classical

/-- `np.cos` -/
noncomputable def Fl.cos : Fl → Fl
  | .fin a => .fin (Real.cos a)
  | _ => .nan

/-- `np.arctan` -/
noncomputable def Fl.arctan : Fl → Fl
  | .fin a => .fin (Real.arctan a)
  | .pinf => .fin (Real.pi / 2)
  | .ninf => .fin (-(Real.pi / 2))
  | .nan => .nan

/-- `np.tan(np.pi / 2)`; the argument is rounded. -/
noncomputable def tanHalfPi : ℝ := 16331239353195370

/-- special/trig.py:127-145 `tanpi2`. Where the cosine vanishes there is no tangent, and NumPy returns the tangent of
the rounded argument; this is modelled for `x = 1`, and by the same number for the other odd integers. -/
noncomputable def tanpi2 (x : ℝ) : Fl :=
  .fin (if Real.cos (x * Real.pi / 2) = 0 then tanHalfPi else Real.tan (x * Real.pi / 2))

/-- special/trig.py:37-56 `cospi2`. -/
noncomputable def cospi2 (x : ℝ) : ℝ := Real.cos (x * Real.pi / 2)

/-- stable.py:172-177 `_check_parameters`. -/
noncomputable def stableCheck (alpha beta : ℝ) (gamma : Fl) (pm : ℤ) : Except PyErr Unit :=
  if pm = 0 ∨ pm = 1 ∨ pm = 2 then
    if |beta| ≤ 1 then
      if 0 < alpha ∧ alpha ≤ 2 then
        if Fl.fin 0 ≤ gamma then .ok () else .error .assertionError
      else .error .assertionError
    else .error .assertionError
  else .error .assertionError

/-- stable.py:201-207 `_omega`. -/
noncomputable def stableOmega (gamma : Fl) (alpha : ℝ) : Fl :=
  if ¬ ∃ z : ℤ, (z : ℝ) = alpha then tanpi2 alpha
  else if alpha = 1 then .fin (2 / Real.pi) * Fl.log gamma
  else .fin 0

/-- stable.py:179-187 `_parameterize`: location and scale. -/
noncomputable def stableParam (mode : ℝ → ℝ → Except PyErr Fl) (alpha : ℝ) (delta gamma : Fl) (beta : ℝ) (pm : ℤ) :
    Except PyErr (Fl × Fl) :=
  if pm = 1 then .ok (delta + .fin beta * gamma * stableOmega gamma alpha, gamma)
  else if pm = 2 then do
    let g := gamma * Fl.fin alpha ^ Fl.fin (-1 / alpha)
    let m ← mode alpha beta
    return (delta - g * m, g)
  else .ok (delta, gamma)

/-- Python's `max(a, b)`, which keeps its first argument unless the second is greater. -/
noncomputable def Fl.pyMax (a b : Fl) : Fl := if a < b then b else a

/-- Python's `min(a, b)`, which keeps its first argument unless the second is less. -/
noncomputable def Fl.pyMin (a b : Fl) : Fl := if b < a then b else a

/-- stable.py:155-167, one element. -/
noncomputable def stableZ (alpha beta v w : ℝ) : Fl :=
  let theta := Real.pi * (v - 0.5)
  let bt := .fin beta * tanpi2 alpha
  let t0 := Fl.pyMin (Fl.pyMax (.fin (-(Real.pi / 2))) (Fl.arctan bt / .fin alpha)) (.fin (Real.pi / 2))
  let at' := .fin alpha * (.fin theta + t0)
  let c := (.fin 1 + bt * bt) ^ Fl.fin (1 / (2 * alpha))
  c * Fl.sin at' * (Fl.fin (Real.cos theta) ^ Fl.fin (-1 / alpha)) *
    ((Fl.cos (.fin theta - at') / .fin w) ^ Fl.fin ((1 - alpha) / alpha)) - bt

/-- stable.py:147-169 `rvs`. -/
noncomputable def stableRvs (mode : ℝ → ℝ → Except PyErr Fl) (alpha beta : ℝ) (gamma delta : Fl) (pm : ℤ) {n : ℕ}
    (ca v w : Fin n → ℝ) : Except PyErr (Fin n → Fl) := do
  stableCheck alpha beta gamma pm
  let (d, g) ← stableParam mode alpha delta gamma beta pm
  let z : Fin n → Fl :=
    if |alpha - 1| ≤ 1 / 10 ^ 8 + 1 / 10 ^ 5 ∧ |beta| ≤ 1 / 10 ^ 8 then fun i => .fin (ca i)
    else fun i => stableZ alpha beta (v i) (w i)
  return fun i => z i * g + d

/-- gumbel.py:228-243 `random`. `r` and `r2` are the matrices returned by the first and the second call of
`random_uniform`. -/
noncomputable def gumbelRandom (mode : ℝ → ℝ → Except PyErr Fl) (θ : ℝ) {n dim : ℕ} (r r2 : Fin n → Fin dim → Fl)
    (ca v w : Fin n → ℝ) : Except PyErr (Fin n → Fin dim → Fl) :=
  if θ - 1 < 1 / 10 ^ 7 then .ok r2
  else if |θ - 1| ≤ 1 / 10 ^ 8 + 1 / 10 ^ 5 then .ok r
  else do
    let fr ← stableRvs mode (1 / θ) 1 (Fl.fin (cospi2 (1 / θ)) ^ Fl.fin θ) (.fin 0) 1 ca v w
    let psi ← gumbelPsi θ
    return fun i j => psi (-(Fl.log (r i j)) / fr i)

/-- The frailty as a function of one uniform and one exponential variate, the parameter `stable` of
`gumbelRandomG`. -/
noncomputable def gumbelFrail (θ v w : ℝ) : Fl :=
  let g := Fl.fin (cospi2 (1 / θ)) ^ Fl.fin θ
  stableZ (1 / θ) 1 v w * g + (.fin 0 + .fin 1 * g * stableOmega g (1 / θ))

end Copulae
