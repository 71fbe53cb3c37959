import Verif.Model.Archimedean

/-!
Sampling from Archimedean copulas: `random` of `clayton.py` and `frank.py`.

The random numbers drawn are arguments: `r` is the matrix returned by `random_uniform(n, dim, seed)`
(stats/uniform.py:6-9), `gam` and `fr` are the frailties drawn for dimensions above two
(`rng.standard_gamma`, `random_log_series_ln1p`). A NaN parameter is out of model (Clayton raises
`RuntimeError`).
-/

namespace Copulae

open Classical

/-- clayton.py:156, the second coordinate of one row. -/
noncomputable def claytonPair (θ : ℝ) (u w : Fl) : Fl :=
  (u ^ Fl.fin (-θ) * (w ^ Fl.fin (-θ / (θ + 1)) - .fin 1) + .fin 1) ^ Fl.fin (-1 / θ)

/-- clayton.py:144-161 `random`. `-theta / (theta + 1)` is a division of Python floats. -/
noncomputable def claytonRandom (θ : ℝ) {dim n : ℕ} (r : Fin n → Fin dim → Fl) (gam : Fin n → Fl) :
    Except PyErr (Fin n → Fin dim → Fl) :=
  if |θ| < 1 / 10 ^ 7 then .ok r
  else if h : dim = 2 then
    if θ + 1 = 0 then .error .zeroDivision
    else .ok fun i j => if (j : ℕ) = 1 then claytonPair θ (r i ⟨0, by omega⟩) (r i j) else r i j
  else do
    let psi ← claytonPsi θ
    return fun i j => psi (-(Fl.log (r i j)) / gam i)

/-- frank.py:181 with `a = -abs(theta)`: the variable `v` for one row. -/
noncomputable def frankV (a : ℝ) (u w : Fl) : Fl :=
  .fin (-1 / a) *
    Fl.log1p (-w * Fl.expm1 (.fin (-a)) / (Fl.exp (.fin (-a) * u) * (w - .fin 1) - w))

/-- frank.py:181-182, the second coordinate of one row. -/
noncomputable def frankPair (θ : ℝ) (u w : Fl) : Fl :=
  if θ > 0 then .fin 1 - frankV (-|θ|) u w else frankV (-|θ|) u w

/-- frank.py:172-191 `random`. -/
noncomputable def frankRandom (θ : ℝ) {dim n : ℕ} (r : Fin n → Fin dim → Fl) (fr : Fin n → Fl) :
    Fin n → Fin dim → Fl :=
  if |θ| < 1 / 10 ^ 7 then r
  else if h : dim = 2 then
    fun i j => if (j : ℕ) = 1 then frankPair θ (r i ⟨0, by omega⟩) (r i j) else r i j
  else if log1mexp (.fin θ) = Fl.fin 0 then fun _ _ => .fin 1
  else fun i j => frankPsi θ (-(Fl.log (r i j)) / fr i)

/-- `np.floor`. -/
noncomputable def Fl.floor : Fl → Fl
  | .fin x => .fin ⌊x⌋
  | x => x

/-- stats/log.py:15-22, the loop `while np.any(up)` of `random_log_series_ln1p`, state `(u, x, p)`.
`fuel` bounds the number of iterations; `none` means that the loop has not ended by then. -/
noncomputable def logSeriesLoop (alpha : ℝ) {n : ℕ} :
    ℕ → (Fin n → ℝ) → ℕ → ℝ → Option (Fin n → ℝ)
  | 0, _, _, _ => none
  | fuel + 1, u, x, p =>
    if ∃ i, u i > p then
      logSeriesLoop alpha fuel (fun i => if u i > p then u i - p else u i) (x + 1)
        (p * (alpha * ((x + 1 : ℕ) - 1) / (x + 1 : ℕ)))
    else some u

/-- stats/log.py:9-23, the branch `alpha < -3` of `random_log_series_ln1p`. -/
noncomputable def logSeriesLarge (alpha : ℝ) {n : ℕ} (fuel : ℕ) (u : Fin n → ℝ) :
    Option (Fin n → ℝ) :=
  logSeriesLoop alpha fuel u 1 (-alpha / Real.log (1 - (Real.exp alpha - 1)))

/-- stats/log.py:25-46, the branch `alpha >= -3` of `random_log_series_ln1p`, one element. The
assignments are applied in the order of the code; later masks win. -/
noncomputable def logSeriesSmall (alpha : ℝ) (u1 u2 : ℝ) : Fl :=
  let e := -(Real.exp alpha - 1)
  let h := u2 * alpha
  let q := -(Real.exp h - 1)
  let logq : Fl :=
    if h > -(69314718055994530942 / 10 ^ 20) then Fl.log (-(Fl.expm1 (.fin h)))
    else Fl.log1p (-(Fl.exp (.fin h)))
  if u1 > e ∨ (¬ u1 < q * q ∧ u1 > q) then .fin 1
  else if u1 < q * q ∧ logq = .fin 0 then .pinf
  else if u1 < q * q then .fin 1 + Fl.floor (Fl.log (.fin u1 / logq))
  else .fin 2

end Copulae
