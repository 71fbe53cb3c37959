import Verif.Model.Archimedean
import Verif.Model.GumbelCoef

/-!
Densities of the Archimedean copulas: `pdf` of `clayton.py`, `frank.py`, `gumbel.py`,
`_shared.py:valid_rows_in_u`, and `gumbel_poly` at the end of `gumbel.py`.

A NaN parameter is rejected by an assertion at the start of each `pdf`; the parameter here is a
finite real. Batches are functions on `Fin n` (rows) and `Fin k` (columns).
-/

namespace Copulae

open Classical

/-- _shared.py:6-17 `valid_rows_in_u`, one row. -/
def validRow {k : ℕ} (u : Fin k → Fl) : Prop :=
  ∀ j, u j ≠ .nan ∧ Fl.fin 0 ≤ u j ∧ u j ≤ Fl.fin 1

/-! ### The Gumbel polynomial -/

/-- `scipy.stats.poisson.logcdf(m, mu)` for an integer `m ≥ 0`: the logarithm of the Poisson
distribution function for a finite non-negative mean, NaN otherwise. -/
noncomputable def poissonLogCdf (m : ℕ) : Fl → Fl
  | .fin μ => if μ < 0 then .nan
      else Fl.log (.fin (Real.exp (-μ) * ∑ l ∈ Finset.range (m + 1), μ ^ l / (l.factorial : ℝ)))
  | _ => .nan

/-- Algorithms of `_calculate_gumbel_poly`. -/
inductive PolyAlg
  | pois
  | direct
  | log
  | sort
  deriving DecidableEq

/-- gumbel.py:432-468 `_get_poly_method`. -/
noncomputable def getPolyMethod (lx : Fl) (α : ℝ) (d : ℕ) : PolyAlg :=
  if d ≤ 30 then .direct
  else if d ≤ 50 then (if α ≤ 8 / 10 then .direct else .log)
  else if d ≤ 70 then (if α ≤ 7 / 10 then .direct else .log)
  else if d ≤ 90 then
    -- the code asks `d <= 0.5` here, which is never true
    if lx ≤ Fl.fin (408 / 100) then .pois else .log
  else if d ≤ 120 then
    if α < 3 / 1000 then .sort
    else if α ≤ 4 / 10 then .direct
    else if lx ≤ Fl.fin (355 / 100) then .pois
    else if Fl.fin (592 / 100) ≤ lx then .direct
    else .log
  else if d ≤ 170 then
    if α < 1 / 100 then .sort
    else if α ≤ 3 / 10 then .direct
    else if lx ≤ Fl.fin (355 / 100) then .pois
    else .log
  else if d ≤ 200 then (if lx ≤ Fl.fin (256 / 100) then .pois else .log)
  else .log

/-- gumbel.py:407-422, the matrix column `lxabs` of method 'pois' for one `lx`; entry `k` of the
list belongs to `k + 1`. -/
noncomputable def poisTerms (lx : Fl) (α : ℝ) (d : ℕ) : List Fl :=
  (List.range d).map fun (k : ℕ) =>
    .fin ((k : ℝ) + 1) * lx + poissonLogCdf (d - (k + 1)) (Fl.exp lx)
      + ((((List.range d).map fun (i : ℕ) => Fl.log (.fin |α * ((k : ℝ) + 1) - i|)).sum)
          - gammalnFl ((k : ℝ) + 1 + 1))
      + Fl.exp lx

/-- gumbel.py:422-425: the signed sum for one `lx`. The signs are an array unless there is a single
one, in which case `signs[:, None]` fails. -/
noncomputable def poisSum (signs : FlRes) (lxabs : List Fl) : Except PyErr Fl :=
  match signs with
  | .scalar _ => .error .typeError
  | .arr sg => do
      let offset ← npMax lxabs
      return Fl.log ((List.zipWith (fun s l => s * Fl.exp (l - offset)) sg lxabs).sum) + offset

/-- The `gumbel_coef` method with the same name. -/
def PolyAlg.coef : PolyAlg → CoefMethod
  | .pois => .direct
  | .direct => .direct
  | .log => .log
  | .sort => .sort

/-- gumbel.py:400-429 `_calculate_gumbel_poly` for one element of `lx`. -/
noncomputable def calcGumbelPoly (lx : Fl) (α : ℝ) (d : ℕ) (m : PolyAlg) (log : Bool) :
    Except PyErr Fl :=
  if m = .pois then do
    let signs ← signFF α (.arr ((List.range d).map fun (k : ℕ) => (k : ℤ) + 1)) (.scalar d)
    let res ← poisSum signs (poisTerms lx α d)
    return if log then res else Fl.exp res
  else do
    let la ← gumbelCoef d α m.coef true
    let x := (List.zipWith (fun (a : Fl) (k : ℕ) => Fl.exp (a + .fin ((k : ℝ) + 1) * lx)) la
      (List.range d)).sum
    return if log then Fl.log x else x

/-- gumbel.py:350-397 `gumbel_poly`; `none` is method 'default'. The code groups the elements by
algorithm and evaluates each group at once; every algorithm works elementwise, and whether it raises
does not depend on the elements, so evaluating one element after the other gives the same result.
(An empty `log_x` with an explicit method still validates through `gumbel_coef`; not modelled.) -/
noncomputable def gumbelPoly (lx : List Fl) (α : ℝ) (d : ℕ) (m : Option PolyAlg) (log : Bool) :
    Except PyErr (List Fl) :=
  if ¬ (0 < α ∧ α ≤ 1) then .error .assertionError
  else if ¬ 1 ≤ d then .error .assertionError
  else lx.mapM fun (l : Fl) => calcGumbelPoly l α d (m.getD (getPolyMethod l α d)) log

/-! ### Densities -/

/-- clayton.py:108-137, `log_pdf` of one row for a negative parameter before masking. -/
noncomputable def claytonLogNeg (θ : ℝ) {k : ℕ} (u : Fin k → Fl) : Fl :=
  Fl.log1p (.fin θ) - .fin (1 + θ) * (∑ j, Fl.log (u j))
    - .fin ((k : ℝ) + 1 / θ) * Fl.log1p (-(∑ j, claytonIpsi θ (u j)))

/-- clayton.py:108-137, `log_pdf` of one row for a positive parameter. -/
noncomputable def claytonLogPos (θ : ℝ) {k : ℕ} (u : Fin k → Fl) : Fl :=
  (∑ j ∈ Finset.range (k - 1), Fl.log1p (.fin (θ * ((j : ℝ) + 1))))
    - .fin (1 + θ) * (∑ j, Fl.log (u j))
    - .fin ((k : ℝ) + 1 / θ) * Fl.log1p (∑ j, claytonIpsi θ (u j))

/-- clayton.py:108-137 `pdf`. When no row is valid, and when `theta == 0`, the array of logarithms
is returned whatever `log` says; for a positive parameter the validity mask is not applied. -/
noncomputable def claytonPdf (θ : ℝ) (dim : ℕ) {n k : ℕ} (x : Fin n → Fin k → Fl) (log : Bool) :
    Except PyErr (Fin n → Fl) :=
  if k ≠ dim then .error .valueError
  else if ¬ ∃ i, validRow (x i) then .ok fun _ => .nan
  else if θ = 0 then .ok fun i => if validRow (x i) then .fin 0 else .nan
  else if θ < 0 then .ok fun i =>
    let v := if ¬ validRow (x i) then .nan
      else if ¬ (∑ j, claytonIpsi θ (x i j)) < Fl.fin 1 then .ninf
      else claytonLogNeg θ (x i)
    if log then v else Fl.exp v
  else .ok fun i => if log then claytonLogPos θ (x i) else Fl.exp (claytonLogPos θ (x i))

/-- frank.py:131-151, the value of `res` for one valid row. `log1mexp` of the scalar parameter is
the same formula. -/
noncomputable def frankLogRow (θ : ℝ) {k : ℕ} (u : Fin k → Fl) : Except PyErr Fl := do
  let lp := log1mexp (.fin θ)
  let arg := Fl.exp (lp + ∑ j, (log1mexp (.fin θ * u j) - lp))
  let li ← polyLog arg (1 - k) .negStirling true
  return .fin ((k : ℝ) - 1) * Fl.log (.fin θ) + li - .fin θ * (∑ j, u j)
    - ∑ j, log1mexp (.fin θ * u j)

/-- Rows evaluated one after the other; the first exception is the outcome. -/
noncomputable def rowsM {n k : ℕ} (f : (Fin k → Fl) → Except PyErr Fl) (x : Fin n → Fin k → Fl) :
    Except PyErr (Fin n → Fl) := do
  let rows ← (List.ofFn x).mapM f
  return fun i => rows.getD i .nan

/-- frank.py:139-149: `res` is filled for the valid rows only. -/
noncomputable def frankRow (θ : ℝ) {k : ℕ} (u : Fin k → Fl) : Except PyErr Fl :=
  if validRow u then frankLogRow θ u else .ok .nan

/-- frank.py:128-151 `pdf`. The only exception that can arise is the assertion inside `poly_log`,
and whether it does depends on the number of columns only. -/
noncomputable def frankPdf (θ : ℝ) (dim : ℕ) {n k : ℕ} (x : Fin n → Fin k → Fl) (log : Bool) :
    Except PyErr (Fin n → Fl) :=
  if k ≠ dim then .error .valueError
  else do
    let res ← rowsM (frankRow θ) x
    return fun i => if log then res i else Fl.exp (res i)

/-- gumbel.py:200-214: the logarithm `ln` of the generator sum, for one row. The offset is the
largest *coordinate*, not the largest logarithm. -/
noncomputable def gumbelLogSum (θ : ℝ) {k : ℕ} (u : Fin k → Fl) (offset : Fl) : Fl :=
  offset + Fl.log (∑ j, Fl.exp (Fl.log (gumbelIpsi θ (u j)) - offset))

/-- gumbel.py:216-220, `log_pdf` of one row. -/
noncomputable def gumbelLogRow (θ : ℝ) {k : ℕ} (u : Fin k → Fl) : Except PyErr Fl := do
  let offset ← npMax (List.ofFn u)
  let α := 1 / θ
  let lx := .fin α * gumbelLogSum θ u offset
  let poly ← calcGumbelPoly lx α k (getPolyMethod lx α k) true
  let ls := poly - .fin (k : ℝ) * lx / .fin α
  return -(Fl.exp lx) + .fin ((k : ℝ)) * Fl.log (.fin θ)
    + (∑ j, (.fin (θ - 1) * Fl.log (-(Fl.log (u j))) + -(Fl.log (u j)))) + ls

/-- gumbel.py:185-220 `pdf`. Rows are evaluated in order; `gumbel_poly` is inlined row by row (see
`gumbelPoly`). -/
noncomputable def gumbelPdf (θ : ℝ) (dim : ℕ) {n k : ℕ} (x : Fin n → Fin k → Fl) (log : Bool) :
    Except PyErr (Fin n → Fl) :=
  if k ≠ dim then .error .valueError
  else if θ = 1 then .ok fun i =>
    if validRow (x i) then (if log then .fin 0 else .fin 1) else .nan
  else if θ = 0 then .error .zeroDivision
  else if ¬ (0 < 1 / θ ∧ 1 / θ ≤ 1) then .error .assertionError
  else do
    let res ← rowsM (gumbelLogRow θ) x
    return fun i => if log then res i else Fl.exp (res i)

/-- `pdf` of the three families. -/
noncomputable def archPdf (F : Family) (θ : ℝ) (dim : ℕ) {n k : ℕ} (x : Fin n → Fin k → Fl)
    (log : Bool) : Except PyErr (Fin n → Fl) :=
  match F with
  | .clayton => claytonPdf θ dim x log
  | .frank => frankPdf θ dim x log
  | .gumbel => gumbelPdf θ dim x log

end Copulae
