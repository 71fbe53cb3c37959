import Verif.Model.Gmc

/-!
Model of `copulae/mixtures/gmc/marginals.py:gmm_marginal_ppf` and of `copulae/mixtures/gmc/loglik.py`.

Simplifications
* `scipy.interpolate.interp1d(x, y, fill_value='interpolate')` is modelled as documented by SciPy: `'interpolate'`
  is not the special value `'extrapolate'`, so `bounds_error` becomes true and arguments outside the range of
  `x` raise `ValueError`; the points are sorted by `x` (stable) and evaluated by `np.interp`. Undefined
  points cannot occur (the values of `gmm_marginal_cdf` at a finite grid are finite);
* the probabilities are finite (the setter of `prob` rejects others);
* `scipy.stats.multivariate_normal.pdf` is a parameter.
-/

namespace Copulae

open Classical

/-- `np.round`: to the nearest integer, halves to the even one. -/
noncomputable def roundEven (x : ℝ) : ℤ :=
  if x - ⌊x⌋ < 1 / 2 then ⌊x⌋
  else if 1 / 2 < x - ⌊x⌋ then ⌊x⌋ + 1
  else if Even ⌊x⌋ then ⌊x⌋ else ⌊x⌋ + 1

/-- marginals.py:39, one cluster. -/
noncomputable def nSamples (resolution : ℕ) : Fl → ℕ
  | .fin p => (max (roundEven (p * resolution)) 2).toNat
  | _ => 2

/-- `np.linspace(a, b, n)` for `n ≥ 2`. -/
noncomputable def flLinspace (a b : Fl) (n : ℕ) : List Fl :=
  (List.range n).map fun k => a + .fin k * ((b - a) / .fin (n - 1 : ℕ))

/-- marginals.py:42-47: column `j` of the grid. -/
noncomputable def ppfGrid {m d : ℕ} (s : GMCParam m d) (resolution spread : ℕ) (j : Fin d) : List Fl :=
  (List.finRange m).flatMap fun c =>
    let sigma := Fl.sqrt (s.covs c j j)
    flLinspace (s.means c j - .fin spread * sigma) (s.means c j + .fin spread * sigma)
      (nSamples resolution (s.prob c))

/-- `np.interp(q, xp, fp)` for sorted points `(xp, fp)` and `q` not below the first of them: the interval is the last
one whose left end is not above `q`. -/
noncomputable def npInterp : List (Fl × Fl) → Fl → Fl
  | [], _ => .nan
  | [a], q => if q = .nan then .nan else a.2
  | a :: b :: r, q =>
    if b.1 ≤ q then npInterp (b :: r) q
    else if a.1 = q then a.2
    else (b.2 - a.2) / (b.1 - a.1) * (q - a.1) + a.2

/-- `interp1d(x, y, fill_value='interpolate')(q)` at one argument; `pts` are the pairs of `x` and `y`. -/
noncomputable def interp1d (pts : List (Fl × Fl)) (q : Fl) : Except PyErr Fl :=
  let ps := pts.mergeSort fun a b => decide (a.1 ≤ b.1)
  match ps.head?, ps.getLast? with
  | some a, some b => if q < a.1 ∨ b.1 < q then .error .valueError else .ok (npInterp ps q)
  | _, _ => .error .valueError

/-- marginals.py:49-54: one value of column `j`. -/
noncomputable def ppfValue {m d : ℕ} (s : GMCParam m d) (resolution spread : ℕ) (j : Fin d) (q : Fl) :
    Except PyErr Fl :=
  interp1d ((ppfGrid s resolution spread j).map fun x => (gmmMarginalCdf s j x, x)) q

/-- marginals.py:56-59: undefined values are replaced. -/
noncomputable def ppfFix (q x : Fl) : Fl :=
  let x1 := if x = .nan ∧ Fl.fin 1 ≤ q then .pinf else x
  if x = .nan ∧ q ≤ Fl.fin 0 then .ninf else x1

/-- marginals.py:11-61 `gmm_marginal_ppf`. -/
noncomputable def gmmMarginalPpf {n m d : ℕ} (s : GMCParam m d) (resolution spread : ℕ) (validate : Bool)
    (q : Fin n → Fin d → Fl) : Except PyErr (Fin n → Fin d → Fl) := do
  if validate ∧ ((∃ i j, q i j < .fin 0) ∨ ∃ i j, Fl.fin 1 < q i j) then throw .valueError
  let cols ← (List.finRange d).mapM fun j =>
    (List.finRange n).mapM fun i => ppfValue s resolution spread j (q i j)
  return fun i j => ppfFix (q i j) ((cols.getD j []).getD i .nan)

/-- loglik.py:12-33 `gmm_log_likelihood`; `dens i c` is the value of `mvn.pdf(x[i], means[c], covs[c])`. -/
noncomputable def gmmLogLik {n m d : ℕ} (s : GMCParam m d) (dens : Fin n → Fin m → Fl) : Fl :=
  ∑ i, Fl.log (∑ c, s.prob c * dens i c)

/-- loglik.py:36-60 `gmm_log_likelihood_marginals`, entry `j`; `dens1 i c` is the value of
`mvn.pdf(x[i, j], means[c, j], covs[c, j, j])`. -/
noncomputable def gmmLogLikMarginal {n m d : ℕ} (s : GMCParam m d) (dens1 : Fin n → Fin m → Fl) : Fl :=
  ∑ i, Fl.log (∑ c, s.prob c * dens1 i c)

/-- `scipy.stats.multivariate_normal.pdf`, in `d` dimensions and in one. -/
structure MvnPdf (d : ℕ) where
  joint : (Fin d → Fl) → SqMat Fl d → (Fin d → Fl) → Fl
  single : Fl → Fl → Fl → Fl

/-- loglik.py:63-81 `gmcm_log_likelihood`. -/
noncomputable def gmcmLogLik {n m d : ℕ} (N : MvnPdf d) (s : GMCParam m d) (u : Fin n → Fin d → Fl) :
    Except PyErr Fl := do
  let q ← gmmMarginalPpf s 2000 5 false u
  return gmmLogLik s (fun i c => N.joint (s.means c) (s.covs c) (q i)) -
    ∑ j, gmmLogLikMarginal s fun i c => N.single (s.means c j) (s.covs c j j) (q i j)

end Copulae
