import Verif.Model.Ranks
import Verif.Model.Special
import Verif.Model.FlAlg
import Mathlib.Algebra.Order.Archimedean.Real.Basic

/-!
Model of `copulae/empirical`: distribution function, density and `to_marginals` of the empirical copula.

The data are real matrices (NaN in the data is not modelled). `btdtr` (the distribution function of the
beta distribution) and `scipy.stats.beta.pdf` are arguments. Evaluation points are floats, after
`shape_first_input_to_cop_dim` compared the number of columns with the dimension.
-/

namespace Copulae

open Classical

/-- empirical.py:189-196, distribution.py:46-57: the three kinds of smoothing. -/
inductive Smoothing
  | none | beta | checkerboard
  deriving DecidableEq

/-- empirical.py:189-196, the setter of `smoothing`; Python's `None` is `Option.none`. -/
def parseSmoothing : Option String → Except PyErr Smoothing
  | .none => .ok .none
  | .some s =>
    if s = "none" then .ok .none
    else if s = "beta" then .ok .beta
    else if s = "checkerboard" then .ok .checkerboard
    else .error .assertionError

/-- C `fmax`: a NaN argument is ignored. -/
noncomputable def cfmax (a b : Fl) : Fl :=
  match a, b with
  | .nan, b => b
  | a, .nan => a
  | a, b => if a < b then b else a

/-- C `fmin`: a NaN argument is ignored. -/
noncomputable def cfmin (a b : Fl) : Fl :=
  match a, b with
  | .nan, b => b
  | a, .nan => a
  | a, b => if b < a then b else a

/-- _distribution.pyx:56-57 `emp_cop`. -/
noncomputable def empCop (u : ℝ) (v : Fl) (_ : ℕ) : Fl := if .fin u ≤ v then .fin 1 else .fin 0

/-- _distribution.pyx:59-60 `emp_beta_cop`; `btdtr` is the function of `scipy.special`. -/
noncomputable def empBetaCop (btdtr : ℝ → ℝ → Fl → Fl) (u : ℝ) (v : Fl) (n : ℕ) : Fl :=
  btdtr (u * (n + 1)) ((n + 1) * (1 - u)) v

/-- _distribution.pyx:63-64 `emp_multi_linear_copula`. -/
noncomputable def empMultiLinear (u : ℝ) (v : Fl) (n : ℕ) : Fl :=
  cfmin (cfmax (.fin n * v - .fin ((n + 1) * u) + .fin 1) (.fin 0)) (.fin 1)

/-- _distribution.pyx:22-30, the choice of the kernel. -/
noncomputable def Smoothing.kernel (btdtr : ℝ → ℝ → Fl → Fl) : Smoothing → ℝ → Fl → ℕ → Fl
  | .none => empCop
  | .beta => empBetaCop btdtr
  | .checkerboard => empMultiLinear

/-- _distribution.pyx:35-53 `multivariate_emp_cop_dist_func` at one evaluation point. The division by
zero for `offset = -n` is not modelled as in C. -/
noncomputable def empDist {n d : ℕ} (f : ℝ → Fl → ℕ → Fl) (y : Fin n → Fin d → ℝ) (offset : ℝ)
    (x : Fin d → Fl) : Fl :=
  (∑ i, ∏ j, f (y i j) (x j) n) / .fin (n + offset)

/-- types.py:7 `EPSILON`. -/
noncomputable def flEps : ℝ := 2 ^ (-52 : ℤ)

/-- empirical.py:100-131 `cdf` of an empirical copula with the given data and settings. -/
noncomputable def empCdf (btdtr : ℝ → ℝ → Fl → Fl) {n d : ℕ} (data : Fin n → Fin d → ℝ)
    (smoothing : Smoothing) (ties : String) (offset : ℝ) {m : ℕ} (u : Fin m → Fin d → Fl)
    (log : Bool) : Except PyErr (Fin m → Fl) :=
  if (∃ i j, u i j > .fin (1 + flEps)) ∨ ∃ i j, u i j < .fin (-flEps) then .error .valueError
  else do
    match ← pseudoObs (.mat n d data) ties with
    | .mat _ d' uu =>
      if h : d' = d then
        return fun i =>
          let c := empDist (smoothing.kernel btdtr) (fun k (j : Fin d) => (uu k (h ▸ j) : ℝ)) offset
            (u i)
          if log then Fl.log c else c
      else .error .assertionError
    | _ => .error .assertionError

/-- empirical.py:145-169 `pdf`; `bpdf x a b` is `scipy.stats.beta.pdf(x, a, b)` and `blogpdf` its
`logpdf`. The ranks are `rank_data(data, 1, ties)`. -/
noncomputable def empPdf (bpdf blogpdf : Fl → ℝ → ℝ → Fl) {n d : ℕ} (data : Fin n → Fin d → ℝ)
    (smoothing : Smoothing) (ties : String) (offset : ℝ) {m : ℕ} (u : Fin m → Fin d → Fl)
    (log : Bool) : Except PyErr (Fin m → Fl) :=
  if smoothing ≠ .beta then .error .assertionError
  else do
    let t ← parseTies ties
    let r : Fin n → Fin d → ℝ := fun i j => (rankdata t (fun k => data k j) i : ℝ)
    if log then
      let v ← (List.finRange m).mapM fun i => logSum ((List.finRange n).map fun k =>
        ∑ j, blogpdf (u i j) (r k j) (n + 1 - r k j)) .none
      return fun i => v.getD i .nan - Fl.log (.fin (n + offset))
    else
      return fun i => (∑ k, ∏ j, bpdf (u i j) (r k j) (n + 1 - r k j)) / .fin (n + offset)

/-- Sorted column: `np.take_along_axis(data, data.argsort(axis=0), axis=0)[:, c]`. -/
noncomputable def sortedCol {n : ℕ} (x : Fin n → ℝ) : List ℝ :=
  (List.ofFn x).mergeSort fun a b => decide (a ≤ b)

/-- NumPy indexing of an axis by one integer; negative integers count from the end. -/
def npIndex {α : Type*} (l : List α) (k : ℤ) : Except PyErr α :=
  let k' := if k < 0 then k + l.length else k
  if 0 ≤ k' then
    match l[k'.toNat]? with
    | some v => .ok v
    | none => .error .indexError
  else .error .indexError

/-- empirical.py:213-266 `to_marginals` for finite `u` (the conversion of NaN to an integer is not
modelled) with as many columns as the data. The list comprehension builds the columns, `np.transpose`
turns them into rows. -/
noncomputable def toMarginals {m n d : ℕ} (u : Fin m → Fin d → ℝ) (original : Fin n → Fin d → ℝ) :
    Except PyErr (Fin m → Fin d → ℝ) := do
  let cols ← (List.finRange d).mapM fun c =>
    (List.finRange m).mapM fun i => npIndex (sortedCol fun k => original k c) ⌊u i c * n⌋
  return fun i c => (cols.getD c []).getD i 0

end Copulae
