import Verif.Model.GmcFit
import Verif.Model.Univariate

/-!
`MarginalCopula.fit` around a Gaussian mixture copula.
-/

namespace Copulae

/-- gmc.py:138-214 `fit` with a number for `criteria`: em.py:121 `criteria.upper()` raises after the quantiles of line 42; the other methods do
not read it. -/
noncomputable def gmcFitNum {d : ℕ} (env : GmcEnv d) (m : ℕ) (before : GmcObj) {n : ℕ} (data : Fin n → Fin d → ℚ)
    (x0 : GmcStart) (method : String) (ties : String) (maxIter : ℕ) : GmcFitOut m d :=
  if pyLower method = "pem".toList then
    match gmcStart env m data x0 with
    | .error e => ⟨before, x0, .error e⟩
    | .ok start => ⟨{ before with param := some ⟨m, d, start⟩ }, x0, do
        let u ← pobsMat data ties
        let _ ← (emFns env m (toFl u)).ppf start
        .error .attributeError⟩
  else gmcFit env m before data x0 method ties maxIter "" 0

/-- A `MarginalCopula` around a Gaussian mixture copula. -/
structure MargGmc where
  inner : GmcObj
  margins : List Frozen

/-- marginal.py:103-121 `fit` on a two-dimensional array, for an inner copula with `m` clusters. Line 118 passes the arguments by position;
the seventh and the eighth, `to_pobs` and `scale`, are `max_iter` and `criteria` of the mixture copula (gmc.py:138-140). `env k` is what
the fit calls with `max_iter=k`, which only the optimiser of `method='sgd'` sees; a truth value counts as 0 or 1. `scale` is a number. The
objects afterwards and the result of the inner fit. -/
noncomputable def MargGmc.fit {d : ℕ} (env : ℕ → GmcEnv d) (distFit : Dist → List ℚ → Except PyErr (List Fl)) (o : MargGmc) (m : ℕ) {n : ℕ}
    (data : Fin n → Fin d → ℚ) (x0 : GmcStart) (method ties : String) (toPobs : Bool) (_scale : Fl) :
    MargGmc × Except PyErr (GmcSummary m d) :=
  if o.inner.dim ≠ d then (o, .error .inputData)
  else
    match refitMargins distFit (column data) 0 o.margins with
    | (ms, some e) => (⟨o.inner, ms⟩, .error e)
    | (ms, none) =>
      let maxIter := if toPobs then 1 else 0
      let r := gmcFitNum (env maxIter) m o.inner data x0 method ties maxIter
      (⟨r.obj, ms⟩, r.res)

end Copulae
