import Verif.Model.Fit

/-!
`StudentCopula.fit` with `fix_df=True` (`elliptical/student.py:110-115`). The optimiser may ask for values of the
objective and of the constraint; the constraint reads the degrees of freedom of the copula at the time it is asked.
Constraints the caller put into the list are functions of the point only and belong to the optimiser.
-/

namespace Copulae

/-- A run of `scipy.optimize.minimize` seen from the objective and the constraint. -/
inductive ConTree
  | done (r : OptRes)
  | eval (x : List Fl) (next : Fl → ConTree)
  | con (x : List Fl) (next : Fl → ConTree)

/-- `self._df`. -/
def FitCop.df : FitCop → Fl
  | .student df _ => df
  | _ => .nan

/-- student.py:113 `lambda x: x[0] - self._df`. -/
noncomputable def dfConstraint (c : FitCop) (x : List Fl) : Fl := x.headD .nan - c.df

/-- Run the optimiser against the objective (max_likelihood.py:35-57) and the constraint. -/
noncomputable def runCon (env : FitEnv) {n d : ℕ} (data : Fin n → Fin d → ℚ) (scale : Fl) :
    ConTree → FitCop → FitCop × Except PyErr OptRes
  | .done r, c => (c, .ok r)
  | .eval x next, c =>
      match calcLogLik env data scale c x with
      | (c', .error e) => (c', .error e)
      | (c', .ok v) => runCon env data scale (next v) c'
  | .con x next, c => runCon env data scale (next (dfConstraint c x)) c

/-- max_likelihood.py:59-68 with the constraint. -/
noncomputable def estimateMlCon (env : FitEnv) (opt : List Fl → ConTree) {n d : ℕ} (data : Fin n → Fin d → ℚ)
    (scale : Fl) (c : FitCop) (x0 : ParamArg) : FitCop × Except PyErr FitSummary :=
  match runCon env data scale (opt x0.toVec) c with
  | (c', .error e) => (c', .error e)
  | (c', .ok r) =>
      if r.success then
        match c'.setParams (.vec r.x) with
        | (c'', some e) => (c'', .error e)
        | (c'', none) => (c'', .ok ⟨r.x, -r.fn, n, some true⟩)
      else (c', .ok ⟨x0.toVec.map fun _ => .nan, -r.fn, n, some false⟩)

/-- estimator.py:48-102 `fit_copula` with the constraint. -/
noncomputable def fitCopulaCon (env : FitEnv) (opt : List Fl → ConTree) {n d : ℕ} (data : Fin n → Fin d → ℚ)
    (c : FitCop) (x0 : Option ParamArg) (method : String) (scale : Fl) : FitCop × Except PyErr FitSummary :=
  if n < c.dim then (c, .error .valueError)
  else if pyLower method = "ml".toList then
    match initialParams env data c x0 with
    | (c', .error e) => (c', .error e)
    | (c', .ok a) => estimateMlCon env opt data scale c' a
  else if pyLower method = "itau".toList then estimateCorr env data c .itau
  else if pyLower method = "irho".toList then estimateCorr env data c .irho
  else (c, .error .notImplemented)

/-- base.py:75-140 `fit` on a two-dimensional array, with the constraint. -/
noncomputable def FitObj.fitCon (env : FitEnv) (opt : List Fl → ConTree) (o : FitObj) {n d : ℕ}
    (data : Fin n → Fin d → ℚ) (x0 : Option ParamArg) (method ties : String) (toPobs : Bool) (scale : Fl) :
    FitObj × Except PyErr Unit :=
  match maybePobs data toPobs ties with
  | .error e => (o, .error e)
  | .ok u =>
      if o.cop.dim ≠ d then (o, .error .inputData)
      else if ∃ i j, u i j < 0 ∨ 1 < u i j then (o, .error .inputData)
      else
        match fitCopulaCon env opt u o.cop x0 method scale with
        | (c', .error e) => ({ o with cop := c' }, .error e)
        | (c', .ok s) => (⟨c', some s⟩, .ok ())

/-- student.py:110-115 `fit(..., fix_df=True)`. `constraints` is what `optim_options` holds under that key: nothing was
passed (`none`), a dictionary without the key (`some none`), or a list of so many constraints. The second component is
the number of constraints in the caller's list after the call, if there is one. -/
noncomputable def studentFitFixed (env : FitEnv) (opt : List Fl → ConTree) (o : FitObj) {n d : ℕ}
    (data : Fin n → Fin d → ℚ) (x0 : Option ParamArg) (method ties : String) (toPobs : Bool) (scale : Fl)
    (constraints : Option (Option ℕ)) : (FitObj × Except PyErr Unit) × Option ℕ :=
  match constraints with
  | none => (o.fitCon env opt data x0 method ties toPobs scale, none)
  | some none => ((o, .error .keyError), none)
  | some (some k) => (o.fitCon env opt data x0 method ties toPobs scale, some (k + 1))

end Copulae
