import Verif.Model.GofRun

/-!
`gof_copula` with the class `IndepCopula`.
-/

namespace Copulae

/-- indep/indep.py:44-49 `IndepCopula.fit`, as gof/goodness_of_fit/goodness_of_fit.py:126 calls it: the copula is left as it is, whatever the
data and the options are. The copula has no parameters, so that there is one value for it. The warning is not modelled: `verbose` is 0. -/
def indepGofFit {n d : ℕ} (_ : Fin n → Fin d → ℝ) : Except PyErr Unit := .ok ()

/-- gof/goodness_of_fit/goodness_of_fit.py:147 `copula.cdf(data)` for the copula `IndepCopula(dim=d)` of line 129 (indep/indep.py:38-42). Where
`cdf` would raise, the value is nan. -/
noncomputable def indepGofCdf {n d : ℕ} (_ : Unit) (u : Fin n → Fin d → ℝ) (i : Fin n) : Fl :=
  match indepCdf d (fun i j => .fin (u i j)) false with
  | .ok v => v i
  | .error _ => .nan

/-- gof/goodness_of_fit/goodness_of_fit.py:84-122 `gof_copula(IndepCopula, data, reps, ties, fit_ties)`. -/
noncomputable def gofIndep {G : Gen} {n d : ℕ} (data : Fin n → Fin d → ℝ) (reps : ℤ) (ties fitTies : String) : Rnd G (Unit × Fl × ℝ) :=
  gofRun indepGofFit indepGofCdf (fun _ => indepRandomG n d none) data reps ties fitTies

end Copulae
