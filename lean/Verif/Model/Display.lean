import Verif.Model.PyErr
import Mathlib.Data.List.Basic

/-!
Model of the displays of summaries: `copulae/copula/estimator/summary.py`, `copulae/copula/summary.py`,
`copulae/mixtures/gmc/estimators/summary.py` and `copulae/mixtures/gmc/summary.py`.

Simplifications: the texts of values are given (`str(v)`); headings, padding and tags of HTML are left out, a display is the list of its
cells or lines.
-/

namespace Copulae

/-- The items of a dictionary with the texts of the values. -/
abbrev Items := List (String × String)

/-- `zip_longest(setup.items(), results.items())` and estimator/summary.py:48-51: the cells of one row of the second table; `None` is
written where one dictionary is shorter. -/
def fitRows : Items → Items → List (String × String × String × String)
  | [], [] => []
  | (k, v) :: s, [] => (k, v, "None", "None") :: fitRows s []
  | [], (k, v) :: r => ("None", "None", k, v) :: fitRows [] r
  | (k, v) :: s, (k', v') :: r => (k, v, k', v') :: fitRows s r

/-- estimator/summary.py:9-41 `FitSummary`, as displayed. -/
structure FitShown where
  method : String
  logLik : String
  nsample : String
  setup : Option Items
  results : Option Items

/-- The tables of estimator/summary.py:46-70 `_repr_html_`. -/
def FitShown.html (f : FitShown) : Except PyErr (Items × List (String × String × String × String)) :=
  match f.setup, f.results with
  | some s, some r => .ok ([("Log Likelihood", f.logLik), ("Method", f.method), ("Data Points", f.nsample)], fitRows s r)
  | _, _ => .error .attributeError

/-- estimator/summary.py:82-86: one section of the text. -/
def fitSection (title : String) : Option Items → List (String × Items)
  | none => []
  | some d => [(title, d.filter fun e => e.1 ≠ "final_simplex")]

/-- estimator/summary.py:72-88 `__str__`. -/
def FitShown.text (f : FitShown) : Items × List (String × Items) :=
  ([("Log. Likelihood", f.logLik), ("Method", f.method), ("Data Points", f.nsample)],
    fitSection "Optimization Setup" f.setup ++ fitSection "Results" f.results)

/-- corr_inversion.py:48: the summary of a fit by inversion. -/
def shownInversion (method logLik nsample : String) : FitShown := ⟨method, logLik, nsample, none, none⟩

/-- max_likelihood.py:68: the summary of a fit by maximum likelihood. -/
def shownMl (logLik nsample : String) (options results : Items) : FitShown := ⟨"Maximum likelihood", logLik, nsample, some options, some results⟩

/-- gmc/estimators/summary.py:16-34 `_repr_html_`, the cells of the table, and 36-49 `__str__`, the lines: they have the same content. -/
def gmcFitShown (method nsample : String) (setup : Option Items) : Items :=
  [("Method", method), ("Data Points", nsample)] ++ setup.getD []

/-- Values of the parameters of a summary: `isinstance` distinguishes the types of Python (a `numpy.float64` is a `float`), the other types
of numbers of NumPy, and arrays by their number of dimensions. -/
inductive ShownVal
  | python (text : String)
  | numpy (text : String)
  | array (ndim : ℕ) (text : String)

/-- copula/summary.py:32-36 and 63-67: what is shown for one parameter. -/
def ShownVal.shown : ShownVal → Option String
  | .python t => some t
  | .numpy _ => none
  | .array n t => if n = 2 then some t else none

/-- copula/summary.py:29-54 and 56-69: the parameters shown, by name. -/
def summaryShown (params : List (String × ShownVal)) : Items := params.filterMap fun e => e.2.shown.map fun t => (e.1, t)

/-- The degrees of freedom of a Student copula as kept by the setter (student.py:153-167): a value of the type of the array that was
assigned, or the object in a `StudentParams`. -/
def studentDfShown (integers : Bool) (text : String) : ShownVal := if integers then .numpy text else .python text

/-- student.py:184-189 `summary`. -/
def studentSummary (df : ShownVal) (sigma : String) : Items :=
  summaryShown [("Degree of Freedom", df), ("Correlation Matrix", .array 2 sigma)]

/-- gaussian.py:89-91 `summary`. -/
def gaussianSummary (sigma : String) : Items := summaryShown [("Correlation Matrix", .array 2 sigma)]

/-- clayton.py:166-168, frank.py:197-199, gumbel.py:248-250 `summary`; the setters convert the parameter with `float`. -/
def archSummary (theta : String) : Items := summaryShown [("theta", .python theta)]

/-- empirical.py:204-211 `summary`. -/
def empiricalSummary (dim ties : String) (offset : ShownVal) (smoothing : String) : Items :=
  summaryShown [("Dimensions", .python dim), ("Ties method", .python ties), ("Offset", offset), ("Smoothing", .python smoothing)]

/-- The parameters of a Gaussian mixture copula as displayed: probabilities, means, covariances. -/
structure GmcShown where
  prob : String
  means : String
  covs : List String

/-- gmc/summary.py:13-46 `_repr_html_`: without parameters `None.prob` raises. -/
def gmcHtml (params : Option GmcShown) (method : Option String) : Except PyErr Items :=
  match params with
  | none => .error .attributeError
  | some p => .ok ([("Mixture Probability", p.prob), ("Means", p.means)] ++
      (p.covs.zipIdx.map fun e => (s!"Margin {e.2 + 1}", e.1)) ++ (method.map fun m => ("Algorithm", m)).toList)

/-- gmc/summary.py:48-53 `__str__`: `str(None)` without parameters. -/
def gmcText (render : GmcShown → String) (params : Option GmcShown) : String :=
  match params with
  | none => "None"
  | some p => render p

end Copulae
