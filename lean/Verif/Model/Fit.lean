import Verif.Model.Archimedean
import Verif.Model.Elliptical
import Verif.Model.Measures
import Verif.Model.Correlation
import Verif.Model.FindRoot
import Verif.Model.Ranks
import Verif.Model.FlAlg

/-!
Model of fitting: `copulae/copula/base.py` lines 75–166 (`fit`, `log_lik`),
`copulae/copula/estimator/estimator.py` lines 48–142 (`fit_copula`, `initial_params`),
`copulae/copula/estimator/max_likelihood.py`, `copulae/copula/estimator/corr_inversion.py`, the parameter
setters of the Gaussian, Student and Archimedean copulas and `log_lik` of the elliptical copulas.

Parameters of the model (calls that leave the modelled code)
* `scipy.optimize.minimize` is a decision tree which asks for values of the objective and finally returns a
  result; the objective has the side effect of setting the parameters of the copula;
* `copula.pdf(data, log=True).sum()` is an arbitrary function of the copula and the data;
* the coefficients of SciPy, `statsmodels.cov_nearest`, `brentq` and the Debye function as elsewhere.

Simplifications: data are rational numbers (no NaN); `form_options` (modelled in `Model/Dict.lean`) is taken
to have succeeded; messages, `verbose`, column labels and the description printed for data frames are not
modelled; arrays are values (sharing of arrays is not modelled here).
-/

namespace Copulae

open Classical

/-- A copula object of one of the five families with a `fit` method built on `fit_copula`. -/
inductive FitCop
  | arch (F : Family) (st : ArchState)
  | gaussian (s : Ell)
  | student (df : Fl) (s : Ell)

/-- The values assigned to `params`: a number, a vector, or a `StudentParams` pair. -/
inductive ParamArg
  | scalar (x : Fl)
  | vec (l : List Fl)
  | student (df : Fl) (rho : List Fl)

namespace FitCop

/-- `copula.dim`. -/
def dim : FitCop → ℕ
  | .arch _ st => st.dim
  | .gaussian s => s.dim
  | .student _ s => s.dim

/-- The numbers in `copula.params` (clayton.py:93-95, frank.py:118-120, gumbel.py:172-174,
gaussian.py:64-67, student.py:134-150). -/
def params : FitCop → List Fl
  | .arch _ st => [st.theta]
  | .gaussian s => s.rhos
  | .student df s => df :: s.rhos

/-- `float(x)`: arrays must have one element. -/
def toFloat : ParamArg → Except PyErr Fl
  | .scalar x => .ok x
  | .vec [x] => .ok x
  | _ => .error .typeError

/-- `copula.params = p`: clayton.py:97-106, frank.py:122-126, gumbel.py:176-183, gaussian.py:69-73,
student.py:152-167. The object afterwards and the exception, if any. An array with several elements compared
with zero (frank.py:124) has no truth value; a `StudentParams` assigned to a Gaussian copula is out of model
(`TypeError`). -/
noncomputable def setParams (c : FitCop) (p : ParamArg) : FitCop × Option PyErr :=
  match c with
  | .arch F st =>
      match toFloat p with
      | .error e =>
          match F, p with
          | .frank, .vec _ => (c, some (if st.dim > 2 then .valueError else e))
          | _, _ => (c, some e)
      | .ok θ => (.arch F (F.setParams st θ).1, (F.setParams st θ).2)
  | .gaussian s =>
      match p with
      | .scalar x => (.gaussian { s with rhos := List.replicate s.rhos.length x }, none)
      | .vec l => (.gaussian { s with rhos := l }, none)
      | .student _ _ => (c, some .typeError)
  | .student _ s =>
      match p with
      | .student df' rho => (.student df' { s with rhos := rho }, none)
      | .scalar _ => (c, some .typeError)
      | .vec l =>
          if l.length ≠ 1 + s.dim * (s.dim - 1) / 2 then (c, some .valueError)
          else match l with
            | [] => (c, some .valueError)
            | df' :: rho =>
                if df' ≤ .fin 0 then (c, some .valueError)
                else (.student df' { s with rhos := rho }, none)

end FitCop

/-- Everything outside the modelled code that a fit calls. -/
structure FitEnv where
  /-- `copula.pdf(data, log=True).sum()` -/
  logPdfSum : FitCop → (n d : ℕ) → (Fin n → Fin d → ℚ) → Except PyErr Fl
  fns : CorrFns
  ext : CovNearest
  brentq : PyFun → ℝ → ℝ → Except PyErr ℝ
  d1 : ℝ → ℝ

/-- `self.pobs(data, ties)` on a matrix, base.py:206-229. -/
def pobsMat {α : Type} [LinearOrder α] {n d : ℕ} (data : Fin n → Fin d → α) (ties : String) : Except PyErr (Fin n → Fin d → ℚ) := do
  let m ← parseTies ties
  return fun i j => rankdata m (fun k => data k j) i / ((n : ℚ) + 1)

/-- base.py:165 and 123: `self.pobs(data, ties) if to_pobs else data`. -/
def maybePobs {n d : ℕ} (data : Fin n → Fin d → ℚ) (toPobs : Bool) (ties : String) :
    Except PyErr (Fin n → Fin d → ℚ) :=
  if toPobs then pobsMat data ties else .ok data

/-- elliptical/abstract.py:40-44: the checks before the density is evaluated; `true` when `-inf` is
returned. -/
noncomputable def logLikCut (c : FitCop) : Except PyErr Bool :=
  match c with
  | .arch _ _ => .ok false
  | .gaussian s => do
      let M ← s.sigma
      return decide (¬ isPsd M.2)
  | .student df s => do
      let M ← s.sigma
      return decide (¬ isPsd M.2 ∨ df ≤ .fin 0)

/-- `copula.log_lik(data, to_pobs=..., ties=...)`: base.py:142-166 and, for elliptical copulas,
elliptical/abstract.py:39-46. -/
noncomputable def logLik (env : FitEnv) (c : FitCop) {n d : ℕ} (data : Fin n → Fin d → ℚ) (toPobs : Bool)
    (ties : String) : Except PyErr Fl := do
  let cut ← logLikCut c
  if cut then return .ninf
  else do
    let u ← maybePobs data toPobs ties
    env.logPdfSum c n d u

/-- max_likelihood.py:35-57 `calc_log_lik`: the copula afterwards and the value or exception. -/
noncomputable def calcLogLik (env : FitEnv) {n d : ℕ} (data : Fin n → Fin d → ℚ) (scale : Fl) (c : FitCop)
    (param : List Fl) : FitCop × Except PyErr Fl :=
  if ∃ x ∈ param, x.isNan then (c, .ok .pinf)
  else
    match c.setParams (.vec param) with
    | (c', some .valueError) => (c', .ok .pinf)
    | (c', some e) => (c', .error e)
    | (c', none) =>
        match logLik env c' data false "average" with
        | .error .valueError => (c', .ok .pinf)
        | .error e => (c', .error e)
        | .ok v => (c', .ok (-v * scale))

/-- The fields of `OptimizeResult` that are read. -/
structure OptRes where
  success : Bool
  x : List Fl
  fn : Fl

/-- A run of `scipy.optimize.minimize` seen from the objective: it asks for the value at a point and goes on
depending on the answer, or stops with a result. -/
inductive OptTree
  | done (r : OptRes)
  | eval (x : List Fl) (next : Fl → OptTree)

/-- Run the optimiser against the objective; the second component is the result or the exception raised by
the objective. -/
noncomputable def runOpt (env : FitEnv) {n d : ℕ} (data : Fin n → Fin d → ℚ) (scale : Fl) :
    OptTree → FitCop → FitCop × Except PyErr OptRes
  | .done r, c => (c, .ok r)
  | .eval x next, c =>
      match calcLogLik env data scale c x with
      | (c', .error e) => (c', .error e)
      | (c', .ok v) => runOpt env data scale (next v) c'

/-- estimator/summary.py:34-41, the fields the model needs; `success` is `results['success']`, absent for
correlation inversion. -/
structure FitSummary where
  params : List Fl
  logLik : Fl
  nsample : ℕ
  success : Option Bool

/-- `np.atleast_1d(x0)`, done by `minimize`. -/
def ParamArg.toVec : ParamArg → List Fl
  | .scalar x => [x]
  | .vec l => l
  | .student df rho => df :: rho

/-- max_likelihood.py:59-68. -/
noncomputable def estimateMl (env : FitEnv) (opt : List Fl → OptTree) {n d : ℕ} (data : Fin n → Fin d → ℚ)
    (scale : Fl) (c : FitCop) (x0 : ParamArg) : FitCop × Except PyErr FitSummary :=
  match runOpt env data scale (opt x0.toVec) c with
  | (c', .error e) => (c', .error e)
  | (c', .ok r) =>
      if r.success then
        match c'.setParams (.vec r.x) with
        | (c'', some e) => (c'', .error e)
        | (c'', none) => (c'', .ok ⟨r.x, -r.fn, n, some true⟩)
      else (c', .ok ⟨x0.toVec.map fun _ => .nan, -r.fn, n, some false⟩)

/-- Data as the argument of the correlation functions. -/
noncomputable def dataRows {n d : ℕ} (data : Fin n → Fin d → ℚ) : List (Fin d → Fl) :=
  List.ofFn fun i => fun j => Fl.fin ((data i j : ℚ) : ℝ)

/-- corr_inversion.py:71-76: `np.asarray(corr(data))[tri_indices(dim, 1, 'lower')]`, also
estimator.py:112-113. -/
noncomputable def lowerCorr (env : FitEnv) (c : FitCop) {n d : ℕ} (data : Fin n → Fin d → ℚ)
    (method : String) : Except PyErr (List Fl) := do
  let idx ← triIndices c.dim 1 "lower"
  let M ← corr env.fns (.mat d (dataRows data)) none method "everything"
  fancyRead M.2 idx

/-- frank.py:104-112 `itau`, one entry. Entries that are not finite end in the assertion of
`find_root`. -/
noncomputable def frankItauFl (env : FitEnv) : Fl → Except PyErr Fl
  | .fin t => do return .fin (← frankItau env.brentq env.d1 t)
  | _ => .error .assertionError

/-- `squeeze_output` (utility/annotations/reshape.py:100-104): an array with one element becomes a
`float`. -/
def squeeze : List Fl → ParamArg
  | [x] => .scalar x
  | l => .vec l

/-- `copula.itau(tau)` on an array: clayton.py:82-84, frank.py:104-112, gumbel.py:154-167,
elliptical/abstract.py:34-37. -/
noncomputable def copItau (env : FitEnv) (c : FitCop) (tau : List Fl) : Except PyErr ParamArg :=
  match c with
  | .arch .clayton _ => .ok (squeeze (tau.map claytonItau))
  | .arch .frank _ => do return squeeze (← tau.mapM (frankItauFl env))
  | .arch .gumbel _ => do
      match ← gumbelItau (.arr tau) with
      | .scalar x => return .scalar x
      | .arr l => return squeeze l
  | _ => .ok (squeeze (tau.map ellItau))

/-- `copula.irho(rho)` on an array: gaussian.py:55-58; `StudentCopula.irho` calls `NotImplemented`
(student.py:117-121); for the Archimedean families `NotImplemented` is returned (frank.py:99-102, where the
mean of it fails afterwards) or subtracted from (archimedean/abstract.py:72-79, clayton.py:174-177,
gumbel.py:256-259): a `TypeError` in every case. -/
noncomputable def copIrho (c : FitCop) (rho : List Fl) : Except PyErr ParamArg :=
  match c with
  | .gaussian _ => .ok (squeeze (rho.map ellIrho))
  | _ => .error .typeError

/-- The type of correlation inversion. -/
inductive CorType
  | itau
  | irho
  deriving DecidableEq

/-- `is_elliptical`, estimator/misc.py:5-6. -/
def FitCop.isEll : FitCop → Bool
  | .arch _ _ => false
  | _ => true

/-- `create_cov_matrix(theta)` on the output of `itau` or `irho`: `len(params)` of a float is a
`TypeError`. -/
def covOfArg : ParamArg → Except PyErr (Σ d : ℕ, SqMat Fl d)
  | .vec l => createCovMatrix l
  | _ => .error .typeError

/-- corr_inversion.py:71-79: the inverted coefficients. -/
noncomputable def rawTheta (env : FitEnv) (c : FitCop) {n d : ℕ} (data : Fin n → Fin d → ℚ) (typ : CorType) :
    Except PyErr ParamArg :=
  match typ with
  | .itau => do copItau env c (← lowerCorr env c data "kendall")
  | .irho => do copIrho c (← lowerCorr env c data "spearman")

/-- corr_inversion.py:82: `near_psd(create_cov_matrix(theta))[indices]`. -/
noncomputable def psdLower (env : FitEnv) (dim : ℕ) (theta : ParamArg) : Except PyErr (List Fl) := do
  let M ← covOfArg theta
  let N ← nearPsd env.ext (.mat M.1 M.1 M.2)
  fancyRead N.2 (← triIndices dim 1 "lower")

/-- corr_inversion.py:51-84 `fit_cor`. -/
noncomputable def fitCor (env : FitEnv) (c : FitCop) {n d : ℕ} (data : Fin n → Fin d → ℚ) (typ : CorType) :
    Except PyErr ParamArg := do
  let theta ← rawTheta env c data typ
  if c.isEll then return .vec (← psdLower env c.dim theta) else return theta

/-- `np.mean`. -/
noncomputable def npMean (l : List Fl) : Fl := l.sum / .fin (l.length : ℝ)

/-- corr_inversion.py:33-43: storing the estimate. `copula.params[:] = estimate` (line 40) needs arrays of
the same length (a one-element array would be repeated). The estimate of an Archimedean copula is the mean.
Returns the copula and the estimate or the exception. -/
noncomputable def storeEstimate (c : FitCop) (icor : ParamArg) : FitCop × Except PyErr (List Fl) :=
  match c with
  | .student df s => (.student df { s with rhos := icor.toVec }, .ok icor.toVec)
  | .gaussian s =>
      if icor.toVec.length = s.rhos.length then (.gaussian { s with rhos := icor.toVec }, .ok icor.toVec)
      else match icor.toVec with
        | [x] => (.gaussian { s with rhos := List.replicate s.rhos.length x }, .ok icor.toVec)
        | _ => (c, .error .valueError)
  | .arch _ _ =>
      match c.setParams (.scalar (npMean icor.toVec)) with
      | (c', some e) => (c', .error e)
      | (c', none) => (c', .ok [npMean icor.toVec])

/-- corr_inversion.py:13-48 `estimate_corr_inverse_params`. -/
noncomputable def estimateCorr (env : FitEnv) {n d : ℕ} (data : Fin n → Fin d → ℚ) (c : FitCop)
    (typ : CorType) : FitCop × Except PyErr FitSummary :=
  match fitCor env c data typ with
  | .error e => (c, .error e)
  | .ok icor =>
      match storeEstimate c icor with
      | (c', .error e) => (c', .error e)
      | (c', .ok est) =>
          match logLik env c' data true "average" with
          | .error e => (c', .error e)
          | .ok v => (c', .ok ⟨est, v, n, none⟩)

/-- estimator.py:131-135: the loop for the bivariate Clayton copula. `fuel` bounds the number of steps of
length 0.2; the caller provides enough for every starting value the setter lets through. -/
noncomputable def claytonRestart (env : FitEnv) {n d : ℕ} (data : Fin n → Fin d → ℚ) :
    ℕ → FitCop → Fl → FitCop × Except PyErr Fl
  | 0, c, start => (c, .ok start)
  | k + 1, c, start =>
      if start < .fin 0 then
        match c.setParams (.scalar (start + .fin (1 / 5))) with
        | (c', some e) => (c', .error e)
        | (c', none) =>
            match logLik env c' data true "average" with
            | .error e => (c', .error e)
            | .ok v =>
                if v.isFin then (c', .ok (start + .fin (1 / 5)))
                else claytonRestart env data k c' (start + .fin (1 / 5))
      else (c, .ok start)

/-- `copula.params` of an Archimedean copula as a starting value. -/
def FitCop.paramArg : FitCop → ParamArg
  | .arch _ st => .scalar st.theta
  | .gaussian s => .vec s.rhos
  | .student df s => .student df s.rhos

/-- estimator.py:105-142 `initial_params`. -/
noncomputable def initialParams (env : FitEnv) {n d : ℕ} (data : Fin n → Fin d → ℚ) (c : FitCop)
    (x0 : Option ParamArg) : FitCop × Except PyErr ParamArg :=
  match x0.filter fun a => decide (∀ x ∈ a.toVec, x.isFin) with
  | some a => (c, .ok a)
  | none =>
      match c with
      | .gaussian _ => (c, (lowerCorr env c data "pearson").map .vec)
      | .student _ _ => (c, (lowerCorr env c data "pearson").map fun l => .vec (.fin 4.669 :: l))
      | .arch F st =>
          match estimateCorr env data c .itau with
          | (c', .error .notImplemented) => (c', .ok c'.paramArg)
          | (c', .error e) => (c', .error e)
          | (c', .ok smry) =>
              match logLik env c' data true "average" with
              | .error .notImplemented => (c', .ok c'.paramArg)
              | .error e => (c', .error e)
              | .ok ll =>
                  let start : Fl := smry.params.headD .nan
                  if ll.isFin then (c', .ok (.scalar start))
                  else
                    match (if F = .clayton ∧ st.dim = 2 then claytonRestart env data 5 c' start
                      else (c', .ok start)) with
                    | (c'', .error .notImplemented) => (c'', .ok c''.paramArg)
                    | (c'', .error e) => (c'', .error e)
                    | (c'', .ok start') =>
                        if ¬ ll.isNan then (c'', .ok (.scalar start')) else (c'', .ok c''.paramArg)

/-- estimator.py:48-102 `fit_copula`. The range check of line 90 compares truth values (`np.any(data)`) with
0 and 1 and never fires. -/
noncomputable def fitCopula (env : FitEnv) (opt : List Fl → OptTree) {n d : ℕ} (data : Fin n → Fin d → ℚ)
    (c : FitCop) (x0 : Option ParamArg) (method : String) (scale : Fl) : FitCop × Except PyErr FitSummary :=
  if n < c.dim then (c, .error .valueError)
  else if pyLower method = "ml".toList then
    match initialParams env data c x0 with
    | (c', .error e) => (c', .error e)
    | (c', .ok a) => estimateMl env opt data scale c' a
  else if pyLower method = "itau".toList then estimateCorr env data c .itau
  else if pyLower method = "irho".toList then estimateCorr env data c .irho
  else (c, .error .notImplemented)

/-- A copula object with its fit summary (`_fit_smry`). -/
structure FitObj where
  cop : FitCop
  smry : Option FitSummary

/-- base.py:75-140 `fit` on a two-dimensional array. -/
noncomputable def FitObj.fit (env : FitEnv) (opt : List Fl → OptTree) (o : FitObj) {n d : ℕ}
    (data : Fin n → Fin d → ℚ) (x0 : Option ParamArg) (method ties : String) (toPobs : Bool) (scale : Fl) :
    FitObj × Except PyErr Unit :=
  match maybePobs data toPobs ties with
  | .error e => (o, .error e)
  | .ok u =>
      if o.cop.dim ≠ d then (o, .error .inputData)
      else if ∃ i j, u i j < 0 ∨ 1 < u i j then (o, .error .inputData)
      else
        match fitCopula env opt u o.cop x0 method scale with
        | (c', .error e) => ({ o with cop := c' }, .error e)
        | (c', .ok s) => (⟨c', some s⟩, .ok ())

/-- base.py:75-140 `fit` with the default `to_pobs=True` on a two-dimensional array of numbers of any kind: after line 123 only
the pseudo-observations are used. `fitPobs_eq` says that this is `FitObj.fit` when the data are rational. -/
noncomputable def FitObj.fitPobs {α : Type} [LinearOrder α] (env : FitEnv) (opt : List Fl → OptTree) (o : FitObj) {n d : ℕ}
    (data : Fin n → Fin d → α) (x0 : Option ParamArg) (method ties : String) (scale : Fl) : FitObj × Except PyErr Unit :=
  match pobsMat data ties with
  | .error e => (o, .error e)
  | .ok u => o.fit env opt u x0 method ties false scale

end Copulae
