import Verif.Model.Fit
import Verif.Model.GmcEm
import Verif.Model.GmcPpf

/-!
Model of `copulae/mixtures/gmc/estimators/kmeans.py`, `estimators/sgd.py` and of the constructor, the `params` setter and
`fit` of `copulae/mixtures/gmc/gmc.py`.

Parameters of the model
* the labels of `sklearn.cluster.KMeans` (which depend on the global random state) are an arbitrary function;
* `scipy.optimize.minimize` is a decision tree, as in `Model/Fit.lean`;
* `scipy.stats.multivariate_normal.pdf` and `statsmodels.cov_nearest` as elsewhere.

Simplifications: data are matrices of rational numbers (no NaN) with as many columns as the copula has dimensions;
`verbose`, warnings and the `options` passed to the optimiser are not modelled. Objects of class `GMCParam` are values,
except that the object passed as `x0` is followed through the call.
-/

namespace Copulae

open Classical

/-- `KMeans(n_clusters).fit(u).labels_`. -/
abbrev KMeansFn := (m : ℕ) → {n d : ℕ} → (Fin n → Fin d → ℚ) → Except PyErr (Fin n → ℕ)

section kmeans
variable {n d : ℕ} (data : Fin n → Fin d → ℚ) (labels : Fin n → ℕ) (g : ℕ)

/-- The rows with label `g`: `data[km.labels_ == g]`. -/
def groupRows : Finset (Fin n) := Finset.univ.filter fun i => labels i = g

/-- kmeans.py:43 `groups`: `np.unique` returns the labels in use in increasing order. -/
def labelGroups : List ℕ := (Finset.univ.image labels).sort (· ≤ ·)

/-- kmeans.py:46 one entry: `data[km.labels_ == g].mean(0)`. -/
noncomputable def groupMean (j : Fin d) : Fl :=
  .fin (((∑ i ∈ groupRows labels g, data i j : ℚ) : ℝ)) / .fin ((groupRows labels g).card : ℝ)

/-- kmeans.py:47 one entry: `np.cov(data[km.labels_ == g], rowvar=False)`, that is the matrix of the centred rows times its
transpose, multiplied with `1 / (n - 1)`; the factor is infinite for a single row. -/
noncomputable def groupCov (a b : Fin d) : Fl :=
  (∑ i ∈ groupRows labels g, (.fin ((data i a : ℚ) : ℝ) - groupMean data labels g a) *
    (.fin ((data i b : ℚ) : ℝ) - groupMean data labels g b)) *
    (.fin 1 / .fin ((groupRows labels g).card - 1 : ℝ))

end kmeans

/-- kmeans.py:20-50 `k_means`; `d` is both `n_dim` and the number of columns. With one column `np.cov` returns a number, so
the array of covariances has rank one and fails the test of its shape; so does the empty array used here for it. -/
noncomputable def kMeans (ext : CovNearest) (km : KMeansFn) {n d : ℕ} (data : Fin n → Fin d → ℚ) (m : ℕ)
    (ties : String) : Except PyErr (GMCParam m d) := do
  let u ← pobsMat data ties
  let labels ← km m u
  let groups := labelGroups labels
  let counts := groups.map fun g => (groupRows labels g).card
  let prob := counts.map fun k : ℕ => Fl.fin (k : ℝ) / Fl.fin (counts.sum : ℝ)
  GMCParam.mk' ext m d prob
    ⟨groups.length, d, fun i j => if h : j < d then groupMean data labels (groups.getD i 0) ⟨j, h⟩ else .nan⟩
    (if d = 1 then ⟨groups.length, 0, 0, fun _ _ _ => .nan⟩
    else ⟨groups.length, d, d, fun i a b => if h : a < d ∧ b < d then
      groupCov data labels (groups.getD i 0) ⟨a, h.1⟩ ⟨b, h.2⟩ else .nan⟩)

/-- What the fit of a Gaussian mixture copula calls. -/
structure GmcEnv (d : ℕ) where
  ext : CovNearest
  km : KMeansFn
  mvn : MvnPdf d
  /-- `minimize(f, x0, method=method, ...)` for the method in `optim_options` -/
  opt : List Fl → OptTree

/-- Pseudo-observations as floating point numbers. -/
noncomputable def toFl {n d : ℕ} (u : Fin n → Fin d → ℚ) : Fin n → Fin d → Fl := fun i j => .fin ((u i j : ℚ) : ℝ)

/-- sgd.py:37-43, the objective: the parameters from the vector, `p.prob /= p.prob.sum()` (which calls the setter again)
and the negative of the log-likelihood. -/
noncomputable def sgdObjective {d : ℕ} (env : GmcEnv d) (m : ℕ) {n : ℕ} (u : Fin n → Fin d → Fl) (x : List Fl) :
    Except PyErr Fl := do
  let p ← fromVector env.ext m d x
  let prob ← setProb m (List.ofFn fun i => p.prob i / ∑ k, p.prob k)
  let v ← gmcmLogLik env.mvn { p with prob := prob } u
  return -v

/-- `minimize` run against the objective. -/
noncomputable def runSgd {d : ℕ} (env : GmcEnv d) (m : ℕ) {n : ℕ} (u : Fin n → Fin d → Fl) :
    OptTree → Except PyErr OptRes
  | .done r => .ok r
  | .eval x next => do
    let v ← sgdObjective env m u x
    runSgd env m u (next v)

/-- estimators/summary.py:5-11, the fields the model needs. -/
structure GmcSummary (m d : ℕ) where
  best : GMCParam m d
  converged : Bool
  method : String
  nsample : ℕ

/-- sgd.py:11-34 `gradient_descent`: the object `param` afterwards (`to_vector` changes it) and the result. -/
noncomputable def gradientDescent {d : ℕ} (env : GmcEnv d) {m n : ℕ} (u : Fin n → Fin d → Fl) (param : GMCParam m d) :
    GMCParam m d × Except PyErr (GmcSummary m d) :=
  let (param', v) := param.toVector
  (param', do
    let r ← runSgd env m u (env.opt v)
    let p ← fromVector env.ext m d r.x
    return ⟨p, r.success, "sgd", n⟩)

/-- The functions used by `expectation_maximization`. When `gmcm_log_likelihood` raises, so does the call of
`gmm_marginal_ppf` on the same parameters next to it, with the same exception. -/
noncomputable def emFns {d : ℕ} (env : GmcEnv d) (m : ℕ) {n : ℕ} (u : Fin n → Fin d → Fl) : EmFns n m d where
  ppf s := gmmMarginalPpf s 2000 5 false u
  dens q s i c := env.mvn.joint (s.means c) (s.covs c) (q i)
  gmm q s := gmmLogLik s fun i c => env.mvn.joint (s.means c) (s.covs c) (q i)
  gmcm s := match gmcmLogLik env.mvn s u with
    | .ok v => v
    | .error _ => .nan
  ext := env.ext

/-- What can be assigned to `params`. -/
inductive GmcArg
  | none
  | dict (prob : List Fl) (means : Raw2) (covs : Raw3)
  | param (m d : ℕ) (p : GMCParam m d)
  | vec (l : List Fl)
  | other

/-- An object of class `GaussianMixtureCopula`: `_clusters`, `_dim`, `_param`, and `_fit_details["method"]`. -/
structure GmcObj where
  clusters : ℕ
  dim : ℕ
  param : Option (Σ m d : ℕ, GMCParam m d)
  method : Option String

/-- parameter.py:30-34 `from_dict`. -/
noncomputable def fromDict (ext : CovNearest) (prob : List Fl) (means : Raw2) (covs : Raw3) :
    Except PyErr (Σ m d : ℕ, GMCParam m d) := do
  let p ← GMCParam.mk' ext means.r means.c prob means covs
  return ⟨means.r, means.c, p⟩

/-- gmc.py:228-242, the setter of `params`: the new value of `_param`. -/
noncomputable def gmcSetParams (ext : CovNearest) (clusters dim : ℕ) (a : GmcArg) :
    Except PyErr (Option (Σ m d : ℕ, GMCParam m d)) :=
  match a with
  | .none => .ok Option.none
  | .dict prob means covs => do return some (← fromDict ext prob means covs)
  | .param m d p => if d ≠ dim ∨ m ≠ clusters then .error .gmcMismatch else .ok (some ⟨m, d, p⟩)
  | .vec l => do return some ⟨clusters, dim, ← fromVector ext clusters dim l⟩
  | .other => .error .gmcMismatch

/-- gmc.py:68-88 the constructor; base.py:32 requires two dimensions. -/
noncomputable def gmcInit (ext : CovNearest) (clusters dim : ℕ) (a : GmcArg) : Except PyErr GmcObj := do
  if ¬ 2 ≤ dim then throw .assertionError
  let p ← gmcSetParams ext clusters dim a
  return ⟨clusters, dim, p, none⟩

/-- The argument `x0` of `fit`. -/
inductive GmcStart
  | none
  | param (m d : ℕ) (p : GMCParam m d)
  | vec (l : List Fl)

/-- gmc.py:191-197: the parameters from which the fit starts. -/
noncomputable def gmcStart {d : ℕ} (env : GmcEnv d) (m : ℕ) {n : ℕ} (data : Fin n → Fin d → ℚ) (x0 : GmcStart) :
    Except PyErr (GMCParam m d) :=
  match x0 with
  | .none => kMeans env.ext env.km data m "average"
  | .param m' d' p => if h : d' = d ∧ m' = m then .ok (h.2 ▸ h.1 ▸ p) else .error .gmcMismatch
  | .vec l => fromVector env.ext m d l

/-- The outcome of `fit`: the object and `x0` afterwards and the fit summary or the exception. -/
structure GmcFitOut (m d : ℕ) where
  obj : GmcObj
  x0 : GmcStart
  res : Except PyErr (GmcSummary m d)

/-- The object `x0` after `to_vector` was called on `self.params`, which is the same object if `x0` is a `GMCParam`. -/
def GmcStart.mutated {m d : ℕ} (x0 : GmcStart) (p : GMCParam m d) : GmcStart :=
  match x0 with
  | .param _ _ _ => .param m d p
  | x => x

/-- gmc.py:138-214 `fit` of an object with `m` clusters and `d` dimensions. -/
noncomputable def gmcFit {d : ℕ} (env : GmcEnv d) (m : ℕ) (before : GmcObj) {n : ℕ} (data : Fin n → Fin d → ℚ)
    (x0 : GmcStart) (method : String) (ties : String) (maxIter : ℕ) (criteria : String) (eps : ℝ) : GmcFitOut m d :=
  match gmcStart env m data x0 with
  | .error e => ⟨before, x0, .error e⟩
  | .ok start =>
    let obj : GmcObj := { before with param := some ⟨m, d, start⟩ }
    let finish (obj : GmcObj) (x0 : GmcStart) (r : Except PyErr (GmcSummary m d)) (name : String) : GmcFitOut m d :=
      match r with
      | .error e => ⟨obj, x0, .error e⟩
      | .ok s => ⟨{ obj with param := some ⟨m, d, s.best⟩, method := some name }, x0, .ok s⟩
    if pyLower method = "pem".toList then
      finish obj x0 (do
        let u ← pobsMat data ties
        let s ← expectationMaximization (emFns env m (toFl u)) start maxIter criteria eps
        return ⟨s.param, s.converged, "pem", n⟩) "pem"
    else if pyLower method = "sgd".toList then
      match pobsMat data ties with
      | .error e => ⟨obj, x0, .error e⟩
      | .ok u =>
        let r := gradientDescent env (toFl u) start
        finish { obj with param := some ⟨m, d, r.1⟩ } (x0.mutated r.1) r.2 "sgd"
    else if pyLower method = "kmeans".toList then
      finish obj x0 (match x0 with
        | .none => .ok ⟨start, true, "kmeans", n⟩
        | _ => do return ⟨← kMeans env.ext env.km data m "average", true, "kmeans", n⟩) "kmeans"
    else ⟨obj, x0, .error .gmcFitMethod⟩

end Copulae
