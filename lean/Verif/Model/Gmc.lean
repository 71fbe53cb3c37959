import Verif.Model.FlAlg
import Verif.Model.Linalg

/-!
Model of `copulae/mixtures/gmc/`: `parameter.py`, `estimators/em.py`, `loglik.py`, `marginals.py:gmm_marginal_cdf`
and the `pdf`, `cdf` methods of `gmc.py`.

Simplifications
* arrays passed to the constructor have rank 1, 2 and 3 (arrays of other ranks fail the shape tests);
* `scipy.stats.multivariate_normal`, `gmm_marginal_ppf` (see `GmcPpf`) and
  `statsmodels.cov_nearest` are parameters;
* `sum` and `@` are exact sums.
-/

namespace Copulae

open Classical

/-- Arrays of two and three dimensions; only the entries inside the shape matter. -/
structure Raw2 where
  r : ℕ
  c : ℕ
  get : ℕ → ℕ → Fl

structure Raw3 where
  k : ℕ
  r : ℕ
  c : ℕ
  get : ℕ → ℕ → ℕ → Fl

/-- An object of class `GMCParam` with `n_clusters = m` and `n_dim = d`. -/
@[ext] structure GMCParam (m d : ℕ) where
  prob : Fin m → Fl
  means : Fin m → Fin d → Fl
  covs : Fin m → SqMat Fl d

/-- parameter.py:86-95, the setter of `prob`. -/
noncomputable def setProb (m : ℕ) (value : List Fl) : Except PyErr (Fin m → Fl) :=
  if h : value.length = m then
    if (∃ v ∈ value, v < Fl.fin 0) ∨ (∃ v ∈ value, Fl.fin 1 < v) ∨ ¬ closeTo 1e-8 value.sum (.fin 1) then
      .error .gmcParam
    else .ok fun i => value[i.val]'(i.2.trans_eq h.symm)
  else .error .gmcParam

/-- parameter.py:101-109, the setter of `means`. -/
noncomputable def setMeans (m d : ℕ) (value : Raw2) : Except PyErr (Fin m → Fin d → Fl) :=
  if value.r = m ∧ value.c = d then .ok fun i j => value.get i j else .error .gmcParam

/-- linalg.py:127-173 `near_psd` of a square array. -/
noncomputable def nearPsdSq (ext : CovNearest) {d : ℕ} (M : SqMat Fl d) : Except PyErr (SqMat Fl d) :=
  if isSymmetric M 1e-8 then if isPsd M then .ok M else .ok (ext d M) else .error .nonSymmetric

/-- parameter.py:115-123, the setter of `covs`. -/
noncomputable def setCovs (ext : CovNearest) (m d : ℕ) (value : Raw3) : Except PyErr (Fin m → SqMat Fl d) :=
  if value.k = m ∧ value.r = d ∧ value.c = d then do
    let l ← (List.finRange m).mapM fun i =>
      nearPsdSq ext (fun a b : Fin d => value.get i.val a.val b.val)
    return fun i => l.getD i.val fun _ _ => .nan
  else .error .gmcParam

/-- parameter.py:18-28 `GMCParam.__init__`. -/
noncomputable def GMCParam.mk' (ext : CovNearest) (m d : ℕ) (prob : List Fl) (means : Raw2) (covs : Raw3) :
    Except PyErr (GMCParam m d) := do
  let p ← setProb m prob
  let mu ← setMeans m d means
  let s ← setCovs ext m d covs
  return ⟨p, mu, s⟩

/-- `np.triu_indices(d)` as a list of pairs. -/
def triuPairs (d : ℕ) : List (ℕ × ℕ) :=
  (List.range d).flatMap fun i => (List.range' i (d - i)).map fun j => (i, j)

/-- parameter.py:41-42, one entry: zeros and ones are moved inside the unit interval. -/
noncomputable def nudgeFl (x : Fl) : Fl :=
  let x1 := if x = .fin 0 then x + .fin 1e-5 else x
  if x1 = .fin 1 then x1 - .fin 1e-5 else x1

/-- parameter.py:41-43: the changes `to_vector` makes to `prob`. -/
noncomputable def fixProb {m : ℕ} (p : Fin m → Fl) : Fin m → Fl :=
  fun i => nudgeFl (p i) / ∑ k, nudgeFl (p k)

/-- parameter.py:48: the upper triangle of one covariance matrix. -/
def covUpper {d : ℕ} (c : SqMat Fl d) : List Fl :=
  (triuPairs d).map fun x => if h : x.1 < d ∧ x.2 < d then c ⟨x.1, h.1⟩ ⟨x.2, h.2⟩ else .nan

/-- parameter.py:36-49 `to_vector`: the object afterwards and the vector. -/
noncomputable def GMCParam.toVector {m d : ℕ} (s : GMCParam m d) : GMCParam m d × List Fl :=
  let s' : GMCParam m d := { s with prob := fixProb s.prob }
  (s', (List.ofFn fun i => Fl.log (s'.prob i / (.fin 1 - s'.prob i))) ++
    (List.finRange m).flatMap (fun i => List.ofFn (s'.means i)) ++
    (List.finRange m).flatMap (fun i => covUpper (s'.covs i)))

/-- parameter.py:76-77: one covariance matrix from its upper triangle. -/
noncomputable def covOfUpper (d : ℕ) (l : List Fl) : Except PyErr (SqMat Fl d) := do
  let c ← fancyAssign (fun _ _ => Fl.fin 0 : SqMat Fl d) (triuPairs d).unzip l
  return fun i j => (if i < j then c i j else .fin 0) + c j i

/-- parameter.py:72-78: the blocks `vector[i:i + step]` of the rest of the vector; the loop runs while there are
elements left. `fuel` is a bound for the number of blocks. -/
def blocks (step : ℕ) : ℕ → List Fl → List (List Fl)
  | 0, _ => []
  | _ + 1, [] => []
  | fuel + 1, l => l.take step :: blocks step fuel (l.drop step)

/-- parameter.py:51-80 `from_vector`. Division of the probability vector by its sum is done by NumPy. -/
noncomputable def fromVector (ext : CovNearest) (m d : ℕ) (v : List Fl) : Except PyErr (GMCParam m d) := do
  let p := (v.take m).map fun x => Fl.exp x / (.fin 1 + Fl.exp x)
  let prob := p.map fun x => x / p.sum
  let ms := (v.drop m).take (m * d)
  if ms.length ≠ m * d then throw .valueError
  let step := d * (d + 1) / 2
  if step = 0 then throw .valueError
  let rest := v.drop (m + m * d)
  let covs ← (blocks step rest.length rest).mapM (covOfUpper d)
  GMCParam.mk' ext m d prob ⟨m, d, fun i j => ms.getD (i * d + j) .nan⟩
    ⟨covs.length, d, d, fun i a b => if h : a < d ∧ b < d then
      (covs.getD i fun _ _ => .nan) ⟨a, h.1⟩ ⟨b, h.2⟩ else .nan⟩

/-- em.py:81 `kappa[np.isnan(kappa)] = 0`, one element. -/
def nanToZero : Fl → Fl
  | .nan => .fin 0
  | x => x

/-- em.py:74-83 `e_step`; `dens i c` is the value of `mvn.pdf` for row `i` and component `c`. -/
noncomputable def eStep {n m : ℕ} (prob : Fin m → Fl) (dens : Fin n → Fin m → Fl) : Fin n → Fin m → Fl :=
  fun i c => nanToZero (prob c * dens i c / ∑ c', prob c' * dens i c')

/-- em.py:89 the probabilities. -/
noncomputable def mProb {n m : ℕ} (kappa : Fin n → Fin m → Fl) (c : Fin m) : Fl :=
  (∑ i, kappa i c) / ∑ i, ∑ c', kappa i c'

/-- em.py:90 the means. -/
noncomputable def mMean {n m d : ℕ} (q : Fin n → Fin d → Fl) (kappa : Fin n → Fin m → Fl) (c : Fin m) (j : Fin d) :
    Fl :=
  (∑ i, q i j * kappa i c) / ∑ i, kappa i c

/-- em.py:93 the weights. -/
noncomputable def mWt {n m : ℕ} (kappa : Fin n → Fin m → Fl) (i : Fin n) (c : Fin m) : Fl :=
  kappa i c / ∑ i', kappa i' c

/-- em.py:94-95 `wx`. -/
noncomputable def mWx {n m d : ℕ} (q : Fin n → Fin d → Fl) (kappa : Fin n → Fin m → Fl) (c : Fin m) (i : Fin n)
    (j : Fin d) : Fl :=
  Fl.sqrt (mWt kappa i c) * (q i j - ∑ i', q i' j * mWt kappa i' c)

/-- em.py:96 the covariances. -/
noncomputable def mCov {n m d : ℕ} (q : Fin n → Fin d → Fl) (kappa : Fin n → Fin m → Fl) (c : Fin m) : SqMat Fl d :=
  fun a b => ∑ i, mWx q kappa c i a * mWx q kappa c i b

/-- em.py:86-98 `m_step`. -/
noncomputable def mStep (ext : CovNearest) {n m d : ℕ} (q : Fin n → Fin d → Fl) (kappa : Fin n → Fin m → Fl) :
    Except PyErr (GMCParam m d) :=
  GMCParam.mk' ext m d (List.ofFn (mProb kappa))
    ⟨m, d, fun i j => if h : i < m ∧ j < d then mMean q kappa ⟨i, h.1⟩ ⟨j, h.2⟩ else .nan⟩
    ⟨m, d, d, fun i a b => if h : i < m ∧ a < d ∧ b < d then
      mCov q kappa ⟨i, h.1⟩ ⟨a, h.2.1⟩ ⟨b, h.2.2⟩ else .nan⟩

/-- gmc.py:247-274 `pdf`, one row: `f` and `logf` are `mvn.pdf` and `mvn.logpdf` of the components. -/
noncomputable def gmcPdfRow {m d : ℕ} (s : GMCParam m d) (f logf : Fin m → Fl) (log : Bool) : Fl :=
  ∑ c, s.prob c * (if log then logf c else f c)

/-- gmc.py:98-126 `cdf`, one row: `F` and `logF` are `mvn.cdf` and `mvn.logcdf` of the components at the row. -/
noncomputable def gmcCdfRow {m d : ℕ} (s : GMCParam m d) (F logF : Fin m → Fl) (log : Bool) : Fl :=
  ∑ c, s.prob c * (if log then logF c else F c)

/-- marginals.py:89-99: the approximation of the normal distribution function at `zi`, before weighting. -/
noncomputable def gmmErf (zi : Fl) : Fl :=
  let za := zi.abs
  let t := .fin 1 / (.fin 1 + .fin 0.47047 * za)
  let erf := .fin 0.5 * (.fin 0.3480242 * t + .fin (-0.0958798) * t ^ Fl.fin 2 + .fin 0.7478556 * t ^ Fl.fin 3) *
    Fl.exp (-(za ^ Fl.fin 2))
  if zi < .fin 0 then erf else .fin 1 - erf

/-- marginals.py:64-99 `gmm_marginal_cdf`, one value of column `j`. -/
noncomputable def gmmMarginalCdf {m d : ℕ} (s : GMCParam m d) (j : Fin d) (x : Fl) : Fl :=
  ∑ c, gmmErf ((x - s.means c j) / (Fl.sqrt (s.covs c j j) * .fin 1.4142136)) * s.prob c

end Copulae
