import Verif.Model.Gmc

/-!
Model of `copulae/mixtures/gmc/estimators/em.py`: `expectation_maximization` and the class `LogLik`.

`gmm_marginal_ppf`, `mvn.pdf` and the two log-likelihoods are parameters (`EmFns`). The warning of lines 66-68 is not
modelled.
-/

namespace Copulae

open Classical

/-- What `expectation_maximization` calls, for fixed data `u` with `n` rows. -/
structure EmFns (n m d : ℕ) where
  /-- `gmm_marginal_ppf(u, param)` -/
  ppf : GMCParam m d → Except PyErr (Fin n → Fin d → Fl)
  /-- `mvn.pdf(q, mean, cov, allow_singular=True)` for the rows of `q` and the components of `param` -/
  dens : (Fin n → Fin d → Fl) → GMCParam m d → Fin n → Fin m → Fl
  /-- `gmm_log_likelihood(q, param)` -/
  gmm : (Fin n → Fin d → Fl) → GMCParam m d → Fl
  /-- `gmcm_log_likelihood(u, param)` -/
  gmcm : GMCParam m d → Fl
  ext : CovNearest

/-- The stopping criteria after `criteria.upper()` (em.py:121). -/
inductive Criterion
  | gmcm
  | gmm
  | li
  deriving DecidableEq

/-- em.py:121-125. -/
def parseCriteria (s : String) : Except PyErr Criterion :=
  let u := s.toList.map Char.toUpper
  if u = "GMCM".toList then .ok .gmcm
  else if u = "GMM".toList then .ok .gmm
  else if u = "LI".toList then .ok .li
  else .error .stoppingCriteria

/-- One call of `LogLik.set`, em.py:134-143: the two log-likelihoods and the parameters recorded. -/
structure EmRec (m d : ℕ) where
  gmm : Fl
  gmcm : Fl
  param : GMCParam m d

/-- em.py:145-152 `has_converged`; the list holds the records, the latest first. -/
noncomputable def hasConverged {m d : ℕ} (c : Criterion) (eps : ℝ) (l : List (EmRec m d)) : Except PyErr Bool :=
  match l with
  | a :: b :: _ =>
    .ok (decide (match c with
      | .gmcm => (a.gmcm - b.gmcm).abs < .fin eps
      | .gmm => (a.gmm - b.gmm).abs < .fin eps
      | .li => (a.gmm - b.gmcm).abs < .fin eps))
  | _ => .error .indexError

/-- `np.argmax` with the position of the best element so far: the first largest element; a NaN is larger than
everything. -/
noncomputable def argmaxGo : List Fl → ℕ → ℕ → Fl → ℕ
  | [], _, best, _ => best
  | x :: l, i, best, b =>
    if b = .nan then best
    else if x = .nan ∨ b < x then argmaxGo l (i + 1) i x
    else argmaxGo l (i + 1) best b

/-- `np.argmax` of a list. -/
noncomputable def npArgmax : List Fl → Except PyErr ℕ
  | [] => .error .valueError
  | x :: l => .ok (argmaxGo l 1 0 x)

/-- em.py:127-132 `best_param`; here the records are in the order in which they were made. -/
noncomputable def bestParam {m d : ℕ} (c : Criterion) (l : List (EmRec m d)) : Except PyErr (GMCParam m d) :=
  match c with
  | .gmm => match l.getLast? with
    | some r => .ok r.param
    | none => .error .indexError
  | _ => do
    let k ← npArgmax (l.map EmRec.gmcm)
    match l[k]? with
    | some r => .ok r.param
    | none => .error .indexError

/-- em.py:154-156 `best_log_lik`. -/
def bestLogLik {m d : ℕ} (l : List (EmRec m d)) : Except PyErr Fl :=
  match l.getLast? with
  | some r => .ok r.gmcm
  | none => .error .indexError

/-- em.py:51-62, the body of the loop up to the test for convergence. The state is the matrix `q`, the
parameters and the records (latest first). -/
noncomputable def emBody {n m d : ℕ} (F : EmFns n m d)
    (s : (Fin n → Fin d → Fl) × GMCParam m d × List (EmRec m d)) :
    Except PyErr ((Fin n → Fin d → Fl) × GMCParam m d × List (EmRec m d)) := do
  let kappa := eStep s.2.1.prob (F.dens s.1 s.2.1)
  if ∃ c, ∑ i, kappa i c = Fl.fin 0 then throw .fitException
  let param ← mStep F.ext s.1 kappa
  let r : EmRec m d := ⟨F.gmm s.1 param, F.gmcm param, param⟩
  let q ← F.ppf param
  return (q, param, r :: s.2.2)

/-- em.py:50-68, the loop. -/
noncomputable def emLoop {n m d : ℕ} (F : EmFns n m d) (c : Criterion) (eps : ℝ) :
    ℕ → (Fin n → Fin d → Fl) × GMCParam m d × List (EmRec m d) →
    Except PyErr ((Fin n → Fin d → Fl) × GMCParam m d × List (EmRec m d))
  | 0, s => .ok s
  | k + 1, s => do
    let s' ← emBody F s
    if ← hasConverged c eps s'.2.2 then return s' else emLoop F c eps k s'

/-- What the fit summary holds: the parameters, the flag and the log-likelihood. -/
structure EmSummary (m d : ℕ) where
  param : GMCParam m d
  converged : Bool
  logLik : Fl

/-- em.py:16-71 `expectation_maximization`. -/
noncomputable def expectationMaximization {n m d : ℕ} (F : EmFns n m d) (param : GMCParam m d) (maxIter : ℕ)
    (criteria : String) (eps : ℝ) : Except PyErr (EmSummary m d) := do
  let q ← F.ppf param
  let c ← parseCriteria criteria
  let s ← emLoop F c eps maxIter (q, param, [⟨F.gmm q param, F.gmcm param, param⟩])
  let best ← bestParam c s.2.2.reverse
  let conv ← hasConverged c eps s.2.2
  let ll ← bestLogLik s.2.2.reverse
  return ⟨best, conv, ll⟩

end Copulae
