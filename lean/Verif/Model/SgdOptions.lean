import Verif.Model.Dict

/-!
Model of the handling of options in `copulae/mixtures/gmc/estimators/sgd.py` (`gradient_descent`, `get_default_option`), called from
`copulae/mixtures/gmc/gmc.py` line 205. What the optimiser does is in `Model/GmcFit.lean`.
-/

namespace Copulae

/-- Values in the options of `gradient_descent`. -/
inductive SgdLeaf
  | str (s : String)
  | num (q : ℚ)
  | bool (b : Bool)
  /-- anything else, for example a callable -/
  | obj (k : ℕ)
  deriving DecidableEq

/-- What `minimize` is called with besides the objective and the start. -/
structure SgdCall where
  method : DVal SgdLeaf
  options : DVal SgdLeaf
  rest : PyDict SgdLeaf

/-- The dictionary without a key. -/
def dpop {α : Type} (a : PyDict α) (key : String) : PyDict α := a.filter fun e => e.1 ≠ key

/-- sgd.py:47-83 `get_default_option`. `disp` is passed on as it is. -/
def sgdDefault (method : DVal SgdLeaf) (disp : DVal SgdLeaf) (maxIter : ℕ) : Except PyErr (PyDict SgdLeaf) :=
  match method with
  | .leaf (.str m) =>
    let n (q : ℚ) : DVal SgdLeaf := .leaf (.num q)
    if pyLower m = "nelder-mead".toList then .ok [("maxiter", n maxIter), ("disp", disp), ("xatol", n (1 / 10000)), ("fatol", n (1 / 10000))]
    else if pyLower m = "bfgs".toList then .ok [("maxiter", n maxIter), ("disp", disp), ("gtol", n (1 / 10000))]
    else if pyLower m = "slsqp".toList then
      .ok [("maxiter", n maxIter), ("ftol", n (1 / 1000000)), ("iprint", n 1), ("disp", disp), ("eps", n (15 / 1000000000))]
    else if pyLower m = "cobyla".toList then .ok [("maxiter", n maxIter), ("rhobeg", n 1), ("disp", disp), ("catol", n (2 / 10000))]
    else if pyLower m = "trust-constr".toList then .ok [("maxiter", n maxIter), ("disp", disp)]
    else .ok []
  | _ => .error .attributeError

/-- The keywords of `scipy.optimize.minimize` that `gradient_descent` does not pass itself. -/
def sgdKeywords : List String := ["jac", "hess", "hessp", "bounds", "constraints", "tol", "callback"]

/-- gmc.py:205 and sgd.py:24-31: `gradient_descent(u, self.params, max_iter=max_iter, **opts)` up to the call of `minimize`. Names that
`gradient_descent` or `minimize` gets twice, and names that `minimize` does not have, are a `TypeError`. -/
def sgdCall (maxIter : ℕ) (opts : PyDict SgdLeaf) : Except PyErr SgdCall := do
  if (dget opts "max_iter").isSome ∨ (dget opts "u").isSome ∨ (dget opts "param").isSome then .error .typeError
  else
    let method := (dget opts "method").getD (.leaf (.str "nelder-mead"))
    let disp := (dget opts "disp").getD (.leaf (.bool false))
    let dflt ← sgdDefault method disp maxIter
    let options := (dget opts "options").getD (.dict dflt)
    let rest := dpop (dpop (dpop (dpop opts "method") "disp") "options") "args"
    if rest.all fun e => e.1 ∈ sgdKeywords then .ok ⟨method, options, rest⟩ else .error .typeError

end Copulae
