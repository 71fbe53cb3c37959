import Verif.Model.PyErr
import Mathlib.Data.Rat.Defs

/-!
Model of `copulae/utility/dict.py` (`merge_dict`, `merge_dicts`) and of `form_options` in
`copulae/copula/estimator/estimator.py`.

A dictionary is the list of its items in insertion order; `PyDict.WF` is the invariant of Python
dictionaries that no key occurs twice, at every level. Values that are not dictionaries are leaves of
an arbitrary type. Simplification: dictionaries are values here. `merge_dict` updates its first argument
in place and returns it, so the first argument afterwards is the result; sharing of nested
dictionaries between the result and the second argument is not modelled.
-/

namespace Copulae

/-- A value stored in a dictionary. -/
inductive DVal (α : Type)
  | leaf (v : α)
  | dict (items : List (String × DVal α))

/-- A dictionary: its items in insertion order. -/
abbrev PyDict (α : Type) := List (String × DVal α)

/-- `a[key]` (`none` if `key not in a`). -/
def dget {α : Type} (a : PyDict α) (key : String) : Option (DVal α) :=
  match a with
  | [] => none
  | (k, v) :: t => if k = key then some v else dget t key

/-- `a[key] = v`: an existing key keeps its position, a new one is appended. -/
def dset {α : Type} (a : PyDict α) (key : String) (v : DVal α) : PyDict α :=
  match a with
  | [] => [(key, v)]
  | (k, w) :: t => if k = key then (k, v) :: t else (k, w) :: dset t key v

mutual

/-- dict.py:4-32 `merge_dict(a, b)`: the loop over the keys of `b`. -/
def mergeDict {α : Type} (a : PyDict α) : PyDict α → PyDict α
  | [] => a
  | (key, bv) :: b => mergeDict (dset a key (mergeVal (dget a key) bv)) b

/-- dict.py:24-31: the value stored under a key of `b`, given the value found in `a`. -/
def mergeVal {α : Type} (av : Option (DVal α)) : DVal α → DVal α
  | .leaf v => .leaf v
  | .dict b =>
      match av with
      | some (.dict a) => .dict (mergeDict a b)
      | _ => .dict b

end

/-- dict.py:35-69 `merge_dicts(*dicts)`. -/
def mergeDicts {α : Type} (dicts : List (PyDict α)) : Except PyErr (PyDict α) :=
  match dicts with
  | [] => .error .indexError
  | [a] => .ok a
  | a :: rest => .ok ((a :: rest).foldl mergeDict a)

/-- `options.setdefault(key, v)`. -/
def dsetDefault {α : Type} (a : PyDict α) (key : String) (v : DVal α) : PyDict α :=
  match dget a key with
  | some _ => a
  | none => a ++ [(key, v)]

/-- Leaves of optimiser options. -/
inductive OptLeaf
  | str (s : String)
  | int (n : ℕ)
  | bool (b : Bool)
  | float (q : ℚ)
  | bounds
  | other (n : ℕ)

/-- estimator.py:165-208: the defaults of an optimiser, by its `casefold`ed name; `none` when the optimiser
has no defaults. -/
def optDefaults (method : List Char) (maxIter : ℕ) (disp : Bool) : Option (PyDict OptLeaf) :=
  if method = "nelder-mead".toList then
    some [("options", .dict [("maxiter", .leaf (.int maxIter)), ("disp", .leaf (.bool disp)),
      ("xatol", .leaf (.float (1 / 10000))), ("fatol", .leaf (.float (1 / 10000)))])]
  else if method = "bfgs".toList then
    some [("options", .dict [("maxiter", .leaf (.int maxIter)), ("disp", .leaf (.bool disp)),
      ("gtol", .leaf (.float (1 / 10000)))])]
  else if method = "slsqp".toList then
    some [("bounds", .leaf .bounds),
      ("options", .dict [("maxiter", .leaf (.int maxIter)), ("ftol", .leaf (.float (1 / 1000000))),
        ("iprint", .leaf (.int 1)), ("disp", .leaf (.bool disp)), ("eps", .leaf (.float (15 / 1000000000)))])]
  else if method = "cobyla".toList then
    some [("bounds", .leaf .bounds),
      ("options", .dict [("maxiter", .leaf (.int maxIter)), ("rhobeg", .leaf (.float 1)),
        ("disp", .leaf (.bool disp)), ("catol", .leaf (.float (2 / 10000)))])]
  else if method = "trust-constr".toList then
    some [("maxiter", .leaf (.int maxIter)), ("disp", .leaf (.bool disp)), ("bounds", .leaf .bounds)]
  else none

/-- estimator.py:145-210 `form_options(options, verbose, data, copula)` for `n` rows of data; `arch` is
`is_archimedean(copula)`. Returns the caller's dictionary after the call, which `setdefault` may have
changed, and the result. The bounds are one opaque leaf (the assertion on their shape, which holds for
every copula of the package, is left out). A `method` that is not a string raises `AttributeError`.
`casefold` is ASCII lower-casing. -/
def formOptions (options : PyDict OptLeaf) (verbose : ℤ) (n : ℕ) (arch : Bool) :
    Except PyErr (PyDict OptLeaf × PyDict OptLeaf) :=
  let maxIter := min (n * 250) 20000
  let disp := decide (verbose ≥ 2)
  let options := dsetDefault options "method" (.leaf (.str (if arch then "Nelder-Mead" else "SLSQP")))
  match dget options "method" with
  | some (.leaf (.str m)) =>
      match optDefaults (pyLower m) maxIter disp with
      | some d => .ok (options, mergeDict d options)
      | none => .ok (options, options)
  | _ => .error .attributeError

/-- estimator.py:86 `form_options(optim_options or {}, verbose, data, copula)`: `None` and the empty
dictionary are replaced by a new dictionary, which the caller does not see. Returns the caller's
`optim_options` after the call and the options used. -/
def fitOptions (optim : Option (PyDict OptLeaf)) (verbose : ℤ) (n : ℕ) (arch : Bool) :
    Except PyErr (Option (PyDict OptLeaf) × PyDict OptLeaf) :=
  match optim with
  | none => (formOptions [] verbose n arch).map fun r => (none, r.2)
  | some [] => (formOptions [] verbose n arch).map fun r => (some [], r.2)
  | some o => (formOptions o verbose n arch).map fun r => (some r.1, r.2)

end Copulae
