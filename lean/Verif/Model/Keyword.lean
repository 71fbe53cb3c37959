import Verif.Model.Archimedean

/-!
Calls through the decorators of `copulae/utility/annotations`, with positional and keyword arguments. A decorator turns
the arguments of the caller into the arguments of the method.
-/

namespace Copulae

/-- The arguments of a call. -/
structure PyCall (V : Type) where
  args : List V
  kwargs : List (String × V)

/-- What the decorators ask of a value. -/
class PyArr (V : Type) where
  /-- `x is None` -/
  isNone : V → Bool
  /-- `isinstance(x, (np.ndarray, pd.Series, pd.DataFrame))` -/
  isArr : V → Bool
  /-- `np.array(x)` -/
  npArray : V → V
  /-- `x.ndim` of an array -/
  ndim : V → ℕ

variable {V : Type} [PyArr V]

/-- The objects compared in reshape.py:35: a keyword, which is a string, and `self.arguments`, which is a set. -/
inductive PyObj
  | str (s : String)
  | set (l : List String)
  deriving DecidableEq

/-- reshape.py:40-47 `cast_input.cast`. -/
def castArg (optional : Bool) (v : V) : Except PyErr V :=
  if !optional && PyArr.isNone v then .error .valueError
  else if optional && PyArr.isNone v then .ok v
  else .ok (if PyArr.isArr v then v else PyArr.npArray v)

/-- reshape.py:26-32, the positional arguments. -/
def castPos (names : List String) (optional : Bool) : List String → List V → Except PyErr (List V)
  | p :: ps, a :: as => do
      let a' ← if p ∈ names then castArg optional a else pure a
      let as' ← castPos names optional ps as
      return a' :: as'
  | _, as => .ok as

/-- reshape.py:34-36, the keyword arguments. The test is `arg_name is self.arguments`: two objects of different types
are not the same object. -/
def castKw (names : List String) (optional : Bool) (kw : List (String × V)) : Except PyErr (List (String × V)) :=
  kw.mapM fun e => do
    let v ← if PyObj.str e.1 = PyObj.set names then castArg optional e.2 else pure e.2
    return (e.1, v)

/-- reshape.py:21-38 `cast_input(names, optional)` on a method with the parameters `params` (after `self`). -/
def castInput (names : List String) (optional : Bool) (params : List String) (c : PyCall V) :
    Except PyErr (PyCall V) := do
  let a ← castPos names optional params c.args
  let k ← castKw names optional c.kwargs
  return ⟨a, k⟩

/-- validations.py:85-86 `cast`. -/
def castData (v : V) : V := if PyArr.isArr v then v else PyArr.npArray v

/-- `self.dims[arg_name]`, if the name is a key. -/
def dimsOf (dims : List (String × List ℕ)) (p : String) : Option (List ℕ) :=
  (dims.find? fun e => decide (e.1 = p)).map Prod.snd

/-- validations.py:66-70 and 73-76, one argument: the value passed on, and whether an error was noted
(`update_errors`, 88-96). -/
def checkData (dims : List (String × List ℕ)) (p : String) (v : V) : V × Bool :=
  match dimsOf dims p with
  | some ideal => (castData v, decide (PyArr.ndim (castData v) ∉ ideal))
  | none => (v, false)

/-- validations.py:66-70, the positional arguments. -/
def checkPos (dims : List (String × List ℕ)) : List String → List V → List V × Bool
  | p :: ps, a :: as =>
      ((checkData dims p a).1 :: (checkPos dims ps as).1, (checkData dims p a).2 || (checkPos dims ps as).2)
  | _, as => (as, false)

/-- validations.py:55-82 `validate_data_dim(dims)` on a method with the parameters `params` (after `self`). An error
noted for a name is not taken back. -/
def validateDims (dims : List (String × List ℕ)) (params : List String) (c : PyCall V) : Except PyErr (PyCall V) :=
  if dims.any fun e => decide (e.1 ∉ params) then .error .assertionError
  else
    if (checkPos dims params c.args).2 || c.kwargs.any fun e => (checkData dims e.1 e.2).2 then .error .valueError
    else .ok ⟨(checkPos dims params c.args).1, c.kwargs.map fun e => (e.1, (checkData dims e.1 e.2).1)⟩

/-- reshape.py:69-70, 95-97 `shape_first_input_to_cop_dim`; `shape` are the lines between (modelled in
`Verif.Model.Reshape`). -/
def shapeFirstCall (shape : V → Except PyErr V) (c : PyCall V) : Except PyErr (PyCall V) :=
  match c.args with
  | [] => .error .indexError
  | x :: as => do
      let x' ← shape x
      return ⟨x' :: as, c.kwargs⟩

/-- The decorators of every `cdf` and `pdf` (e.g. gaussian.py:47-50): the parameter `x` has one or two dimensions. -/
def evalCall (shape : V → Except PyErr V) (x : String) (c : PyCall V) : Except PyErr (PyCall V) := do
  let c' ← validateDims [(x, [1, 2])] [x, "log"] c
  shapeFirstCall shape c'

/-- annotations/summary.py:10-21 `select_summary`: the category, or the error. `true` is the summary of the fit. -/
def selectSummary (category : V → Option Bool) (c : PyCall V) (fitted : Bool) : Except PyErr Bool :=
  match (match c.args with
    | a :: _ => category a
    | [] =>
        match c.kwargs.find? fun e => decide (e.1 = "category") with
        | some e => category e.2
        | none => some false) with
  | some false => .ok false
  | some true => if fitted then .ok true else .error .notFitted
  | none => .error .valueError

/-! ### `itau` of the Clayton copula on the values a user may pass -/

/-- Python numbers, lists of numbers, and arrays. -/
inductive UserVal
  | none
  | num (x : Fl)
  | list (l : List Fl)
  | arr (a : NdArg)

instance : PyArr UserVal where
  isNone
    | .none => true
    | _ => false
  isArr
    | .arr _ => true
    | _ => false
  npArray
    | .num x => .arr (.scalar x)
    | .list l => .arr (.arr l)
    | v => v
  ndim
    | .arr (.arr _) => 1
    | _ => 0

open Classical in
/-- clayton.py:83-84: `2 * tau / (1 - tau)`. Arithmetic of Python and not of NumPy is used on a number, where division
by zero raises; a list can be multiplied by 2 but not subtracted from 1; `2 * None` raises. -/
noncomputable def claytonItauBody (tau : UserVal) : Except PyErr NdArg :=
  match tau with
  | .none => .error .typeError
  | .num x => if .fin 1 - x = .fin 0 then .error .zeroDivision else .ok (.scalar (claytonItau x))
  | .list _ => .error .typeError
  | .arr a => .ok (a.map claytonItau)

/-- `def itau(self, tau)`: the value bound to `tau`. Names other than the parameter, or no value, raise. -/
def bindOne (p : String) (c : PyCall V) : Except PyErr V :=
  match c.args, c.kwargs with
  | [v], [] => .ok v
  | [], [(k, v)] => if k = p then .ok v else .error .typeError
  | _, _ => .error .typeError

/-- clayton.py:81-84 `itau`. -/
noncomputable def claytonItauCall (c : PyCall UserVal) : Except PyErr NdArg := do
  let c' ← castInput ["tau"] false ["tau"] c
  claytonItauBody (← bindOne "tau" c')

end Copulae
