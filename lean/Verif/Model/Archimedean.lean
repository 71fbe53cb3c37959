import Mathlib.Data.Fintype.BigOperators
import Verif.Model.PyErr
import Verif.Model.FlAlg
import Verif.Model.Special

/-!
Archimedean copulas: generators, distribution functions, dependence measures,
construction and parameter assignment.
`copulae/archimedean/{abstract,clayton,frank,gumbel}.py`, `copulae/indep/indep.py`.

Common simplifications: the parameter of the numerical functions is a finite real (the NaN default
is rejected by an assertion in `pdf`; in `psi`/`ipsi`/`cdf` it just propagates); arrays are functions
on `Fin n` (rows) and `Fin k` (columns); a result of size one is returned as a float by
`squeeze_output`, which does not change its value. pandas inputs are covered in
`Verif.Model.Reshape`.
-/

namespace Copulae

open Classical

/-- An argument after `cast_input` (reshape.py:14-47): a Python number becomes a zero-dimensional
array, and arithmetic on it yields a NumPy scalar, which does not support item assignment. -/
inductive NdArg
  | scalar (x : Fl)
  | arr (l : List Fl)

namespace NdArg

/-- The values of an argument. -/
def toList : NdArg → List Fl
  | .scalar x => [x]
  | .arr l => l

/-- An elementwise operation. -/
def map (f : Fl → Fl) : NdArg → NdArg
  | .scalar x => .scalar (f x)
  | .arr l => .arr (l.map f)

end NdArg

/-! ### Clayton -/

/-- clayton.py:75-79 `ipsi`, one element (log=False). -/
noncomputable def claytonIpsi (θ : ℝ) (u : Fl) : Fl :=
  Fl.sign (.fin θ) * (u ^ Fl.fin (-θ) - .fin 1)

/-- clayton.py:139-142 `psi`. `-1 / self._theta` is a division of Python floats. -/
noncomputable def claytonPsi (θ : ℝ) : Except PyErr (Fl → Fl) :=
  if θ = 0 then .error .zeroDivision
  else .ok fun s => Fl.maximum (.fin 1 + Fl.sign (.fin θ) * s) (.fin 0) ^ Fl.fin (-1 / θ)

/-- clayton.py:42-55 `dipsi`, one element. -/
noncomputable def claytonDipsi (θ : ℝ) (degree : ℤ) (log : Bool) (u : Fl) : Except PyErr Fl :=
  if degree ≠ 1 ∧ degree ≠ 2 then .error .assertionError
  else
    let s : ℝ := if log ∨ degree % 2 = 0 then 1 else -1
    let a := if degree = 1 then Fl.log (.fin θ) - .fin (1 + θ) * Fl.log u
      else Fl.log (.fin θ) + Fl.log1p (.fin θ) - .fin (θ + 2) * Fl.log u
    .ok (.fin s * (if log then a else Fl.exp a))

/-- clayton.py:180-181 `_tau` of a float; division by zero raises. -/
noncomputable def claytonTau (θ : ℝ) : Except PyErr ℝ :=
  if θ + 2 = 0 then .error .zeroDivision else .ok (θ / (θ + 2))

/-- clayton.py:82-84 `itau`, one element of an array. -/
noncomputable def claytonItau (τ : Fl) : Fl := .fin 2 * τ / (.fin 1 - τ)

/-- clayton.py:67-73 `dtau`, one element of an array. -/
noncomputable def claytonDtau (θ : Fl) : Fl := .fin 2 / ((θ + .fin 2) * (θ + .fin 2))

/-- clayton.py:86-91 `lambda_` as (lower, upper), for a parameter that is not NaN. -/
noncomputable def claytonLambda (θ : ℝ) : ℝ × ℝ := (if θ > 0 then (2 : ℝ) ^ (-1 / θ) else 0, 0)

/-! ### Gumbel -/

/-- gumbel.py:148-152 `ipsi`, one element. -/
noncomputable def gumbelIpsi (θ : ℝ) (u : Fl) : Fl := (-(Fl.log u)) ^ Fl.fin θ

/-- gumbel.py:222-225 `psi`. The exponent is applied before the sign. -/
noncomputable def gumbelPsi (θ : ℝ) : Except PyErr (Fl → Fl) :=
  if θ = 0 then .error .zeroDivision
  else .ok fun s => Fl.exp (-(s ^ Fl.fin (1 / θ)))

/-- gumbel.py:123-135 `dipsi`, one element. -/
noncomputable def gumbelDipsi (θ : ℝ) (degree : ℤ) (log : Bool) (u : Fl) : Except PyErr Fl :=
  if degree ≠ 1 ∧ degree ≠ 2 then .error .assertionError
  else
    let s : ℝ := if log ∨ degree % 2 = 0 then 1 else -1
    let lu := Fl.log u
    let v := if degree = 1 then .fin θ * ((-lu) ^ Fl.fin (θ - 1)) / u
      else .fin θ * (.fin (θ - 1) - lu) * ((-lu) ^ Fl.fin (θ - 2)) / (u ^ Fl.fin 2)
    .ok (.fin s * (if log then Fl.log v else v))

/-- gumbel.py:261-263 `_tau` of a float. -/
noncomputable def gumbelTau (θ : ℝ) : Except PyErr ℝ :=
  if θ = 0 then .error .zeroDivision else .ok (1 - 1 / θ)

/-- gumbel.py:154-167 `itau`: a single number is divided as a Python float, an array elementwise
after negative entries were replaced by zero. -/
noncomputable def gumbelItau (τ : NdArg) : Except PyErr NdArg :=
  match τ.toList with
  | [t] =>
      if t < Fl.fin 0 then .ok (.scalar (.fin 1))
      else if t = Fl.fin 1 then .error .zeroDivision
      else .ok (.scalar (.fin 1 / (.fin 1 - t)))
  | l => .ok (.arr (l.map fun t =>
      .fin 1 / (.fin 1 - (if t < Fl.fin 0 then .fin 0 else t))))

/-- gumbel.py:141-146 `dtau` at the current parameter: `x ** -2` of a Python float. -/
noncomputable def gumbelDtau (θ : ℝ) : Except PyErr ℝ :=
  if θ = 0 then .error .zeroDivision else .ok (θ ^ (-2 : ℤ))

/-- gumbel.py:169-170 `lambda_()` as (lower, upper). -/
noncomputable def gumbelLambda (θ : ℝ) : ℝ × ℝ := (0, 2 * (2 : ℝ) ^ (1 / θ))

/-- gumbel.py:44-75 `A`. With a scalar `w` the line `r[bnd] = 1` assigns into a NumPy scalar. -/
noncomputable def gumbelA' (θ : ℝ) (w : NdArg) : Except PyErr NdArg :=
  if θ = 0 then .error .zeroDivision
  else
    match w with
    | .scalar _ => .error .typeError
    | .arr l => .ok (.arr (l.map fun w =>
        if w = Fl.fin 0 ∨ w = Fl.fin 1 then .fin 1
        else (w ^ Fl.fin θ + (.fin 1 - w) ^ Fl.fin θ) ^ Fl.fin (1 / θ)))

/-! ### Frank -/

/-- special_func.py:77-91 `log1mexp`. -/
noncomputable def log1mexp (x : Fl) : Fl := Fl.log (.fin 1 - Fl.exp (-x))

/-- special_func.py:94-108 `log1pexp`. -/
noncomputable def log1pexp (x : Fl) : Fl := Fl.log (.fin 1 + Fl.exp x)

/-- frank.py:78-98 `ipsi`, one element (log=False). The branch for small `u` writes its result
into `res`, but `r` is what is returned. -/
noncomputable def frankIpsi (θ : ℝ) (u : Fl) : Fl :=
  let r := u * .fin θ
  let em := Fl.expm1 (.fin (-θ))
  let e := Fl.exp (.fin (-θ))
  if Fl.fin (1 / 100 * |θ|) < Fl.abs r then
    if Fl.fin 0 < e ∧ Fl.abs (.fin θ - r) < Fl.fin (1 / 2) then
      -(Fl.log1p (e * Fl.expm1 (.fin θ - r) / em))
    else -(Fl.log1p ((Fl.exp (-r) - e) / em))
  else r

/-- frank.py:76-98 `ipsi` called by a user: for a single number `r` is a NumPy scalar, and the
assignment `r[m1] = ...` raises `TypeError`. -/
noncomputable def frankIpsiCall (θ : ℝ) (u : NdArg) : Except PyErr NdArg :=
  match u with
  | .scalar _ => .error .typeError
  | .arr l => .ok (.arr (l.map (frankIpsi θ)))

/-- frank.py:153-171 `psi`, one element of a float array. For a positive parameter the values are
written back into the argument array; the value of `np.less` at NaN positions is undefined but NaN
results in both cases. -/
noncomputable def frankPsi (θ : ℝ) (s : Fl) : Fl :=
  if θ ≤ -36 then -(log1pexp (-s - .fin θ)) / .fin θ
  else if θ < 0 then -(Fl.log1p (Fl.exp (-s) * Fl.expm1 (.fin (-θ)))) / .fin θ
  else if θ = 0 then Fl.exp (-s)
  else if s < log1mexp (.fin θ) then .nan
  else -(log1mexp (s - log1mexp (.fin θ))) / .fin θ

/-- frank.py:47-60 `dipsi`, one element of an array. -/
noncomputable def frankDipsi (θ : ℝ) (degree : ℤ) (log : Bool) (u : Fl) : Except PyErr Fl :=
  if degree ≠ 1 ∧ degree ≠ 2 then .error .assertionError
  else
    let s : ℝ := if log ∨ degree % 2 = 0 then 1 else -1
    let ut := u * .fin θ
    let v := if degree = 1 then .fin θ / Fl.expm1 ut
      else (.fin (θ ^ 2) * Fl.exp ut) / (Fl.expm1 ut * Fl.expm1 ut)
    .ok (.fin s * (if log then Fl.log v else v))

/-- frank.py:114-116 `lambda_`. -/
def frankLambda (_ : ℝ) : ℝ × ℝ := (0, 0)

/-! ### Distribution functions -/

/-- The Archimedean families. -/
inductive Family
  | clayton
  | frank
  | gumbel
  deriving DecidableEq

/-- `self.ipsi` (one element). -/
noncomputable def Family.ipsi : Family → ℝ → Fl → Fl
  | .clayton => claytonIpsi
  | .frank => frankIpsi
  | .gumbel => gumbelIpsi

/-- `self.psi`. -/
noncomputable def Family.psi : Family → ℝ → Except PyErr (Fl → Fl)
  | .clayton => claytonPsi
  | .frank => fun θ => .ok (frankPsi θ)
  | .gumbel => gumbelPsi

/-- abstract.py:16-21 `cdf`, after `shape_first_input_to_cop_dim` (reshape.py:61-97) compared the
number of columns with the dimension. -/
noncomputable def archCdf (F : Family) (θ : ℝ) (dim : ℕ) {n k : ℕ} (x : Fin n → Fin k → Fl)
    (log : Bool) : Except PyErr (Fin n → Fl) :=
  if k ≠ dim then .error .valueError
  else do
    let psi ← F.psi θ
    return fun i =>
      let c := psi (∑ j, F.ipsi θ (x i j))
      if log then Fl.log c else c

/-- indep.py:38-42 `IndepCopula.cdf`. -/
noncomputable def indepCdf (dim : ℕ) {n k : ℕ} (x : Fin n → Fin k → Fl) (log : Bool) :
    Except PyErr (Fin n → Fl) :=
  if k ≠ dim then .error .valueError
  else .ok fun i => if log then ∑ j, Fl.log (x i j) else ∏ j, x i j

/-- indep.py:56-60 `IndepCopula.pdf`. -/
noncomputable def indepPdf (dim : ℕ) {n k : ℕ} (_ : Fin n → Fin k → Fl) (log : Bool) :
    Except PyErr (Fin n → Fl) :=
  if k ≠ dim then .error .valueError
  else .ok fun _ => if log then .fin 0 else .fin 1

/-! ### Construction and assignment of the parameter -/

/-- What an Archimedean copula object remembers about its parameter. -/
structure ArchState where
  dim : ℕ
  theta : Fl
  lower : Fl
  upper : Fl

/-- `np.finfo('float').eps`, core/misc.py:9. -/
noncomputable def machEps : ℝ := 2 ^ (-52 : ℤ)

/-- Constructors: clayton.py:25-40, frank.py:30-45, gumbel.py:29-42. `BaseCopula.__init__`
(copula/base.py:25-32) requires `dim >= 2`; a non-integer `dim` is out of model. -/
noncomputable def Family.new (F : Family) (theta : Fl) (dim : ℕ) : Except PyErr ArchState :=
  match F with
  | .clayton =>
      if ¬ 2 ≤ dim then .error .assertionError
      else if dim ≠ 2 ∧ theta < Fl.fin 0 then .error .assertionError
      else .ok ⟨dim, theta, if dim = 2 then .fin (-1 + machEps) else .fin 0, .pinf⟩
  | .frank =>
      if dim > 2 ∧ theta < Fl.fin 0 then .error .valueError
      else if ¬ 2 ≤ dim then .error .assertionError
      else .ok ⟨dim, theta, if dim = 2 then .ninf else .fin 0, .pinf⟩
  | .gumbel =>
      if ¬ (Fl.fin 1 ≤ theta ∨ theta = .nan) then .error .assertionError
      else if ¬ 2 ≤ dim then .error .assertionError
      else .ok ⟨dim, theta, .fin 1, .pinf⟩

/-- Setters of `params`: clayton.py:97-106, frank.py:122-126, gumbel.py:176-183. Returns the
object afterwards and the exception, if any. -/
noncomputable def Family.setParams (F : Family) (st : ArchState) (theta : Fl) :
    ArchState × Option PyErr :=
  match F with
  | .clayton =>
      if st.dim = 2 ∧ theta < Fl.fin (-1) then (st, some .valueError)
      else if st.dim > 2 ∧ theta < Fl.fin 0 then (st, some .valueError)
      else ({ st with theta := theta }, none)
  | .frank =>
      if st.dim > 2 ∧ theta < Fl.fin 0 then (st, some .valueError)
      else ({ st with theta := theta }, none)
  | .gumbel =>
      if theta < Fl.fin 1 then (st, some .valueError)
      else ({ st with theta := theta }, none)

end Copulae
