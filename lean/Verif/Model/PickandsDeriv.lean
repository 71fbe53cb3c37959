import Verif.Model.Num
import Verif.Model.PyErr
import Mathlib.Data.Int.Bitwise

/-!
`GumbelCopula.dAdu` (`copulae/archimedean/gumbel.py:77-121`), the derivatives of the Pickands function.
-/

namespace Copulae

/-- A value of an expression in `dAdu`: a Python `int` or `float`, or a NumPy array of floats (zero-dimensional arrays
and NumPy scalars are lists of one element). -/
inductive NumVal
  | int (z : ℤ)
  | flt (x : Fl)
  | arr (l : List Fl)

namespace NumVal

/-- Conversion of an `int` met by a `float`. -/
noncomputable def toFl (z : ℤ) : Fl := .fin z

/-- An arithmetic operation with at least one operand that is not an `int`, with broadcasting of scalars. The arrays
in `dAdu` have the same length. -/
noncomputable def arith (f : Fl → Fl → Fl) : NumVal → NumVal → NumVal
  | .int a, .int b => .flt (f (toFl a) (toFl b))
  | .int a, .flt y => .flt (f (toFl a) y)
  | .flt x, .int b => .flt (f x (toFl b))
  | .flt x, .flt y => .flt (f x y)
  | .int a, .arr m => .arr (m.map (f (toFl a)))
  | .flt x, .arr m => .arr (m.map (f x))
  | .arr l, .int b => .arr (l.map fun x => f x (toFl b))
  | .arr l, .flt y => .arr (l.map fun x => f x y)
  | .arr l, .arr m => .arr (List.zipWith f l m)

/-- `a ^ b`, exclusive or: defined for integers only; `TypeError` for floats and arrays of floats. -/
def xor : NumVal → NumVal → Except PyErr NumVal
  | .int a, .int b => .ok (.int (Int.xor a b))
  | _, _ => .error .typeError

end NumVal

open NumVal in
/-- gumbel.py:100-105, 107-114, given `expr7`: `grad` and `hess`. -/
noncomputable def dAduRest (alpha : ℝ) (w expr7 : NumVal) : NumVal × NumVal :=
  let a := NumVal.flt (.fin alpha)
  let expr1 := arith (· - ·) (.int 1) w
  let expr2 := arith (· + ·) (arith (· ^ ·) w a) (arith (· ^ ·) expr1 a)
  let expr3 := NumVal.flt (.fin (1 / alpha))
  let expr4 := arith (· - ·) expr3 (.int 1)
  let expr5 := arith (· ^ ·) expr2 expr4
  let expr6 := arith (· - ·) a (.int 1)
  let expr8 := arith (· * ·) expr3 expr7
  let expr9 := arith (· - ·) expr6 (.int 1)
  let grad := arith (· * ·) expr5 expr8
  let hess := arith (· + ·)
    (arith (· * ·) (arith (· * ·) (arith (· * ·) expr4 expr7) expr8)
      (arith (· ^ ·) expr2 (arith (· - ·) expr4 (.int 1))))
    (arith (· * ·) (arith (· * ·) (arith (· * ·) (arith (· * ·) a expr3) expr5) expr6)
      (arith (· + ·) (arith (· ^ ·) w expr9) (arith (· ^ ·) expr1 expr9)))
  (grad, hess)

open NumVal in
/-- gumbel.py:98-121 with the parameter `alpha` (a Python float, abstract.py:14) and the array `w`. In line 106 the
operator `^` binds less than the minus. `1 / alpha` is a division of Python floats. The shape of the result and the case
of two scalars (116-121) are left out: the result is the pair of columns. -/
noncomputable def gumbelDAdu (alpha : ℝ) (w : List Fl) : Except PyErr (NumVal × NumVal) := do
  let a := NumVal.flt (.fin alpha)
  let expr1 := arith (· - ·) (.int 1) (.arr w)
  if alpha = 0 then .error .zeroDivision
  else
    let expr6 := arith (· - ·) a (.int 1)
    let expr7 ← NumVal.xor
      (arith (· - ·) (arith (· * ·) a (arith (· ^ ·) (.arr w) expr6)) (arith (· * ·) a expr1)) expr6
    return dAduRest alpha (.arr w) expr7

end Copulae
