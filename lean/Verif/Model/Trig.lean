import Mathlib.Analysis.SpecialFunctions.Trigonometric.Basic
import Verif.Model.Threads
import Verif.Model.Stable

/-!
Model of `copulae/special/trig.py`.
-/

namespace Copulae

open Classical

/-- `np.sin` of a float, in exact arithmetic. -/
noncomputable def npSin : Fl → Fl
  | .fin x => .fin (Real.sin x)
  | _ => .nan

/-- `np.tan` of a float, in exact arithmetic. Where the cosine vanishes there is no tangent; NumPy, whose arguments are rounded, returns some
number, for which the tangent of the rounded `pi / 2` stands here. -/
noncomputable def npTan : Fl → Fl
  | .fin x => .fin (if Real.cos x = 0 then tanHalfPi else Real.tan x)
  | _ => .nan

/-- special/trig.py:6-12 `_array_io`: the value returned and the elements of the caller's array after the call. `f` maps the elements of
`np.asarray(x)`; a result with one element is returned as a number (`res.item(0)`). `np.asarray` may return the caller's array itself, but
the products make new arrays. Of the argument only shape and elements matter; elements are floats. -/
def arrayIo (f : Fl → Fl) (x : SpecArg) : SpecOut × List Fl :=
  let res := x.data.map f
  (match res with
    | [v] => .scalar v
    | l => .array x.shape l, x.data)

/-- special/trig.py:15-34 `cospi`. -/
noncomputable def cospiCall : SpecArg → SpecOut × List Fl := arrayIo fun v => Fl.cos (v * .fin Real.pi)

/-- special/trig.py:37-56 `cospi2`. -/
noncomputable def cospi2Call : SpecArg → SpecOut × List Fl := arrayIo fun v => Fl.cos (v * .fin Real.pi / .fin 2)

/-- special/trig.py:59-78 `sinpi`. -/
noncomputable def sinpiCall : SpecArg → SpecOut × List Fl := arrayIo fun v => npSin (v * .fin Real.pi)

/-- special/trig.py:81-100 `sinpi2`. -/
noncomputable def sinpi2Call : SpecArg → SpecOut × List Fl := arrayIo fun v => npSin (v * .fin Real.pi / .fin 2)

/-- special/trig.py:103-123 `tanpi`. -/
noncomputable def tanpiCall : SpecArg → SpecOut × List Fl := arrayIo fun v => npTan (v * .fin Real.pi)

/-- special/trig.py:126-145 `tanpi2`. -/
noncomputable def tanpi2Call : SpecArg → SpecOut × List Fl := arrayIo fun v => npTan (v * .fin Real.pi / .fin 2)

end Copulae
