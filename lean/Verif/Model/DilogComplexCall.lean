import Verif.Model.DilogComplex
import Verif.Model.PyErr

/-!
The array handling of `dilog_complex` (`special/_specfunc.pyx:146-166`, `special/dilog.py:53-56`).
-/

namespace Copulae

/-- What `dilog_complex` returns: a complex number or an array of them with a shape. -/
inductive SpecOutC where
  | scalar (v : Fl × Fl)
  | array (shape : List ℕ) (data : List (Fl × Fl))

/-- _specfunc.pyx:160, 166: `a + 1j * b`, where `1j * b` is the product of the complex numbers `0 + 1j` and `b + 0j`. -/
noncomputable def complexOf (p : Fl × Fl) : Fl × Fl :=
  (p.1 + (.fin 0 * p.2 - .fin 1 * .fin 0), .fin 0 * .fin 0 + .fin 1 * p.2)

/-- _specfunc.pyx:219-222, 231-234 when `r` and `t` are views of the same memory: the two assignments go to the same
cell. -/
def mapcSameBody {A : Type*} (f : A → A → A × A) : List (Action (A × (A × A)) A) :=
  [fun p x => ((x, p.2), x), fun p x => ((p.1, f p.1 x), x), fun p _ => (p, p.2.1), fun p _ => (p, p.2.2)]

/-- _specfunc.pyx:225-234 `mapc_dbl_s` when `r` and `t` are views of the same memory. -/
def mapcSameS {n : ℕ} {A : Type*} (f : A → A → A × A) (p : A × (A × A)) (x : Fin n → A) : Fin n → A :=
  (serialLoop (mapcSameBody f) p x).2

/-- _specfunc.pyx:146-166 `dilog_complex(r, theta, threaded)` for two arrays without common memory: the value returned
and the elements of the caller's two arrays after the call. `loop` is `mapc_dbl_p` or `mapc_dbl_s` of the element
function `f`. Arrays that overlap only in part are left out. -/
noncomputable def dilogComplexCall (f : Fl → Fl → Fl × Fl) (loop : ∀ {n}, (Fin n → Fl × Fl) → Fin n → Fl × Fl)
    (r theta : SpecArg) : Except PyErr (SpecOutC × List Fl × List Fl) :=
  if r.shape ≠ theta.shape then .error .assertionError
  else match r.data, theta.data with
  | [a], [b] => .ok (.scalar (complexOf (f a b)), r.data, theta.data)
  | l, m =>
    let x := l.zip m
    let out := List.ofFn (loop fun i : Fin x.length => x[i])
    .ok (.array r.shape (out.map complexOf), if r.isFloat64 && r.contiguous then out.map Prod.fst else l,
      if theta.isFloat64 && theta.contiguous then out.map Prod.snd else m)

/-- _specfunc.pyx:146-166 `dilog_complex(a, a, threaded)`: both arguments are the same object. If it is a contiguous
array of 64-bit floats then `r_vec` and `i_vec` are views of its memory, otherwise they are two copies. `loopSame` is
the loop over a single piece of memory. -/
noncomputable def dilogComplexSame (f : Fl → Fl → Fl × Fl) (loop : ∀ {n}, (Fin n → Fl × Fl) → Fin n → Fl × Fl)
    (loopSame : ∀ {n}, (Fin n → Fl) → Fin n → Fl) (a : SpecArg) : SpecOutC × List Fl :=
  match a.data with
  | [v] => (.scalar (complexOf (f v v)), a.data)
  | l =>
    if a.isFloat64 && a.contiguous then
      let out := List.ofFn (loopSame fun i : Fin l.length => l[i])
      (.array a.shape (out.map fun v => complexOf (v, v)), out)
    else
      let x := l.zip l
      (.array a.shape ((List.ofFn (loop fun i : Fin x.length => x[i])).map complexOf), l)

/-- dilog.py:53-56 `dilog_complex(z)` of one complex number: `theta = np.angle(z)`, `r = np.abs(z)`. -/
noncomputable def dilogComplexOf (z : ℂ) : Fl × Fl := complexOf (dilogComplexK ‖z‖ (Complex.arg z))

end Copulae
