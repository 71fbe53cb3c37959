import Mathlib.Data.Fin.Basic
import Mathlib.Data.List.FinRange
import Mathlib.Logic.Function.Basic
import Verif.Model.Num

/-!
The element-wise loops of `special/_specfunc.pyx` and the array handling of its public functions.

A `prange` loop is a set of threads. Each thread owns a list of iterations and executes the atomic
actions of their bodies one after another; a schedule says which thread moves next. Every action of an
iteration touches the private variables of its thread and the cell with the iteration's index. Cython
makes variables that are assigned in the body private to the thread; they keep their values from one
iteration to the next.
-/

namespace Copulae

/-- An atomic action of a loop body, on the private variables and the cell of the iteration. -/
abbrev Action (P A : Type*) := P → A → P × A

/-- The actions of a body, one after another. -/
def runBody {P A : Type*} : List (Action P A) → P × A → P × A
  | [], s => s
  | a :: as, s => runBody as (a s.1 s.2)

/-- One thread of a `prange` loop: the iterations it still has to execute, the position within the body
of the first of them, its private variables. -/
structure Thread (n : ℕ) (P : Type*) where
  todo : List (Fin n)
  pc : ℕ
  priv : P

/-- The state of a `prange` loop. -/
structure PRun (T n : ℕ) (P A : Type*) where
  mem : Fin n → A
  th : Fin T → Thread n P

/-- Thread `t` executes its next action, or goes on to its next iteration. -/
def PRun.step {T n : ℕ} {P A : Type*} (body : List (Action P A)) (s : PRun T n P A) (t : Fin T) :
    PRun T n P A :=
  match (s.th t).todo with
  | [] => s
  | i :: rest =>
    match body[(s.th t).pc]? with
    | none => { s with th := Function.update s.th t ⟨rest, 0, (s.th t).priv⟩ }
    | some a =>
      let r := a (s.th t).priv (s.mem i)
      { mem := Function.update s.mem i r.2
        th := Function.update s.th t ⟨i :: rest, (s.th t).pc + 1, r.1⟩ }

/-- The state after a schedule. -/
def PRun.run {T n : ℕ} {P A : Type*} (body : List (Action P A)) (s : PRun T n P A)
    (sched : List (Fin T)) : PRun T n P A :=
  sched.foldl (PRun.step body) s

/-- The loop over `range(size)`. -/
def serialLoop {n : ℕ} {P A : Type*} (body : List (Action P A)) (p : P) (mem : Fin n → A) :
    P × (Fin n → A) :=
  (List.finRange n).foldl (fun s i =>
    let r := runBody body (s.1, s.2 i)
    (r.1, Function.update s.2 i r.2)) (p, mem)

/-- _specfunc.pyx:203, 210 `x[i] = f(x[i])`: read and evaluate, then write. The private variable is the
temporary that holds the value. -/
def mapBody {A : Type*} (f : A → A) : List (Action A A) :=
  [fun _ x => (f x, x), fun v _ => (v, v)]

/-- _specfunc.pyx:219-222, 231-234: `c = f(r[i], t[i]); r[i] = c.real; t[i] = c.imag`. The private
variables are the first value read and `c`; the two reads are separate actions. -/
def mapcBody {A : Type*} (f : A → A → A × A) : List (Action (A × (A × A)) (A × A)) :=
  [fun p x => ((x.1, p.2), x), fun p x => ((p.1, f p.1 x.2), x), fun p x => (p, (p.2.1, x.2)),
    fun p x => (p, (x.1, p.2.2))]

/-- _specfunc.pyx:206-210 `map_dbl_s`. -/
def mapDblS {n : ℕ} {A : Type*} (f : A → A) (p : A) (x : Fin n → A) : Fin n → A :=
  (serialLoop (mapBody f) p x).2

/-- _specfunc.pyx:225-234 `mapc_dbl_s`. -/
def mapcDblS {n : ℕ} {A : Type*} (f : A → A → A × A) (p : A × (A × A)) (x : Fin n → A × A) :
    Fin n → A × A :=
  (serialLoop (mapcBody f) p x).2

/-- What the public functions return: a Python float or an array with a shape. -/
inductive SpecOut where
  | scalar (v : Fl)
  | array (shape : List ℕ) (data : List Fl)

/-- An argument: the elements in C order, the shape, whether it is an array of 64-bit floats (anything
else is copied by `np.asarray(x, float)`), and whether it is C contiguous (otherwise `ravel` copies). -/
structure SpecArg where
  shape : List ℕ
  data : List Fl
  isFloat64 : Bool
  contiguous : Bool

/-- _specfunc.pyx:82-143 `clausen`, `debye_1`, `debye_2`, `dilog`: the value returned and the elements
of the caller's array after the call. `loop` is `map_dbl_p` or `map_dbl_s` of the element function
`f`. -/
def specCall (f : Fl → Fl) (loop : ∀ {n}, (Fin n → Fl) → Fin n → Fl) (x : SpecArg) :
    SpecOut × List Fl :=
  match x.data with
  | [v] => (.scalar (f v), x.data)
  | l =>
    let arr := List.ofFn (loop fun i : Fin l.length => l[i])
    (.array x.shape arr, if x.isFloat64 && x.contiguous then arr else l)

end Copulae
