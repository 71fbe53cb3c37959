import Mathlib.Algebra.Order.Floor.Ring
import Mathlib.Data.Rat.Floor
import Mathlib.Algebra.Order.Archimedean.Real.Basic
import Verif.Model.Elliptical

/-!
Elliptical copulas and the arrays of their caller: which arrays are shared.

`copulae/elliptical/gaussian.py` lines 66-74 and `copulae/elliptical/student.py` lines 132-165 (`params`),
`copulae/elliptical/abstract.py` lines 78-137 (`__setitem__`, `_force_psd`), `copulae/copula/estimator/corr_inversion.py` lines 33-48 and
`copulae/copula/estimator/max_likelihood.py` lines 59-68 (what a fit does to the parameters).

`Model/Elliptical.lean` models the same assignments on values. Here arrays live on a heap, have a type of elements, and a copula refers
to the array `_rhos`, which may be the array of somebody else, or a part of it.

Simplifications: arrays are one-dimensional with elements of type `int64` or `float64`; a view is the array from an offset on (the only
one the code makes is `params[1:]`); the estimates of a fit are given and are finite.
-/

namespace Copulae

/-- `arr.dtype`. -/
inductive NpType
  | int
  | float
  deriving DecidableEq

/-- A one-dimensional array. -/
structure NdArr where
  dtype : NpType
  vals : List Fl

/-- `arr[off:]` of the array at an address. -/
structure View where
  addr : ℕ
  off : ℕ

/-- What remains of a number that is stored in an array of the type: the integer part in an array of integers. A NaN or an infinity
cannot be converted. -/
noncomputable def NpType.cast : NpType → Fl → Except PyErr Fl
  | .float, v => .ok v
  | .int, .fin r => .ok (.fin ((if 0 ≤ r then ⌊r⌋ else ⌈r⌉ : ℤ) : ℝ))
  | .int, _ => .error .valueError

/-- An elliptical copula as an object: `_rhos` is a view, `_df` a number, `smry` the array `params` of the summary of the last fit. -/
structure ECop where
  student : Bool
  dim : ℕ
  df : Fl
  rhos : View
  smry : Option View

/-- The heap, the arrays the caller has names for, and the copulas. -/
structure AState (N : ℕ) where
  heap : ℕ → NdArr
  next : ℕ
  vars : List ℕ
  cops : Fin N → ECop

variable {N : ℕ}

/-- The elements of a view. -/
def AState.read (s : AState N) (v : View) : List Fl := (s.heap v.addr).vals.drop v.off

/-- The elements of a view after they were overwritten. -/
def AState.put (s : AState N) (v : View) (l : List Fl) : AState N :=
  { s with heap := Function.update s.heap v.addr ⟨(s.heap v.addr).dtype, (s.heap v.addr).vals.take v.off ++ l⟩ }

/-- A new array. -/
def AState.alloc (s : AState N) (a : NdArr) : AState N × ℕ :=
  ({ s with heap := Function.update s.heap s.next a, next := s.next + 1 }, s.next)

/-- Replace a copula. -/
def AState.setCop (s : AState N) (c : Fin N) (e : ECop) : AState N := { s with cops := Function.update s.cops c e }

/-- `_rhos[pos] = row` with conversion. -/
def storeCellAs (cast : Fl → Except PyErr Fl) (rhos : List Fl) (pos : ℕ) (row : List Fl) : Except PyErr (List Fl) :=
  match row with
  | [v] => do return rhos.set pos (← cast v)
  | _ => .error .valueError

/-- abstract.py:117-123, the loop over a row or a column, with conversion. -/
def rowLoopAs (cast : Fl → Except PyErr Fl) (d : ℕ) (pair : ℕ → ℤ × ℤ) : ℕ → List (List Fl) → List Fl → List Fl × Except PyErr Unit
  | _, [], rhos => (rhos, .ok ())
  | i, v :: vs, rhos =>
      if (pair i).1 = (pair i).2 then rowLoopAs cast d pair (i + 1) vs rhos
      else match (do storeCellAs cast rhos (← getRhoIndex d (pair i).1 (pair i).2) v) with
        | .error e => (rhos, .error e)
        | .ok rhos' => rowLoopAs cast d pair (i + 1) vs rhos'

/-- Does the index mean the whole matrix? -/
def Ix.whole : Ix → Bool
  | .slice => true
  | .tuple [.slice, .slice] => true
  | _ => false

/-- abstract.py:98-127: what `__setitem__` writes into the array `_rhos` before `_force_psd` is called: the elements afterwards and
whether an exception ended it. -/
def ellWrites (cast : Fl → Except PyErr Fl) (s : Ell) (ix : Ix) (v : PyVal) : List Fl × Except PyErr Unit :=
  match ix with
  | .slice => (s.rhos, .ok ())
  | .int k =>
      match (do storeCellAs cast s.rhos (← npPos s.rhos.length k) v.flat) with
      | .error e => (s.rhos, .error e)
      | .ok l => (l, .ok ())
  | .tuple [.slice, .slice] => (s.rhos, .ok ())
  | .tuple [.slice, .int y] =>
      if (v.rows s.dim).length ≠ s.dim then (s.rhos, .error .valueError)
      else rowLoopAs cast s.dim (fun i => ((i : ℤ), y)) 0 (v.rows s.dim) s.rhos
  | .tuple [.int x, .slice] =>
      if (v.rows s.dim).length ≠ s.dim then (s.rhos, .error .valueError)
      else rowLoopAs cast s.dim (fun i => (x, (i : ℤ))) 0 (v.rows s.dim) s.rhos
  | .tuple [.int x, .int y] =>
      match getRhoIndex s.dim x y with
      | .error e => (s.rhos, .error e)
      | .ok p => match v.flat with
        | [w] => match cast w with
          | .error e => (s.rhos, .error e)
          | .ok w' => (s.rhos.set p w', .ok ())
        | _ => (s.rhos, .error .typeError)
  | .tuple _ => (s.rhos, .error .indexError)

/-- gaussian.py:70-74 and student.py:148-165, the setters of `params` on an array: the degrees of freedom and where in the array the
correlations begin. The Gaussian copula takes everything. -/
noncomputable def ECop.accept (e : ECop) (l : List Fl) : Except PyErr (Fl × ℕ) :=
  open Classical in
  if e.student then
    if l.length ≠ 1 + e.dim * (e.dim - 1) / 2 then .error .valueError
    else match l with
      | df :: _ => if df ≤ .fin 0 then .error .valueError else .ok (df, 1)
      | [] => .error .valueError
  else .ok (e.df, 0)

/-- What a program does. -/
inductive AOp (N : ℕ)
  /-- `x = np.array(...)` -/
  | newArray (a : NdArr)
  /-- `x[i] = v` for the `k`-th array of the caller -/
  | write (k i : ℕ) (v : Fl)
  /-- `copula.params = x` for the `k`-th array of the caller -/
  | assign (c : Fin N) (k : ℕ)
  /-- `copula.params = x.copy()`, or a list of numbers -/
  | assignCopy (c : Fin N) (a : NdArr)
  /-- `copula.params = v` for a number, an `int` or a `float` -/
  | assignScalar (c : Fin N) (dt : NpType) (v : Fl)
  /-- `copula[ix] = v`, `dt` being the type of the elements of `v` -/
  | setItem (c : Fin N) (ix : Ix) (dt : NpType) (v : PyVal)
  /-- `copula.fit(data, method='itau')` or `'irho'` when the estimates are `est` -/
  | fitInversion (c : Fin N) (est : List ℝ)
  /-- `copula.fit(data)` when the optimiser succeeds with the array `est` -/
  | fitMl (c : Fin N) (est : List Fl)

/-- The arrays that an assignment of an array at address `a` makes a copula refer to. -/
noncomputable def AState.bind (s : AState N) (c : Fin N) (a : ℕ) : AState N × Except PyErr Unit :=
  match (s.cops c).accept (s.heap a).vals with
  | .error e => (s, .error e)
  | .ok (df, off) => (s.setCop c { s.cops c with df := df, rhos := ⟨a, off⟩ }, .ok ())

open Classical in
/-- The type of the elements of `near_psd(value)`: `value` itself if it is positive semi-definite, otherwise an array of floats. -/
noncomputable def wholeNpType (dt : NpType) : PyVal → NpType
  | .mat r c M => if h : r = c then if isPsd (fun i j => M i (h ▸ j) : SqMat Fl r) then dt else .float else .float
  | _ => .float

/-- abstract.py:78-137 `__setitem__`. -/
noncomputable def AState.setItem (ext : CovNearest) (s : AState N) (c : Fin N) (ix : Ix) (dt : NpType) (v : PyVal) :
    AState N × Except PyErr Unit :=
  open Classical in
  let e := s.cops c
  let val : Ell := ⟨e.dim, s.read e.rhos⟩
  if ¬ rangeOk v then (s, .error .valueError)
  else if ix.whole then
    match val.setSlice ext v with
    | (_, .error err) => (s, .error err)
    | (w, .ok _) =>
      let r := s.alloc ⟨wholeNpType dt v, w.rhos⟩
      (r.1.setCop c { e with rhos := ⟨r.2, 0⟩ }, .ok ())
  else
    let w := ellWrites (s.heap e.rhos.addr).dtype.cast val ix v
    let s' := s.put e.rhos w.1
    match w.2 with
    | .error err => (s', .error err)
    | .ok _ =>
      match Ell.forcePsd ext ⟨e.dim, w.1⟩ with
      | (_, .error err) => (s', .error err)
      | (f, .ok _) =>
        let r := s'.alloc ⟨.float, f.rhos⟩
        (r.1.setCop c { e with rhos := ⟨r.2, 0⟩ }, .ok ())

/-- `arr[:] = est` on `n` elements: numbers of another length are refused, a single one is repeated. -/
def broadcastTo (n : ℕ) (est : List ℝ) : Except PyErr (List ℝ) :=
  if est.length = n then .ok est
  else match est with
    | [x] => .ok (List.replicate n x)
    | _ => .error .valueError

/-- corr_inversion.py:33-40 and 48: a Gaussian copula gets the estimates written into its array, a Student copula refers to the array of
the estimates, which the summary refers to as well. -/
noncomputable def AState.fitInversion (s : AState N) (c : Fin N) (est : List ℝ) : AState N × Except PyErr Unit :=
  let e := s.cops c
  let r := s.alloc ⟨.float, est.map .fin⟩
  if e.student then (r.1.setCop c { e with rhos := ⟨r.2, 0⟩, smry := some ⟨r.2, 0⟩ }, .ok ())
  else
    match broadcastTo (s.read e.rhos).length est with
    | .error err => (s, .error err)
    | .ok l =>
      match l.mapM fun x => (s.heap e.rhos.addr).dtype.cast (.fin x) with
      | .error err => (s, .error err)
      | .ok l' => ((r.1.put e.rhos l').setCop c { e with smry := some ⟨r.2, 0⟩ }, .ok ())

/-- max_likelihood.py:65-68 after a success: `copula.params = res['x']`, and the summary refers to the same array. -/
noncomputable def AState.fitMl (s : AState N) (c : Fin N) (est : List Fl) : AState N × Except PyErr Unit :=
  let r := s.alloc ⟨.float, est⟩
  match r.1.bind c r.2 with
  | (_, .error err) => (s, .error err)
  | (s', .ok _) => (s'.setCop c { s'.cops c with smry := some ⟨r.2, 0⟩ }, .ok ())

/-- One step of a program. Names that do not exist and indices outside an array raise. -/
noncomputable def AState.exec (ext : CovNearest) (s : AState N) : AOp N → AState N × Except PyErr Unit
  | .newArray a => let r := s.alloc a; ({ r.1 with vars := r.1.vars ++ [r.2] }, .ok ())
  | .write k i v =>
      match s.vars[k]? with
      | none => (s, .error .indexError)
      | some a =>
        if i < (s.heap a).vals.length then
          match (s.heap a).dtype.cast v with
          | .error e => (s, .error e)
          | .ok v' => ({ s with heap := Function.update s.heap a ⟨(s.heap a).dtype, (s.heap a).vals.set i v'⟩ }, .ok ())
        else (s, .error .indexError)
  | .assign c k =>
      match s.vars[k]? with
      | none => (s, .error .indexError)
      | some a => s.bind c a
  | .assignCopy c a => let r := s.alloc a; r.1.bind c r.2
  | .assignScalar c dt v =>
      if (s.cops c).student then (s, .error .typeError)
      else let r := s.alloc ⟨dt, List.replicate (s.read (s.cops c).rhos).length v⟩
        (r.1.setCop c { s.cops c with rhos := ⟨r.2, 0⟩ }, .ok ())
  | .setItem c ix dt v => s.setItem ext c ix dt v
  | .fitInversion c est => s.fitInversion c est
  | .fitMl c est => s.fitMl c est

/-- The state after a program, exceptions being caught. -/
noncomputable def AState.run (ext : CovNearest) (s : AState N) (ops : List (AOp N)) : AState N :=
  ops.foldl (fun s op => (s.exec ext op).1) s

/-- gaussian.py:41-45 and student.py:46-55: new copulas, each with an array of zeros. -/
def AState.new (kinds : Fin N → Bool × ℕ × Fl) : AState N where
  heap a := if h : a < N then ⟨.float, List.replicate ((kinds ⟨a, h⟩).2.1 * ((kinds ⟨a, h⟩).2.1 - 1) / 2) (.fin 0)⟩ else ⟨.float, []⟩
  next := N
  vars := []
  cops c := ⟨(kinds c).1, (kinds c).2.1, (kinds c).2.2, ⟨c, 0⟩, none⟩

/-- What `copula.params` reports. -/
def AState.params (s : AState N) (c : Fin N) : Fl × List Fl := ((s.cops c).df, s.read (s.cops c).rhos)

/-- The elements of the `k`-th array of the caller. -/
def AState.array (s : AState N) (k : ℕ) : Option (List Fl) := (s.vars[k]?).map fun a => (s.heap a).vals

end Copulae
