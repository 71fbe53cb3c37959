import Verif.Model.Alias

/-!
What programs with arrays and elliptical copulas are expected to do: every copula owns its parameters, which are numbers, and every
array belongs to the caller. No memory is shared.
-/

namespace Copulae.Spec

/-- A copula with its parameters. -/
structure VCop where
  student : Bool
  dim : ℕ
  df : Fl
  rhos : List Fl

/-- The arrays of the caller and the copulas. -/
structure VState (N : ℕ) where
  arrays : List NdArr
  cops : Fin N → VCop

variable {N : ℕ}

/-- Numbers become the parameters of a copula: of a Student copula if there is one for the degrees of freedom, not below or equal to
zero, and one for every pair of variables. -/
noncomputable def VCop.assigned (e : VCop) (l : List Fl) : VCop × Except PyErr Unit :=
  open Classical in
  match e.student, l with
  | false, l => ({ e with rhos := l }, .ok ())
  | true, df :: l => if l.length = e.dim * (e.dim - 1) / 2 ∧ ¬ df ≤ .fin 0 then ({ e with df := df, rhos := l }, .ok ()) else (e, .error .valueError)
  | true, [] => (e, .error .valueError)

/-- One step, on numbers. -/
noncomputable def VState.exec (ext : CovNearest) (v : VState N) : AOp N → VState N × Except PyErr Unit
  | .newArray a => ({ v with arrays := v.arrays ++ [a] }, .ok ())
  | .write k i x =>
      match v.arrays[k]? with
      | none => (v, .error .indexError)
      | some a =>
        if i < a.vals.length then
          match a.dtype.cast x with
          | .error e => (v, .error e)
          | .ok x' => ({ v with arrays := v.arrays.set k ⟨a.dtype, a.vals.set i x'⟩ }, .ok ())
        else (v, .error .indexError)
  | .assign c k =>
      match v.arrays[k]? with
      | none => (v, .error .indexError)
      | some a => let r := (v.cops c).assigned a.vals; ({ v with cops := Function.update v.cops c r.1 }, r.2)
  | .assignCopy c a => let r := (v.cops c).assigned a.vals; ({ v with cops := Function.update v.cops c r.1 }, r.2)
  | .assignScalar c _ x =>
      if (v.cops c).student then (v, .error .typeError)
      else ({ v with cops := Function.update v.cops c { v.cops c with rhos := List.replicate (v.cops c).rhos.length x } }, .ok ())
  | .setItem c ix _ x =>
      let r := Ell.setItem ext ⟨(v.cops c).dim, (v.cops c).rhos⟩ ix x
      ({ v with cops := Function.update v.cops c { v.cops c with rhos := r.1.rhos } }, r.2)
  | .fitInversion c est =>
      if (v.cops c).student then ({ v with cops := Function.update v.cops c { v.cops c with rhos := est.map .fin } }, .ok ())
      else match broadcastTo (v.cops c).rhos.length est with
        | .error e => (v, .error e)
        | .ok l => ({ v with cops := Function.update v.cops c { v.cops c with rhos := l.map .fin } }, .ok ())
  | .fitMl c est => let r := (v.cops c).assigned est; ({ v with cops := Function.update v.cops c r.1 }, r.2)

/-- The state after a program. -/
noncomputable def VState.run (ext : CovNearest) (v : VState N) (ops : List (AOp N)) : VState N :=
  ops.foldl (fun v op => (v.exec ext op).1) v

/-- New copulas: no correlations. -/
def VState.new (kinds : Fin N → Bool × ℕ × Fl) : VState N where
  arrays := []
  cops c := ⟨(kinds c).1, (kinds c).2.1, (kinds c).2.2, List.replicate ((kinds c).2.1 * ((kinds c).2.1 - 1) / 2) (.fin 0)⟩

/-- Programs that assign copies and floats. -/
def Careful : AOp N → Prop
  | .assign _ _ => False
  | .assignCopy _ a => a.dtype = .float
  | .assignScalar _ dt _ => dt = .float
  | .setItem _ _ dt _ => dt = .float
  | _ => True

end Copulae.Spec
