import Mathlib.Analysis.SpecialFunctions.Gamma.Basic
import Mathlib.Algebra.Order.Floor.Ring
import Verif.Model.Special

/-!
Model of `copulae/special/combinatorics.py`, `sign_ff`
(`copulae/special/special_func.py`), `copulae/archimedean/auxiliary.py`, and of
the coefficient and polynomial functions at the end of
`copulae/archimedean/gumbel.py`.
-/

namespace Copulae

open Classical

/-- `scipy.special.gamma` for a real argument: `+inf` at the poles `0, -1, -2, ...` (this is what
SciPy returns at the poles in the releases this package supports). -/
noncomputable def gammaFl (x : ℝ) : Fl := if ∃ m : ℕ, x = -m then .pinf else .fin (Real.Gamma x)

/-- `scipy.special.gammaln` for a real argument: `log |Γ(x)|`, `+inf` at the poles. -/
noncomputable def gammalnFl (x : ℝ) : Fl :=
  if ∃ m : ℕ, x = -m then .pinf else .fin (Real.log |Real.Gamma x|)

/-- combinatorics.py:7-32 `comb(n, r, log)` for one pair of real numbers. -/
noncomputable def comb (n r : ℝ) (log : Bool) : Fl :=
  if log then gammalnFl (n + 1) - gammalnFl (n + 1 - r) - gammalnFl (r + 1)
  else gammaFl (n + 1) / (gammaFl (n + 1 - r) * gammaFl (r + 1))

/-- combinatorics.py:35-60 `perm(n, r, log)` for one pair of real numbers. -/
noncomputable def perm (n r : ℝ) (log : Bool) : Fl :=
  if log then gammalnFl (n + 1) - gammalnFl (n + 1 - r)
  else gammaFl (n + 1) / gammaFl (n + 1 - r)

/-- An integer scalar or a 1-dimensional integer array (`np.asarray(j, int)`). -/
inductive IntArg
  | scalar (n : ℤ)
  | arr (l : List ℤ)

/-- The elements of the argument. -/
def IntArg.toList : IntArg → List ℤ
  | .scalar n => [n]
  | .arr l => l

/-- A float scalar or a 1-dimensional float array. -/
inductive FlRes
  | scalar (x : Fl)
  | arr (l : List Fl)

/-- The value(s) of the result. -/
def FlRes.toList : FlRes → List Fl
  | .scalar x => [x]
  | .arr l => l

/-- `[l[i % len(l)] for i in range(n)]`, special_func.py:298-301; `ZeroDivisionError` for an empty
list. -/
def recycle (l : List ℤ) (n : ℕ) : Except PyErr (List ℤ) :=
  if l.length = 0 then (if n = 0 then .ok [] else .error .zeroDivision)
  else .ok ((List.range n).map fun i => l.getD (i % l.length) 0)

/-- special_func.py:303-310, the value for one pair when `alpha < 1`. `(-1) ** e` with a float
exponent that is an integer. -/
noncomputable def signFFElem (α : ℝ) (j d : ℤ) : Fl :=
  let x := α * j
  if x ≠ ⌊x⌋ then .fin ((-1) ^ (j - ⌈x⌉)) else if j > d then .nan else .fin 0

/-- special_func.py:313: an array of size one is returned as its only element. -/
def squeezeRes : List Fl → FlRes
  | [v] => .scalar v
  | res => .arr res

/-- special_func.py:266-313 `sign_ff(alpha, j, d)`. -/
noncomputable def signFF (α : ℝ) (j d : IntArg) : Except PyErr FlRes :=
  if ¬ (0 < α ∧ α ≤ 1) then .error .assertionError
  else if ¬ (∀ v ∈ d.toList, 0 ≤ v) then .error .assertionError
  else if ¬ (∀ v ∈ j.toList, 0 ≤ v) then .error .assertionError
  else
    let go (jl dl : List ℤ) : Except PyErr FlRes :=
      if α = 1 then
        -- `(j > d) * (-1) ** (d - j) + (j == d)`: negative integer powers are an error
        if ∃ p ∈ List.zip jl dl, p.1 > p.2 then .error .valueError
        else .ok (squeezeRes (List.zipWith (fun a b => if a = b then Fl.fin 1 else .fin 0) jl dl))
      else .ok (squeezeRes (List.zipWith (signFFElem α) jl dl))
    match j, d with
    | .scalar _, .scalar _ =>
        -- both are Python ints: `res.size` resp. `j[ind]` fails
        if α = 1 then .error .attributeError else .error .typeError
    | .arr jl, .scalar b => go jl (List.replicate jl.length b)
    | .scalar a, .arr dl => go (List.replicate dl.length a) dl
    | .arr jl, .arr dl =>
        if dl.length > jl.length then do go (← recycle jl dl.length) dl
        else if jl.length > dl.length then do go jl (← recycle dl jl.length)
        else go jl dl

/-- Maximum of a non-empty array, `np.max`; `ValueError` when empty. -/
noncomputable def npMax : List Fl → Except PyErr Fl
  | [] => .error .valueError
  | a :: l => .ok (l.foldl Fl.maximum a)

/-- The same for integers. -/
def intMax : List ℤ → Except PyErr ℤ
  | [] => .error .valueError
  | a :: l => .ok (l.foldl max a)

/-- Methods of `dsum_sibuya`. -/
inductive SibMethod
  | log
  | direct
  | diff

/-- `np.diff` of order one. -/
noncomputable def diff1 (l : List Fl) : List Fl := List.zipWith (fun a b => b - a) l l.tail

/-- auxiliary.py:70-79, one summand of method 'log'. -/
noncomputable def sibuyaLog (α : ℝ) (signs : FlRes) (xx nn : ℤ) : Except PyErr Fl :=
  if xx < nn then .ok .ninf
  else
    match signs with
    | .scalar _ =>
        -- `np.max` of an empty array comes first
        if nn.toNat = 0 then .error .valueError else .error .typeError
    | .arr sg => do
        let lxabs := (List.range nn.toNat).map fun (j : ℕ) =>
          comb nn (j + 1) true + comb (α * (j + 1)) xx true
        let offset ← npMax lxabs
        let sum := (List.zipWith (fun s l => s * Fl.exp (l - offset)) sg lxabs).sum
        return Fl.log sum + offset

/-- auxiliary.py:83-87, one summand of method 'direct'. -/
noncomputable def sibuyaDirect (α : ℝ) (xx nn : ℤ) : Fl :=
  if xx < nn then .fin 0
  else ((List.range nn.toNat).map fun (j : ℕ) =>
    comb nn (j + 1) false * comb (α * (j + 1)) xx false * .fin ((-1) ^ (xx - (j + 1)))).sum

/-- auxiliary.py:92-94, one summand of method 'diff'. -/
noncomputable def sibuyaDiff (α : ℝ) (xx nn : ℤ) : Except PyErr Fl :=
  let dd := (List.range (nn.toNat + 1)).map fun (i : ℕ) => comb (((nn.toNat - i : ℕ) : ℝ) * α) xx false
  match diff1^[nn.toNat] dd with
  | [v] => if xx < 0 then .error .valueError else .ok (v * .fin ((-1) ^ xx))
  | _ => .error .valueError

/-- auxiliary.py:6-96 `dsum_sibuya(x, n, alpha, method, log)`. `np.repeat` of an array with several
elements repeats every element; the loop runs over the first `len_long` pairs. -/
noncomputable def dsumSibuya (x n : List ℤ) (α : ℝ) (method : SibMethod) (log : Bool) :
    Except PyErr (List Fl) :=
  if ¬ (∀ v ∈ n, 0 ≤ v) then .error .assertionError
  else if ¬ (0 < α ∧ α ≤ 1) then .error .assertionError
  else
    let len := max x.length n.length
    let x' := if x.length < n.length then x.flatMap (List.replicate len) else x
    let n' := if n.length < x.length then n.flatMap (List.replicate len) else n
    if α = 1 then
      if x'.length = n'.length then
        .ok (List.zipWith (fun a b => if a = b then Fl.fin 1 else .fin 0) x' n')
      else .error .valueError
    else
      let pairs := (List.zip x' n').take len
      match method with
      | .log => do
          let m ← intMax n'
          let signs ← signFF α (.arr ((List.range m.toNat).map fun (i : ℕ) => (i : ℤ) + 1)) (.arr x')
          let s ← pairs.mapM fun p => sibuyaLog α signs p.1 p.2
          return if log then s else s.map Fl.exp
      | .direct => do
          let s := pairs.map fun p => sibuyaDirect α p.1 p.2
          return if log then s.map Fl.log else s
      | .diff => do
          let s ← pairs.mapM fun p => sibuyaDiff α p.1 p.2
          return if log then s.map Fl.log else s

/-- Methods of `gumbel_coef`. -/
inductive CoefMethod
  | sort
  | horner
  | direct
  | log
  | dsDirect
  | diff
  deriving DecidableEq

/-- `l[::2]` -/
def everyOther {α : Type*} : List α → List α
  | [] => []
  | [a] => [a]
  | a :: _ :: l => a :: everyOther l

/-- gumbel.py:340 `ck`: `[1, d, d(d-1), ..., d!]` reversed. -/
def gumbelCk (d : ℕ) : List ℕ :=
  (1 :: cumProd 1 ((List.range (d - 1)).map fun i => d - i)).reverse

/-- gumbel.py:299-309, the loop body of method 'sort'. -/
noncomputable def coefSort (d : ℕ) (α : ℝ) (log : Bool) (s : List ℤ) (S : List (List ℤ))
    (i : ℕ) : Except PyErr Fl := do
  let b := (List.range' i (d - i)).map fun (x : ℕ) =>
    .fin ((x : ℝ) + 1) * Fl.log (.fin α) + Fl.log (.fin |((s.getD x 0 : ℤ) : ℝ)|)
      + Fl.log (.fin (((S.getD x []).getD i 0 : ℤ) : ℝ))
  let mx ← npMax b
  let ex := b.map fun v => Fl.exp (v - mx)
  let sum := (everyOther ex).sum - (everyOther ex.tail).sum
  return if log then Fl.log sum + mx else Fl.exp mx * sum

/-- gumbel.py:317-322, the loop body of method 'horner'. -/
noncomputable def coefHorner (d : ℕ) (α : ℝ) (log : Bool) (s : List ℤ) (S : List (List ℤ))
    (i : ℕ) : Except PyErr Fl := do
  let c := (List.range' i (d - i)).map fun (j : ℕ) =>
    Fl.fin (|((s.getD j 0 : ℤ) : ℝ)| * (((S.getD j []).getD i 0 : ℤ) : ℝ))
  let pol ← polynEval c (.fin (-α))
  return if log then .fin ((i : ℝ) + 1) * Fl.log (.fin α) + Fl.log pol
    else pol * .fin (α ^ (i + 1))

/-- gumbel.py:329-333, the loop body of method 'direct'. -/
noncomputable def coefDirect (d : ℕ) (α : ℝ) (log : Bool) (s : List ℤ) (S : List (List ℤ))
    (i : ℕ) : Fl :=
  let sum := ((List.range' i (d - i)).map fun (j : ℕ) =>
    α ^ (j + 1) * ((s.getD j 0 : ℤ) : ℝ) * (((S.getD j []).getD i 0 : ℤ) : ℝ)).sum
  if log then Fl.log (.fin |sum|) else .fin ((-1) ^ (d - i + 1) * sum)

/-- gumbel.py:266-347 `gumbel_coef(d, alpha, method, log)`. Powers and products of finite numbers
are exact. -/
noncomputable def gumbelCoef (d : ℕ) (α : ℝ) (method : CoefMethod) (log : Bool) :
    Except PyErr (List Fl) :=
  if ¬ (0 < α ∧ α ≤ 1) then .error .assertionError
  else if ¬ 1 ≤ d then .error .assertionError
  else do
    let viaSibuya (m : SibMethod) : Except PyErr (List Fl) := do
      let p ← dsumSibuya [(d : ℤ)] ((List.range d).map fun (i : ℕ) => (i : ℤ) + 1) α m log
      let ck := (gumbelCk d).map fun (c : ℕ) => Fl.fin (c : ℝ)
      return if log then List.zipWith (fun p c => p + Fl.log c) p ck
        else List.zipWith (fun p c => p * c) p ck
    match method with
    | .sort => do
        let s ← stirlingFirstAll d
        let S ← (List.range d).mapM fun (i : ℕ) => stirlingSecondAll (i + 1)
        (List.range d).mapM (coefSort d α log s S)
    | .horner => do
        let s ← stirlingFirstAll d
        let S ← (List.range d).mapM fun (i : ℕ) => stirlingSecondAll (i + 1)
        (List.range d).mapM (coefHorner d α log s S)
    | .direct => do
        let s ← stirlingFirstAll d
        let S ← (List.range d).mapM fun (i : ℕ) => stirlingSecondAll (i + 1)
        return (List.range d).map (coefDirect d α log s S)
    | .log => viaSibuya .log
    | .dsDirect => viaSibuya .direct
    | .diff => viaSibuya .diff

end Copulae
