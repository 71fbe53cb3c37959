import Mathlib.Data.Nat.Choose.Basic
import Mathlib.Data.List.Range
import Verif.Model.PyErr
import Verif.Model.FlAlg

/-!
Model of the combinatorial part of `copulae/special/special_func.py`:
`eulerian`, `eulerian_all`, `poly_log`, `polyn_eval`, `stirling_first`,
`stirling_first_all`, `stirling_second`, `stirling_second_all`, `log_sum`.

Python integers are unbounded, so they are `ℤ` here. Arguments that are not
integers (and the `int(...)` conversions) are not modelled.
-/

namespace Copulae

/-- special_func.py:347-350, one pass of the loop of `stirling_first`: every new entry is
computed from the copy `last_row`. All indices used are within the list. -/
def stirlingFirstStep (last : List ℤ) (i : ℕ) : List ℤ :=
  (List.range last.length).map fun j =>
    if j = 0 then -(i : ℤ) * last.getD 0 0
    else last.getD (j - 1) 0 - (i : ℤ) * last.getD j 0

/-- special_func.py:316-352 `stirling_first(n, k)`. -/
def stirlingFirst (n k : ℤ) : Except PyErr ℤ :=
  if ¬ (0 ≤ k ∧ k ≤ n) then .error .assertionError
  else if n = 0 ∨ n = k then .ok 1
  else if k = 0 then .ok 0
  else
    match ((List.range' 1 (n.toNat - 1)).foldl stirlingFirstStep
        (1 :: List.replicate (k.toNat - 1) 0)).getLast? with
    | some v => .ok v
    | none => .error .indexError

/-- special_func.py:355-370 `stirling_first_all(n)`. -/
def stirlingFirstAll (n : ℕ) : Except PyErr (List ℤ) :=
  (List.range n).mapM fun (k : ℕ) => stirlingFirst n (k + 1)

/-- special_func.py:404-406, one pass of the loop of `stirling_second`; entry 0 is not touched. -/
def stirlingSecondStep (last : List ℤ) (_ : ℕ) : List ℤ :=
  (List.range last.length).map fun (i : ℕ) =>
    if i = 0 then last.getD 0 0
    else ((i : ℤ) + 1) * last.getD i 0 + last.getD (i - 1) 0

/-- special_func.py:373-408 `stirling_second(n, k)`. -/
def stirlingSecond (n k : ℤ) : Except PyErr ℤ :=
  if ¬ (0 ≤ k ∧ k ≤ n) then .error .assertionError
  else if n = 0 ∨ n = k then .ok 1
  else if k = 0 then .ok 0
  else
    match ((List.range' 1 (n.toNat - 1)).foldl stirlingSecondStep
        (1 :: List.replicate (k.toNat - 1) 0)).getLast? with
    | some v => .ok v
    | none => .error .indexError

/-- special_func.py:411-425 `stirling_second_all(n)`. -/
def stirlingSecondAll (n : ℕ) : Except PyErr (List ℤ) :=
  (List.range n).mapM fun (k : ℕ) => stirlingSecond n (k + 1)

/-- special_func.py:49-53, the alternating sum of `eulerian`. `comb(n + 1, j)` with integer
arguments is the binomial coefficient; the rounding to an integer is exact here. -/
def eulerianSum (n k : ℕ) : ℤ :=
  ((List.range (k + 1)).map fun j =>
    (-1) ^ j * ((n + 1).choose j : ℤ) * ((k + 1 - j : ℕ) : ℤ) ^ n).sum

/-- special_func.py:13-53 `eulerian(n, k)`. -/
def eulerian (n k : ℤ) : Except PyErr ℤ :=
  if ¬ (0 ≤ k ∧ k ≤ n) then .error .assertionError
  else if k = n then .ok 0
  else if k = 0 then .ok 1
  else
    .ok (eulerianSum n.toNat (if k ≥ (n + 1) / 2 then n - k - 1 else k).toNat)

/-- special_func.py:56-74 `eulerian_all(n)`; for `n = 0` the integer 1 is returned instead of a
list, which `polyn_eval` turns into `[1]`. -/
def eulerianAll (n : ℕ) : Except PyErr (List ℤ) :=
  if n = 0 then .ok [1] else (List.range n).mapM fun (i : ℕ) => eulerian n i

/-- special_func.py:225-263 `polyn_eval(coef, x)` for a single point `x`. -/
def polynEval {α : Type} [Add α] [Mul α] (coef : List α) (x : α) : Except PyErr α :=
  match coef.getLast? with
  | none => .error .indexError
  | some c =>
      if coef.length = 1 then .ok c
      else .ok (coef.dropLast.reverse.foldl (fun r j => j + r * x) c)

/-- `np.cumprod([1, *range(1, n + 1)])`: the running products, special_func.py:206. -/
def cumProd (acc : ℕ) : List ℕ → List ℕ
  | [] => []
  | a :: l => (acc * a) :: cumProd (acc * a) l

/-- `scipy.stats.logistic.ppf`. -/
noncomputable def logisPpf (z : Fl) : Fl :=
  open Classical in
  if Fl.fin 0 ≤ z ∧ z ≤ Fl.fin 1 then Fl.log (z / (.fin 1 - z)) else .nan

/-- `poly_log` algorithms; 'default' is 'neg-stirling' when `s ≠ 2`. -/
inductive PolyMethod
  | negStirling
  | negEulerian

/-- special_func.py:157-222 `poly_log(z, s, method, log)` for integers `s ≤ 1` (for `s = 2` the
default method calls the dilogarithm: `polyLogTwo` in Model/Dilog) and one point `z`. -/
noncomputable def polyLog (z : Fl) (s : ℤ) (m : PolyMethod) (log : Bool) : Except PyErr Fl :=
  if s > 1 then .error .assertionError
  else if s = 1 then
    let r := -(Fl.log1p (-z))
    .ok (if log then Fl.log r else r)
  else
    let n := s.natAbs
    let iz := Fl.fin 1 - z
    match m with
    | .negStirling => do
        let r := z / iz
        let f := cumProd 1 (1 :: List.range' 1 n)
        let st ← stirlingSecondAll (n + 1)
        let p ← polynEval (List.zipWith (fun (a : ℕ) (b : ℤ) => Fl.fin ((a : ℝ) * (b : ℝ))) f st) r
        return if log then Fl.log p + logisPpf z else r * p
    | .negEulerian => do
        let e ← eulerianAll n
        let p ← polynEval (e.map fun (c : ℤ) => Fl.fin (c : ℝ)) z
        return if log then
            Fl.log p + Fl.log z - (.fin ((n : ℝ) + 1)) * Fl.log1p (-z)
          else z * p / (iz ^ (n + 1))

/-- special_func.py:111-154 `log_sum` of one column. With `offset = None` the maximum of the
column is used (`max` of an empty column raises `ValueError`). -/
noncomputable def logSum (x : List Fl) (offset : Option Fl) : Except PyErr Fl :=
  match offset with
  | some o => .ok (o + Fl.log ((x.map fun v => Fl.exp (v - o)).sum))
  | none =>
      match x with
      | [] => .error .valueError
      | a :: l =>
          let o := l.foldl Fl.maximum a
          .ok (o + Fl.log ((x.map fun v => Fl.exp (v - o)).sum))

end Copulae
