import Verif.Model.Tri
import Verif.Model.Num

/-!
Model of `copulae/stats/correlation.py`.

The correlation coefficients of two samples (`scipy.stats.pearsonr`, `kendalltau`, `spearmanr`, first
component of the result, or the exception they raise) are parameters. Simplifications: labels of pandas
objects are not modelled (`format_output` only attaches them); the array is given by the list of its
rows.
-/

namespace Copulae

open Classical

/-- The coefficients of SciPy on two samples of equal length. -/
structure CorrFns where
  pearson : List Fl → List Fl → Except PyErr Fl
  kendall : List Fl → List Fl → Except PyErr Fl
  spearman : List Fl → List Fl → Except PyErr Fl

/-- The first argument of `corr`. -/
inductive CorrArg
  | vec (x : List Fl)
  | mat (p : ℕ) (rows : List (Fin p → Fl))
  | nd (ndim : ℕ)

/-- `_validate_use` result. -/
inductive CorrUse
  | everything
  | complete
  | pairwise
  deriving DecidableEq

/-- correlation.py:264-272 `_validate_use`. -/
def validateUse (use : String) : Except PyErr CorrUse :=
  if pyLower use = "everything".toList then .ok .everything
  else if pyLower use = "complete".toList then .ok .complete
  else if pyLower use = "pairwise.complete".toList then .ok .pairwise
  else .error .valueError

/-- correlation.py:235-256: the coefficient selected by `method`. -/
def corrFunc (fns : CorrFns) (method : String) : Except PyErr (List Fl → List Fl → Except PyErr Fl) :=
  let m := pyLower method
  if m ∉ ["pearson".toList, "kendall".toList, "spearman".toList, "tau".toList, "rho".toList] then
    .error .valueError
  else if m = "kendall".toList ∨ m = "tau".toList then .ok fns.kendall
  else if m = "spearman".toList ∨ m = "rho".toList then .ok fns.spearman
  else .ok fns.pearson

/-- correlation.py:258-259 `compute_corr`. -/
noncomputable def computeCorr (f : List Fl → List Fl → Except PyErr Fl) (u v : List Fl) : Except PyErr Fl :=
  if (u.zip v).any fun e => decide (¬ e.1.isFin ∨ ¬ e.2.isFin) then .ok .nan else f u v

/-- correlation.py:290-292: the pairs `i < j` in order. -/
def corrPairs (p : ℕ) : List (Fin p × Fin p) :=
  (List.finRange p).flatMap fun i => ((List.finRange p).filter fun j => i < j).map fun j => (i, j)

/-- correlation.py:275-297 `_yield_vectors`: the samples compared for columns `i` and `j`. -/
noncomputable def corrVectors {p : ℕ} (rows : List (Fin p → Fl)) (use : CorrUse) (i j : Fin p) :
    List Fl × List Fl :=
  let x : List (Fin p → Fl) := match use with
    | .complete => rows.filter fun r : Fin p → Fl => decide (∀ k, ¬ (r k).isNan)
    | _ => rows
  match use with
  | .pairwise =>
      let v := rows.filter fun r => decide (¬ (r i).isNan ∧ ¬ (r j).isNan)
      (v.map fun r => r i, v.map fun r => r j)
  | _ => (x.map fun r => r i, x.map fun r => r j)

/-- `c[i, j] = c[j, i] = v`. -/
def setSym {p : ℕ} (c : SqMat Fl p) (i j : Fin p) (v : Fl) : SqMat Fl p :=
  fun a b => if (a = i ∧ b = j) ∨ (a = j ∧ b = i) then v else c a b

/-- `np.identity(p)`. -/
def flIdentity (p : ℕ) : SqMat Fl p := fun a b => if a = b then .fin 1 else .fin 0

/-- correlation.py:139-140: one step of the loop. -/
noncomputable def corrStep {p : ℕ} (f : List Fl → List Fl → Except PyErr Fl) (use : CorrUse)
    (rows : List (Fin p → Fl)) (c : SqMat Fl p) (ij : Fin p × Fin p) : Except PyErr (SqMat Fl p) := do
  let v ← computeCorr f (corrVectors rows use ij.1 ij.2).1 (corrVectors rows use ij.1 ij.2).2
  return setSym c ij.1 ij.2 v

/-- correlation.py:300-332 `_form_xy_vector`. -/
noncomputable def formXY (x y : List Fl) (use : CorrUse) : Except PyErr (List Fl × List Fl) :=
  if x.length ≠ y.length then .error .valueError
  else match use with
    | .everything => .ok (x, y)
    | _ =>
      let v := (x.zip y).filter fun e => decide (¬ (e.1.isNan ∨ e.2.isNan))
      .ok (v.map Prod.fst, v.map Prod.snd)

/-- correlation.py:93-142 `corr(x, y, method, use)`. -/
noncomputable def corr (fns : CorrFns) (x : CorrArg) (y : Option CorrArg) (method use : String) :
    Except PyErr (Σ p : ℕ, SqMat Fl p) := do
  let use ← validateUse use
  let f ← corrFunc fns method
  match y with
  | some y =>
      match x, y with
      | .vec x, .vec y => do
          let xy ← formXY x y use
          let v ← computeCorr f xy.1 xy.2
          return ⟨2, setSym (flIdentity 2) 0 1 v⟩
      | _, _ => .error .valueError
  | none =>
      match x with
      | .mat p rows => do
          let c ← (corrPairs p).foldlM (corrStep f use rows) (flIdentity p)
          return ⟨p, c⟩
      | _ => .error .valueError

end Copulae
