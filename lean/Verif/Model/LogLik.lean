import Verif.Model.Marginal

/-!
`log_lik` of `copulae/copula/base.py` on arrays of real numbers that are not converted to pseudo-observations.
-/

namespace Copulae

/-- base.py:142-166 `log_lik(data, to_pobs=False)` of a copula with the given density, on an array. `baseLogLik` is the same function on
arrays of rational numbers (`baseLogLik_raw`). -/
noncomputable def arrayLogLik {d : ℕ} (pdf : {n : ℕ} → (Fin n → Fin d → Fl) → Bool → Except PyErr (Fin n → Fl)) {n : ℕ}
    (x : Fin n → Fin d → Fl) : Except PyErr Fl := do
  let v ← pdf x true
  sumLog v

theorem baseLogLik_raw {d : ℕ} (pdf : {n : ℕ} → (Fin n → Fin d → Fl) → Bool → Except PyErr (Fin n → Fl)) {n : ℕ}
    (data : Fin n → Fin d → ℚ) (ties : String) :
    baseLogLik pdf data false ties = arrayLogLik pdf fun i j => .fin ((data i j : ℚ) : ℝ) := rfl

/-- base.py:142-166 `log_lik(data, ties=ties)` with the default `to_pobs=True`, and for elliptical copulas elliptical/abstract.py:39-46, on a
two-dimensional array of numbers of any kind: only their ranks are used. `logLikPobs_eq` says that this is `logLik` when the data are
rational. -/
noncomputable def logLikPobs {α : Type} [LinearOrder α] (env : FitEnv) (c : FitCop) {n d : ℕ} (data : Fin n → Fin d → α) (ties : String) :
    Except PyErr Fl := do
  let cut ← logLikCut c
  if cut then return .ninf
  else do
    let u ← pobsMat data ties
    env.logPdfSum c n d u

theorem logLikPobs_eq (env : FitEnv) (c : FitCop) {n d : ℕ} (data : Fin n → Fin d → ℚ) (ties : String) :
    logLikPobs env c data ties = logLik env c data true ties := rfl

end Copulae
