import Verif.Model.LogLik

/-!
`log_lik` of the independence copula.
-/

namespace Copulae

/-- base.py:142-166 `log_lik(data, ties=ties)`, with the default `to_pobs=True`, of `IndepCopula(d)`, whose density is indep.py:55-59. The
sum of integer zeros is a number; its type is not modelled. -/
noncomputable def indepLogLikPobs {α : Type} [LinearOrder α] {n d : ℕ} (data : Fin n → Fin d → α) (ties : String) : Except PyErr Fl := do
  let u ← pobsMat data ties
  arrayLogLik (fun x log => indepPdf d x log) fun i j => .fin ((u i j : ℚ) : ℝ)

end Copulae
