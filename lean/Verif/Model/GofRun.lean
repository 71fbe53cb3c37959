import Verif.Model.Fit
import Verif.Model.Gof
import Verif.Model.Seeding
import Verif.Model.Stable

/-!
`gof_copula` with the random numbers it draws.
-/

namespace Copulae

/-- gof/goodness_of_fit/goodness_of_fit.py:115 `u = self.copula.random(self.data.n_row)` as an array of numbers. What the ranks of
infinite and undefined values are is not modelled: the computation stops. -/
noncomputable def realRows {n d : ℕ} (u : Fin n → Fin d → Fl) : Except PyErr (Fin n → Fin d → ℝ) :=
  open Classical in
  if h : ∃ x : Fin n → Fin d → ℝ, u = fun i j => .fin (x i j) then .ok h.choose else .error .valueError

/-- gof/goodness_of_fit/goodness_of_fit.py:84-122 `gof_copula` without multiprocessing: after the fit to the data, line 104 draws
the replicates from the fitted copula one after another. `random c` is `random(n_row)` of the copula `c`. Returns the fitted copula,
the statistic and the p-value. -/
noncomputable def gofRun {G : Gen} {σ : Type} {n d : ℕ} (fit : (Fin n → Fin d → ℝ) → Except PyErr σ)
    (cdf : σ → (Fin n → Fin d → ℝ) → Fin n → Fl) (random : σ → Rnd G (Fin n → Fin d → Fl))
    (data : Fin n → Fin d → ℝ) (reps : ℤ) (ties fitTies : String) : Rnd G (σ × Fl × ℝ) := do
  let r ← Rnd.ofExcept (gofFit fit cdf data ties fitTies)
  let ts ← (List.range reps.toNat).mapM fun _ => do
    let a ← random r.1
    let u ← Rnd.ofExcept (realRows a)
    Rnd.ofExcept (gofReplicate fit cdf data u ties fitTies)
  if reps + 1 = 0 then throw .zeroDivision
  else return (r.1, r.2, gofPValue ts r.2 reps)

/-- gof/goodness_of_fit/goodness_of_fit.py:126 `copula.fit(data.fitted_pobs, **self.fit_options)` on a new copula `o`, as the copula it
leaves. -/
noncomputable def gofFitOf (env : FitEnv) (opt : List Fl → OptTree) (o : FitObj) (x0 : Option ParamArg) (method ties : String)
    (scale : Fl) {n d : ℕ} (u : Fin n → Fin d → ℝ) : Except PyErr FitObj :=
  match o.fitPobs env opt u x0 method ties scale with
  | (o', .ok _) => .ok o'
  | (_, .error e) => .error e

/-- gof/goodness_of_fit/goodness_of_fit.py:147 `copula.cdf(data)` of an Archimedean copula. Where `cdf` would raise, and for elliptical
copulas, the value is nan. -/
noncomputable def gofCdfOf (o : FitObj) {n d : ℕ} (u : Fin n → Fin d → ℝ) (i : Fin n) : Fl :=
  match o.cop with
  | .arch F st =>
    match st.theta with
    | .fin r =>
      match archCdf F r st.dim (fun i j => .fin (u i j)) false with
      | .ok v => v i
      | .error _ => .nan
    | _ => .nan
  | _ => .nan

/-- gof/goodness_of_fit/goodness_of_fit.py:115 `copula.random`, dispatched on the class of the fitted copula: clayton.py:145 for Clayton
and gumbel.py:228 for Gumbel copulas. For the other classes, and for parameters that are not finite, the model draws independent
uniforms, and no theorem uses that. -/
noncomputable def objSampler {G : Gen} {d : ℕ} (o : FitObj) : Sampler G d :=
  match o.cop with
  | .arch F st =>
    match F, st.theta with
    | .clayton, .fin r => .clayton r
    | .gumbel, .fin r => .gumbel gumbelFrail r
    | _, _ => .indep
  | _ => .indep

end Copulae
