import Verif.Model.GofRun

/-!
`gof_copula(multiprocess=True)`.
-/

namespace Copulae

/-- gof/goodness_of_fit/goodness_of_fit.py:114-122 `_process_result` of the fitted copula `c`, with the random numbers it draws. -/
noncomputable def gofTask {G : Gen} {σ : Type} {n d : ℕ} (fit : (Fin n → Fin d → ℝ) → Except PyErr σ)
    (cdf : σ → (Fin n → Fin d → ℝ) → Fin n → Fl) (random : σ → Rnd G (Fin n → Fin d → Fl))
    (data : Fin n → Fin d → ℝ) (ties fitTies : String) (c : σ) : Rnd G Fl := do
  let a ← random c
  let u ← Rnd.ofExcept (realRows a)
  Rnd.ofExcept (gofReplicate fit cdf data u ties fitTies)

/-- `concurrent.futures.ProcessPoolExecutor` where processes are forked (the default on Linux up to Python 3.13): every worker starts with a
copy of the state `s` of the generator in the process that forks it, and keeps its own state from one task to the next. `who i` is the worker
that takes task `i`; which one does is not determined. The results of the first `k` tasks and the states of the workers after them. Other
start methods, which give every worker a state of its own, are not modelled. -/
def poolRun {G : Gen} {α : Type} (task : Rnd G α) (who : ℕ → ℕ) (s : G.S) : ℕ → List (Except PyErr α) × (ℕ → G.S)
  | 0 => ([], fun _ => s)
  | k + 1 =>
    let p := poolRun task who s k
    let r := (task.run).run (p.2 (who k))
    (p.1 ++ [r.1], Function.update p.2 (who k) r.2)

/-- gof/goodness_of_fit/goodness_of_fit.py:84-112 `gof_copula(multiprocess=True)`. Line 102 submits a task, waits for its result and only then
submits the next; the first exception ends the list. The process that calls `gof_copula` draws nothing itself, so all workers are forked from
the same state. That the object and its results survive pickling is assumed. -/
noncomputable def gofRunPar {G : Gen} {σ : Type} {n d : ℕ} (who : ℕ → ℕ) (fit : (Fin n → Fin d → ℝ) → Except PyErr σ)
    (cdf : σ → (Fin n → Fin d → ℝ) → Fin n → Fl) (random : σ → Rnd G (Fin n → Fin d → Fl))
    (data : Fin n → Fin d → ℝ) (reps : ℤ) (ties fitTies : String) : Rnd G (σ × Fl × ℝ) := do
  let r ← Rnd.ofExcept (gofFit fit cdf data ties fitTies)
  let s ← Rnd.draw fun s => (s, s)
  let ts ← Rnd.ofExcept ((poolRun (gofTask fit cdf random data ties fitTies r.1) who s reps.toNat).1.mapM id)
  if reps + 1 = 0 then throw .zeroDivision
  else return (r.1, r.2, gofPValue ts r.2 reps)

end Copulae
