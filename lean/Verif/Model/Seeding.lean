import Verif.Model.ArchRandom
import Verif.Model.Empirical

/-!
Model of the use of random generators by `random` of every copula, and by `exch_test`.

A generator `Gen` is a type of states, the state after seeding, and the draws as functions of the state.
`np.random` is one global state; `scipy.stats.multivariate_normal.rvs(random_state=s)` uses a separate
generator when `s` is an integer and the global one when it is `None`. The distributions are not modelled here:
every draw is an arbitrary function of the state. NumPy seeds are the integers from 0 to 2³² - 1, other
integers raise `ValueError`.
-/

namespace Copulae

/-- A random generator and the draws the code makes from it. -/
structure Gen where
  S : Type
  ofSeed : ℕ → S
  /-- `uniform(size=(n, d))` -/
  uniform : (n d : ℕ) → S → (Fin n → Fin d → Fl) × S
  /-- `uniform(size=n)` -/
  uniform1 : (n : ℕ) → S → (Fin n → ℝ) × S
  /-- `standard_gamma(shape, n)` -/
  gamma : ℝ → (n : ℕ) → S → (Fin n → Fl) × S
  /-- `standard_exponential(n)` -/
  expo : (n : ℕ) → S → (Fin n → ℝ) × S
  /-- `chisquare(df, n)` -/
  chisq : ℝ → (n : ℕ) → S → (Fin n → ℝ) × S
  /-- `randint(0, m, n)` -/
  randint : (m n : ℕ) → S → (Fin n → ℕ) × S
  /-- `choice(range(k), n, p=prob)` -/
  choice : (k n : ℕ) → (Fin k → ℝ) → S → (Fin n → ℕ) × S
  /-- `normal(size=n)` -/
  normal : (n : ℕ) → S → (Fin n → ℝ) × S
  /-- multivariate normal variates with given mean and covariance matrix -/
  mvn : (n d : ℕ) → (Fin d → ℝ) → (Fin d → Fin d → ℝ) → S → (Fin n → Fin d → ℝ) × S

/-- A computation that may draw from and seed the global generator, and may raise. -/
abbrev Rnd (G : Gen) := ExceptT PyErr (StateM G.S)

/-- A draw from the global generator. -/
def Rnd.draw {G : Gen} {α : Type} (f : G.S → α × G.S) : Rnd G α := ExceptT.lift (StateT.mk fun s => pure (f s))

/-- A computation that does not use the generator. -/
def Rnd.ofExcept {G : Gen} {α : Type} (r : Except PyErr α) : Rnd G α := ExceptT.mk (pure r)

/-- The generator state of a seed. -/
def checkSeed (G : Gen) (s : ℤ) : Except PyErr G.S :=
  if 0 ≤ s ∧ s < 2 ^ 32 then .ok (G.ofSeed s.toNat) else .error .valueError

/-- `if seed is not None: np.random.seed(seed)`. -/
def seedGlobal {G : Gen} (seed : Option ℤ) : Rnd G Unit :=
  match seed with
  | none => pure ()
  | some s =>
    match checkSeed G s with
    | .ok σ => ExceptT.lift (set σ)
    | .error e => throw e

/-- `mvn.rvs(mean, cov, size, random_state)`. -/
def mvnRvs {G : Gen} (n d : ℕ) (mean : Fin d → ℝ) (cov : Fin d → Fin d → ℝ) (seed : Option ℤ) :
    Rnd G (Fin n → Fin d → ℝ) :=
  match seed with
  | none => Rnd.draw (G.mvn n d mean cov)
  | some s =>
    match checkSeed G s with
    | .ok σ => pure (G.mvn n d mean cov σ).1
    | .error e => throw e

/-- stats/uniform.py:6-9 `random_uniform`. -/
def randomUniform {G : Gen} (n dim : ℕ) (seed : Option ℤ) : Rnd G (Fin n → Fin dim → Fl) := do
  seedGlobal seed
  Rnd.draw (G.uniform n dim)

/-- indep/indep.py:62-63 `random`. -/
def indepRandomG {G : Gen} (n dim : ℕ) (seed : Option ℤ) : Rnd G (Fin n → Fin dim → Fl) :=
  randomUniform n dim seed

open Classical in
/-- clayton.py:145-161 `random`. -/
noncomputable def claytonRandomG {G : Gen} (θ : ℝ) (n dim : ℕ) (seed : Option ℤ) :
    Rnd G (Fin n → Fin dim → Fl) := do
  if |θ| < 1 / 10 ^ 7 then randomUniform n dim seed
  else do
    let r ← randomUniform n dim seed
    if dim = 2 then Rnd.ofExcept (claytonRandom θ r fun _ => .nan)
    else do
      let gam ← Rnd.draw (G.gamma (1 / θ) n)
      Rnd.ofExcept (claytonRandom θ r gam)

open Classical in
/-- frank.py:174-191 `random`; `logSeries` is `random_log_series_ln1p(-theta, n)`, a computation on the
global generator. -/
noncomputable def frankRandomG {G : Gen} (logSeries : ℝ → (n : ℕ) → Rnd G (Fin n → Fl)) (θ : ℝ) (n dim : ℕ)
    (seed : Option ℤ) : Rnd G (Fin n → Fin dim → Fl) := do
  let u ← randomUniform n dim seed
  if |θ| < 1 / 10 ^ 7 then return u
  else if dim = 2 then return frankRandom θ u fun _ => .nan
  else if log1mexp (.fin θ) = Fl.fin 0 then return fun _ _ => .fin 1
  else do
    let fr ← logSeries (-θ) n
    return frankRandom θ u fr

open Classical in
/-- gumbel.py:228-243 `random`. `stable` computes the frailty from a uniform and an exponential variate
(stable.py:156-170). -/
noncomputable def gumbelRandomG {G : Gen} (stable : ℝ → ℝ → ℝ → Fl) (θ : ℝ) (n dim : ℕ) (seed : Option ℤ) :
    Rnd G (Fin n → Fin dim → Fl) := do
  let u ← randomUniform n dim seed
  if θ - 1 < 1 / 10 ^ 7 then randomUniform n dim seed
  else if |θ - 1| ≤ 1 / 10 ^ 8 + 1 / 10 ^ 5 then return u
  else do
    let t ← Rnd.draw (G.uniform1 n)
    let w ← Rnd.draw (G.expo n)
    let psi ← Rnd.ofExcept (gumbelPsi θ)
    return fun i j => psi (-(Fl.log (u i j)) / stable θ (t i) (w i))

/-- gaussian.py:85-87 `random`; `Φ` is `norm.cdf`. One observation is returned as a vector by SciPy; that
difference in shape is not modelled. -/
def gaussianRandomG {G : Gen} (Φ : ℝ → Fl) (n dim : ℕ) (sigma : Fin dim → Fin dim → ℝ) (seed : Option ℤ) :
    Rnd G (Fin n → Fin dim → Fl) := do
  let r ← mvnRvs n dim (fun _ => 0) sigma seed
  return fun i j => Φ (r i j)

open Classical in
/-- _multivariate_t.py:121-201 `rvs(cov=cov, df=df, size=n, random_state=seed)`. -/
noncomputable def mvtRvs {G : Gen} (n dim : ℕ) (cov : Fin dim → Fin dim → ℝ) (df : ℝ) (seed : Option ℤ) :
    Rnd G (Fin n → Fin dim → ℝ) := do
  if df ≤ 0 then throw .valueError
  else if df > 10000 then mvnRvs n dim (fun _ => 0) cov seed
  else do
    seedGlobal seed
    let x ← Rnd.draw (G.chisq df n)
    let r ← mvnRvs n dim (fun _ => 0) cov seed
    return fun i j => r i j / √(x i / df)

/-- student.py:180-182 `random`; `T` is `t.cdf(·, df)`. -/
noncomputable def studentRandomG {G : Gen} (T : ℝ → Fl) (n dim : ℕ) (sigma : Fin dim → Fin dim → ℝ) (df : ℝ)
    (seed : Option ℤ) : Rnd G (Fin n → Fin dim → Fl) := do
  let r ← mvtRvs n dim sigma df seed
  return fun i j => T (r i j)

/-- empirical.py:177-182 `random`: rows of the data drawn with replacement. -/
def empiricalRandomG {G : Gen} {m d : ℕ} (data : Fin m → Fin d → ℝ) (n : ℕ) (seed : Option ℤ) :
    Rnd G (Fin n → Fin d → Fl) := do
  seedGlobal seed
  let k ← Rnd.draw (G.randint m n)
  if h : ∀ i, k i < m then return fun i j => .fin (data ⟨k i, h i⟩ j) else throw .indexError

/-- The parameters of a Gaussian mixture. -/
structure Mixture (k d : ℕ) where
  prob : Fin k → ℝ
  mean : Fin k → Fin d → ℝ
  cov : Fin k → Fin d → Fin d → ℝ

/-- random.py:36-38, one cluster: the rows of the cluster get the next variates in order. -/
def gmmFill {n d : ℕ} (order : Fin n → ℕ) (c : ℕ) (r : ℕ → Fin d → ℝ)
    (out : Fin n → Fin d → ℝ) : Fin n → Fin d → ℝ :=
  fun i => if order i = c then r ((Finset.univ.filter fun j : Fin n => j < i ∧ order j = c).card) else out i

/-- random.py:35-38: one pass of the loop over the clusters. -/
def gmmCluster {G : Gen} {n k d : ℕ} (p : Mixture k d) (order : Fin n → ℕ) (out : Fin n → Fin d → ℝ)
    (c : Fin k) : Rnd G (Fin n → Fin d → ℝ) := do
  let cnt := (Finset.univ.filter fun j => order j = c).card
  let r ← mvnRvs cnt d (p.mean c) (p.cov c) none
  return gmmFill order c (fun i => if h : i < cnt then r ⟨i, h⟩ else 0) out

/-- random.py:30-40 `random_gmm`. -/
def randomGmm {G : Gen} {k d : ℕ} (p : Mixture k d) (n : ℕ) : Rnd G (Fin n → Fin d → ℝ) := do
  let order ← Rnd.draw (G.choice k n p.prob)
  (List.finRange k).foldlM (gmmCluster p order) (fun _ _ => 0)

/-- gmc.py:277-297 `random` with random.py:11-28 `random_gmcm`; `cdf` is `gmm_marginal_cdf`. -/
def gmcRandomG {G : Gen} {k d : ℕ} (cdf : Mixture k d → Fin d → ℝ → Fl) (p : Mixture k d) (n : ℕ)
    (seed : Option ℤ) : Rnd G (Fin n → Fin d → Fl) := do
  seedGlobal seed
  let z ← randomGmm p n
  return fun i j => cdf p j (z i j)

/-- marginal.py:149-155 `random`; `ppf` are the quantile functions of the margins. -/
def marginalRandomG {G : Gen} {d : ℕ} (copula : (n : ℕ) → Option ℤ → Rnd G (Fin n → Fin d → Fl))
    (ppf : Fin d → Fl → Fl) (n : ℕ) (seed : Option ℤ) : Rnd G (Fin n → Fin d → Fl) := do
  let u ← copula n seed
  return fun i j => ppf j (u i j)

/-- The copulas with a `random` method, in dimension `d`, with their parameters. -/
inductive Sampler (G : Gen) (d : ℕ) : Type
  | indep
  | clayton (θ : ℝ)
  | frank (logSeries : ℝ → (n : ℕ) → Rnd G (Fin n → Fl)) (θ : ℝ)
  | gumbel (stable : ℝ → ℝ → ℝ → Fl) (θ : ℝ)
  | gaussian (Φ : ℝ → Fl) (sigma : Fin d → Fin d → ℝ)
  | student (T : ℝ → Fl) (sigma : Fin d → Fin d → ℝ) (df : ℝ)
  | empirical (m : ℕ) (data : Fin m → Fin d → ℝ)
  | gmc (k : ℕ) (cdf : Mixture k d → Fin d → ℝ → Fl) (p : Mixture k d)
  | marginal (copula : Sampler G d) (ppf : Fin d → Fl → Fl)

/-- `copula.random(n, seed)`. -/
noncomputable def Sampler.random {G : Gen} {d : ℕ} :
    Sampler G d → (n : ℕ) → Option ℤ → Rnd G (Fin n → Fin d → Fl)
  | .indep, n, seed => indepRandomG n d seed
  | .clayton θ, n, seed => claytonRandomG θ n d seed
  | .frank ls θ, n, seed => frankRandomG ls θ n d seed
  | .gumbel st θ, n, seed => gumbelRandomG st θ n d seed
  | .gaussian Φ sigma, n, seed => gaussianRandomG Φ n d sigma seed
  | .student T sigma df, n, seed => studentRandomG T n d sigma df seed
  | .empirical _ data, n, seed => empiricalRandomG data n seed
  | .gmc _ cdf p, n, seed => gmcRandomG cdf p n seed
  | .marginal c ppf, n, seed => marginalRandomG c.random ppf n seed

/-- _exchangeability.pyx:158-161: the normal variates of `exch_test_cn`. -/
def exchNormals {G : Gen} (N n : ℕ) : Rnd G (List (Fin n → ℝ)) := do
  seedGlobal (some 8888)
  (List.range N).mapM fun _ => Rnd.draw (G.normal n)

end Copulae
