import Verif.Model.Seeding

/-!
Seeded sampling (C51, C66, C67).

The specification uses only the run of a computation: a pair of a result (a value or an exception) and the
state of the global generator afterwards.
-/

namespace Copulae

/-- Result and final global state. -/
def Rnd.exec {G : Gen} {α : Type} (f : Rnd G α) (σ : G.S) : Except PyErr α × G.S := (f.run).run σ

/-- The result does not depend on the state of the global generator. -/
def Reproducible {G : Gen} {α : Type} (f : Rnd G α) : Prop := ∀ σ σ', (f.exec σ).1 = (f.exec σ').1

section exec
variable {G : Gen} {α β : Type}

theorem exec_pure (a : α) (σ : G.S) : (pure a : Rnd G α).exec σ = (.ok a, σ) := rfl

theorem exec_throw (e : PyErr) (σ : G.S) : (throw e : Rnd G α).exec σ = (.error e, σ) := rfl

theorem exec_ofExcept (a : Except PyErr α) (σ : G.S) : (Rnd.ofExcept a : Rnd G α).exec σ = (a, σ) := rfl

theorem exec_draw (f : G.S → α × G.S) (σ : G.S) : (Rnd.draw f).exec σ = (.ok (f σ).1, (f σ).2) := rfl

theorem exec_bind (f : Rnd G α) (k : α → Rnd G β) (σ : G.S) :
    (f >>= k).exec σ = match f.exec σ with
      | (.ok a, σ') => (k a).exec σ'
      | (.error e, σ') => (.error e, σ') := by
  unfold Rnd.exec
  show ((ExceptT.bind f k).run).run σ = _
  unfold ExceptT.bind ExceptT.run ExceptT.mk
  show StateT.run (f >>= ExceptT.bindCont k) σ = _
  rw [StateT.run_bind]
  show (ExceptT.bindCont k (StateT.run f σ).1).run (StateT.run f σ).2 = _
  rcases h : (StateT.run f σ : Except PyErr α × G.S) with ⟨r, σ'⟩
  cases r <;> rfl

theorem exec_seed_none (σ : G.S) : (seedGlobal none : Rnd G Unit).exec σ = (.ok (), σ) := rfl

theorem exec_seed_ok {s : ℤ} {τ : G.S} (h : checkSeed G s = .ok τ) (σ : G.S) :
    (seedGlobal (some s) : Rnd G Unit).exec σ = (.ok (), τ) := by
  simp only [seedGlobal, h]; rfl

theorem exec_seed_error {s : ℤ} {e : PyErr} (h : checkSeed G s = .error e) (σ : G.S) :
    (seedGlobal (some s) : Rnd G Unit).exec σ = (.error e, σ) := by
  simp only [seedGlobal, h]; rfl

/-- Either the same result and final state from both states, or the same exception. -/
def Resets (f : Rnd G α) : Prop :=
  ∀ σ σ', f.exec σ = f.exec σ' ∨ ∃ e, (f.exec σ).1 = .error e ∧ (f.exec σ').1 = .error e

theorem Resets.reproducible {f : Rnd G α} (h : Resets f) : Reproducible f := by
  intro σ σ'
  rcases h σ σ' with h | ⟨e, h1, h2⟩
  · rw [h]
  · rw [h1, h2]

theorem resets_seed (s : ℤ) : Resets (seedGlobal (some s) : Rnd G Unit) := by
  intro σ σ'
  cases h : checkSeed G s with
  | ok τ => left; rw [exec_seed_ok h, exec_seed_ok h]
  | error e => right; exact ⟨e, by rw [exec_seed_error h], by rw [exec_seed_error h]⟩

theorem Resets.bind {f : Rnd G α} (h : Resets f) (k : α → Rnd G β) : Resets (f >>= k) := by
  intro σ σ'
  rw [exec_bind, exec_bind]
  rcases h σ σ' with h | ⟨e, h1, h2⟩
  · left; rw [h]
  · right
    refine ⟨e, ?_, ?_⟩
    · rcases hr : f.exec σ with ⟨r, τ⟩
      rw [hr] at h1; simp only at h1; subst h1; rfl
    · rcases hr : f.exec σ' with ⟨r, τ⟩
      rw [hr] at h2; simp only at h2; subst h2; rfl

theorem Reproducible.bind_pure {f : Rnd G α} (h : Reproducible f) (g : α → β) :
    Reproducible (f >>= fun a => pure (g a)) := by
  intro σ σ'
  have := h σ σ'
  rw [exec_bind, exec_bind]
  rcases hr : f.exec σ with ⟨r, τ⟩
  rcases hr' : f.exec σ' with ⟨r', τ'⟩
  rw [hr, hr'] at this
  simp only at this
  subst this
  cases r <;> rfl

theorem reproducible_throw (e : PyErr) : Reproducible (throw e : Rnd G α) := fun _ _ => rfl

theorem reproducible_mvnRvs (n d : ℕ) (mean : Fin d → ℝ) (cov : Fin d → Fin d → ℝ) (s : ℤ) :
    Reproducible (mvnRvs n d mean cov (some s) : Rnd G _) := by
  intro σ σ'
  cases h : checkSeed G s <;> simp only [mvnRvs, h] <;> rfl

theorem resets_randomUniform (n d : ℕ) (s : ℤ) : Resets (randomUniform n d (some s) : Rnd G _) :=
  (resets_seed s).bind _

end exec

/-- **C51.** `random(n, seed=s)` gives the same sample (or the same exception) whatever has been drawn from
the generator before, for every copula, also under a marginal transformation. -/
theorem random_reproducible {G : Gen} {d : ℕ} (c : Sampler G d) (n : ℕ) (s : ℤ) :
    Reproducible (c.random n (some s)) := by
  induction c with
  | indep => exact (resets_randomUniform n d s).reproducible
  | clayton θ =>
    unfold Sampler.random claytonRandomG
    split_ifs
    · exact (resets_randomUniform n d s).reproducible
    · exact ((resets_randomUniform n d s).bind _).reproducible
    · exact ((resets_randomUniform n d s).bind _).reproducible
  | frank ls θ => exact ((resets_randomUniform n d s).bind _).reproducible
  | gumbel st θ => exact ((resets_randomUniform n d s).bind _).reproducible
  | gaussian Φ sigma => exact (reproducible_mvnRvs _ _ _ _ _).bind_pure _
  | student T sigma df =>
    refine Reproducible.bind_pure ?_ _
    unfold mvtRvs
    split_ifs
    · exact reproducible_throw _
    · exact reproducible_mvnRvs _ _ _ _ _
    · exact ((resets_seed s).bind _).reproducible
  | empirical m data => exact ((resets_seed s).bind _).reproducible
  | gmc k cdf p => exact ((resets_seed s).bind _).reproducible
  | marginal c ppf ih => exact ih.bind_pure _

/-- Copulas for which giving the seed and seeding NumPy beforehand are the same: not a Student copula with
at most 10000 degrees of freedom and not a Gumbel copula with parameter below `1 + 1e-7`. -/
def Sampler.SeedPlain {G : Gen} {d : ℕ} : Sampler G d → Prop
  | .gumbel _ θ => 1 / 10 ^ 7 ≤ θ - 1
  | .student _ _ df => 10000 < df
  | .marginal c _ => c.SeedPlain
  | _ => True

section plain
variable {G : Gen} {α β : Type}

/-- `f` with a seed returns what it returns after seeding. -/
def SeedEq (f : Option ℤ → Rnd G α) (s : ℤ) : Prop :=
  ∀ σ, ((f (some s)).exec σ).1 = ((seedGlobal (some s) >>= fun _ => f none).exec σ).1

theorem seedEq_bind (g : Rnd G α) (s : ℤ) :
    SeedEq (fun seed => seedGlobal seed >>= fun _ => g) s := by
  intro σ
  have h : ((seedGlobal none >>= fun _ => g) : Rnd G α) = g := rfl
  simp only [h]

theorem SeedEq.map {f : Option ℤ → Rnd G α} {s : ℤ} (h : SeedEq f s) (k : α → β) :
    SeedEq (fun seed => f seed >>= fun a => pure (k a)) s := by
  intro σ
  have := h σ
  simp only [exec_bind] at this ⊢
  rcases hs : (seedGlobal (some s) : Rnd G Unit).exec σ with ⟨r, τ⟩
  rcases hf : (f (some s)).exec σ with ⟨r', τ'⟩
  rw [hs, hf] at this
  cases r with
  | error e => simp only at this; subst this; rfl
  | ok a =>
    simp only at this ⊢
    rcases hn : (f none).exec τ with ⟨r'', τ''⟩
    rw [hn] at this
    simp only at this
    subst this
    cases r' <;> rfl

theorem seedEq_mvnRvs (n d : ℕ) (mean : Fin d → ℝ) (cov : Fin d → Fin d → ℝ) (s : ℤ) :
    SeedEq (fun seed => (mvnRvs n d mean cov seed : Rnd G _)) s := by
  intro σ
  cases h : checkSeed G s with
  | ok τ =>
    rw [exec_bind, exec_seed_ok h]
    simp only [mvnRvs, h]
    rfl
  | error e =>
    rw [exec_bind, exec_seed_error h]
    simp only [mvnRvs, h]
    rfl

theorem randomUniform_bind (n d : ℕ) (seed : Option ℤ) (k : (Fin n → Fin d → Fl) → Rnd G α) :
    (randomUniform n d seed >>= k) = (seedGlobal seed >>= fun _ => Rnd.draw (G.uniform n d) >>= k) := by
  unfold randomUniform
  rw [bind_assoc]

end plain

/-- **C66, the part that holds.** For the copulas in `SeedPlain`, every parameter, every seed (also one that is
refused) and every generator: `random(n, seed=s)` returns what `np.random.seed(s)` followed by `random(n)`
returns. Missing: the Student copula and the Gumbel copula near independence, where it is false (below). -/
theorem random_seed_eq_partial {G : Gen} {d : ℕ} (c : Sampler G d) (hc : c.SeedPlain) (n : ℕ) (s : ℤ) :
    SeedEq (fun seed => c.random n seed) s := by
  induction c with
  | indep => exact seedEq_bind _ s
  | clayton θ =>
    simp only [Sampler.random, claytonRandomG]
    split_ifs
    · exact seedEq_bind _ s
    · simp only [randomUniform_bind]; exact seedEq_bind _ s
    · simp only [randomUniform_bind]; exact seedEq_bind _ s
  | frank ls θ =>
    simp only [Sampler.random, frankRandomG, randomUniform_bind]; exact seedEq_bind _ s
  | gumbel st θ =>
    have h : ¬ θ - 1 < 1 / 10 ^ 7 := not_lt.mpr hc
    simp only [Sampler.random, gumbelRandomG, randomUniform_bind, if_neg h]; exact seedEq_bind _ s
  | gaussian Φ sigma => exact (seedEq_mvnRvs _ _ _ _ _).map _
  | student T sigma df =>
    have h1 : ¬ df ≤ 0 := by have : 10000 < df := hc; intro h; linarith
    have h2 : df > 10000 := hc
    simp only [Sampler.random, studentRandomG, mvtRvs, if_neg h1, if_pos h2]
    exact (seedEq_mvnRvs _ _ _ _ _).map _
  | empirical m data => exact seedEq_bind _ s
  | gmc k cdf p => exact seedEq_bind _ s
  | marginal c ppf ih => exact (ih hc).map _

/-- With a seed, the Student sample uses the generator of the seed twice: the chi-square variates and the
normal variates are computed from the same state, so they are not independent draws. -/
theorem student_same_stream {G : Gen} {d : ℕ} (T : ℝ → Fl) (sigma : Fin d → Fin d → ℝ) (df : ℝ)
    (h0 : 0 < df) (h1 : df ≤ 10000) (n : ℕ) (s : ℤ) (τ : G.S) (hs : checkSeed G s = .ok τ) (σ : G.S) :
    ((Sampler.random (.student T sigma df) n (some s)).exec σ).1 =
      .ok fun i j => T ((G.mvn n d (fun _ => 0) sigma τ).1 i j / √((G.chisq df n τ).1 i / df)) := by
  have h2 : ¬ df > 10000 := not_lt.mpr h1
  simp only [Sampler.random, studentRandomG, mvtRvs, if_neg (not_le.mpr h0), if_neg h2, mvnRvs, hs, exec_bind,
    exec_seed_ok hs, exec_draw, exec_pure]

/-- When NumPy is seeded beforehand, the normal variates follow the chi-square variates. -/
theorem student_after_seed {G : Gen} {d : ℕ} (T : ℝ → Fl) (sigma : Fin d → Fin d → ℝ) (df : ℝ)
    (h0 : 0 < df) (h1 : df ≤ 10000) (n : ℕ) (s : ℤ) (τ : G.S) (hs : checkSeed G s = .ok τ) (σ : G.S) :
    ((seedGlobal (some s) >>= fun _ => Sampler.random (.student T sigma df) n none).exec σ).1 =
      .ok fun i j => T ((G.mvn n d (fun _ => 0) sigma (G.chisq df n τ).2).1 i j /
        √((G.chisq df n τ).1 i / df)) := by
  have h2 : ¬ df > 10000 := not_lt.mpr h1
  simp only [Sampler.random, studentRandomG, mvtRvs, if_neg (not_le.mpr h0), if_neg h2, mvnRvs, exec_bind,
    exec_seed_ok hs, exec_draw, exec_pure, exec_seed_none]

/-- The Gumbel sample near independence, with a seed and after seeding. -/
theorem gumbel_near_one {G : Gen} {d : ℕ} (st : ℝ → ℝ → ℝ → Fl) (θ : ℝ) (hθ : θ - 1 < 1 / 10 ^ 7) (n : ℕ)
    (s : ℤ) (τ : G.S) (hs : checkSeed G s = .ok τ) (σ : G.S) :
    ((Sampler.random (.gumbel st θ) n (some s)).exec σ).1 = .ok (G.uniform n d τ).1 ∧
    ((seedGlobal (some s) >>= fun _ => Sampler.random (.gumbel st θ) n none).exec σ).1 =
      .ok (G.uniform n d (G.uniform n d τ).2).1 := by
  constructor
  · simp only [Sampler.random, gumbelRandomG, randomUniform, if_pos hθ, exec_bind, exec_seed_ok hs, exec_draw]
  · simp only [Sampler.random, gumbelRandomG, randomUniform, if_pos hθ, exec_bind, exec_seed_ok hs, exec_draw,
      exec_seed_none]

/-- A generator whose state counts the draws; the uniform and normal variates are the state itself. -/
def countGen : Gen where
  S := ℕ
  ofSeed := fun s => s
  uniform := fun _ _ σ => (fun _ _ => .fin σ, σ + 1)
  uniform1 := fun _ σ => (fun _ => σ, σ + 1)
  gamma := fun _ _ σ => (fun _ => .fin 1, σ + 1)
  expo := fun _ σ => (fun _ => 1, σ + 1)
  chisq := fun df _ σ => (fun _ => df, σ + 1)
  randint := fun _ _ σ => (fun _ => 0, σ + 1)
  choice := fun _ _ _ σ => (fun _ => 0, σ + 1)
  normal := fun _ σ => (fun _ => σ, σ + 1)
  mvn := fun _ _ _ _ σ => (fun _ _ => σ, σ + 1)

theorem countGen_seed {s : ℕ} (h : (s : ℤ) < 2 ^ 32) : checkSeed countGen s = .ok s := by
  have h0 : (0 : ℤ) ≤ s := Int.natCast_nonneg s
  rw [checkSeed, if_pos ⟨h0, h⟩]
  rfl

/-- **C66 is violated for the Student copula**: for the counting generator, five degrees of freedom, every
dimension, every seed and every sample size, seeding beforehand gives a different sample in every entry. -/
theorem student_seed_differs {d : ℕ} (sigma : Fin d → Fin d → ℝ) (n : ℕ) (s : ℕ) (hs : (s : ℤ) < 2 ^ 32)
    (σ : countGen.S) :
    ((Sampler.random (G := countGen) (.student Fl.fin sigma 5) n (some s)).exec σ).1 = .ok (fun _ _ => .fin s) ∧
    ((seedGlobal (some (s : ℤ)) >>= fun _ =>
      Sampler.random (G := countGen) (.student Fl.fin sigma 5) n none).exec σ).1 =
        .ok (fun _ _ => .fin (s + 1)) := by
  have hc := countGen_seed hs
  rw [student_same_stream _ _ _ (by norm_num) (by norm_num) n _ _ hc,
    student_after_seed _ _ _ (by norm_num) (by norm_num) n _ _ hc]
  constructor <;> simp [countGen]

/-- **C66 is violated for the Gumbel copula near independence**: without a seed the first matrix drawn is
thrown away. For the counting generator, parameter 1, every dimension, seed and sample size: -/
theorem gumbel_seed_differs {d : ℕ} (st : ℝ → ℝ → ℝ → Fl) (n : ℕ) (s : ℕ) (hs : (s : ℤ) < 2 ^ 32)
    (σ : countGen.S) :
    ((Sampler.random (G := countGen) (d := d) (.gumbel st 1) n (some s)).exec σ).1 = .ok (fun _ _ => .fin s) ∧
    ((seedGlobal (some (s : ℤ)) >>= fun _ =>
      Sampler.random (G := countGen) (d := d) (.gumbel st 1) n none).exec σ).1 =
        .ok (fun _ _ => .fin (s + 1)) := by
  have h := gumbel_near_one (d := d) st 1 (by norm_num) n _ _ (countGen_seed hs) σ
  rw [h.1, h.2]
  constructor <;> simp [countGen]

/-- Under a `SeedPlain` copula the sample does depend on the seed: the counting generator gives the seed
itself in the first entry. -/
example (σ : countGen.S) : ((Sampler.random (G := countGen) (d := 2) .indep 1 (some ((7 : ℕ) : ℤ))).exec σ).1 =
    .ok fun _ _ => .fin 7 := by
  have hc := countGen_seed (s := 7) (by norm_num)
  simp only [Sampler.random, indepRandomG, randomUniform, exec_bind, exec_seed_ok hc]
  exact congrArg Except.ok (by funext _ _; norm_num [countGen])

/-- A refused seed: every copula except a Student copula with invalid degrees of freedom, which fails anyway,
raises `ValueError`. -/
theorem random_bad_seed {G : Gen} {d : ℕ} (c : Sampler G d) (n : ℕ) (s : ℤ) (hs : s < 0 ∨ 2 ^ 32 ≤ s) (σ : G.S) :
    ((c.random n (some s)).exec σ).1 = .error .valueError := by
  have hc : checkSeed G s = .error .valueError := by
    rw [checkSeed, if_neg]
    rintro ⟨h1, h2⟩
    rcases hs with h | h
    · exact absurd h1 (not_le.mpr h)
    · exact absurd h2 (not_lt.mpr h)
  induction c with
  | indep => simp only [Sampler.random, indepRandomG, randomUniform, exec_bind, exec_seed_error hc]
  | clayton θ =>
    unfold Sampler.random claytonRandomG
    split_ifs <;> simp only [randomUniform, exec_bind, exec_seed_error hc]
  | frank ls θ => simp only [Sampler.random, frankRandomG, randomUniform, exec_bind, exec_seed_error hc]
  | gumbel st θ => simp only [Sampler.random, gumbelRandomG, randomUniform, exec_bind, exec_seed_error hc]
  | gaussian Φ sigma => simp only [Sampler.random, gaussianRandomG, mvnRvs, hc, exec_bind, exec_throw]
  | student T sigma df =>
    unfold Sampler.random studentRandomG mvtRvs
    split_ifs <;> simp only [mvnRvs, hc, exec_bind, exec_throw, exec_seed_error hc]
  | empirical m data => simp only [Sampler.random, empiricalRandomG, exec_bind, exec_seed_error hc]
  | gmc k cdf p => simp only [Sampler.random, gmcRandomG, exec_bind, exec_seed_error hc]
  | marginal c ppf ih =>
    simp only [Sampler.random, marginalRandomG, exec_bind]
    rcases h : (c.random n (some s)).exec σ with ⟨r, τ⟩
    rw [h] at ih
    simp only at ih
    subst ih
    rfl

theorem checkSeed_8888 (G : Gen) : checkSeed G 8888 = .ok (G.ofSeed 8888) := by
  rw [checkSeed, if_pos (by norm_num)]; rfl

/-- **C67 is violated.** After `exch_test` on data without ties the state of the global generator is the same
whatever it was before. -/
theorem exchTest_resets {G : Gen} (N n : ℕ) (σ σ' : G.S) :
    ((exchNormals N n).exec σ).2 = ((exchNormals N n).exec σ').2 := by
  unfold exchNormals
  rw [exec_bind, exec_bind, exec_seed_ok (checkSeed_8888 G), exec_seed_ok (checkSeed_8888 G)]

/-- Hence unseeded simulations that each follow such a test are all equal. -/
theorem exchTest_repeats {G : Gen} {d : ℕ} (N m : ℕ) (c : Sampler G d) (n : ℕ) :
    Reproducible (exchNormals N m >>= fun _ => c.random n none : Rnd G _) := by
  have h : (exchNormals N m : Rnd G _) = seedGlobal (some 8888) >>= fun _ =>
      (List.range N).mapM fun _ => Rnd.draw (G.normal m) := rfl
  rw [h, bind_assoc]
  exact ((resets_seed 8888).bind _).reproducible

/-- What does hold: the normal variates, hence the p-value, are the same for every call with the same data. -/
theorem exchTest_deterministic {G : Gen} (N n : ℕ) : Reproducible (exchNormals N n : Rnd G _) :=
  ((resets_seed 8888).bind _).reproducible

example (st : ℝ → ℝ → ℝ → Fl) (ppf : Fin 3 → Fl → Fl) := random_seed_eq_partial (G := countGen) (.marginal (.gumbel st 2) ppf)
  (show (1 : ℝ) / 10 ^ 7 ≤ 2 - 1 by norm_num) 5 7

example (σ : countGen.S) := student_same_stream (G := countGen) Fl.fin (fun (_ _ : Fin 2) => 1) 5 (by norm_num) (by norm_num) 3
  ((7 : ℕ) : ℤ) (7 : ℕ) (countGen_seed (s := 7) (by norm_num)) σ

example (st : ℝ → ℝ → ℝ → Fl) (σ : countGen.S) := gumbel_near_one (G := countGen) (d := 2) st 1 (by norm_num) 3
  ((7 : ℕ) : ℤ) (7 : ℕ) (countGen_seed (s := 7) (by norm_num)) σ

example (σ : countGen.S) := student_seed_differs (fun (_ _ : Fin 2) => 1) 3 7 (by norm_num) σ

example (σ : countGen.S) := random_bad_seed (G := countGen) (d := 2) (.clayton 2) 3 (-1) (by norm_num) σ

end Copulae
