import Mathlib.Topology.Order.IntermediateValue
import Mathlib.Topology.Algebra.Order.Field
import Verif.Model.FindRoot

/-!
C35: `find_root` expands the interval until the function changes sign and only then calls the bracketing
solver.
-/

namespace Copulae

open Set

/-- The bounds after `k` expansions: each bound moves outwards by one percent of its size, at least
by `delta`. -/
noncomputable def Spec.expanded (delta : ℝ) (k : ℕ) (ab : ℝ × ℝ) : ℝ × ℝ :=
  (fun p : ℝ × ℝ => (p.1 - max (|p.1| / 100) delta, p.2 + max (|p.2| / 100) delta))^[k] ab

theorem expandStep_eq (delta a : ℝ) : expandStep delta a = max (|a| / 100) delta := by
  unfold expandStep
  congr 1
  ring

theorem expanded_succ (delta : ℝ) (k : ℕ) (a b : ℝ) :
    Spec.expanded delta (k + 1) (a, b)
      = Spec.expanded delta k (a - expandStep delta a, b + expandStep delta b) := by
  unfold Spec.expanded
  rw [Function.iterate_succ_apply, expandStep_eq, expandStep_eq]

theorem expandStep_nonneg (delta a : ℝ) : 0 ≤ expandStep delta a :=
  le_max_of_le_left (by positivity)

theorem expanded_contains (delta : ℝ) (k : ℕ) (a b : ℝ) :
    (Spec.expanded delta k (a, b)).1 ≤ a ∧ b ≤ (Spec.expanded delta k (a, b)).2 := by
  induction k generalizing a b with
  | zero => exact ⟨le_rfl, le_rfl⟩
  | succ k ih =>
    rw [expanded_succ]
    obtain ⟨h1, h2⟩ := ih (a - expandStep delta a) (b + expandStep delta b)
    have := expandStep_nonneg delta a
    have := expandStep_nonneg delta b
    exact ⟨by linarith, by linarith⟩

/-- The function changes sign between the bounds: its values there have a negative product. -/
def SignChange (f : PyFun) (ab : ℝ × ℝ) : Prop :=
  ∃ x y : Fl, f ab.1 = .ok x ∧ f ab.2 = .ok y ∧ x * y < .fin 0

theorem endProduct_ok {f : PyFun} {a b : ℝ} {p : Fl} (h : endProduct f a b = .ok p) :
    ∃ x y, f a = .ok x ∧ f b = .ok y ∧ p = x * y := by
  unfold endProduct at h
  simp only [bind, Except.bind, pure, Except.pure] at h
  cases hx : f a with
  | error e => rw [hx] at h; cases h
  | ok x =>
    rw [hx] at h
    cases hy : f b with
    | error e => rw [hy] at h; cases h
    | ok y =>
      rw [hy] at h
      exact ⟨x, y, rfl, rfl, (Except.ok.inj h).symm⟩

theorem endProduct_of {f : PyFun} {a b : ℝ} {x y : Fl} (hx : f a = .ok x) (hy : f b = .ok y) :
    endProduct f a b = .ok (x * y) := by
  unfold endProduct
  rw [hx, hy]
  rfl

theorem expandLoop_ok {f : PyFun} {delta : ℝ} {n : ℕ} {a b : ℝ} {ab : ℝ × ℝ}
    (h : expandLoop f delta n a b = .ok ab) : ∃ k ≤ n, ab = Spec.expanded delta k (a, b) := by
  induction n generalizing a b with
  | zero =>
    exact ⟨0, le_rfl, (Except.ok.inj h).symm⟩
  | succ n ih =>
    unfold expandLoop at h
    simp only [bind, Except.bind, pure, Except.pure] at h
    cases hp : endProduct f a b with
    | error e => rw [hp] at h; cases h
    | ok p =>
      rw [hp] at h
      by_cases hge : p ≥ .fin 0
      · simp only [if_pos hge] at h
        obtain ⟨k, hk, e⟩ := ih h
        exact ⟨k + 1, by omega, by rw [expanded_succ]; exact e⟩
      · simp only [if_neg hge] at h
        exact ⟨0, by omega, (Except.ok.inj h).symm⟩

theorem findRootFin_ok {brentq : PyFun → ℝ → ℝ → Except PyErr ℝ} {f : PyFun} {a b delta : ℝ} {n : ℕ}
    {r : ℝ} (h : findRootFin brentq f a b delta n = .ok r) :
    ∃ k ≤ n, SignChange f (Spec.expanded delta k (a, b)) ∧
      brentq f (Spec.expanded delta k (a, b)).1 (Spec.expanded delta k (a, b)).2 = .ok r := by
  unfold findRootFin at h
  simp only [bind, Except.bind] at h
  cases hl : expandLoop f delta n a b with
  | error e => rw [hl] at h; cases h
  | ok ab =>
    rw [hl] at h
    simp only at h
    obtain ⟨k, hk, e⟩ := expandLoop_ok hl
    cases hp : endProduct f ab.1 ab.2 with
    | error e => rw [hp] at h; cases h
    | ok p =>
      rw [hp] at h
      simp only at h
      by_cases hlt : p < .fin 0
      · rw [if_pos hlt] at h
        obtain ⟨x, y, hx, hy, e'⟩ := endProduct_ok hp
        refine ⟨k, hk, ?_⟩
        rw [← e]
        exact ⟨⟨x, y, hx, hy, e' ▸ hlt⟩, h⟩
      · rw [if_neg hlt] at h
        cases h

/-- C35: if `find_root` returns, both bounds were finite, and the solver was called after at most
`max_iter` expansions on an interval that contains the user's interval and on which the function changes
sign; its result is returned. -/
theorem findRoot_bracket {brentq : PyFun → ℝ → ℝ → Except PyErr ℝ} {f : PyFun} {a b : Fl} {delta : ℝ}
    {n : ℕ} {r : ℝ} (h : findRoot brentq f a b delta n = .ok r) :
    ∃ a0 b0 : ℝ, a = .fin a0 ∧ b = .fin b0 ∧ ∃ k ≤ n, ∃ lo hi : ℝ,
      (lo, hi) = Spec.expanded delta k (min a0 b0, max a0 b0) ∧ lo ≤ min a0 b0 ∧ max a0 b0 ≤ hi ∧
      SignChange f (lo, hi) ∧ brentq f lo hi = .ok r := by
  unfold findRoot at h
  cases a with
  | fin a0 =>
    cases b with
    | fin b0 =>
      refine ⟨a0, b0, rfl, rfl, ?_⟩
      have key : findRootFin brentq f (min a0 b0) (max a0 b0) delta n = .ok r := by
        simp only at h
        by_cases hab : a0 > b0
        · rw [if_pos hab] at h
          rwa [min_eq_right hab.le, max_eq_left hab.le]
        · rw [if_neg hab] at h
          rwa [min_eq_left (not_lt.mp hab), max_eq_right (not_lt.mp hab)]
      obtain ⟨k, hk, hs, hb⟩ := findRootFin_ok key
      obtain ⟨c1, c2⟩ := expanded_contains delta k (min a0 b0) (max a0 b0)
      exact ⟨k, hk, _, _, rfl, c1, c2, hs, hb⟩
    | nan => cases h
    | ninf => cases h
    | pinf => cases h
  | nan => cases h
  | ninf => cases h
  | pinf => cases h

theorem expandLoop_stop {f : PyFun} {delta : ℝ} {n : ℕ} {a b : ℝ} (h : SignChange f (a, b)) :
    expandLoop f delta n a b = .ok (a, b) := by
  cases n with
  | zero => rfl
  | succ n =>
    obtain ⟨x, y, hx, hy, hlt⟩ := h
    unfold expandLoop
    rw [endProduct_of hx hy]
    simp only [bind, Except.bind, pure, Except.pure]
    rw [if_neg]
    intro hge
    generalize x * y = p at hlt hge
    cases p with
    | fin v =>
      have h1 : v < 0 := hlt
      have h2 : 0 ≤ v := hge
      linarith
    | nan => exact hlt
    | pinf => exact hlt
    | ninf => exact hge

theorem findRootFin_first {brentq : PyFun → ℝ → ℝ → Except PyErr ℝ} {f : PyFun} {delta : ℝ} {n k : ℕ}
    {a b : ℝ} (hk : k ≤ n)
    (hge : ∀ i < k, ∃ x y, f (Spec.expanded delta i (a, b)).1 = .ok x ∧
      f (Spec.expanded delta i (a, b)).2 = .ok y ∧ .fin 0 ≤ x * y)
    (hs : SignChange f (Spec.expanded delta k (a, b))) :
    findRootFin brentq f a b delta n
      = brentq f (Spec.expanded delta k (a, b)).1 (Spec.expanded delta k (a, b)).2 := by
  have hloop : expandLoop f delta n a b = .ok (Spec.expanded delta k (a, b)) := by
    induction k generalizing n a b with
    | zero => exact expandLoop_stop hs
    | succ k ih =>
      obtain ⟨m, rfl⟩ : ∃ m, n = m + 1 := ⟨n - 1, by omega⟩
      obtain ⟨x, y, hx, hy, h0⟩ := hge 0 (by omega)
      unfold expandLoop
      rw [endProduct_of (a := a) (b := b) hx hy]
      simp only [bind, Except.bind, pure, Except.pure]
      rw [if_pos h0, expanded_succ]
      refine ih (by omega) (fun i hi => ?_) (by rw [← expanded_succ]; exact hs)
      have := hge (i + 1) (by omega)
      rwa [expanded_succ] at this
  obtain ⟨x, y, hx, hy, hlt⟩ := hs
  unfold findRootFin
  simp only [bind, Except.bind, hloop]
  rw [endProduct_of hx hy]
  simp only [if_pos hlt]

theorem findRoot_fin (brentq : PyFun → ℝ → ℝ → Except PyErr ℝ) (f : PyFun) (a b delta : ℝ) (n : ℕ) :
    findRoot brentq f (.fin a) (.fin b) delta n
      = findRootFin brentq f (min a b) (max a b) delta n := by
  unfold findRoot
  simp only
  by_cases hab : a > b
  · rw [if_pos hab, min_eq_right hab.le, max_eq_left hab.le]
  · rw [if_neg hab, min_eq_left (not_lt.mp hab), max_eq_right (not_lt.mp hab)]

/-- C35: the solver gets the first expansion on which the function changes sign, as long as the products
before were not negative or NaN. -/
theorem findRoot_first {brentq : PyFun → ℝ → ℝ → Except PyErr ℝ} {f : PyFun} {a b delta : ℝ} {n k : ℕ}
    (hk : k ≤ n)
    (hge : ∀ i < k, ∃ x y, f (Spec.expanded delta i (min a b, max a b)).1 = .ok x ∧
      f (Spec.expanded delta i (min a b, max a b)).2 = .ok y ∧ .fin 0 ≤ x * y)
    (hs : SignChange f (Spec.expanded delta k (min a b, max a b))) :
    findRoot brentq f (.fin a) (.fin b) delta n
      = brentq f (Spec.expanded delta k (min a b, max a b)).1
          (Spec.expanded delta k (min a b, max a b)).2 := by
  rw [findRoot_fin]
  exact findRootFin_first hk hge hs

/-- C35: an interval that already brackets a sign change is used unchanged (ordered). -/
theorem findRoot_unchanged {brentq : PyFun → ℝ → ℝ → Except PyErr ℝ} {f : PyFun} {a b delta : ℝ} {n : ℕ}
    (hs : SignChange f (min a b, max a b)) :
    findRoot brentq f (.fin a) (.fin b) delta n = brentq f (min a b) (max a b) :=
  findRoot_first (k := 0) (Nat.zero_le n) (fun _ h => absurd h (Nat.not_lt_zero _)) hs

example (brentq : PyFun → ℝ → ℝ → Except PyErr ℝ) := findRoot_unchanged (brentq := brentq)
  (f := fun x => .ok (.fin (x ^ 3 - 2))) (a := 2) (b := 0) (delta := 1 / 2) (n := 10)
  ⟨.fin (-2), .fin 6, by norm_num, by norm_num, by rw [Fl.fin_mul_fin, Fl.fin_lt_fin]; norm_num⟩

/-- Instance for `findRoot_bracket`. -/
example : ∃ r, findRoot (fun _ a b => .ok ((a + b) / 2)) (fun x => .ok (.fin (x - 1))) (.fin 0) (.fin 2) (1 / 2) 10 = .ok r :=
  ⟨1, by
    rw [findRoot_unchanged ⟨.fin (-1), .fin 1, by norm_num, by norm_num, by
      rw [Fl.fin_mul_fin, Fl.fin_lt_fin]; norm_num⟩]
    norm_num⟩

/-- C35: bounds that are not finite are rejected. -/
theorem findRoot_nonfinite (brentq : PyFun → ℝ → ℝ → Except PyErr ℝ) (f : PyFun) (a b : Fl) (delta : ℝ)
    (n : ℕ) (h : (∀ x, a ≠ .fin x) ∨ ∀ x, b ≠ .fin x) :
    findRoot brentq f a b delta n = .error .assertionError := by
  unfold findRoot
  cases a <;> cases b <;> first | rfl | (exfalso; rcases h with h | h <;> exact h _ rfl)

example (brentq : PyFun → ℝ → ℝ → Except PyErr ℝ) := findRoot_nonfinite brentq (fun x => .ok (.fin x)) (.fin 0) .pinf 1 10
  (.inr (by simp))

/-- C35: a function that never raises and has no sign change on any of the first `max_iter` expansions
gives AssertionError. -/
theorem findRoot_fail {brentq : PyFun → ℝ → ℝ → Except PyErr ℝ} {f : PyFun} {a b delta : ℝ} {n : ℕ}
    (hf : ∀ x, ∃ v, f x = .ok v)
    (hs : ∀ k ≤ n, ¬ SignChange f (Spec.expanded delta k (min a b, max a b))) :
    findRoot brentq f (.fin a) (.fin b) delta n = .error .assertionError := by
  rw [findRoot_fin]
  have hloop : ∀ n a b, ∃ ab, expandLoop f delta n a b = .ok ab := by
    intro n
    induction n with
    | zero => exact fun a b => ⟨_, rfl⟩
    | succ n ih =>
      intro a b
      obtain ⟨x, hx⟩ := hf a
      obtain ⟨y, hy⟩ := hf b
      unfold expandLoop
      rw [endProduct_of hx hy]
      simp only [bind, Except.bind, pure, Except.pure]
      split
      · exact ih _ _
      · exact ⟨_, rfl⟩
  obtain ⟨ab, hab⟩ := hloop n (min a b) (max a b)
  obtain ⟨k, hk, e⟩ := expandLoop_ok hab
  obtain ⟨x, hx⟩ := hf ab.1
  obtain ⟨y, hy⟩ := hf ab.2
  unfold findRootFin
  simp only [bind, Except.bind, hab]
  rw [endProduct_of hx hy]
  simp only
  rw [if_neg]
  intro hlt
  exact hs k hk (by rw [← e]; exact ⟨x, y, hx, hy, hlt⟩)

example (brentq : PyFun → ℝ → ℝ → Except PyErr ℝ) := findRoot_fail (brentq := brentq) (f := fun x => .ok (.fin (x ^ 2 + 1)))
  (a := 0) (b := 1) (delta := 1 / 2) (n := 10) (fun _ => ⟨_, rfl⟩) (by
    rintro k _ ⟨x, y, hx, hy, h⟩
    rw [← Except.ok.inj hx, ← Except.ok.inj hy, Fl.fin_mul_fin, Fl.fin_lt_fin] at h
    exact absurd h (not_lt.2 (by positivity)))

/-- What is assumed of `scipy.optimize.brentq` (in exact arithmetic): on an interval where the function is
real and continuous and changes sign, it returns a root in the interval. -/
def IsBrentq (brentq : PyFun → ℝ → ℝ → Except PyErr ℝ) : Prop :=
  ∀ (f : PyFun) (g : ℝ → ℝ) (a b : ℝ), a ≤ b → (∀ x ∈ Icc a b, f x = .ok (.fin (g x))) →
    ContinuousOn g (Icc a b) → g a * g b < 0 → ∃ r ∈ Icc a b, brentq f a b = .ok r ∧ g r = 0

/-- Such a solver exists. -/
theorem exists_brentq : ∃ brentq, IsBrentq brentq := by
  classical
  refine ⟨fun f a b => if h : ∃ r ∈ Icc a b, f r = .ok (.fin 0) then .ok h.choose
    else .error .runtimeError, fun f g a b hab hf hg hs => ?_⟩
  have h0 : ∃ r ∈ Icc a b, g r = 0 := by
    rcases mul_neg_iff.mp hs with ⟨h1, h2⟩ | ⟨h1, h2⟩
    · exact intermediate_value_Icc' hab hg ⟨h2.le, h1.le⟩
    · exact intermediate_value_Icc hab hg ⟨h1.le, h2.le⟩
  have h : ∃ r ∈ Icc a b, f r = .ok (.fin 0) := by
    obtain ⟨r, hr, e⟩ := h0
    exact ⟨r, hr, by rw [hf r hr, e]⟩
  refine ⟨h.choose, h.choose_spec.1, dif_pos h, ?_⟩
  have h1 := hf _ h.choose_spec.1
  rw [h.choose_spec.2] at h1
  exact (Fl.fin.inj (Except.ok.inj h1)).symm

/-- C35: with a correct solver and a continuous function, whatever `find_root` returns is a root in the
expanded interval. -/
theorem findRoot_root {brentq : PyFun → ℝ → ℝ → Except PyErr ℝ} (hB : IsBrentq brentq) {g : ℝ → ℝ}
    (hg : Continuous g) {a b : Fl} {delta : ℝ} {n : ℕ} {r : ℝ}
    (h : findRoot brentq (fun x => .ok (.fin (g x))) a b delta n = .ok r) : g r = 0 := by
  obtain ⟨a0, b0, -, -, k, -, lo, hi, -, h1, h2, ⟨x, y, hx, hy, hlt⟩, hr⟩ := findRoot_bracket h
  have hx' := Except.ok.inj hx
  have hy' := Except.ok.inj hy
  subst hx' hy'
  have hs : g lo * g hi < 0 := hlt
  obtain ⟨r', -, e, hz⟩ := hB _ g lo hi (by linarith [min_le_max (a := a0) (b := b0)])
    (fun _ _ => rfl) hg.continuousOn hs
  rw [e] at hr
  rw [← Except.ok.inj hr]
  exact hz

/-- A concrete case: `x³ - 2` from the interval `[0, 1]`, which does not bracket the root, but an
expansion of it by `delta = 1/2` does. -/
example (brentq : PyFun → ℝ → ℝ → Except PyErr ℝ) :
    findRoot brentq (fun x => .ok (.fin (x ^ 3 - 2))) (.fin 0) (.fin 1) (1 / 2) 1000
      = brentq (fun x => .ok (.fin (x ^ 3 - 2))) (-(1 / 2)) (3 / 2) := by
  have e : Spec.expanded (1 / 2) 1 (min 0 1, max 0 1) = (-(1 / 2), 3 / 2) := by
    rw [min_eq_left zero_le_one, max_eq_right zero_le_one, expanded_succ, expandStep_eq, expandStep_eq]
    norm_num [Spec.expanded]
  have := findRoot_first (brentq := brentq) (f := fun x => .ok (.fin (x ^ 3 - 2))) (a := 0) (b := 1)
    (delta := 1 / 2) (n := 1000) (k := 1) (by norm_num) (fun i hi => by
      obtain rfl : i = 0 := by omega
      refine ⟨_, _, rfl, rfl, ?_⟩
      have h0 : Spec.expanded (1 / 2) 0 (min (0 : ℝ) 1, max (0 : ℝ) 1) = (0, 1) := by
        rw [min_eq_left zero_le_one, max_eq_right zero_le_one]
        rfl
      rw [h0, Fl.fin_mul_fin, Fl.fin_le_fin]
      norm_num) (by
      rw [e]
      refine ⟨_, _, rfl, rfl, ?_⟩
      rw [Fl.fin_mul_fin, Fl.fin_lt_fin]
      norm_num)
  rw [this, e]

end Copulae
