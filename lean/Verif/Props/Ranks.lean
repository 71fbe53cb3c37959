import Mathlib.Tactic.FinCases
import Mathlib.Data.Fin.VecNotation
import Mathlib.Algebra.Order.Ring.Int
import Verif.Lemmas.Ranks

/-!
Properties C01–C06: pseudo-observations (`copulae/core/misc.py`).

All statements are about `pseudoObs` applied to a two-dimensional array
(`NDArr.mat n d x`) and a tie-method string that SciPy accepts; they include
that the call succeeds and keeps the shape. `pseudoObs_vec` says that
one-dimensional input behaves like a single column, `pseudoObs_other` and
`pseudoObs_badTies` cover the rejected inputs.
-/

namespace Copulae

variable {α β : Type*} [LinearOrder α] [LinearOrder β]

/-- What `pseudo_obs` returns on a matrix: the ranks of each column over `n+1`. -/
theorem pseudoObs_mat {n d : ℕ} (x : Fin n → Fin d → α) {s : String} {m : TieMethod}
    (hs : parseTies s = .ok m) :
    pseudoObs (.mat n d x) s
      = .ok (.mat n d fun i j => rankdata m (fun k => x k j) i / ((n : ℚ) + 1)) := by
  simp [pseudoObs, rankData, hs, NDArr.divScalar, NDArr.len, bind, Except.bind, pure, Except.pure]

/-- One-dimensional input behaves like a single column. -/
theorem pseudoObs_vec {n : ℕ} (x : Fin n → α) {s : String} {u : Fin n → Fin 1 → ℚ}
    (h : pseudoObs (.mat n 1 fun i _ => x i) s = .ok (.mat n 1 u)) :
    pseudoObs (.vec n x) s = .ok (.vec n fun i => u i 0) := by
  cases hs : parseTies s with
  | error e =>
    simp [pseudoObs, rankData, hs, bind, Except.bind] at h
  | ok m =>
    rw [pseudoObs_mat _ hs] at h
    have hu : u = _ := (by simpa using h.symm :
      u = fun i _ => rankdata m (fun k => x k) i / ((n : ℚ) + 1))
    subst hu
    simp [pseudoObs, rankData, hs, NDArr.divScalar, NDArr.len, bind, Except.bind, pure,
      Except.pure]

/-- Arrays that are neither one- nor two-dimensional are rejected. -/
theorem pseudoObs_other (k : ℕ) (s : String) :
    pseudoObs (.other k : NDArr α) s = .error .assertionError := rfl

/-- Unknown tie methods are rejected. -/
theorem pseudoObs_badTies {n d : ℕ} (x : Fin n → Fin d → α) {s : String} {e : PyErr}
    (hs : parseTies s = .error e) : pseudoObs (.mat n d x) s = .error e := by
  simp [pseudoObs, rankData, hs, bind, Except.bind]

example := pseudoObs_badTies (α := ℚ) (n := 3) (d := 2) (fun i j => ![3, 1, 1] i - j.val) (s := "random")
  (e := .valueError) (by decide)

/-- **C01.** Pseudo-observations lie strictly between 0 and 1. -/
theorem pseudoObs_mem_Ioo {n d : ℕ} (x : Fin n → Fin d → α) {s : String} {m : TieMethod}
    (hs : parseTies s = .ok m) :
    ∃ u : Fin n → Fin d → ℚ, pseudoObs (.mat n d x) s = .ok (.mat n d u) ∧
      ∀ i j, 0 < u i j ∧ u i j < 1 := by
  refine ⟨_, pseudoObs_mat x hs, fun i j => ?_⟩
  have h1 := (rankdata_bounds m (fun k => x k j) i).1
  have h2 := rankdata_le_n m (fun k => x k j) i
  have hn : (0 : ℚ) < (n : ℚ) + 1 := by positivity
  constructor
  · apply div_pos _ hn; linarith
  · rw [div_lt_one hn]; linarith

example := pseudoObs_mem_Ioo (α := ℚ) (n := 3) (d := 2) (fun i j => ![3, 1, 1] i - j.val) (s := "dense")
  (m := .dense) (by decide)

/-- **C02.** Order and ties are preserved. -/
theorem pseudoObs_order {n d : ℕ} (x : Fin n → Fin d → α) {s : String} {m : TieMethod}
    (hs : parseTies s = .ok m) :
    ∃ u : Fin n → Fin d → ℚ, pseudoObs (.mat n d x) s = .ok (.mat n d u) ∧
      (∀ i k j, x i j < x k j → u i j < u k j) ∧
      (m ≠ .ordinal → ∀ i k j, x i j = x k j → u i j = u k j) ∧
      (m = .ordinal → ∀ i k j, x i j = x k j → i < k → u i j < u k j) := by
  have hn : (0 : ℚ) < (n : ℚ) + 1 := by positivity
  refine ⟨_, pseudoObs_mat x hs, ?_, ?_, ?_⟩
  · intro i k j h
    rw [div_lt_div_iff_of_pos_right hn]
    exact rankdata_lt m (fun k => x k j) h
  · intro hm i k j h
    rw [rankdata_eq_of_eq m hm (fun k => x k j) h]
  · rintro rfl i k j h hik
    rw [div_lt_div_iff_of_pos_right hn]
    exact rankdata_ordinal_lt_of_eq (fun k => x k j) h hik

example := pseudoObs_order (α := ℚ) (n := 3) (d := 2) (fun i j => ![3, 1, 1] i - j.val) (s := "ordinal")
  (m := .ordinal) (by decide)

/-- **C03.** Strictly increasing transformations of the columns (a different one for
each column, possibly into another ordered type) do not change the result. -/
theorem pseudoObs_strictMono_invariant {n d : ℕ} (x : Fin n → Fin d → α) (f : Fin d → α → β)
    (hf : ∀ j, StrictMono (f j)) (s : String) :
    pseudoObs (.mat n d fun i j => f j (x i j)) s = pseudoObs (.mat n d x) s := by
  cases hs : parseTies s with
  | error e => rw [pseudoObs_badTies _ hs, pseudoObs_badTies _ hs]
  | ok m =>
    rw [pseudoObs_mat _ hs, pseudoObs_mat _ hs]
    congr 3
    funext i j
    congr 1
    exact rankdata_congr m (fun k => x k j) _ (fun a b => (hf j).lt_iff_lt) i

example := pseudoObs_strictMono_invariant (α := ℚ) (β := ℚ) (n := 3) (d := 2) (fun i j => ![3, 1, 1] i - j.val)
  (fun j x => x * (j.val + 1)) (fun j a b h => mul_lt_mul_of_pos_right h (by positivity)) "average"

/-- **C04.** Reordering the rows reorders the result (every method but `ordinal`; `ordinal`
when the columns have no ties); columns are treated independently, so reordering
columns reorders the result for every method. -/
theorem pseudoObs_equivariant {n d : ℕ} (x : Fin n → Fin d → α) {s : String} {m : TieMethod}
    (hs : parseTies s = .ok m) :
    ∃ u : Fin n → Fin d → ℚ, pseudoObs (.mat n d x) s = .ok (.mat n d u) ∧
      (∀ σ : Equiv.Perm (Fin n),
        (m ≠ .ordinal ∨ ∀ j, Function.Injective fun i => x i j) →
        pseudoObs (.mat n d fun i j => x (σ i) j) s = .ok (.mat n d fun i j => u (σ i) j)) ∧
      (∀ {e : ℕ} (τ : Fin e → Fin d),
        pseudoObs (.mat n e fun i j => x i (τ j)) s = .ok (.mat n e fun i j => u i (τ j))) := by
  refine ⟨_, pseudoObs_mat x hs, ?_, ?_⟩
  · intro σ h
    rw [pseudoObs_mat _ hs]
    congr 3
    funext i j
    congr 1
    by_cases hm : m = .ordinal
    · have hinj : Function.Injective fun i => x i j := by
        rcases h with h | h
        · exact absurd hm h
        · exact h j
      have hinj' : Function.Injective fun i => x (σ i) j := hinj.comp σ.injective
      rw [hm, ← rankdata_eq_of_injective .min _ hinj', ← rankdata_eq_of_injective .min _ hinj]
      exact rankdata_perm .min (by decide) (fun k => x k j) σ i
    · exact rankdata_perm m hm (fun k => x k j) σ i
  · intro e τ
    rw [pseudoObs_mat _ hs]

example := pseudoObs_equivariant (α := ℚ) (n := 3) (d := 2) (fun i j => ![3, 1, 1] i - j.val) (s := "max")
  (m := .max) (by decide)

/-- **C05, first half.** With `average` or `ordinal` every column averages to 1/2. -/
theorem pseudoObs_column_mean {n d : ℕ} (hn : 0 < n) (x : Fin n → Fin d → α) {s : String}
    {m : TieMethod} (hs : parseTies s = .ok m) (hm : m = .average ∨ m = .ordinal) :
    ∃ u : Fin n → Fin d → ℚ, pseudoObs (.mat n d x) s = .ok (.mat n d u) ∧
      ∀ j, (∑ i, u i j) / n = 1 / 2 := by
  refine ⟨_, pseudoObs_mat x hs, fun j => ?_⟩
  have hs : ∑ i, rankdata m (fun k => x k j) i = (n : ℚ) * (n + 1) / 2 := by
    rcases hm with rfl | rfl
    · exact sum_rankdata_average _
    · exact sum_rankdata_ordinal _
  rw [← Finset.sum_div, hs]
  have : (0 : ℚ) < n := by exact_mod_cast hn
  field_simp

example := pseudoObs_column_mean (α := ℚ) (n := 3) (d := 2) (by norm_num) (fun i j => ![3, 1, 1] i - j.val)
  (s := "average") (m := .average) (by decide) (.inl rfl)

/-- **C05, second half.** On tie-free columns the result is, whatever the method, the
same permutation of `1/(n+1), …, n/(n+1)`. -/
theorem pseudoObs_noTies_perm {n d : ℕ} (x : Fin n → Fin d → α)
    (hx : ∀ j, Function.Injective fun i => x i j) :
    ∃ σ : Fin d → Equiv.Perm (Fin n), ∀ (s : String) (m : TieMethod), parseTies s = .ok m →
      pseudoObs (.mat n d x) s
        = .ok (.mat n d fun i j => ((((σ j i : Fin n) : ℕ) : ℚ) + 1) / ((n : ℚ) + 1)) := by
  refine ⟨fun j => ordPerm fun i => x i j, fun s m hs => ?_⟩
  rw [pseudoObs_mat _ hs]
  congr 3
  funext i j
  rw [rankdata_eq_of_injective m _ (hx j), rankdata_ordinal_perm]

example := pseudoObs_noTies_perm (α := ℚ) (n := 3) (d := 2) (fun i j => ![3, 1, 2] i - j.val)
  (by intro j a b h; fin_cases a <;> fin_cases b <;> simp_all)

/-- **C06.** Ranking twice with the same method is ranking once. -/
theorem pseudoObs_idempotent {n d : ℕ} (x : Fin n → Fin d → α) {s : String} {m : TieMethod}
    (hs : parseTies s = .ok m) :
    ∃ u : Fin n → Fin d → ℚ, pseudoObs (.mat n d x) s = .ok (.mat n d u) ∧
      pseudoObs (.mat n d u) s = .ok (.mat n d u) := by
  refine ⟨_, pseudoObs_mat x hs, ?_⟩
  rw [pseudoObs_mat _ hs]
  congr 3
  funext i j
  rw [rankdata_idem m (fun k => x k j) i]

example := pseudoObs_idempotent (α := ℚ) (n := 3) (d := 2) (fun i j => ![3, 1, 1] i - j.val) (s := "min")
  (m := .min) (by decide)

/-- **C06, caveat.** Ranking with one method and re-ranking with another is *not* harmless:
the column `(1, 1)` ranked with `min` and re-ranked with the default `average` changes. -/
theorem pseudoObs_mixed_methods_differ :
    ∃ (x u v : Fin 2 → Fin 1 → ℚ), pseudoObs (.mat 2 1 x) "min" = .ok (.mat 2 1 u) ∧
      pseudoObs (.mat 2 1 u) "average" = .ok (.mat 2 1 v) ∧ u ≠ v := by
  refine ⟨fun _ _ => 1, _, _, pseudoObs_mat _ (m := .min) (by decide),
    pseudoObs_mat _ (m := .average) (by decide), ?_⟩
  intro h
  have := congrFun (congrFun h 0) 0
  simp [rankdata, cntLt, cntEq] at this
  norm_num at this

/-! ### Concrete instances -/

/-- A column with a tie: `(3, 1, 3, 2)`. -/
def exCol : Fin 4 → Fin 1 → ℤ := fun i _ => ![3, 1, 3, 2] i

example : rankdata .average (fun k => exCol k 0) 0 = 7 / 2 := by
  have h1 : cntLt (fun k => exCol k 0) 0 = 2 := by decide
  have h2 : cntEq (fun k => exCol k 0) 0 = 2 := by decide
  simp only [rankdata, h1, h2]
  norm_num

example : parseTies "Average" = .ok .average := by decide
example : parseTies "ORDINAL" = .ok .ordinal := by decide
example : parseTies "median" = .error .valueError := by decide

example : ∃ u : Fin 4 → Fin 1 → ℚ, pseudoObs (.mat 4 1 exCol) "Average" = .ok (.mat 4 1 u) ∧
    ∀ i j, 0 < u i j ∧ u i j < 1 := pseudoObs_mem_Ioo exCol (m := .average) (by decide)

example : ∃ u : Fin 4 → Fin 1 → ℚ, pseudoObs (.mat 4 1 exCol) "Average" = .ok (.mat 4 1 u) ∧
    ∀ j, (∑ i, u i j) / (4 : ℕ) = 1 / 2 :=
  pseudoObs_column_mean (by norm_num) exCol (m := .average) (by decide) (.inl rfl)

/-- A strictly increasing, non-linear transformation to which C03 applies. -/
example : pseudoObs (.mat 4 1 fun i j => (exCol i j) ^ 3) "dense"
    = pseudoObs (.mat 4 1 exCol) "dense" :=
  pseudoObs_strictMono_invariant exCol (fun _ a => a ^ 3)
    (fun _ => Odd.strictMono_pow (by decide)) "dense"

/-- A tie-free matrix to which the second half of C05 applies. -/
example : ∀ j, Function.Injective fun i => (fun (i : Fin 3) (_ : Fin 1) => (![5, -2, 9] i : ℤ)) i j := by
  intro j a b h
  fin_cases a <;> fin_cases b <;> simp_all

end Copulae
