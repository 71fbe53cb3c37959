import Mathlib.Tactic.IntervalCases
import Verif.Lemmas.Elliptical

/-!
Properties C07 and C08: triangle indices and correlation matrices
(`copulae/core/misc.py`).
-/

namespace Copulae

/-- **C07** A vector of `d(d-1)/2` numbers is turned into a symmetric `d × d` matrix with unit
diagonal, and reading the strict lower triangle gives the vector back. -/
theorem createCovMatrix_roundTrip {α : Type} [Zero α] [One α] {d : ℕ} (hd : 1 ≤ d)
    (params : List α) (hl : params.length = d * (d - 1) / 2) :
    ∃ M : SqMat α d, createCovMatrix params = .ok ⟨d, M⟩ ∧
      (∀ i, M i i = 1) ∧ (∀ i j, M i j = M j i) ∧
      (do fancyRead M (← triIndices d 1 "lower")) = .ok params := by
  obtain ⟨M, h1, h2, h3⟩ := createCovMatrix_ok hd params hl
  have hsymm : ∀ i j, M i j = M j i := by
    intro i j
    rcases lt_trichotomy i j with h | h | h
    · have := h3 i j h
      rw [this.1] at this
      simpa using this.2
    · rw [h]
    · have := h3 j i h
      rw [this.1] at this
      simpa using this.2.symm
  refine ⟨M, h1, h2, hsymm, ?_⟩
  obtain ⟨l, k1, k2, k3⟩ := readLower_ok M
  rw [k1]
  congr 1
  apply list_ext_rho k2 hl
  intro i j hij hj
  have a := k3 ⟨i, hij.trans hj⟩ ⟨j, hj⟩ (by simpa using hij)
  have b := h3 ⟨i, hij.trans hj⟩ ⟨j, hj⟩ (by simpa using hij)
  simp only at a b
  rw [a, b.2]

example := createCovMatrix_roundTrip (α := ℚ) (d := 3) (by norm_num) [1 / 2, 1 / 3, -1 / 4] (by decide)

/-- **C07**, converse: every symmetric unit-diagonal matrix is rebuilt from its strict lower
triangle. -/
theorem createCovMatrix_rebuild {α : Type} [Zero α] [One α] {d : ℕ} (hd : 1 ≤ d)
    (M : SqMat α d) (hdiag : ∀ i, M i i = 1) (hsymm : ∀ i j, M i j = M j i) :
    ∃ l, (do fancyRead M (← triIndices d 1 "lower")) = .ok l ∧
      createCovMatrix l = .ok ⟨d, M⟩ := by
  obtain ⟨l, k1, k2, k3⟩ := readLower_ok M
  obtain ⟨M', h1, h2, h3⟩ := createCovMatrix_ok hd l k2
  refine ⟨l, k1, ?_⟩
  rw [h1]
  simp only [Except.ok.injEq, Sigma.mk.injEq, heq_eq_eq, true_and]
  funext i j
  rcases lt_trichotomy i j with h | h | h
  · have := (h3 i j h).1
    rw [k3 i j h] at this
    rw [hsymm]; simpa using this.symm
  · subst h; rw [h2, hdiag]
  · have := (h3 j i h).2
    rw [k3 j i h] at this
    simpa using this.symm

example := createCovMatrix_rebuild (α := ℚ) (d := 2) (by norm_num) (fun i j => if i = j then 1 else 1 / 3) (by simp)
  (by intro i j; fin_cases i <;> fin_cases j <;> rfl)

/-- **C07**, rejection: a vector whose length is not triangular raises `ValueError`. -/
theorem createCovMatrix_badLength {α : Type} [Zero α] [One α] (params : List α)
    (h : ∀ d : ℕ, 1 ≤ d → params.length ≠ d * (d - 1) / 2) :
    createCovMatrix params = .error .valueError := by
  rw [createCovMatrix_eq, if_neg]
  intro hlen
  rw [length_covCells, List.length_append] at hlen
  have hD : 1 ≤ covDim params.length := by
    unfold covDim
    have : 1 ≤ Nat.sqrt (1 + 4 * 2 * params.length) := by
      rw [Nat.le_sqrt]; omega
    omega
  exact h _ hD (by omega)

/-- A triangular length of a non-trivial size: six correlations make a 4 × 4 matrix. -/
example : ∃ M : SqMat ℤ 4, createCovMatrix [1, 2, 3, 4, 5, 6] = .ok ⟨4, M⟩ ∧
    (∀ i, M i i = 1) ∧ (∀ i j, M i j = M j i) ∧
    (do fancyRead M (← triIndices 4 1 "lower")) = .ok [1, 2, 3, 4, 5, 6] :=
  createCovMatrix_roundTrip (d := 4) (by norm_num) _ rfl

/-- Four is not a triangular number. -/
example : createCovMatrix [1, 2, 3, 4] = (.error .valueError : Except PyErr (Σ d, SqMat ℤ d)) := by
  apply createCovMatrix_badLength
  intro d hd
  have hk : 2 * (d * (d - 1) / 2) = d * (d - 1) :=
    Nat.mul_div_cancel' (Nat.even_mul_pred_self d).two_dvd
  intro h
  rw [← h] at hk
  simp only [List.length_cons, List.length_nil] at hk
  obtain ⟨e, rfl⟩ : ∃ e, d = e + 1 := ⟨d - 1, by omega⟩
  simp only [Nat.add_sub_cancel] at hk
  rcases Nat.lt_or_ge e 3 with h3 | h3
  · interval_cases e <;> omega
  · nlinarith

/-- The cells listed by a pair of index vectors. -/
def cellsOf (idx : List ℕ × List ℕ) : List (ℕ × ℕ) := idx.1.zip idx.2

/-- **C08** `upper` lists exactly the cells on or above the `m`-th super-diagonal, each once;
`lower` lists the transposed cells in the same order; the two index vectors have the same
length, so that no cell is lost by zipping. The side is case-insensitive. -/
theorem triIndices_spec (n m : ℕ) (side : String) :
    (pyLower side = "upper".toList → ∃ idx, triIndices n m side = .ok idx ∧
      idx.1.length = idx.2.length ∧ (cellsOf idx).Nodup ∧
      ∀ i j, (i, j) ∈ cellsOf idx ↔ i + m ≤ j ∧ j < n) ∧
    (pyLower side = "lower".toList → ∃ idx up, triIndices n m side = .ok idx ∧
      triIndices n m "upper" = .ok up ∧ idx.1.length = idx.2.length ∧
      cellsOf idx = (cellsOf up).map Prod.swap) ∧
    (pyLower side = "both".toList → ∃ idx up lo, triIndices n m side = .ok idx ∧
      triIndices n m "upper" = .ok up ∧ triIndices n m "lower" = .ok lo ∧
      cellsOf idx = cellsOf up ++ cellsOf lo ∧ (1 ≤ m → (cellsOf idx).Nodup)) ∧
    (pyLower side ≠ "upper".toList → pyLower side ≠ "lower".toList →
      pyLower side ≠ "both".toList → triIndices n m side = .error .valueError) := by
  refine ⟨?_, ?_, ?_, ?_⟩
  · intro h
    refine ⟨_, by simp [triIndices, h]; rfl, by simp, ?_, ?_⟩
    · simp only [cellsOf, zip_fst_snd]; exact nodup_triLoop n m
    · intro i j; simp only [cellsOf, zip_fst_snd]; exact mem_triLoop
  · intro h
    refine ⟨_, _, by simp [triIndices, h]; rfl, triIndices_upper n m, by simp, ?_⟩
    simp only [cellsOf, zip_fst_snd, zip_snd_fst]
  · intro h
    refine ⟨_, _, _, by simp [triIndices, h]; rfl, triIndices_upper n m, triIndices_lower n m,
      ?_, ?_⟩
    · simp only [cellsOf, both_cells, zip_fst_snd, zip_snd_fst]
    · intro hm
      simp only [cellsOf, both_cells]
      exact List.Nodup.append (nodup_triLoop n m) (nodup_swap n m) (disjoint_swap n hm)
  · intro h1 h2 h3
    simp only [triIndices]
    rw [if_pos ⟨h2, h1, h3⟩]

/-- With offset 0 the cells of `both` are not distinct: the diagonal appears twice. -/
theorem triIndices_both_zero_dup {n : ℕ} (hn : 1 ≤ n) :
    ∃ idx, triIndices n 0 "both" = .ok idx ∧ ¬ (cellsOf idx).Nodup := by
  refine ⟨_, triIndices_both n 0, ?_⟩
  simp only [cellsOf, both_cells]
  intro h
  rw [List.nodup_append] at h
  have h0 : ((0 : ℕ), (0 : ℕ)) ∈ triLoop n 0 := mem_triLoop.2 ⟨by omega, by omega⟩
  exact h.2.2 (0, 0) h0 (0, 0) (List.mem_map.2 ⟨_, h0, rfl⟩) rfl

example : pyLower "Upper" = "upper".toList ∧ pyLower "diag" ≠ "both".toList := by decide

end Copulae
