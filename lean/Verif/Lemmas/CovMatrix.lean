import Verif.Lemmas.Tri

namespace Copulae

variable {α : Type} [Zero α] [One α]

/-- The cells written by `create_cov_matrix`. -/
def covCells (d : ℕ) : List (ℕ × ℕ) := triLoop d 1 ++ (triLoop d 1).map Prod.swap

theorem covCells_inRange (d : ℕ) : ∀ c ∈ covCells d, c.1 < d ∧ c.2 < d := by
  rintro ⟨i, j⟩ h
  simp only [covCells, List.mem_append, List.mem_map, Prod.exists, Prod.swap_prod_mk,
    Prod.mk.injEq] at h
  rcases h with h | ⟨a, b, h, rfl, rfl⟩ <;> rw [mem_triLoop] at h <;> simp only <;> omega

theorem covCells_nodup (d : ℕ) : (covCells d).Nodup :=
  List.Nodup.append (nodup_triLoop d 1) (nodup_swap d 1) (disjoint_swap d le_rfl)

theorem length_covCells (d : ℕ) : (covCells d).length = d * (d - 1) := by
  have h := length_triLoop_one d
  have hk : 2 * (d * (d - 1) / 2) = d * (d - 1) :=
    Nat.mul_div_cancel' (Nat.even_mul_pred_self d).two_dvd
  simp only [covCells, List.length_append, List.length_map, h]
  omega

theorem createCovMatrix_eq (params : List α) :
    createCovMatrix params =
      if (params ++ params).length = (covCells (covDim params.length)).length then
        .ok ⟨covDim params.length,
          setCells (npIdentity _)
            ((covCells (covDim params.length)).zip (params ++ params))⟩
      else .error .valueError := by
  have hr := covCells_inRange (covDim params.length)
  have hany : (covCells (covDim params.length)).any (fun c =>
      decide (covDim params.length ≤ c.1 ∨ covDim params.length ≤ c.2)) = false := by
    rw [List.any_eq_false]
    intro c hc
    have := hr c hc
    simp only [decide_eq_true_eq]
    omega
  unfold createCovMatrix
  rw [triIndices_both]
  simp only [bind, Except.bind, pure, Except.pure, fancyAssign, both_cells]
  rw [← covCells, hany]
  simp only [Bool.false_eq_true, if_false]
  split_ifs with h
  · simp
  · rcases params with _ | ⟨a, _ | ⟨b, t⟩⟩ <;> simp_all

/-- Description of the matrix built from a vector of the right length. -/
theorem createCovMatrix_ok {d : ℕ} (hd : 1 ≤ d) (params : List α)
    (hl : params.length = d * (d - 1) / 2) :
    ∃ M : SqMat α d, createCovMatrix params = .ok ⟨d, M⟩ ∧ (∀ i, M i i = 1) ∧
      ∀ i j : Fin d, i < j → params[rhoPos d i j]? = some (M i j) ∧
        params[rhoPos d i j]? = some (M j i) := by
  have hdim : covDim params.length = d := by rw [hl, covDim_tri hd]
  have hk : 2 * (d * (d - 1) / 2) = d * (d - 1) :=
    Nat.mul_div_cancel' (Nat.even_mul_pred_self d).two_dvd
  have hlen : (params ++ params).length = (covCells d).length := by
    rw [length_covCells, List.length_append, hl]; omega
  refine ⟨setCells (npIdentity _) ((covCells d).zip (params ++ params)),
    ?_, ?_, ?_⟩
  · rw [createCovMatrix_eq, hdim, if_pos hlen]
  · intro i
    rw [setCells_of_not_mem]
    · simp [npIdentity]
    · rw [List.map_fst_zip (by omega)]
      intro hmem
      simp only [covCells, List.mem_append, List.mem_map, Prod.exists, Prod.swap_prod_mk,
        Prod.mk.injEq] at hmem
      rcases hmem with h | ⟨a, b, h, h1, h2⟩
      · have := mem_triLoop.1 h; omega
      · have := mem_triLoop.1 h; omega
  · intro i j hij
    have hij' : i.val < j.val := hij
    have hpos := rhoPos_lt hij' j.2
    have hlt : rhoPos d i j < params.length := by omega
    have hL : (triLoop d 1).length = params.length := by rw [length_triLoop_one, hl]
    have hcell : (triLoop d 1)[rhoPos d i j]? = some (i.val, j.val) := triLoop_rhoPos hij' j.2
    have hnod : (((covCells d).zip (params ++ params)).map Prod.fst).Nodup := by
      rw [List.map_fst_zip (by omega)]; exact covCells_nodup d
    have hz : (covCells d).zip (params ++ params)
        = (triLoop d 1).zip params ++ ((triLoop d 1).map Prod.swap).zip params := by
      unfold covCells
      rw [List.zip_append hL]
    obtain ⟨v, hv⟩ : ∃ v, params[rhoPos d i j]? = some v :=
      ⟨_, List.getElem?_eq_getElem hlt⟩
    rw [hv]
    have m1 : ((i.val, j.val), v) ∈ (covCells d).zip (params ++ params) := by
      rw [hz]
      apply List.mem_append_left
      rw [List.mem_iff_getElem?]
      exact ⟨rhoPos d i j, by simp [List.getElem?_zip_eq_some, hcell, hv]⟩
    have m2 : ((j.val, i.val), v) ∈ (covCells d).zip (params ++ params) := by
      rw [hz]
      apply List.mem_append_right
      rw [List.mem_iff_getElem?]
      exact ⟨rhoPos d i j, by
        simp [List.getElem?_zip_eq_some, hcell, hv, List.getElem?_map]⟩
    rw [setCells_of_mem _ _ _ _ _ hnod m1, setCells_of_mem _ _ _ _ _ hnod m2]
    exact ⟨rfl, rfl⟩

theorem lower_inRange (d : ℕ) : ∀ c ∈ (triLoop d 1).map Prod.swap, c.1 < d ∧ c.2 < d := by
  intro c hc
  exact covCells_inRange d c (List.mem_append_right _ hc)

/-- Reading the strict lower triangle. -/
theorem readLower_ok {β : Type} {d : ℕ} (M : SqMat β d) :
    ∃ l : List β, (do fancyRead M (← triIndices d 1 "lower")) = .ok l ∧
      l.length = d * (d - 1) / 2 ∧
      ∀ i j : Fin d, i < j → l[rhoPos d i j]? = some (M j i) := by
  rw [triIndices_lower]
  simp only [bind, Except.bind]
  rw [fancyRead_ok M _ _ (zip_snd_fst _) (lower_inRange d)]
  refine ⟨_, rfl, by simp [length_triLoop_one], ?_⟩
  intro i j hij
  have hcell : (triLoop d 1)[rhoPos d i j]? = some (i.val, j.val) := triLoop_rhoPos hij j.2
  have hlt : rhoPos d i j < (triLoop d 1).length := by
    rw [length_triLoop_one]; exact rhoPos_lt hij j.2
  have hc2 : (triLoop d 1)[rhoPos d i j] = (i.val, j.val) := by
    rw [List.getElem?_eq_getElem hlt] at hcell
    simpa using hcell
  rw [List.getElem?_map, List.getElem?_eq_getElem (by simpa using hlt)]
  simp [hc2]

end Copulae
