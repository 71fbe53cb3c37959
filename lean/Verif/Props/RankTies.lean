import Verif.Props.Ranks

/-!
C69: every tie method resolves ties the way its name says.  The specification speaks about
the results of `pseudo_obs` for the different methods only: within a group of tied
observations the method `ordinal` hands out different values; `min`, `max` and `average` give
every member of the group the smallest, the largest and the mean of those values; `dense`
counts the distinct values up to and including the observation.
-/

namespace Copulae

variable {α : Type*} [LinearOrder α]

theorem two_sum_cntEqUpTo {n : ℕ} (x : Fin n → α) (i : Fin n) :
    2 * ∑ k ∈ Finset.univ.filter (fun k => x k = x i), (cntEqUpTo x k : ℚ)
      = (cntEq x i : ℚ) * (cntEq x i + 1) := by
  set G := Finset.univ.filter (fun k => x k = x i) with hG
  have h1 : ∀ k ∈ G, (cntEqUpTo x k : ℚ) = ∑ j ∈ G, if j ≤ k then 1 else 0 := by
    intro k hk
    have hk' : x k = x i := by simpa [hG] using hk
    rw [Finset.sum_ite, Finset.sum_const_zero, add_zero, Finset.sum_const, nsmul_eq_mul, mul_one]
    unfold cntEqUpTo
    congr 2
    ext j
    simp [hG, hk']
  have hc : (cntEq x i : ℚ) = G.card := by simp [cntEq, hG]
  rw [Finset.sum_congr rfl h1, two_mul]
  nth_rewrite 2 [Finset.sum_comm]
  rw [← Finset.sum_add_distrib, hc]
  have h2 : ∀ k ∈ G, ((∑ j ∈ G, if j ≤ k then (1 : ℚ) else 0) + ∑ j ∈ G, if k ≤ j then 1 else 0)
      = G.card + 1 := by
    intro k hk
    rw [← Finset.sum_add_distrib]
    have h3 : ∀ j ∈ G, ((if j ≤ k then (1 : ℚ) else 0) + if k ≤ j then 1 else 0)
        = 1 + if j = k then 1 else 0 := by
      intro j _
      rcases lt_trichotomy j k with h | h | h
      · simp [h.le, h.not_ge, h.ne]
      · subst h; norm_num
      · simp [h.le, h.not_ge, h.ne']
    rw [Finset.sum_congr rfl h3, Finset.sum_add_distrib, Finset.sum_const, nsmul_eq_mul, mul_one,
      Finset.sum_ite_eq' G k, if_pos hk]
  rw [Finset.sum_congr rfl h2, Finset.sum_const, nsmul_eq_mul]

theorem exists_first_tie {n : ℕ} (x : Fin n → α) (i : Fin n) :
    ∃ k, x k = x i ∧ cntEqUpTo x k = 1 := by
  have hne : (Finset.univ.filter (fun k => x k = x i)).Nonempty := ⟨i, by simp⟩
  obtain ⟨k, hk, hmin⟩ := Finset.exists_min_image _ id hne
  have hk' : x k = x i := by simpa using hk
  refine ⟨k, hk', ?_⟩
  unfold cntEqUpTo
  rw [Finset.card_eq_one]
  refine ⟨k, ?_⟩
  ext j
  simp only [Finset.mem_filter, Finset.mem_univ, true_and, Finset.mem_singleton]
  constructor
  · rintro ⟨h1, h2⟩
    exact le_antisymm h2 (hmin j (by simp [h1, hk']))
  · rintro rfl
    simp

theorem exists_last_tie {n : ℕ} (x : Fin n → α) (i : Fin n) :
    ∃ k, x k = x i ∧ cntEqUpTo x k = cntEq x i := by
  have hne : (Finset.univ.filter (fun k => x k = x i)).Nonempty := ⟨i, by simp⟩
  obtain ⟨k, hk, hmax⟩ := Finset.exists_max_image _ id hne
  have hk' : x k = x i := by simpa using hk
  refine ⟨k, hk', ?_⟩
  unfold cntEqUpTo cntEq
  congr 1
  ext j
  simp only [Finset.mem_filter, Finset.mem_univ, true_and]
  constructor
  · rintro ⟨h1, -⟩
    exact h1.trans hk'
  · intro h1
    exact ⟨h1.trans hk'.symm, hmax j (by simp [h1])⟩

theorem cntLt_of_tie {n : ℕ} (x : Fin n → α) {i k : Fin n} (h : x k = x i) :
    cntLt x k = cntLt x i := by simp [cntLt, h]

theorem cntEq_of_tie {n : ℕ} (x : Fin n → α) {i k : Fin n} (h : x k = x i) :
    cntEq x k = cntEq x i := by simp [cntEq, h]

/-- The number of distinct values not larger than entry `i` is one more than the number of
smaller ones. -/
theorem card_image_le {n : ℕ} (x : Fin n → α) (i : Fin n) :
    ((Finset.univ.filter fun k => x k ≤ x i).image x).card = cntDistinctLt x i + 1 := by
  unfold cntDistinctLt
  rw [← Finset.card_insert_of_notMem (a := x i)]
  · congr 1
    ext a
    simp only [Finset.mem_image, Finset.mem_filter, Finset.mem_univ, true_and,
      Finset.mem_insert]
    constructor
    · rintro ⟨k, hk, rfl⟩
      rcases hk.lt_or_eq with h | h
      · exact Or.inr ⟨k, h, rfl⟩
      · exact Or.inl h
    · rintro (rfl | ⟨k, hk, rfl⟩)
      · exact ⟨i, le_rfl, rfl⟩
      · exact ⟨k, hk.le, rfl⟩
  · simp only [Finset.mem_image, Finset.mem_filter, Finset.mem_univ, true_and, not_exists,
      not_and]
    rintro k hk h
    exact absurd h hk.ne

/-- **C69.** `min`, `max` and `average` replace the values `ordinal` gives to the members of a
tie group by their smallest, largest and mean value; `dense` counts distinct values. -/
theorem pseudoObs_ties {n d : ℕ} (x : Fin n → Fin d → α) :
    ∃ uo ua umin umax ud : Fin n → Fin d → ℚ,
      pseudoObs (.mat n d x) "ordinal" = .ok (.mat n d uo) ∧
      pseudoObs (.mat n d x) "average" = .ok (.mat n d ua) ∧
      pseudoObs (.mat n d x) "min" = .ok (.mat n d umin) ∧
      pseudoObs (.mat n d x) "max" = .ok (.mat n d umax) ∧
      pseudoObs (.mat n d x) "dense" = .ok (.mat n d ud) ∧
      ∀ i j,
        IsLeast {q | ∃ k, x k j = x i j ∧ q = uo k j} (umin i j) ∧
        IsGreatest {q | ∃ k, x k j = x i j ∧ q = uo k j} (umax i j) ∧
        ua i j * (Finset.univ.filter fun k => x k j = x i j).card
          = ∑ k ∈ Finset.univ.filter (fun k => x k j = x i j), uo k j ∧
        ud i j * (n + 1) = ((Finset.univ.filter fun k => x k j ≤ x i j).image (x · j)).card := by
  have hn : (0 : ℚ) < (n : ℚ) + 1 := by positivity
  refine ⟨_, _, _, _, _, pseudoObs_mat x (m := .ordinal) (by decide),
    pseudoObs_mat x (m := .average) (by decide), pseudoObs_mat x (m := .min) (by decide),
    pseudoObs_mat x (m := .max) (by decide), pseudoObs_mat x (m := .dense) (by decide), ?_⟩
  intro i j
  set y : Fin n → α := fun k => x k j with hy
  have hord : ∀ k, y k = y i → rankdata .ordinal y k = (cntLt y i : ℚ) + cntEqUpTo y k := by
    intro k hk
    simp only [rankdata, cntLt_of_tie y hk]
  refine ⟨⟨?_, ?_⟩, ⟨?_, ?_⟩, ?_, ?_⟩
  · obtain ⟨k, hk, hc⟩ := exists_first_tie y i
    refine ⟨k, hk, ?_⟩
    rw [hord k hk, hc]
    simp [rankdata]
  · rintro q ⟨k, hk, rfl⟩
    rw [hord k hk, div_le_div_iff_of_pos_right hn]
    have : (1 : ℚ) ≤ cntEqUpTo y k := by exact_mod_cast one_le_cntEqUpTo y k
    simp only [rankdata]
    linarith
  · obtain ⟨k, hk, hc⟩ := exists_last_tie y i
    refine ⟨k, hk, ?_⟩
    rw [hord k hk, hc]
    simp [rankdata]
  · rintro q ⟨k, hk, rfl⟩
    rw [hord k hk, div_le_div_iff_of_pos_right hn]
    have : (cntEqUpTo y k : ℚ) ≤ cntEq y i := by
      rw [← cntEq_of_tie y hk]; exact_mod_cast cntEqUpTo_le y k
    simp only [rankdata]
    linarith
  · rw [← Finset.sum_div, Finset.sum_congr rfl fun k hk =>
      hord k (by simpa [hy] using hk), Finset.sum_add_distrib, Finset.sum_const, nsmul_eq_mul]
    have h2 := two_sum_cntEqUpTo y i
    have hG : ((Finset.univ.filter fun k => x k j = x i j).card : ℚ) = cntEq y i := by
      simp [cntEq, hy]
    have hG' : (Finset.univ.filter fun k => x k j = x i j)
        = Finset.univ.filter fun k => y k = y i := rfl
    rw [hG]
    rw [hG'] at *
    simp only [rankdata]
    rw [div_mul_eq_mul_div, div_left_inj' hn.ne']
    linarith
  · have h3 := card_image_le y i
    have h4 : (((Finset.univ.filter fun k => x k j ≤ x i j).image (x · j)).card : ℚ)
        = cntDistinctLt y i + 1 := by exact_mod_cast h3
    rw [h4]
    simp only [rankdata]
    field_simp

/-- Non-trivial case: `[5, 2, 5, 1]` has a tie group of two; `min` gives 3/5, `max` 4/5 and
`dense` 3/5. -/
example : rankdata .min (![5, 2, 5, 1] : Fin 4 → ℤ) 0 = 3 ∧
    rankdata .max (![5, 2, 5, 1] : Fin 4 → ℤ) 0 = 4 ∧
    rankdata .dense (![5, 2, 5, 1] : Fin 4 → ℤ) 2 = 3 := by
  have h1 : cntLt (![5, 2, 5, 1] : Fin 4 → ℤ) 0 = 2 := by decide
  have h2 : cntEq (![5, 2, 5, 1] : Fin 4 → ℤ) 0 = 2 := by decide
  have h3 : cntDistinctLt (![5, 2, 5, 1] : Fin 4 → ℤ) 2 = 2 := by decide
  simp only [rankdata, h1, h2, h3]
  norm_num

/-- **C69.** With `ordinal` the pseudo-observation of a row counts the rows that come up to it, where tied rows come in the order in which they
appear. -/
theorem pseudoObs_ordinal {n d : ℕ} (x : Fin n → Fin d → α) :
    ∃ u : Fin n → Fin d → ℚ, pseudoObs (.mat n d x) "ordinal" = .ok (.mat n d u) ∧
      ∀ i j, u i j * (n + 1) = (Finset.univ.filter fun k => x k j < x i j ∨ (x k j = x i j ∧ k ≤ i)).card := by
  refine ⟨_, pseudoObs_mat x (m := .ordinal) (by decide), fun i j => ?_⟩
  have hn : (n : ℚ) + 1 ≠ 0 := by positivity
  rw [div_mul_cancel₀ _ hn, Finset.filter_or, Finset.card_union_of_disjoint]
  · simp only [rankdata, cntLt, cntEqUpTo]
    push_cast
    rfl
  · rw [Finset.disjoint_filter]
    rintro k - h1 ⟨h2, -⟩
    exact absurd h2 (ne_of_lt h1)

/-- **C69.** Upper and lower case in the name of the tie method do not matter, and names other than the five raise a `ValueError`. -/
theorem pseudoObs_names {n d : ℕ} (x : Fin n → Fin d → α) (s : String) :
    (∀ t : String, t.toList.map Char.toLower = s.toList.map Char.toLower →
      pseudoObs (.mat n d x) t = pseudoObs (.mat n d x) s) ∧
    ((∀ t ∈ ["average", "min", "max", "dense", "ordinal"], s.toList.map Char.toLower ≠ t.toList) →
      pseudoObs (.mat n d x) s = .error .valueError) := by
  constructor
  · intro t ht
    have h : parseTies t = parseTies s := by
      unfold parseTies pyLower
      rw [ht]
    simp only [pseudoObs, rankData, h]
  · intro h
    apply pseudoObs_badTies
    simp only [List.mem_cons, List.not_mem_nil, or_false, forall_eq_or_imp, forall_eq] at h
    obtain ⟨h1, h2, h3, h4, h5⟩ := h
    unfold parseTies pyLower
    simp only [if_neg h1, if_neg h2, if_neg h3, if_neg h4, if_neg h5]

/-- Case: `Max` is `max`, and `random` is no tie method. -/
example (x : Fin 3 → Fin 2 → ℤ) : pseudoObs (.mat 3 2 x) "Max" = pseudoObs (.mat 3 2 x) "max" ∧
    pseudoObs (.mat 3 2 x) "random" = .error .valueError :=
  ⟨(pseudoObs_names x "max").1 "Max" (by decide), (pseudoObs_names x "random").2 (by decide)⟩

end Copulae
