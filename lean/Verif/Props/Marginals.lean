import Verif.Model.Empirical
import Verif.Props.Ranks
import Verif.Lemmas.Stirling

/-!
C42: `EmpiricalCopula.to_marginals` undoes `pseudo_obs`.
-/

namespace Copulae

variable {n d m : ℕ}

theorem mapM_finRange_ok {α : Type} {k : ℕ} (f : Fin k → Except PyErr α) (g : Fin k → α)
    (h : ∀ i, f i = .ok (g i)) : (List.finRange k).mapM f = .ok ((List.finRange k).map g) :=
  mapM_ok _ _ _ fun i _ => h i

theorem mapM_error {α β : Type} {f : α → Except PyErr β} {l : List α} {a : α} (ha : a ∈ l)
    (h : ∃ e, f a = .error e) : ∃ e, l.mapM f = .error e := by
  induction l with
  | nil => simp at ha
  | cons b l ih =>
    rw [List.mapM_cons]
    cases hb : f b with
    | error e => exact ⟨e, rfl⟩
    | ok v =>
      rcases List.mem_cons.mp ha with rfl | ha
      · obtain ⟨e, he⟩ := h
        rw [hb] at he
        simp at he
      · obtain ⟨e, he⟩ := ih ha
        exact ⟨e, by rw [he]; rfl⟩

theorem getD_map_finRange {α : Type*} {k : ℕ} (g : Fin k → α) (i : Fin k) (a : α) :
    ((List.finRange k).map g).getD i a = g i := by
  simp [List.getD_eq_getElem?_getD]

theorem sortedCol_perm (x : Fin n → ℝ) : (sortedCol x).Perm (List.ofFn x) :=
  List.mergeSort_perm _ _

theorem sortedCol_length (x : Fin n → ℝ) : (sortedCol x).length = n := by
  rw [(sortedCol_perm x).length_eq, List.length_ofFn]

theorem sortedCol_pairwise (x : Fin n → ℝ) : (sortedCol x).Pairwise (· ≤ ·) := by
  have := List.pairwise_mergeSort (le := fun a b : ℝ => decide (a ≤ b))
    (by simpa using fun a b c : ℝ => le_trans) (by simpa using fun a b : ℝ => le_total a b) (List.ofFn x)
  simpa [sortedCol] using this

theorem countP_sortedCol (x : Fin n → ℝ) (p : ℝ → Bool) :
    (sortedCol x).countP p = (Finset.univ.filter fun j => p (x j) = true).card := by
  rw [(sortedCol_perm x).countP_eq, List.ofFn_eq_map, List.countP_map, List.countP_eq_length_filter]
  have h : (Finset.univ.filter fun j => p (x j) = true).val
      = (((List.finRange n).filter (p ∘ x) : List (Fin n)) : Multiset (Fin n)) := by
    rw [Finset.filter_val]
    change Multiset.filter _ ((List.finRange n : List (Fin n)) : Multiset (Fin n)) = _
    rw [Multiset.filter_coe]
    congr 1
    refine List.filter_congr fun a _ => ?_
    simp
  rw [Finset.card_def, h, Multiset.coe_card]

theorem le_getElem_of_countP {l : List ℝ} (hl : l.Pairwise (· ≤ ·)) {v : ℝ} {k : ℕ} (hk : k < l.length)
    (h : l.countP (fun a => decide (a < v)) ≤ k) : v ≤ l[k] := by
  by_contra hc
  have h1 : ∀ a ∈ l.take (k + 1), decide (a < v) = true := by
    intro a ha
    obtain ⟨i, hi, rfl⟩ := List.mem_take_iff_getElem.mp ha
    have hi' : i ≤ k := by omega
    have : l[i] ≤ l[k] := by
      rcases hi'.lt_or_eq with h' | h'
      · exact List.pairwise_iff_getElem.mp hl _ _ _ _ h'
      · subst h'; exact le_rfl
    simpa using lt_of_le_of_lt this (not_le.mp hc)
  have h2 := List.countP_eq_length.mpr h1
  have h3 := (List.take_sublist (k + 1) l).countP_le (p := fun a => decide (a < v))
  rw [h2, List.length_take] at h3
  omega

theorem getElem_le_of_countP {l : List ℝ} (hl : l.Pairwise (· ≤ ·)) {v : ℝ} {k : ℕ} (hk : k < l.length)
    (h : k < l.countP (fun a => decide (a ≤ v))) : l[k] ≤ v := by
  by_contra hc
  have h1 : ∀ a ∈ l.drop k, ¬ decide (a ≤ v) = true := by
    intro a ha
    obtain ⟨i, hi, rfl⟩ := List.mem_drop_iff_getElem.mp ha
    have : l[k] ≤ l[i + k] := by
      rcases Nat.eq_zero_or_pos i with h' | h'
      · subst h'; simp
      · exact List.pairwise_iff_getElem.mp hl _ _ _ _ (by omega)
    simpa using lt_of_lt_of_le (not_le.mp hc) (by simpa [add_comm] using this)
  have h2 := List.countP_eq_zero.mpr h1
  have h3 : l.countP (fun a => decide (a ≤ v)) ≤ k := by
    conv_lhs => rw [← List.take_append_drop k l]
    rw [List.countP_append, h2]
    refine (List.countP_le_length).trans ?_
    rw [List.length_take]
    omega
  omega

theorem cntLe_eq (x : Fin n → ℝ) (i : Fin n) :
    (Finset.univ.filter fun j => x j ≤ x i).card = cntLt x i + cntEq x i := by
  unfold cntLt cntEq
  rw [← Finset.card_union_of_disjoint]
  · congr 1
    ext j
    simp [le_iff_lt_or_eq]
  · rw [Finset.disjoint_filter]
    intro j _ h1 h2
    exact absurd h2 (ne_of_lt h1)

/-- The sorted column at any position inside the block of values tied with `x i` is `x i`. -/
theorem sortedCol_getElem (x : Fin n → ℝ) (i : Fin n) {k : ℕ} (h1 : cntLt x i ≤ k)
    (h2 : k < cntLt x i + cntEq x i) :
    (sortedCol x)[k]? = some (x i) := by
  have hk : k < (sortedCol x).length := by
    rw [sortedCol_length]
    exact lt_of_lt_of_le h2 (cntLt_add_cntEq_le x i)
  rw [List.getElem?_eq_getElem hk]
  congr 1
  refine le_antisymm (getElem_le_of_countP (sortedCol_pairwise x) hk ?_)
    (le_getElem_of_countP (sortedCol_pairwise x) hk ?_)
  · rw [countP_sortedCol]
    simpa [cntLe_eq] using h2
  · rw [countP_sortedCol]
    simpa [cntLt] using h1

theorem npIndex_nonneg {α : Type*} {l : List α} {k : ℕ} {v : α} (h : l[k]? = some v) {z : ℤ}
    (hz : z = k) : npIndex l z = .ok v := by
  subst hz
  have h0 : ¬ (k : ℤ) < 0 := by omega
  simp only [npIndex, h0, if_false, Int.natCast_nonneg, if_true, Int.toNat_natCast, h]

/-- C42: for every tie method but 'dense', transforming the pseudo-observations of a data matrix back
with the same matrix returns the matrix. -/
theorem toMarginals_pseudoObs (x : Fin n → Fin d → ℝ) {ties : String} {t : TieMethod}
    (ht : parseTies ties = .ok t) (hd : t ≠ .dense) :
    ∃ u : Fin n → Fin d → ℚ, pseudoObs (.mat n d x) ties = .ok (.mat n d u) ∧
      toMarginals (fun i j => (u i j : ℝ)) x = .ok x := by
  refine ⟨_, pseudoObs_mat x ht, ?_⟩
  have key : ∀ (c : Fin d) (i : Fin n), npIndex (sortedCol fun k => x k c)
      ⌊((rankdata t (fun k => x k c) i / (n + 1) : ℚ) : ℝ) * n⌋ = .ok (x i c) := by
    intro c i
    set y : Fin n → ℝ := fun k => x k c
    have hn : (0 : ℚ) ≤ n := by positivity
    have h1 : (1 : ℚ) ≤ cntEq y i := by exact_mod_cast one_le_cntEq y i
    have h2 : (1 : ℚ) ≤ cntEqUpTo y i := by exact_mod_cast one_le_cntEqUpTo y i
    have h3 : (cntEqUpTo y i : ℚ) ≤ cntEq y i := by exact_mod_cast cntEqUpTo_le y i
    have h4 : (cntLt y i : ℚ) + cntEq y i ≤ n := by exact_mod_cast cntLt_add_cntEq_le y i
    have h5 : (0 : ℚ) ≤ cntLt y i := by positivity
    obtain ⟨hl, hu⟩ : (cntLt y i : ℚ) + 1 ≤ rankdata t y i ∧ rankdata t y i ≤ cntLt y i + cntEq y i := by
      cases t <;> simp only [rankdata, ne_eq, not_true_eq_false, reduceCtorEq, not_false_eq_true] at * <;>
        constructor <;> linarith
    have h6 : ⌊((rankdata t y i / (n + 1) : ℚ) : ℝ) * n⌋ = ⌊rankdata t y i / (n + 1) * n⌋ := by
      rw [← Rat.floor_cast (α := ℝ) (rankdata t y i / (n + 1) * n)]
      push_cast
      rfl
    rw [h6]
    have e : rankdata t y i / (n + 1) * n = rankdata t y i - rankdata t y i / (n + 1) := by
      field_simp
      ring
    have hr : rankdata t y i / (n + 1) < 1 := by
      rw [div_lt_one (by positivity)]
      linarith
    have hr0 : 0 < rankdata t y i / (n + 1) := div_pos (by linarith) (by positivity)
    have hf0 : (cntLt y i : ℤ) ≤ ⌊rankdata t y i / (n + 1) * n⌋ := by
      rw [Int.le_floor, e]
      push_cast
      linarith
    have hf1 : ⌊rankdata t y i / (n + 1) * n⌋ < ((cntLt y i + cntEq y i : ℕ) : ℤ) := by
      rw [Int.floor_lt, e]
      push_cast
      linarith
    refine npIndex_nonneg (sortedCol_getElem y i (k := ⌊rankdata t y i / (n + 1) * n⌋.toNat) ?_ ?_) ?_
    all_goals omega
  unfold toMarginals
  rw [mapM_finRange_ok _ (fun c => (List.finRange n).map fun i => x i c) fun c =>
    mapM_finRange_ok _ _ fun i => key c i]
  simp only [bind, Except.bind, pure, Except.pure, getD_map_finRange]

/-- C42, missing `u = 1` (see `toMarginals_one_fails`): any sample in [0, 1) is accepted; the values returned in a column are observed values of that
column, and larger `u` never give smaller values. -/
theorem toMarginals_spec_partial (u : Fin m → Fin d → ℝ) (x : Fin n → Fin d → ℝ) (hn : 0 < n)
    (h0 : ∀ i j, 0 ≤ u i j) (h1 : ∀ i j, u i j < 1) :
    ∃ v, toMarginals u x = .ok v ∧ (∀ i j, ∃ k, v i j = x k j) ∧
      ∀ i i' j, u i j ≤ u i' j → v i j ≤ v i' j := by
  have hn' : (0 : ℝ) < n := by exact_mod_cast hn
  have hk : ∀ i j, ⌊u i j * n⌋.toNat < (sortedCol fun k => x k j).length := by
    intro i j
    rw [sortedCol_length, Int.toNat_lt' hn, Int.floor_lt]
    push_cast
    nlinarith [h1 i j]
  have hz : ∀ i j, 0 ≤ ⌊u i j * n⌋ := fun i j => Int.floor_nonneg.mpr (mul_nonneg (h0 i j) hn'.le)
  refine ⟨fun i j => (sortedCol fun k => x k j)[⌊u i j * n⌋.toNat]'(hk i j), ?_, ?_, ?_⟩
  · unfold toMarginals
    rw [mapM_finRange_ok _ (fun c => (List.finRange m).map fun i =>
      (sortedCol fun k => x k c)[⌊u i c * n⌋.toNat]'(hk i c)) fun c =>
      mapM_finRange_ok _ _ fun i => npIndex_nonneg (List.getElem?_eq_getElem (hk i c))
        (Int.toNat_of_nonneg (hz i c)).symm]
    simp only [bind, Except.bind, pure, Except.pure, getD_map_finRange]
  · intro i j
    have := (sortedCol_perm fun k => x k j).subset (List.getElem_mem (hk i j))
    obtain ⟨k, hk⟩ := List.mem_ofFn.mp this
    exact ⟨k, hk.symm⟩
  · intro i i' j h
    have hle : ⌊u i j * n⌋.toNat ≤ ⌊u i' j * n⌋.toNat :=
      Int.toNat_le_toNat (Int.floor_le_floor (by nlinarith))
    rcases hle.lt_or_eq with h' | h'
    · exact List.pairwise_iff_getElem.mp (sortedCol_pairwise _) _ _ _ _ h'
    · simp only [h']; exact le_rfl

example := toMarginals_spec_partial (m := 2) (d := 2) (n := 3) (fun i j => (i.val + j.val) / 4) (fun i j => i.val * j.val)
  (by norm_num) (fun _ _ => by positivity) (by intro i j; fin_cases i <;> fin_cases j <;> norm_num)

/-- The full C42 fails: `u = 1`, which the documentation allows, is rejected. -/
theorem toMarginals_one_fails (x : Fin n → Fin d → ℝ) (u : Fin m → Fin d → ℝ) (i : Fin m) (j : Fin d)
    (h : u i j = 1) : ∃ e, toMarginals u x = .error e := by
  obtain ⟨e, he⟩ := mapM_error (l := List.finRange d) (f := fun c => (List.finRange m).mapM fun i =>
    npIndex (sortedCol fun k => x k c) ⌊u i c * n⌋) (a := j) (List.mem_finRange j)
    (mapM_error (List.mem_finRange i) ⟨.indexError, by
      have h0 : ¬ (n : ℤ) < 0 := by omega
      have h1 : (sortedCol fun k => x k j)[n]? = none := by
        rw [List.getElem?_eq_none_iff, sortedCol_length]
      simp only [h, one_mul, Int.floor_natCast, npIndex, h0, if_false, Int.natCast_nonneg, if_true,
        Int.toNat_natCast, h1]⟩)
  exact ⟨e, by unfold toMarginals; rw [he]; rfl⟩

example := toMarginals_one_fails (m := 2) (d := 2) (n := 3) (fun i j => i.val * j.val) (fun i j => i.val * j.val) 1 1 (by norm_num)

/-- C89 fails: points outside the unit cube are not rejected. For `u` between -1 and 0 the values are
read from the end of the sorted column: position `n + ⌊u n⌋`. -/
theorem toMarginals_negative (u : Fin m → Fin d → ℝ) (x : Fin n → Fin d → ℝ)
    (hn : 0 < n) (h0 : ∀ i j, -1 ≤ u i j) (h1 : ∀ i j, u i j < 0) :
    ∃ v, toMarginals u x = .ok v ∧
      ∀ i j, (sortedCol fun k => x k j)[(n + ⌊u i j * n⌋).toNat]? = some (v i j) := by
  have hn' : (0 : ℝ) < n := by exact_mod_cast hn
  have hz : ∀ i j, ⌊u i j * n⌋ < 0 := fun i j => by
    rw [Int.floor_lt]; push_cast; nlinarith [h1 i j]
  have hz' : ∀ i j, -(n : ℤ) ≤ ⌊u i j * n⌋ := fun i j => by
    rw [Int.le_floor]; push_cast; nlinarith [h0 i j]
  have hk : ∀ i j, (n + ⌊u i j * n⌋).toNat < (sortedCol fun k => x k j).length := by
    intro i j
    have := hz i j
    rw [sortedCol_length]
    omega
  refine ⟨fun i j => (sortedCol fun k => x k j)[(n + ⌊u i j * n⌋).toNat]'(hk i j), ?_, fun i j =>
    List.getElem?_eq_getElem (hk i j)⟩
  unfold toMarginals
  rw [mapM_finRange_ok _ (fun c => (List.finRange m).map fun i =>
    (sortedCol fun k => x k c)[(n + ⌊u i c * n⌋).toNat]'(hk i c)) fun c =>
    mapM_finRange_ok _ _ fun i => ?_]
  · simp only [bind, Except.bind, pure, Except.pure, getD_map_finRange]
  · have a := hz i c
    have b := hz' i c
    unfold npIndex
    simp only [a, if_true, sortedCol_length]
    rw [if_pos (by omega), add_comm, List.getElem?_eq_getElem (hk i c)]

example := toMarginals_negative (m := 2) (d := 2) (n := 3) (fun i j => -(i.val + j.val + 1) / 4) (fun i j => i.val * j.val)
  (by norm_num) (by intro i j; fin_cases i <;> fin_cases j <;> norm_num) (by intro i j; fin_cases i <;> fin_cases j <;> norm_num)

/-- The full C42 fails for the tie method 'dense': the data 1, 1, 2 come back as 1, 1, 1. -/
theorem toMarginals_dense_fails : ∃ (x : Fin 3 → Fin 1 → ℝ) (u : Fin 3 → Fin 1 → ℚ),
    pseudoObs (.mat 3 1 x) "dense" = .ok (.mat 3 1 u) ∧
      toMarginals (fun i j => (u i j : ℝ)) x = .ok (fun _ _ => 1) ∧ x 2 0 = 2 := by
  set y : Fin 3 → ℝ := ![1, 1, 2] with hy
  refine ⟨fun i _ => y i, _, pseudoObs_mat _ (m := .dense) (by decide), ?_, by simp [hy]⟩
  have c0 : cntLt y 0 = 0 := by
    simp [cntLt, hy, Finset.card_eq_zero, Finset.filter_eq_empty_iff, Fin.forall_fin_succ]
  have c1 : 2 ≤ cntEq y 0 := by
    have : ({0, 1} : Finset (Fin 3)) ⊆ Finset.univ.filter fun j => y j = y 0 := by
      intro j hj
      simp only [Finset.mem_insert, Finset.mem_singleton] at hj
      rcases hj with rfl | rfl <;> simp [hy]
    exact (by decide : 2 ≤ ({0, 1} : Finset (Fin 3)).card).trans (Finset.card_le_card this)
  have r0 : ∀ i : Fin 3, i ≠ 2 → rankdata .dense y i = 1 := by
    intro i hi
    have : (Finset.univ.filter fun j => y j < y i) = ∅ := by
      simp only [Finset.filter_eq_empty_iff, Finset.mem_univ, true_implies]
      intro j
      fin_cases i <;> fin_cases j <;> simp_all
    simp [rankdata, cntDistinctLt, this]
  have r2 : rankdata .dense y 2 = 2 := by
    have : ((Finset.univ.filter fun j => y j < y 2).image y) = {1} := by
      ext a
      simp only [Finset.mem_image, Finset.mem_filter, Finset.mem_univ, true_and, Finset.mem_singleton]
      constructor
      · rintro ⟨j, hj, rfl⟩
        fin_cases j <;> simp_all
      · rintro rfl
        exact ⟨0, by simp [hy], by simp [hy]⟩
    simp [rankdata, cntDistinctLt, this]
    norm_num
  have key : ∀ (c : Fin 1) (i : Fin 3), npIndex (sortedCol fun k => (fun (i : Fin 3) (_ : Fin 1) => y i) k c)
      ⌊((rankdata .dense (fun k => (fun (i : Fin 3) (_ : Fin 1) => y i) k c) i / ((3 : ℕ) + 1) : ℚ) : ℝ)
        * (3 : ℕ)⌋ = .ok 1 := by
    intro c i
    change npIndex (sortedCol y) ⌊((rankdata .dense y i / ((3 : ℕ) + 1) : ℚ) : ℝ) * (3 : ℕ)⌋ = _
    by_cases hi : i = 2
    · subst hi
      rw [r2]
      refine npIndex_nonneg (k := 1) ?_ ?_
      · have := sortedCol_getElem y 0 (k := 1) (by omega) (by omega)
        simpa [hy] using this
      · rw [Int.floor_eq_iff]
        norm_num
    · rw [r0 i hi]
      refine npIndex_nonneg (k := 0) ?_ ?_
      · have := sortedCol_getElem y 0 (k := 0) (by omega) (by omega)
        simpa [hy] using this
      · rw [Int.floor_eq_iff]
        norm_num
  unfold toMarginals
  rw [mapM_finRange_ok _ (fun _ => (List.finRange 3).map fun _ => 1) fun c =>
    mapM_finRange_ok _ _ fun i => key c i]
  simp only [bind, Except.bind, pure, Except.pure]
  congr 1
  funext i j
  rw [getD_map_finRange (k := 1) (fun _ => (List.finRange 3).map fun _ => (1 : ℝ)) j [],
    getD_map_finRange]

/-- Four observations with ties come back unchanged. -/
example : ∃ u : Fin 4 → Fin 1 → ℚ,
    pseudoObs (.mat 4 1 fun i _ => (![3, 1, 3, 2] i : ℝ)) "average" = .ok (.mat 4 1 u) ∧
      toMarginals (fun i j => (u i j : ℝ)) (fun i _ => (![3, 1, 3, 2] i : ℝ))
        = .ok (fun i _ => (![3, 1, 3, 2] i : ℝ)) :=
  toMarginals_pseudoObs _ (t := .average) (by decide) (by decide)

end Copulae
