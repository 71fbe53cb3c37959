import Mathlib.Tactic.Ring
import Mathlib.Tactic.Linarith
import Mathlib.Data.List.Nodup
import Mathlib.Algebra.BigOperators.Group.List.Basic
import Mathlib.Algebra.BigOperators.Intervals
import Verif.Model.Tri

namespace Copulae

theorem mem_triLoop {n m i j : ℕ} : (i, j) ∈ triLoop n m ↔ i + m ≤ j ∧ j < n := by
  simp only [triLoop, List.mem_flatMap, List.mem_range, List.mem_map, List.mem_range'_1,
    Prod.mk.injEq]
  constructor
  · rintro ⟨a, ha, b, hb, rfl, rfl⟩; omega
  · rintro ⟨h1, h2⟩; exact ⟨i, by omega, j, by omega, rfl, rfl⟩

theorem nodup_triLoop (n m : ℕ) : (triLoop n m).Nodup := by
  unfold triLoop
  rw [List.nodup_flatMap]
  constructor
  · intro i _
    exact (List.nodup_range' ).map (fun a b h => by simpa using h)
  · refine (List.nodup_range).imp ?_
    intro a b hab
    simp only [Function.onFun, List.disjoint_left, List.mem_map]
    rintro x ⟨j, _, rfl⟩ ⟨k, _, hk⟩
    exact hab (by simpa using (congrArg Prod.fst hk).symm)

theorem length_triLoop_one (n : ℕ) : (triLoop n 1).length = n * (n - 1) / 2 := by
  unfold triLoop
  rw [List.length_flatMap]
  simp only [List.length_map, List.length_range']
  have : ∀ n : ℕ, ((List.range (n - 1)).map fun a => n - (a + 1)).sum = n * (n - 1) / 2 := by
    intro n
    have h2 := Finset.sum_range_id_mul_two n
    have h3 : ((List.range (n - 1)).map fun a => n - (a + 1)).sum = ∑ i ∈ Finset.range n, i := by
      rw [← Finset.sum_range_reflect]
      cases n with
      | zero => simp
      | succ k =>
        rw [Finset.sum_range_succ]
        simp only [Nat.add_sub_cancel]
        rw [show (Finset.range k).sum (fun j => k - j) = ((List.range k).map fun j => k - j).sum from by
          rw [← List.sum_toFinset _ (List.nodup_range), List.toFinset_range]]
        simp
    rw [h3]
    omega
  exact this n

theorem lower_ok : pyLower "lower" = "lower".toList := by decide
theorem upper_ok : pyLower "upper" = "upper".toList := by decide
theorem both_ok : pyLower "both" = "both".toList := by decide

theorem triIndices_lower (n m : ℕ) :
    triIndices n m "lower" = .ok ((triLoop n m).map Prod.snd, (triLoop n m).map Prod.fst) := by
  simp [triIndices, lower_ok]

theorem triIndices_upper (n m : ℕ) :
    triIndices n m "upper" = .ok ((triLoop n m).map Prod.fst, (triLoop n m).map Prod.snd) := by
  simp [triIndices, upper_ok]

theorem triIndices_both (n m : ℕ) :
    triIndices n m "both" = .ok ((triLoop n m).map Prod.fst ++ (triLoop n m).map Prod.snd,
      (triLoop n m).map Prod.snd ++ (triLoop n m).map Prod.fst) := by
  simp [triIndices, both_ok]

theorem zip_fst_snd {α β : Type*} (l : List (α × β)) :
    (l.map Prod.fst).zip (l.map Prod.snd) = l := by
  induction l with
  | nil => rfl
  | cons a t ih => simp [ih]

theorem zip_snd_fst {α β : Type*} (l : List (α × β)) :
    (l.map Prod.snd).zip (l.map Prod.fst) = l.map Prod.swap := by
  induction l with
  | nil => rfl
  | cons a t ih => simp [ih, Prod.swap]

/-- Cells of the `both` index list. -/
theorem both_cells (n m : ℕ) :
    ((triLoop n m).map Prod.fst ++ (triLoop n m).map Prod.snd).zip
      ((triLoop n m).map Prod.snd ++ (triLoop n m).map Prod.fst)
      = triLoop n m ++ (triLoop n m).map Prod.swap := by
  rw [List.zip_append (by simp), zip_fst_snd, zip_snd_fst]

theorem nodup_swap (n m : ℕ) : ((triLoop n m).map Prod.swap).Nodup :=
  (nodup_triLoop n m).map Prod.swap_injective

theorem disjoint_swap (n : ℕ) {m : ℕ} (hm : 1 ≤ m) :
    List.Disjoint (triLoop n m) ((triLoop n m).map Prod.swap) := by
  rintro ⟨i, j⟩ h1 h2
  rw [mem_triLoop] at h1
  simp only [List.mem_map, Prod.exists, Prod.swap_prod_mk, Prod.mk.injEq] at h2
  obtain ⟨a, b, hab, rfl, rfl⟩ := h2
  rw [mem_triLoop] at hab
  omega

section cells
variable {α : Type} {d : ℕ}

theorem setCells_of_not_mem (cells : List ((ℕ × ℕ) × α)) (M : SqMat α d) (a b : Fin d)
    (h : (a.val, b.val) ∉ cells.map Prod.fst) : setCells M cells a b = M a b := by
  induction cells generalizing M with
  | nil => rfl
  | cons c t ih =>
    simp only [List.map_cons, List.mem_cons, not_or] at h
    show setCells (setCell M c.1 c.2) t a b = _
    rw [ih _ h.2, setCell, if_neg h.1]

theorem setCells_of_mem (cells : List ((ℕ × ℕ) × α)) (M : SqMat α d) (a b : Fin d) (v : α)
    (hn : (cells.map Prod.fst).Nodup) (h : ((a.val, b.val), v) ∈ cells) :
    setCells M cells a b = v := by
  induction cells generalizing M with
  | nil => simp at h
  | cons c t ih =>
    simp only [List.map_cons, List.nodup_cons] at hn
    show setCells (setCell M c.1 c.2) t a b = _
    rcases List.mem_cons.1 h with rfl | h
    · rw [setCells_of_not_mem _ _ _ _ hn.1]; simp [setCell]
    · exact ih _ hn.2 h

theorem fancyRead_ok (M : SqMat α d) (idx : List ℕ × List ℕ) (l : List (ℕ × ℕ))
    (hl : idx.1.zip idx.2 = l) (h : ∀ c ∈ l, c.1 < d ∧ c.2 < d) :
    fancyRead M idx = .ok (l.attach.map fun c => M ⟨c.1.1, (h c.1 c.2).1⟩ ⟨c.1.2, (h c.1 c.2).2⟩) := by
  subst hl
  unfold fancyRead
  generalize idx.1.zip idx.2 = l at h
  induction l with
  | nil => rfl
  | cons c t ih =>
    rw [List.mapM_cons, ih (fun c hc => h c (List.mem_cons_of_mem _ hc))]
    have hc := h c (List.mem_cons_self)
    simp [hc, bind, Except.bind, pure, Except.pure, List.attach_cons]
    
end cells

theorem covDim_tri {d : ℕ} (hd : 1 ≤ d) : covDim (d * (d - 1) / 2) = d := by
  have hk : 2 * (d * (d - 1) / 2) = d * (d - 1) := by
    exact Nat.mul_div_cancel' (Nat.even_mul_pred_self d).two_dvd
  have hs : 1 + 4 * 2 * (d * (d - 1) / 2) = (2 * d - 1) * (2 * d - 1) := by
    obtain ⟨e, rfl⟩ : ∃ e, d = e + 1 := ⟨d - 1, by omega⟩
    have h1 : 2 * (e + 1) - 1 = 2 * e + 1 := by omega
    rw [h1]
    simp only [Nat.add_sub_cancel] at hk ⊢
    nlinarith
  unfold covDim
  rw [hs, Nat.sqrt_eq]
  omega

/-- Position of the pair `i < j` in the upper-triangle enumeration. -/
def rhoPos (d i j : ℕ) : ℕ := (triLoop d 1).idxOf (i, j)

theorem rhoPos_lt {d i j : ℕ} (h : i < j) (hj : j < d) : rhoPos d i j < d * (d - 1) / 2 := by
  rw [← length_triLoop_one]
  exact List.idxOf_lt_length_of_mem (mem_triLoop.2 ⟨h, hj⟩)

theorem triLoop_rhoPos {d i j : ℕ} (h : i < j) (hj : j < d) :
    (triLoop d 1)[rhoPos d i j]? = some (i, j) := by
  have hm : (i, j) ∈ triLoop d 1 := mem_triLoop.2 ⟨h, hj⟩
  unfold rhoPos
  rw [List.getElem?_eq_getElem (List.idxOf_lt_length_of_mem hm)]
  simp

theorem rhoPos_inj {d i j k l : ℕ} (h : i < j) (hj : j < d) (h' : k < l) (hl : l < d)
    (e : rhoPos d i j = rhoPos d k l) : i = k ∧ j = l := by
  have h1 := triLoop_rhoPos h hj
  rw [e, triLoop_rhoPos h' hl] at h1
  simp only [Option.some.injEq, Prod.mk.injEq] at h1
  exact ⟨h1.1.symm, h1.2.symm⟩

/-- Every position below the length is the position of a pair. -/
theorem rhoPos_surj {d k : ℕ} (h : k < d * (d - 1) / 2) :
    ∃ i j, i < j ∧ j < d ∧ rhoPos d i j = k := by
  rw [← length_triLoop_one] at h
  refine ⟨((triLoop d 1)[k]).1, ((triLoop d 1)[k]).2, ?_⟩
  have hm : (((triLoop d 1)[k]).1, ((triLoop d 1)[k]).2) ∈ triLoop d 1 := List.getElem_mem h
  have := mem_triLoop.1 hm
  refine ⟨by omega, by omega, ?_⟩
  unfold rhoPos
  exact (nodup_triLoop d 1).idxOf_getElem k h

end Copulae
