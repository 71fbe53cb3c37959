import Verif.Props.Marginals

/-!
C89: the points that `EmpiricalCopula.to_marginals` rejects.
-/

namespace Copulae

theorem mapM_only_error {α β : Type*} {e : PyErr} {f : α → Except PyErr β} {l : List α} (h : ∀ a e', f a = .error e' → e' = e)
    {a : α} (ha : a ∈ l) (hf : f a = .error e) : l.mapM f = .error e := by
  induction l with
  | nil => simp at ha
  | cons b l ih =>
    rw [List.mapM_cons]
    cases hb : f b with
    | error e' =>
      rw [h b e' hb]
      rfl
    | ok v =>
      have hal : a ∈ l := by
        rcases List.mem_cons.mp ha with rfl | h'
        · rw [hf] at hb; cases hb
        · exact h'
      rw [ih hal]
      rfl

theorem mapM_error_from {α β : Type*} {f : α → Except PyErr β} {l : List α} {e : PyErr} (h : l.mapM f = .error e) :
    ∃ a ∈ l, f a = .error e := by
  induction l with
  | nil => cases h
  | cons b l ih =>
    rw [List.mapM_cons] at h
    cases hb : f b with
    | error e' =>
      rw [hb] at h
      cases h
      exact ⟨b, by simp, hb⟩
    | ok v =>
      rw [hb] at h
      cases hl : l.mapM f with
      | error e' =>
        simp only [hl, bind, Except.bind] at h
        cases h
        obtain ⟨a, ha, hf⟩ := ih hl
        exact ⟨a, by simp [ha], hf⟩
      | ok w =>
        simp only [hl, bind, Except.bind, pure, Except.pure] at h
        cases h

theorem npIndex_error {α : Type*} {l : List α} {k : ℤ} {e : PyErr} (h : npIndex l k = .error e) : e = .indexError := by
  unfold npIndex at h
  generalize (if k < 0 then k + (l.length : ℤ) else k) = k' at h
  by_cases h0 : 0 ≤ k'
  · cases hl : l[k'.toNat]? with
    | some v =>
      simp only [h0, if_true, hl] at h
      cases h
    | none =>
      simp only [h0, if_true, hl] at h
      cases h
      rfl
  · simp only [h0, if_false] at h
    cases h
    rfl

theorem npIndex_outside {α : Type*} {l : List α} {k : ℤ} :
    npIndex l k = .error .indexError ↔ k < -(l.length : ℤ) ∨ (l.length : ℤ) ≤ k := by
  unfold npIndex
  simp only
  by_cases h0 : k < 0
  · simp only [h0, if_true]
    by_cases h1 : 0 ≤ k + l.length
    · rw [if_pos h1, List.getElem?_eq_getElem (by omega)]
      simp only [reduceCtorEq, false_iff]
      omega
    · rw [if_neg h1]
      simp only [true_iff]
      omega
  · simp only [h0, if_false]
    rw [if_pos (by omega)]
    by_cases h1 : k.toNat < l.length
    · rw [List.getElem?_eq_getElem h1]
      simp only [reduceCtorEq, false_iff]
      omega
    · rw [List.getElem?_eq_none (by omega)]
      simp only [true_iff]
      omega

/-- **C89, in part.** `to_marginals` raises, and then an `IndexError`, exactly if a coordinate is less than -1 or at least 1. Missing are the
coordinates from -1 to 0, see `toMarginals_negative`; the coordinate 1 should be accepted. -/
theorem toMarginals_rejects_partial {m n d : ℕ} (u : Fin m → Fin d → ℝ) (x : Fin n → Fin d → ℝ) (hn : 0 < n) :
    ((∃ i j, u i j < -1 ∨ 1 ≤ u i j) → toMarginals u x = .error .indexError) ∧
    (∀ e, toMarginals u x = .error e → e = .indexError ∧ ∃ i j, u i j < -1 ∨ 1 ≤ u i j) := by
  have hn' : (0 : ℝ) < n := by exact_mod_cast hn
  have hout : ∀ i j, npIndex (sortedCol fun k => x k j) ⌊u i j * n⌋ = .error .indexError ↔ u i j < -1 ∨ 1 ≤ u i j := fun i j => by
    rw [npIndex_outside, sortedCol_length, Int.floor_lt, Int.le_floor]
    push_cast
    refine or_congr ⟨fun h => by nlinarith, fun h => by nlinarith⟩ ⟨fun h => ?_, fun h => by nlinarith⟩
    exact le_of_mul_le_mul_right (by linarith) hn'
  have hin : ∀ (j : Fin d) e', ((List.finRange m).mapM fun i => npIndex (sortedCol fun k => x k j) ⌊u i j * n⌋) = .error e' →
      e' = .indexError := fun j e' h => by
    obtain ⟨i, -, hi⟩ := mapM_error_from h
    exact npIndex_error hi
  constructor
  · rintro ⟨i, j, hij⟩
    unfold toMarginals
    rw [mapM_only_error (e := .indexError) hin (List.mem_finRange j)
      (mapM_only_error (fun _ _ h => npIndex_error h) (List.mem_finRange i) ((hout i j).mpr hij))]
    rfl
  · intro e h
    unfold toMarginals at h
    cases hc : (List.finRange d).mapM fun c =>
        (List.finRange m).mapM fun i => npIndex (sortedCol fun k => x k c) ⌊u i c * n⌋ with
    | ok v =>
      rw [hc] at h
      cases h
    | error e' =>
      rw [hc] at h
      cases h
      obtain ⟨j, -, hj⟩ := mapM_error_from hc
      obtain ⟨i, -, hi⟩ := mapM_error_from hj
      have he := npIndex_error hi
      subst he
      exact ⟨rfl, i, j, (hout i j).mp hi⟩

/-- Case: the second point has a coordinate above 1. -/
example : toMarginals (m := 2) (d := 2) (n := 3) (fun i j => (i.val + j.val : ℝ) * (2 / 3)) (fun i j => i.val * j.val) = .error .indexError :=
  (toMarginals_rejects_partial _ _ (by norm_num)).1 ⟨1, 1, .inr (by norm_num)⟩

end Copulae
