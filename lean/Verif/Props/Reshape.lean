import Verif.Model.Reshape
import Verif.Lemmas.Stirling

/-!
C52: labelled input and shape checks of `cdf` and `pdf`.
-/

namespace Copulae

lemma filter_label {β : Type} {items : List (String × β)} (hnd : (items.map Prod.fst).Nodup) {c : String} {v : β}
    (h : (c, v) ∈ items) : items.filter (fun e => decide (e.1 = c)) = [(c, v)] := by
  induction items with
  | nil => simp at h
  | cons e t ih =>
    obtain ⟨k, w⟩ := e
    simp only [List.map_cons, List.nodup_cons] at hnd
    have hno : ∀ {b : β}, (k, b) ∉ t := fun {b} hb => hnd.1 (List.mem_map.mpr ⟨(k, b), hb, rfl⟩)
    rcases List.mem_cons.mp h with h | h
    · obtain ⟨rfl, rfl⟩ := Prod.mk.inj h
      rw [List.filter_cons_of_pos (by simp)]
      congr 1
      rw [List.filter_eq_nil_iff]
      rintro ⟨a, b⟩ hab heq
      have : a = c := by simpa using heq
      subst this
      exact hno hab
    · have hne : k ≠ c := by
        rintro rfl
        exact hno h
      rw [List.filter_cons_of_neg (by simpa using hne), ih hnd.2 h]

/-- Selection by labels that are all present, from items with distinct labels. -/
lemma selectLabels_ok {β : Type} {items : List (String × β)} (hnd : (items.map Prod.fst).Nodup) (c : List String)
    (hc : c ⊆ items.map Prod.fst) :
    ∃ l, selectLabels c items = .ok l ∧ l.map Prod.fst = c ∧ ∀ e ∈ l, e ∈ items := by
  induction c with
  | nil => exact ⟨[], rfl, rfl, by simp⟩
  | cons a c ih =>
    obtain ⟨l, hl, hf, hm⟩ := ih fun x hx => hc (List.mem_cons_of_mem _ hx)
    obtain ⟨⟨a', v⟩, hv, rfl⟩ := List.mem_map.mp (hc List.mem_cons_self)
    refine ⟨(a', v) :: l, ?_, by simp [hf], fun e he => ?_⟩
    · have hpick : pickLabel items a' = .ok [(a', v)] := by
        rw [pickLabel, filter_label hnd hv]
      simp only [selectLabels, List.mapM_cons, bind, Except.bind, pure, Except.pure, hpick] at hl ⊢
      revert hl
      cases List.mapM (pickLabel items) c with
      | error e => simp
      | ok t =>
        intro hl
        simp only [Except.ok.injEq] at hl
        simp [hl]
    · rcases List.mem_cons.mp he with rfl | he
      · exact hv
      · exact hm e he

lemma pickLabel_cases {β : Type} (items : List (String × β)) (b : String) :
    (∃ l, pickLabel items b = .ok l) ∨ pickLabel items b = .error .keyError := by
  unfold pickLabel
  split
  · exact Or.inr rfl
  · exact Or.inl ⟨_, rfl⟩

lemma selectLabels_missing {β : Type} {items : List (String × β)} (c : List String) {a : String} (ha : a ∈ c)
    (hno : a ∉ items.map Prod.fst) : selectLabels c items = .error .keyError := by
  have hpa : pickLabel items a = .error .keyError := by
    have he : items.filter (fun e => decide (e.1 = a)) = [] := by
      rw [List.filter_eq_nil_iff]
      intro e he h
      exact hno (List.mem_map.mpr ⟨e, he, by simpa using h⟩)
    rw [pickLabel, he]
  unfold selectLabels
  suffices h : c.mapM (pickLabel items) = .error .keyError by
    rw [h]
    rfl
  induction c with
  | nil => simp at ha
  | cons b c ih =>
    rw [List.mapM_cons]
    rcases pickLabel_cases items b with ⟨l, hl⟩ | hl
    · have hab : a ≠ b := by
        rintro rfl
        rw [hpa] at hl
        simp at hl
      rw [hl, ih ((List.mem_cons.mp ha).resolve_left hab)]
      rfl
    · rw [hl]
      rfl

/-- The values with the labels `c` of a frame with distinct labels containing them. -/
lemma selected_unique {β : Type} {items : List (String × β)} (hnd : (items.map Prod.fst).Nodup)
    {l : List (String × β)} (hm : ∀ e ∈ l, e ∈ items) {k : ℕ} (hk : k < l.length) {v : β}
    (hv : ((l[k]).1, v) ∈ items) : (l[k]).2 = v := by
  have h1 := filter_label hnd hv
  have h2 := filter_label hnd (c := (l[k]).1) (v := (l[k]).2) (hm _ (List.getElem_mem hk))
  rw [h1, List.singleton_inj] at h2
  exact (congrArg Prod.snd h2).symm

lemma evalInput_eq (s : CopState) (x : FirstArg) (h : x.ndim = 1 ∨ x.ndim = 2) :
    evalInput s [x] = shapeFirst s [x] := by
  unfold evalInput
  exact if_pos (by simpa using h)

/-- C52: after a fit on a frame with columns `c`, a frame that contains these columns (distinct labels, in any
order, possibly with more columns) is accepted, and the method receives in position `k` the values of the
column labelled `c[k]`. -/
theorem evalInput_frame (s : CopState) (c : List String) (hs : s.columns = some c) (hd : c.length = s.dim)
    (n : ℕ) (cols : List (String × (Fin n → Fl))) (hnd : (cols.map Prod.fst).Nodup)
    (hc : c ⊆ cols.map Prod.fst) :
    ∃ M : Fin n → Fin s.dim → Fl, evalInput s [.frame n cols] = .ok ⟨n, M⟩ ∧
      ∀ (k : Fin s.dim) (v : Fin n → Fl), (c[k.val]'(k.2.trans_eq hd.symm), v) ∈ cols → ∀ i, M i k = v i := by
  obtain ⟨l, hl, hf, hm⟩ := selectLabels_ok hnd c hc
  have hlen : l.length = s.dim := by rw [← hd, ← hf, List.length_map]
  have hlen' : ¬ (l.map Prod.snd).length ≠ s.dim := by simp [hlen]
  refine ⟨fun i j => (l.map Prod.snd).get (j.cast (not_not.mp hlen').symm) i, ?_, fun k v hv i => ?_⟩
  · rw [evalInput_eq s _ (by simp [FirstArg.ndim])]
    simp only [shapeFirst, hs, hl, bind, Except.bind]
    unfold checkShape
    rw [dif_neg hlen']
  · simp only [List.get_eq_getElem, Fin.val_cast, List.getElem_map]
    have hkl : k.val < l.length := by rw [hlen]; exact k.2
    have hlab : (l[k.val]).1 = c[k.val]'(k.2.trans_eq hd.symm) := by
      subst hf
      rw [List.getElem_map]
    rw [selected_unique hnd hm hkl (by rw [hlab]; exact hv)]

example := evalInput_frame ⟨2, some ["a", "b"]⟩ ["a", "b"] rfl rfl 1
  [("b", fun _ => .fin 6), ("x", fun _ => .fin 0), ("a", fun _ => .fin 5)] (by simp) (by simp)

/-- C52: after fitting on a frame, the order of the columns of the argument does not matter: two frames with
the same labelled columns in different order give the method the same matrix. -/
theorem evalInput_column_order (s : CopState) (data : FirstArg) (n0 : ℕ) (cols0 : List (String × (Fin n0 → Fl)))
    (hdata : data = .frame n0 cols0) (hd : cols0.length = s.dim)
    (n : ℕ) (cols cols' : List (String × (Fin n → Fl))) (hnd : (cols.map Prod.fst).Nodup)
    (hlab : (cols0.map Prod.fst) ⊆ cols.map Prod.fst) (hperm : cols.Perm cols') :
    evalInput (fitColumns s data) [.frame n cols] = evalInput (fitColumns s data) [.frame n cols'] ∧
      ∃ R, evalInput (fitColumns s data) [.frame n cols] = .ok R := by
  subst hdata
  set s' := fitColumns s (.frame n0 cols0) with hs'
  have hcol : s'.columns = some (cols0.map Prod.fst) := rfl
  have hdim : (cols0.map Prod.fst).length = s'.dim := by rw [List.length_map, hd]; rfl
  have hpl := hperm.map Prod.fst
  obtain ⟨M, hM, hMv⟩ := evalInput_frame s' _ hcol hdim n cols hnd hlab
  obtain ⟨M', hM', hMv'⟩ := evalInput_frame s' _ hcol hdim n cols' (hpl.nodup_iff.mp hnd)
    (fun x hx => hpl.subset (hlab hx))
  refine ⟨?_, _, hM⟩
  rw [hM, hM']
  congr 2
  funext i k
  have hk : k.val < (cols0.map Prod.fst).length := k.2.trans_eq hdim.symm
  obtain ⟨⟨a, v⟩, hv, ha⟩ := List.mem_map.mp (hlab (List.getElem_mem hk))
  simp only at ha
  rw [hMv k v (ha ▸ hv) i, hMv' k v (hperm.subset (ha ▸ hv)) i]

/-- C52: a frame lacking one of the fitted columns is rejected. -/
theorem evalInput_missing_column (s : CopState) (c : List String) (hs : s.columns = some c) (n : ℕ)
    (cols : List (String × (Fin n → Fl))) (a : String) (ha : a ∈ c) (hno : a ∉ cols.map Prod.fst) :
    evalInput s [.frame n cols] = .error .keyError := by
  rw [evalInput_eq _ _ (by simp [FirstArg.ndim])]
  simp only [shapeFirst, hs, selectLabels_missing c ha hno, bind, Except.bind]

example := evalInput_missing_column ⟨2, some ["a", "b"]⟩ ["a", "b"] rfl 1 [("a", fun _ => .fin 5), ("c", fun _ => .fin 6)] "b"
  (by simp) (by simp)

/-- C52: a Series with exactly the fitted labels is taken by label, whatever its order. -/
theorem evalInput_series (s : CopState) (c : List String) (hs : s.columns = some c) (hd : c.length = s.dim)
    (e : List (String × Fl)) (hnd : (e.map Prod.fst).Nodup) (h1 : c ⊆ e.map Prod.fst) (h2 : e.map Prod.fst ⊆ c) :
    ∃ M : Fin 1 → Fin s.dim → Fl, evalInput s [.series e] = .ok ⟨1, M⟩ ∧
      ∀ (k : Fin s.dim) (v : Fl), (c[k.val]'(k.2.trans_eq hd.symm), v) ∈ e → M 0 k = v := by
  obtain ⟨l, hl, hf, hm⟩ := selectLabels_ok hnd c h1
  have hlen : l.length = s.dim := by rw [← hd, ← hf, List.length_map]
  have hlen' : ¬ (l.map fun v (_ : Fin 1) => v.2).length ≠ s.dim := by simp [hlen]
  refine ⟨fun i j => (l.map fun v (_ : Fin 1) => v.2).get (j.cast (not_not.mp hlen').symm) i, ?_, fun k v hv => ?_⟩
  · rw [evalInput_eq s _ (by simp [FirstArg.ndim])]
    have hss : sameSet (e.map Prod.fst) c = true := by simp only [sameSet, decide_eq_true_eq]; exact ⟨h2, h1⟩
    simp only [shapeFirst, hs, hss, if_true, hl, bind, Except.bind]
    unfold checkShape
    rw [dif_neg hlen']
  · simp only [List.get_eq_getElem, Fin.val_cast, List.getElem_map]
    have hkl : k.val < l.length := by rw [hlen]; exact k.2
    have hlab : (l[k.val]).1 = c[k.val]'(k.2.trans_eq hd.symm) := by
      subst hf
      rw [List.getElem_map]
    exact selected_unique hnd hm hkl (by rw [hlab]; exact hv)

example := evalInput_series ⟨2, some ["a", "b"]⟩ ["a", "b"] rfl rfl [("b", .fin 6), ("a", .fin 5)] (by simp) (by simp) (by simp)

/-- C52: an array is passed on unchanged if it is a matrix with `dim` columns or a vector of length `dim`
(as one row), whether or not the copula was fitted on a frame. -/
theorem evalInput_array (s : CopState) (n : ℕ) (M : Fin n → Fin s.dim → Fl) (v : Fin s.dim → Fl) :
    evalInput s [.mat n s.dim M] = .ok ⟨n, M⟩ ∧
      evalInput s [.vec (List.ofFn v)] = .ok ⟨1, fun _ => v⟩ := by
  constructor
  · rw [evalInput_eq s _ (by simp [FirstArg.ndim])]
    simp [shapeFirst, checkShape]
  · rw [evalInput_eq s _ (by simp [FirstArg.ndim])]
    simp [shapeFirst, checkShape]

/-- C52: every other shape is rejected with `ValueError`: arrays that are not one- or two-dimensional,
matrices and vectors with another number of columns, and, for a copula not fitted on a frame, frames and
Series of another width. -/
theorem evalInput_wrong_shape (s : CopState) :
    (∀ k h, evalInput s [.nd k h] = .error .valueError) ∧
    (∀ n p M, p ≠ s.dim → evalInput s [.mat n p M] = .error .valueError) ∧
    (∀ l, l.length ≠ s.dim → evalInput s [.vec l] = .error .valueError) ∧
    (∀ n cols, s.columns = none → cols.length ≠ s.dim → evalInput s [.frame n cols] = .error .valueError) ∧
    (∀ e, s.columns = none → e.length ≠ s.dim → evalInput s [.series e] = .error .valueError) := by
  refine ⟨fun k h => ?_, fun n p M hp => ?_, fun l hl => ?_, fun n cols hs hc => ?_, fun e hs he => ?_⟩
  · unfold evalInput
    exact if_neg (by simp [FirstArg.ndim, h.1, h.2])
  all_goals
    rw [evalInput_eq s _ (by simp [FirstArg.ndim])]
    simp [shapeFirst, checkShape, *]

/-- C52: whatever is accepted has the shape of the copula: the type of the result says that it has `dim`
columns; a frame and a matrix keep their number of rows, a Series and a vector give one row. -/
theorem evalInput_rows (s : CopState) (x : FirstArg) (R : RowMat s.dim) (h : evalInput s [x] = .ok R) :
    R.1 = match x with
      | .frame n _ => n
      | .mat n _ _ => n
      | _ => 1 := by
  have hcs : ∀ (d n : ℕ) (cols : List (Fin n → Fl)) (R : RowMat d), checkShape d n cols = .ok R → R.1 = n := by
    intro d n cols R h
    unfold checkShape at h
    split at h
    · simp at h
    · simp only [Except.ok.injEq] at h
      rw [← h]
  cases x with
  | nd k hk => rw [(evalInput_wrong_shape s).1 k hk] at h; simp at h
  | vec l =>
    rw [evalInput_eq s _ (by simp [FirstArg.ndim])] at h
    simp only [shapeFirst] at h
    exact hcs _ _ _ _ h
  | mat n p M =>
    rw [evalInput_eq s _ (by simp [FirstArg.ndim])] at h
    simp only [shapeFirst] at h
    exact hcs _ _ _ _ h
  | frame n cols =>
    rw [evalInput_eq s _ (by simp [FirstArg.ndim])] at h
    simp only [shapeFirst] at h
    cases hs : s.columns with
    | none =>
      simp only [hs] at h
      exact hcs _ _ _ _ h
    | some c =>
      simp only [hs, bind, Except.bind] at h
      split at h
      · simp at h
      · exact hcs _ _ _ _ h
  | series e =>
    rw [evalInput_eq s _ (by simp [FirstArg.ndim])] at h
    simp only [shapeFirst] at h
    cases hs : s.columns with
    | none =>
      simp only [hs] at h
      exact hcs _ _ _ _ h
    | some c =>
      simp only [hs, bind, Except.bind] at h
      split at h
      · split at h
        · simp at h
        · exact hcs _ _ _ _ h
      · exact hcs _ _ _ _ h

example (R : RowMat 2) := evalInput_rows ⟨2, none⟩ (.mat 4 2 fun i j => .fin (i.val + j.val)) R

/-- C52: a sample drawn from a fitted copula, which is a frame with the fitted labels, is evaluated as drawn. -/
theorem evalInput_castOutput (s : CopState) (c : List String) (hs : s.columns = some c) (hd : c.length = s.dim)
    (hnd : c.Nodup) (n : ℕ) (M : Fin n → Fin s.dim → Fl) :
    ∃ x, castOutput s n M = .ok x ∧ evalInput s [x] = .ok ⟨n, M⟩ := by
  refine ⟨_, by simp only [castOutput, hs]; rw [if_neg (not_not.mpr hd)], ?_⟩
  have hlen : c.length = ((List.finRange s.dim).map fun j (i : Fin n) => M i j).length := by simp [hd]
  have hfst : (c.zip ((List.finRange s.dim).map fun j (i : Fin n) => M i j)).map Prod.fst = c :=
    List.map_fst_zip hlen.le
  obtain ⟨M', hM', hv⟩ := evalInput_frame s c hs hd n (c.zip ((List.finRange s.dim).map fun j i => M i j))
    (by rw [hfst]; exact hnd) (by rw [hfst]; exact List.Subset.refl _)
  rw [hM']
  congr 2
  funext i k
  refine hv k (fun i => M i k) ?_ i
  have hk : k.val < (c.zip ((List.finRange s.dim).map fun j (i : Fin n) => M i j)).length := by simp [hd]
  have : (c.zip ((List.finRange s.dim).map fun j (i : Fin n) => M i j))[k.val]
      = (c[k.val]'(k.2.trans_eq hd.symm), fun i => M i k) := by
    simp [List.getElem_zip]
  rw [← this]
  exact List.getElem_mem hk

/-- Hypotheses of `evalInput_column_order` with two columns in reversed order. -/
example : evalInput (fitColumns ⟨2, none⟩ (.frame 1 [("a", fun _ => 0), ("b", fun _ => 1)]))
      [.frame 1 [("a", fun _ => .fin 5), ("b", fun _ => .fin 6)]]
    = evalInput (fitColumns ⟨2, none⟩ (.frame 1 [("a", fun _ => 0), ("b", fun _ => 1)]))
      [.frame 1 [("b", fun _ => .fin 6), ("a", fun _ => .fin 5)]] :=
  (evalInput_column_order ⟨2, none⟩ _ 1 _ rfl rfl 1 _ _ (by simp) (by simp) (List.Perm.swap _ _ _)).1

/-! ### Where the labels are not respected -/

/-- Finding: a Series whose labels are not those of the fit is not rejected; if it has the right length its
values are used by position, here those of `b` and `c` for columns `a` and `b`. -/
theorem evalInput_series_positional (x y : Fl) :
    evalInput ⟨2, some ["a", "b"]⟩ [.series [("b", x), ("c", y)]] = .ok ⟨1, fun _ => ![x, y]⟩ := by
  rw [evalInput_eq _ _ (by simp [FirstArg.ndim])]
  simp only [shapeFirst]
  have : sameSet (List.map Prod.fst [("b", x), ("c", y)]) ["a", "b"] = false := by
    simp only [sameSet, List.map_cons, List.map_nil]
    decide
  simp only [this]
  unfold checkShape
  simp only [List.map_cons, List.map_nil, List.length_cons, List.length_nil]
  rw [dif_neg (by decide)]
  simp only [Bool.false_eq_true, if_false]
  congr 2
  funext i j
  fin_cases j <;> rfl

/-- Finding: fitting on an array does not forget the labels of an earlier fit on a frame, so a frame without
these labels is rejected although the last fit was on unlabelled data. -/
theorem fitColumns_stale (s : CopState) (n m p : ℕ) (cols : List (String × (Fin n → Fl)))
    (M : Fin m → Fin p → Fl) (n' : ℕ) (cols' : List (String × (Fin n' → Fl))) (a : String)
    (ha : a ∈ cols.map Prod.fst) (hno : a ∉ cols'.map Prod.fst) :
    evalInput (fitColumns (fitColumns s (.frame n cols)) (.mat m p M)) [.frame n' cols'] = .error .keyError :=
  evalInput_missing_column _ (cols.map Prod.fst) rfl n' cols' a ha hno

example := fitColumns_stale ⟨2, none⟩ 1 3 2 [("a", fun _ => .fin 5), ("b", fun _ => .fin 6)] (fun _ _ => .fin 1) 1
  [("x", fun _ => .fin 5), ("y", fun _ => .fin 6)] "a" (by simp) (by simp)

/-- Finding: the argument cannot be given by keyword (`cop.cdf(x=...)`). -/
theorem evalInput_keyword (s : CopState) : evalInput s [] = .error .indexError := rfl

end Copulae
