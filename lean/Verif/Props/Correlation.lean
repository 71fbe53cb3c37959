import Verif.Model.Correlation

/-!
C53: correlation matrices.
-/

namespace Copulae

open Classical

/-- The rows that are to be used for columns `i` and `j`. -/
def Spec.rowUsed {p : ℕ} (use : CorrUse) (i j : Fin p) (r : Fin p → Fl) : Prop :=
  match use with
  | .everything => True
  | .complete => ∀ k, ¬ (r k).isNan
  | .pairwise => ¬ (r i).isNan ∧ ¬ (r j).isNan

/-- The samples of columns `i` and `j` in the used rows. -/
noncomputable def Spec.sample {p : ℕ} (use : CorrUse) (rows : List (Fin p → Fl)) (i j k : Fin p) : List Fl :=
  (rows.filter fun r => decide (Spec.rowUsed use i j r)).map fun r => r k

/-- `v` is the correlation of columns `i` and `j`: the coefficient of the used rows, NaN if one of the
used values is not finite. -/
def Spec.IsEntry {p : ℕ} (f : List Fl → List Fl → Except PyErr Fl) (use : CorrUse)
    (rows : List (Fin p → Fl)) (i j : Fin p) (v : Fl) : Prop :=
  ((∀ z ∈ Spec.sample use rows i j i, z.isFin) ∧ (∀ z ∈ Spec.sample use rows i j j, z.isFin) →
    f (Spec.sample use rows i j i) (Spec.sample use rows i j j) = .ok v) ∧
  (¬ ((∀ z ∈ Spec.sample use rows i j i, z.isFin) ∧ (∀ z ∈ Spec.sample use rows i j j, z.isFin)) → v = .nan)

lemma filter_decide {β : Type} {l : List β} {P Q : β → Prop} [DecidablePred P] [DecidablePred Q]
    (h : ∀ r ∈ l, (P r ↔ Q r)) : l.filter (fun r => decide (P r)) = l.filter fun r => decide (Q r) :=
  List.filter_congr fun r hr => decide_eq_decide.mpr (h r hr)

lemma filter_decide_self {β : Type} {l : List β} {P : β → Prop} [DecidablePred P]
    (h : ∀ r ∈ l, P r) : l.filter (fun r => decide (P r)) = l :=
  List.filter_eq_self.mpr fun r hr => decide_eq_true (h r hr)

lemma corrVectors_eq {p : ℕ} (rows : List (Fin p → Fl)) (use : CorrUse) (i j : Fin p) :
    corrVectors rows use i j = (Spec.sample use rows i j i, Spec.sample use rows i j j) := by
  unfold Spec.sample
  cases use
  · rw [filter_decide_self (P := Spec.rowUsed .everything i j) fun _ _ => trivial]
    rfl
  · rw [filter_decide (P := Spec.rowUsed .complete i j) (Q := fun r => ∀ k, ¬ (r k).isNan) fun _ _ => Iff.rfl]
    rfl
  · rw [filter_decide (P := Spec.rowUsed .pairwise i j) (Q := fun r => ¬ (r i).isNan ∧ ¬ (r j).isNan)
      fun _ _ => Iff.rfl]
    rfl

lemma any_nonfinite {β : Type} (l : List β) (g h : β → Fl) :
    (((l.map g).zip (l.map h)).any fun e => decide (¬ e.1.isFin ∨ ¬ e.2.isFin)) = true ↔
      ¬ ((∀ z ∈ l.map g, z.isFin) ∧ (∀ z ∈ l.map h, z.isFin)) := by
  induction l with
  | nil => simp
  | cons a t ih =>
    simp only [List.map_cons, List.zip_cons_cons, List.any_cons, Bool.or_eq_true, decide_eq_true_eq, ih,
      List.forall_mem_cons]
    tauto

lemma computeCorr_entry {p : ℕ} (f : List Fl → List Fl → Except PyErr Fl) (use : CorrUse)
    (rows : List (Fin p → Fl)) (i j : Fin p) (v : Fl) :
    computeCorr f (corrVectors rows use i j).1 (corrVectors rows use i j).2 = .ok v ↔
      Spec.IsEntry f use rows i j v := by
  rw [corrVectors_eq, computeCorr, Spec.IsEntry]
  have h := any_nonfinite (rows.filter fun r => decide (Spec.rowUsed use i j r)) (fun r => r i) fun r => r j
  simp only [← Spec.sample.eq_1] at h
  by_cases hc : (((Spec.sample use rows i j i).zip (Spec.sample use rows i j j)).any
      fun e => decide (¬ e.1.isFin ∨ ¬ e.2.isFin)) = true
  · rw [if_pos hc]
    have := h.mp hc
    simp [this, eq_comm]
  · rw [if_neg hc]
    have := not_not.mp (fun h' => hc (h.mpr h'))
    exact ⟨fun h => ⟨fun _ => h, fun h' => absurd this h'⟩, fun h => h.1 this⟩

lemma mem_corrPairs {p : ℕ} (i j : Fin p) : (i, j) ∈ corrPairs p ↔ i < j := by
  simp [corrPairs]

/-- The loop over a list of pairs `i < j`. -/
lemma corrLoop_ok {p : ℕ} (f : List Fl → List Fl → Except PyErr Fl) (use : CorrUse)
    (rows : List (Fin p → Fl)) (l : List (Fin p × Fin p)) (hl : ∀ e ∈ l, e.1 < e.2) (c0 c : SqMat Fl p)
    (h : l.foldlM (corrStep f use rows) c0 = .ok c) :
    (∀ i j, (i, j) ∈ l → Spec.IsEntry f use rows i j (c i j) ∧ c j i = c i j) ∧
      ∀ i j, (i, j) ∉ l → (j, i) ∉ l → c i j = c0 i j := by
  induction l generalizing c0 with
  | nil =>
    simp only [List.foldlM_nil, pure, Except.pure, Except.ok.injEq] at h
    subst h
    simp
  | cons e t ih =>
    obtain ⟨i0, j0⟩ := e
    have hij0 : i0 < j0 := hl (i0, j0) (by simp)
    rw [List.foldlM_cons, corrStep] at h
    cases hv : computeCorr f (corrVectors rows use i0 j0).1 (corrVectors rows use i0 j0).2 with
    | error e => simp [hv, bind, Except.bind] at h
    | ok v =>
      simp only [hv, bind, Except.bind, pure, Except.pure] at h
      obtain ⟨h1, h2⟩ := ih (fun e he => hl e (by simp [he])) _ h
      have hent := (computeCorr_entry f use rows i0 j0 v).mp hv
      have hset : ∀ a b, setSym c0 i0 j0 v a b = if (a = i0 ∧ b = j0) ∨ (a = j0 ∧ b = i0) then v else c0 a b :=
        fun a b => rfl
      refine ⟨fun i j hij => ?_, fun i j hn hn' => ?_⟩
      · by_cases ht : (i, j) ∈ t
        · exact h1 i j ht
        · have e0 : i = i0 ∧ j = j0 := by
            rcases List.mem_cons.mp hij with h' | h'
            · simpa using h'
            · exact absurd h' ht
          obtain ⟨rfl, rfl⟩ := e0
          have ht' : (j, i) ∉ t := fun h' => by
            have := hl (j, i) (by simp [h'])
            exact absurd this (by simpa using hij0.le)
          rw [h2 i j ht ht', h2 j i ht' ht, hset, hset]
          simp [hent]
      · simp only [List.mem_cons, not_or, Prod.mk.injEq] at hn hn'
        rw [h2 i j hn.2 hn'.2, hset, if_neg]
        tauto

/-- Named failure of the loop. -/
lemma corrLoop_error {p : ℕ} (f : List Fl → List Fl → Except PyErr Fl) (use : CorrUse)
    (rows : List (Fin p → Fl)) (l : List (Fin p × Fin p)) (c0 : SqMat Fl p) (e : PyErr)
    (h : l.foldlM (corrStep f use rows) c0 = .error e) :
    ∃ i j, (i, j) ∈ l ∧ f (Spec.sample use rows i j i) (Spec.sample use rows i j j) = .error e := by
  induction l generalizing c0 with
  | nil => simp [pure, Except.pure] at h
  | cons a t ih =>
    obtain ⟨i0, j0⟩ := a
    rw [List.foldlM_cons, corrStep] at h
    cases hv : computeCorr f (corrVectors rows use i0 j0).1 (corrVectors rows use i0 j0).2 with
    | error e' =>
      simp only [hv, bind, Except.bind, Except.error.injEq] at h
      subst h
      refine ⟨i0, j0, by simp, ?_⟩
      rw [corrVectors_eq, computeCorr] at hv
      split at hv
      · simp at hv
      · exact hv
    | ok v =>
      simp only [hv, bind, Except.bind, pure, Except.pure] at h
      obtain ⟨i, j, hm, hf⟩ := ih _ h
      exact ⟨i, j, by simp [hm], hf⟩

/-- The accepted spellings. -/
def Spec.useName : CorrUse → String
  | .everything => "everything"
  | .complete => "complete"
  | .pairwise => "pairwise.complete"

lemma validateUse_ok {s : String} {u : CorrUse} :
    validateUse s = .ok u ↔ pyLower s = (Spec.useName u).toList := by
  unfold validateUse
  cases u <;> simp only [Spec.useName] <;> split_ifs with h1 h2 h3 <;> simp_all

lemma corr_mat_ok {fns : CorrFns} {p : ℕ} {rows : List (Fin p → Fl)} {method use : String}
    {C : Σ p : ℕ, SqMat Fl p} (h : corr fns (.mat p rows) none method use = .ok C) :
    ∃ u f c, validateUse use = .ok u ∧ corrFunc fns method = .ok f ∧
      (corrPairs p).foldlM (corrStep f u rows) (flIdentity p) = .ok c ∧ C = ⟨p, c⟩ := by
  unfold corr at h
  cases hu : validateUse use with
  | error e => simp [hu, bind, Except.bind] at h
  | ok u =>
    cases hf : corrFunc fns method with
    | error e => simp [hu, hf, bind, Except.bind] at h
    | ok f =>
      simp only [hu, hf, bind, Except.bind] at h
      cases hl : (corrPairs p).foldlM (corrStep f u rows) (flIdentity p) with
      | error e => simp [hl] at h
      | ok c =>
        simp only [hl, pure, Except.pure, Except.ok.injEq] at h
        exact ⟨u, f, c, rfl, rfl, hl, h.symm⟩

/-- C53: a correlation matrix has one row and column per column of the data, is symmetric with ones on the
diagonal, and its entry for columns `i < j` is the chosen coefficient of the two columns in the rows the
policy uses. -/
theorem corr_spec (fns : CorrFns) (p : ℕ) (rows : List (Fin p → Fl)) (method use : String)
    (C : Σ p : ℕ, SqMat Fl p) (h : corr fns (.mat p rows) none method use = .ok C) :
    ∃ u f c, pyLower use = (Spec.useName u).toList ∧ corrFunc fns method = .ok f ∧ C = ⟨p, c⟩ ∧
      (∀ i, c i i = .fin 1) ∧ (∀ i j, c i j = c j i) ∧ ∀ i j, i < j → Spec.IsEntry f u rows i j (c i j) := by
  obtain ⟨u, f, c, hu, hf, hl, rfl⟩ := corr_mat_ok h
  obtain ⟨h1, h2⟩ := corrLoop_ok f u rows (corrPairs p) (fun e he => (mem_corrPairs e.1 e.2).mp he) _ c hl
  refine ⟨u, f, c, validateUse_ok.mp hu, hf, rfl, fun i => ?_, fun i j => ?_, fun i j hij => ?_⟩
  · rw [h2 i i (by simp [mem_corrPairs]) (by simp [mem_corrPairs])]
    simp [flIdentity]
  · rcases lt_trichotomy i j with hij | rfl | hij
    · exact (h1 i j ((mem_corrPairs i j).mpr hij)).2.symm
    · rfl
    · exact (h1 j i ((mem_corrPairs j i).mpr hij)).2
  · exact (h1 i j ((mem_corrPairs i j).mpr hij)).1

/-- C53: `corr` raises only for an unknown policy or method, or when the coefficient itself raises on the
samples of some pair of columns. -/
theorem corr_error (fns : CorrFns) (p : ℕ) (rows : List (Fin p → Fl)) (method use : String) (e : PyErr)
    (h : corr fns (.mat p rows) none method use = .error e) :
    (e = .valueError ∧ ∀ u, pyLower use ≠ (Spec.useName u).toList) ∨
    (e = .valueError ∧ corrFunc fns method = .error .valueError) ∨
    ∃ u f i j, pyLower use = (Spec.useName u).toList ∧ corrFunc fns method = .ok f ∧ i < j ∧
      f (Spec.sample u rows i j i) (Spec.sample u rows i j j) = .error e := by
  unfold corr at h
  cases hu : validateUse use with
  | error e' =>
    left
    simp only [hu, bind, Except.bind, Except.error.injEq] at h
    subst h
    refine ⟨?_, fun u hc => ?_⟩
    · unfold validateUse at hu
      split_ifs at hu
      simpa using hu.symm
    · rw [validateUse_ok.mpr hc] at hu
      simp at hu
  | ok u =>
    right
    cases hf : corrFunc fns method with
    | error e' =>
      left
      simp only [hu, hf, bind, Except.bind, Except.error.injEq] at h
      subst h
      have : e' = .valueError := by
        unfold corrFunc at hf
        simp only at hf
        split_ifs at hf
        simpa using hf.symm
      simp [this]
    | ok f =>
      right
      simp only [hu, hf, bind, Except.bind] at h
      cases hl : (corrPairs p).foldlM (corrStep f u rows) (flIdentity p) with
      | error e' =>
        simp only [hl, Except.error.injEq] at h
        subst h
        obtain ⟨i, j, hm, hfe⟩ := corrLoop_error f u rows _ _ _ hl
        exact ⟨u, f, i, j, validateUse_ok.mp hu, rfl, (mem_corrPairs i j).mp hm, hfe⟩
      | ok c => simp [hl, pure, Except.pure] at h

lemma IsEntry_unique {p p' : ℕ} {f : List Fl → List Fl → Except PyErr Fl} {u u' : CorrUse}
    {rows : List (Fin p → Fl)} {rows' : List (Fin p' → Fl)} {i j : Fin p} {i' j' : Fin p'} {v v' : Fl}
    (hi : Spec.sample u rows i j i = Spec.sample u' rows' i' j' i')
    (hj : Spec.sample u rows i j j = Spec.sample u' rows' i' j' j')
    (h : Spec.IsEntry f u rows i j v) (h' : Spec.IsEntry f u' rows' i' j' v') : v = v' := by
  unfold Spec.IsEntry at h h'
  rw [← hi, ← hj] at h'
  by_cases hc : (∀ z ∈ Spec.sample u rows i j i, z.isFin) ∧ (∀ z ∈ Spec.sample u rows i j j, z.isFin)
  · have := (h.1 hc).symm.trans (h'.1 hc)
    simpa using this
  · rw [h.2 hc, h'.2 hc]

lemma sample_local {p : ℕ} {u : CorrUse} (hu : u ≠ .complete) {rows rows' : List (Fin p → Fl)} {i j : Fin p}
    (h : List.Forall₂ (fun r r' => r i = r' i ∧ r j = r' j) rows rows') :
    Spec.sample u rows i j i = Spec.sample u rows' i j i ∧
      Spec.sample u rows i j j = Spec.sample u rows' i j j := by
  induction h with
  | nil => exact ⟨rfl, rfl⟩
  | cons hr _ ih =>
    rename_i r r' t t' _
    have hiff : Spec.rowUsed u i j r ↔ Spec.rowUsed u i j r' := by
      cases u
      · rfl
      · exact absurd rfl hu
      · simp only [Spec.rowUsed, hr.1, hr.2]
    unfold Spec.sample at ih ⊢
    by_cases hc : Spec.rowUsed u i j r
    · have hc' := hiff.mp hc
      rw [List.filter_cons_of_pos (by simpa using hc), List.filter_cons_of_pos (by simpa using hc')]
      simp only [List.map_cons, hr.1, hr.2, ih.1, ih.2, and_self]
    · have hc' := fun h => hc (hiff.mpr h)
      rw [List.filter_cons_of_neg (by simpa using hc), List.filter_cons_of_neg (by simpa using hc')]
      exact ih

/-- C53: under 'everything' and 'pairwise.complete' the entry of two columns depends on those columns only:
changing other columns in any way (also making values missing) does not change it. -/
theorem corr_local (fns : CorrFns) (p : ℕ) (rows rows' : List (Fin p → Fl)) (method use : String)
    (huse : pyLower use ≠ "complete".toList) (c c' : SqMat Fl p)
    (h : corr fns (.mat p rows) none method use = .ok ⟨p, c⟩)
    (h' : corr fns (.mat p rows') none method use = .ok ⟨p, c'⟩) (i j : Fin p)
    (hrows : List.Forall₂ (fun r r' => r i = r' i ∧ r j = r' j) rows rows') : c i j = c' i j := by
  obtain ⟨u, f, c1, hu, hf, e1, hd, hs, he⟩ := corr_spec fns p rows method use _ h
  obtain ⟨u', f', c2, hu', hf', e2, hd', hs', he'⟩ := corr_spec fns p rows' method use _ h'
  obtain rfl : c = c1 := by simpa using e1
  obtain rfl : c' = c2 := by simpa using e2
  rw [hf] at hf'
  obtain rfl : f = f' := by simpa using hf'
  have huu : u = u' := by
    rw [hu] at hu'
    cases u <;> cases u' <;> first | rfl | (simp [Spec.useName] at hu')
  subst huu
  have hne : u ≠ .complete := by
    rintro rfl
    exact huse hu
  rcases lt_trichotomy i j with hij | rfl | hij
  · exact IsEntry_unique (sample_local hne hrows).1 (sample_local hne hrows).2 (he i j hij) (he' i j hij)
  · rw [hd, hd']
  · rw [hs i j, hs' i j]
    have hrows' : List.Forall₂ (fun r r' => r j = r' j ∧ r i = r' i) rows rows' :=
      hrows.imp fun _ _ h => ⟨h.2, h.1⟩
    exact IsEntry_unique (sample_local hne hrows').1 (sample_local hne hrows').2 (he j i hij) (he' j i hij)

/-- C53: without missing values all policies give the same result (including exceptions of the
coefficient). -/
theorem corr_policies_agree (fns : CorrFns) (p : ℕ) (rows : List (Fin p → Fl)) (method : String) (u u' : CorrUse)
    (hrows : ∀ r ∈ rows, ∀ k, ¬ (r k).isNan) :
    corr fns (.mat p rows) none method (Spec.useName u) = corr fns (.mat p rows) none method (Spec.useName u') := by
  have hs : ∀ (u : CorrUse) (i j k : Fin p), Spec.sample u rows i j k = rows.map fun r => r k := by
    intro u i j k
    unfold Spec.sample
    rw [filter_decide_self]
    intro r hr
    have := hrows r hr
    cases u
    · trivial
    · exact this
    · exact ⟨this i, this j⟩
  have hstep : ∀ f, corrStep f u rows = corrStep f u' rows := by
    intro f
    funext c ij
    simp only [corrStep, corrVectors_eq, hs]
  have hv : ∀ u, validateUse (Spec.useName u) = .ok u := by
    intro u
    rw [validateUse_ok]
    cases u <;> rfl
  unfold corr
  simp only [hv, bind, Except.bind, hstep]

example (fns : CorrFns) := corr_policies_agree fns 2 [![.fin 1, .fin 2], ![.fin 3, .pinf]] "tau" .complete .pairwise
  (by intro r hr k; fin_cases hr <;> fin_cases k <;> simp [Fl.isNan])

/-- C53: `corr(x, y)` of two vectors is the correlation matrix of the matrix with these two columns, under
every policy; vectors of different length are rejected. -/
theorem corr_vectors (fns : CorrFns) (x y : List Fl) (method use : String) :
    (x.length = y.length → corr fns (.vec x) (some (.vec y)) method use =
      corr fns (.mat 2 ((x.zip y).map fun e => ![e.1, e.2])) none method use) ∧
    (x.length ≠ y.length → ∃ e, corr fns (.vec x) (some (.vec y)) method use = .error e ∧ e = .valueError) := by
  constructor
  · intro hlen
    unfold corr
    cases hu : validateUse use with
    | error e => simp [bind, Except.bind]
    | ok u =>
      cases hf : corrFunc fns method with
      | error e => simp [bind, Except.bind]
      | ok f =>
        simp only [bind, Except.bind]
        have hp : corrPairs 2 = [(0, 1)] := by decide
        have hxy : formXY x y u = .ok (corrVectors ((x.zip y).map fun e => ![e.1, e.2]) u 0 1) := by
          rw [corrVectors_eq]
          simp only [Spec.sample, List.filter_map, List.map_map, Function.comp_def]
          cases u
          · rw [filter_decide_self (P := fun e : Fl × Fl => Spec.rowUsed .everything 0 1 ![e.1, e.2]) fun _ _ => trivial]
            simp only [formXY, if_neg (not_not.mpr hlen)]
            have h1 : (x.zip y).map Prod.fst = x := List.map_fst_zip hlen.le
            have h2 : (x.zip y).map Prod.snd = y := List.map_snd_zip hlen.ge
            exact congrArg Except.ok (Prod.ext h1.symm h2.symm)
          · simp only [formXY, if_neg (not_not.mpr hlen)]
            rw [filter_decide (Q := fun e : Fl × Fl => Spec.rowUsed .complete 0 1 ![e.1, e.2])]
            · rfl
            · intro e _
              simp [Spec.rowUsed, Fin.forall_fin_two]
          · simp only [formXY, if_neg (not_not.mpr hlen)]
            rw [filter_decide (Q := fun e : Fl × Fl => Spec.rowUsed .pairwise 0 1 ![e.1, e.2])]
            · rfl
            · intro e _
              simp [Spec.rowUsed]
        simp only [hxy, hp, List.foldlM_cons, List.foldlM_nil, corrStep, bind, Except.bind]
        cases computeCorr f (corrVectors ((x.zip y).map fun e => ![e.1, e.2]) u 0 1).1
          (corrVectors ((x.zip y).map fun e => ![e.1, e.2]) u 0 1).2 <;> simp [pure, Except.pure]
  · intro hlen
    unfold corr
    cases hu : validateUse use with
    | error e =>
      refine ⟨e, by simp [bind, Except.bind], ?_⟩
      unfold validateUse at hu
      split_ifs at hu
      simpa using hu.symm
    | ok u =>
      cases hf : corrFunc fns method with
      | error e =>
        refine ⟨e, by simp [bind, Except.bind], ?_⟩
        unfold corrFunc at hf
        simp only at hf
        split_ifs at hf
        simpa using hf.symm
      | ok f => exact ⟨.valueError, by simp [bind, Except.bind, formXY, hlen], rfl⟩

/-- C53: 'tau' and 'rho' are names for Kendall's and Spearman's coefficient, in any capitalisation. -/
theorem corrFunc_names (fns : CorrFns) (method : String) :
    (pyLower method = "kendall".toList ∨ pyLower method = "tau".toList → corrFunc fns method = .ok fns.kendall) ∧
    (pyLower method = "spearman".toList ∨ pyLower method = "rho".toList → corrFunc fns method = .ok fns.spearman) ∧
    (pyLower method = "pearson".toList → corrFunc fns method = .ok fns.pearson) ∧
    (pyLower method ∉ ["pearson".toList, "kendall".toList, "spearman".toList, "tau".toList, "rho".toList] →
      corrFunc fns method = .error .valueError) := by
  refine ⟨?_, ?_, ?_, fun h => by simp only [corrFunc, if_pos h]⟩ <;> intro h
  · rcases h with h | h <;> simp [corrFunc, h]
  · rcases h with h | h <;> simp [corrFunc, h]
  · simp [corrFunc, h]

/-- A matrix with a missing value and a defined correlation matrix. -/
example : ∃ (fns : CorrFns) (C : _), corr fns (.mat 2 [![.nan, .fin 1], ![.fin 2, .fin 5], ![.fin 3, .fin 4]])
    none "Tau" "complete" = .ok C :=
  ⟨⟨fun _ _ => .ok 0, fun _ _ => .ok 0, fun _ _ => .ok 0⟩, by
    unfold corr
    have h1 : validateUse "complete" = .ok .complete := validateUse_ok.mpr rfl
    have h2 := (corrFunc_names ⟨fun _ _ => .ok 0, fun _ _ => .ok 0, fun _ _ => .ok 0⟩ "Tau").1 (Or.inr rfl)
    simp only [h1, h2, bind, Except.bind]
    have hp : corrPairs 2 = [(0, 1)] := by decide
    simp only [hp, List.foldlM_cons, List.foldlM_nil, corrStep, bind, Except.bind, computeCorr]
    split_ifs <;> exact ⟨_, rfl⟩⟩

end Copulae
