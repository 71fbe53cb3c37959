import Verif.Model.Labels
import Verif.Props.Correlation

/-!
C150: the settings of an empirical copula. C151: an empirical copula evaluates frames as it evaluates arrays. C152: correlation
matrices of pandas objects carry the names of the columns.
-/

namespace Copulae

/-! ### C150 -/

/-- The last smoothing assigned under an accepted name, or the first one. -/
def Spec.lastSmoothing (s : Option String) : List EmpOp → Option String
  | [] => s
  | .setSmoothing t :: l => if t ∈ [none, some "none", some "beta", some "checkerboard"] then lastSmoothing t l else lastSmoothing s l
  | _ :: l => lastSmoothing s l

/-- The last ties assigned, or the first ones. -/
def Spec.lastTies (t : TiesArg) : List EmpOp → TiesArg
  | [] => t
  | .setTies t' :: l => lastTies t' l
  | _ :: l => lastTies t l

open Spec

theorem parseSmoothing_ok_iff (s : Option String) :
    (∃ k, parseSmoothing s = .ok k) ↔ s ∈ [none, some "none", some "beta", some "checkerboard"] := by
  cases s with
  | none => simp [parseSmoothing]
  | some s =>
    simp only [parseSmoothing, List.mem_cons, reduceCtorEq, Option.some.injEq, List.not_mem_nil, or_false, false_or]
    split_ifs with h1 h2 h3 <;> simp [*]

/-- **C150** The settings are those assigned last: an empirical copula after any sequence of assignments and fits, whether or not
assignments raised, is the copula that the constructor makes of the same data with the last accepted settings. -/
theorem empirical_settings {n d : ℕ} {data : Fin n → Fin d → ℝ} {s : Option String} {t : TiesArg} {off : OffsetArg} {o : EmpObj}
    (h : EmpObj.new data s t off = .ok o) (ops : List EmpOp) :
    EmpObj.new data (lastSmoothing s ops) (lastTies t ops) off = .ok (o.run ops) := by
  induction ops generalizing s t o with
  | nil => exact h
  | cons op l ih =>
    show EmpObj.new data (lastSmoothing s (op :: l)) (lastTies t (op :: l)) off = .ok ((o.exec op).1.run l)
    have key : ∀ k, parseSmoothing s = .ok k → ¬ d < 2 → o = ⟨n, d, data, k, t, off⟩ := by
      intro k hk hd
      simp only [EmpObj.new, hk, bind, Except.bind, if_neg hd] at h
      exact (Except.ok.inj h).symm
    have hd : ¬ d < 2 := by
      intro hd
      unfold EmpObj.new at h
      cases hp : parseSmoothing s with
      | error e => simp [hp, bind, Except.bind] at h
      | ok k => simp [hp, bind, Except.bind, hd] at h
    obtain ⟨k, hk⟩ : ∃ k, parseSmoothing s = .ok k := by
      cases hp : parseSmoothing s with
      | error e => simp [EmpObj.new, hp, bind, Except.bind] at h
      | ok k => exact ⟨k, rfl⟩
    have ho := key k hk hd
    cases op with
    | fit x => exact ih h
    | setTies t' =>
      refine ih (s := s) (t := t') ?_
      subst ho
      simp only [EmpObj.new, hk, bind, Except.bind, if_neg hd]
      rfl
    | setSmoothing s' =>
      by_cases hs' : s' ∈ [none, some "none", some "beta", some "checkerboard"]
      · obtain ⟨k', hk'⟩ := (parseSmoothing_ok_iff s').mpr hs'
        have e1 : lastSmoothing s (.setSmoothing s' :: l) = lastSmoothing s' l := by
          rw [lastSmoothing, if_pos hs']
        rw [e1]
        refine ih (s := s') (t := t) ?_
        subst ho
        simp only [EmpObj.new, EmpObj.exec, hk', bind, Except.bind, if_neg hd]
      · have e1 : lastSmoothing s (.setSmoothing s' :: l) = lastSmoothing s l := by
          rw [lastSmoothing, if_neg hs']
        rw [e1]
        have e2 : (o.exec (.setSmoothing s')).1 = o := by
          cases hp : parseSmoothing s' with
          | error e => simp [EmpObj.exec, hp]
          | ok k' => exact absurd ((parseSmoothing_ok_iff s').mp ⟨k', hp⟩) hs'
        rw [e2]
        exact ih h

/-- **C150** Assigning a smoothing raises an `AssertionError` exactly for the names that are not documented, and then changes nothing;
assigning `ties` and fitting never raise. -/
theorem empirical_exec (o : EmpObj) (op : EmpOp) :
    ((o.exec op).2 = .ok () ↔ ∀ s, op = .setSmoothing s → s ∈ [none, some "none", some "beta", some "checkerboard"]) ∧
    ((o.exec op).2 = .ok () ∨ (o.exec op).2 = .error .assertionError ∧ (o.exec op).1 = o) ∧
    ∀ data, o.exec (.fit data) = (o, .ok ()) := by
  refine ⟨?_, ?_, fun _ => rfl⟩
  · cases op with
    | fit x => simp [EmpObj.exec]
    | setTies t => simp [EmpObj.exec]
    | setSmoothing s =>
      simp only [EmpOp.setSmoothing.injEq, forall_eq']
      rw [← parseSmoothing_ok_iff]
      cases hp : parseSmoothing s <;> simp [EmpObj.exec, hp]
  · cases op with
    | fit x => exact Or.inl rfl
    | setTies t => exact Or.inl rfl
    | setSmoothing s =>
      cases hp : parseSmoothing s with
      | ok k => simp [EmpObj.exec, hp]
      | error e =>
        have he : e = .assertionError := by
          cases s with
          | none => simp [parseSmoothing] at hp
          | some s =>
            simp only [parseSmoothing] at hp
            split_ifs at hp
            exact (Except.error.inj hp).symm
        simp [EmpObj.exec, hp, he]

/-- **C150**, with usable settings (partial: strings that name a tie method, an `int` or `float` as offset): `cdf` and `pdf` are those of
the data with these settings. -/
theorem empirical_usable_partial (btdtr : ℝ → ℝ → Fl → Fl) (bpdf blogpdf : Fl → ℝ → ℝ → Fl) {o : EmpObj} {t : String} {r : ℝ}
    (ht : o.ties = .str t) (hr : o.offset = .num r) {m : ℕ} (u : Fin m → Fin o.d → Fl) (log : Bool) :
    o.cdf btdtr u log = empCdf btdtr o.data o.smoothing t r u log ∧
    o.pdf bpdf blogpdf u log = empPdf bpdf blogpdf o.data o.smoothing t r u log := by
  constructor
  · simp only [EmpObj.cdf, ht, hr, OffsetArg.value, OffsetArg.validate, bind, Except.bind, pure, Except.pure]
    cases empCdf btdtr o.data o.smoothing t r u log <;> rfl
  · simp only [EmpObj.pdf, ht, hr, OffsetArg.value, bind, Except.bind, pure, Except.pure]
    cases empPdf bpdf blogpdf o.data o.smoothing t r u log <;> rfl

/-- Finding (**C150** is violated): the setter of `ties` takes any value without complaint, and no `cdf` can be computed afterwards. -/
theorem empirical_ties_unchecked (btdtr : ℝ → ℝ → Fl → Fl) (o : EmpObj) {t : TiesArg}
    (ht : ∀ s, t = .str s → ∀ k, parseTies s ≠ .ok k) :
    (o.exec (.setTies t)).2 = .ok () ∧ ∀ (m : ℕ) (u : Fin m → Fin o.d → Fl) (log : Bool),
      ∃ e, (o.exec (.setTies t)).1.cdf btdtr u log = .error e := by
  refine ⟨rfl, fun m u log => ?_⟩
  cases t with
  | other =>
    show ∃ e, EmpObj.cdf btdtr { o with ties := .other } u log = .error e
    unfold EmpObj.cdf
    by_cases h : (∃ i j, u i j > .fin (1 + flEps)) ∨ ∃ i j, u i j < .fin (-flEps)
    · exact ⟨_, if_pos h⟩
    · exact ⟨_, if_neg h⟩
  | str s =>
    have hs := ht s rfl
    obtain ⟨e, he⟩ : ∃ e, empCdf btdtr o.data o.smoothing s o.offset.value u log = .error e := by
      unfold empCdf
      by_cases h : (∃ i j, u i j > .fin (1 + flEps)) ∨ ∃ i j, u i j < .fin (-flEps)
      · exact ⟨_, if_pos h⟩
      · rw [if_neg h]
        cases hp : parseTies s with
        | ok k => exact absurd hp (hs k)
        | error e =>
          refine ⟨e, ?_⟩
          simp [pseudoObs, rankData, hp, bind, Except.bind]
    refine ⟨e, ?_⟩
    show EmpObj.cdf btdtr { o with ties := .str s } u log = .error e
    simp only [EmpObj.cdf, he, bind, Except.bind]

/-- Finding (**C150** is violated): the constructor takes an offset that is a number of NumPy; `pdf` computes with it, `cdf` refuses
every point. -/
theorem empirical_offset_unchecked (btdtr : ℝ → ℝ → Fl → Fl) (bpdf blogpdf : Fl → ℝ → ℝ → Fl) {o : EmpObj} {t : String} {r : ℝ}
    (ht : o.ties = .str t) (hr : o.offset = .npNum r) {m : ℕ} (u : Fin m → Fin o.d → Fl) (log : Bool) :
    (∃ e, o.cdf btdtr u log = .error e) ∧ o.pdf bpdf blogpdf u log = empPdf bpdf blogpdf o.data o.smoothing t r u log := by
  constructor
  · simp only [EmpObj.cdf, ht, hr, OffsetArg.value, OffsetArg.validate, bind, Except.bind]
    cases empCdf btdtr o.data o.smoothing t r u log with
    | error e => exact ⟨e, rfl⟩
    | ok v => exact ⟨_, rfl⟩
  · simp only [EmpObj.pdf, ht, hr, OffsetArg.value, bind, Except.bind, pure, Except.pure]
    cases empPdf bpdf blogpdf o.data o.smoothing t r u log <;> rfl

/-- **C150** With an offset that is no number, which the constructor takes as well, neither `cdf` nor `pdf` can be computed. -/
theorem empirical_offset_other (btdtr : ℝ → ℝ → Fl → Fl) (bpdf blogpdf : Fl → ℝ → ℝ → Fl) {o : EmpObj} (hr : o.offset = .other) {m : ℕ}
    (u : Fin m → Fin o.d → Fl) (log : Bool) :
    (∃ e, o.cdf btdtr u log = .error e) ∧ ∃ e, o.pdf bpdf blogpdf u log = .error e := by
  cases ht : o.ties with
  | str t =>
    constructor
    · simp only [EmpObj.cdf, ht, hr, OffsetArg.value, OffsetArg.validate, bind, Except.bind]
      cases empCdf btdtr o.data o.smoothing t 0 u log with
      | error e => exact ⟨e, rfl⟩
      | ok v => exact ⟨_, rfl⟩
    · simp only [EmpObj.pdf, ht, hr, OffsetArg.value, bind, Except.bind]
      cases empPdf bpdf blogpdf o.data o.smoothing t 0 u log with
      | error e => exact ⟨e, rfl⟩
      | ok v => exact ⟨_, rfl⟩
  | other =>
    constructor
    · simp only [EmpObj.cdf, ht]
      split_ifs <;> exact ⟨_, rfl⟩
    · simp only [EmpObj.pdf, ht]
      split_ifs <;> exact ⟨_, rfl⟩

/-- **C150** The names that the copula accepts mean the same to the function that computes the distribution function, which also accepts
them in capital letters. -/
theorem smoothing_names_agree (s : Option String) (k : Smoothing) (h : parseSmoothing s = .ok k) : mapSmoothing s = .ok k := by
  cases s with
  | none => exact h
  | some s =>
    simp only [parseSmoothing] at h
    split_ifs at h with h1 h2 h3
    · subst h1; rw [← h]; decide
    · subst h2; rw [← h]; decide
    · subst h3; rw [← h]; decide

/-! ### C151 -/

/-- Finding (**C151** is violated): the density of an empirical beta copula cannot be evaluated at a frame with named columns. -/
theorem empirical_pdf_named_frame (bpdf blogpdf : Fl → ℝ → ℝ → Fl) {o : EmpObj} (hd : 2 ≤ o.d) {t : String} {k : TieMethod}
    (hb : o.smoothing = .beta) (ht : o.ties = .str t) (hk : parseTies t = .ok k) (u : NamedFrame o.d) {s : String}
    (hs : u.names ⟨0, by omega⟩ = .str s) (log : Bool) : o.pdfFrame bpdf blogpdf u log = .error .typeError := by
  obtain ⟨d', hd'⟩ : ∃ d', o.d = d' + 1 := ⟨o.d - 1, by omega⟩
  have e : ((List.finRange o.d).mapM fun j => (u.names j).asRow (d := o.d)) = .error .typeError := by
    have h0 : List.finRange o.d = ⟨0, by omega⟩ :: (List.finRange o.d).tail := by
      cases hl : List.finRange o.d with
      | nil =>
        have := congrArg List.length hl
        simp at this
        omega
      | cons a l =>
        have ha : (List.finRange o.d)[0]'(by rw [List.length_finRange]; omega) = ⟨0, by omega⟩ := by simp
        simp only [hl, List.getElem_cons_zero] at ha
        simp [ha]
    rw [h0, List.mapM_cons, hs]
    rfl
  simp only [EmpObj.pdfFrame, hb, ht, hk, e, bind, Except.bind, ne_eq, not_true_eq_false, if_false]

/-- Finding (**C151** is violated): at a frame with numbered columns the density is computed for the numbers of the columns: the result
has as many entries as there are columns and does not depend on what the frame contains. -/
theorem empirical_pdf_numbered_frame (bpdf blogpdf : Fl → ℝ → ℝ → Fl) {o : EmpObj} (u : NamedFrame o.d)
    (hn : ∀ j : Fin o.d, u.names j = .num j) (log : Bool) {t : String} {k : TieMethod} (hb : o.smoothing = .beta)
    (ht : o.ties = .str t) (hk : parseTies t = .ok k) :
    o.pdfFrame bpdf blogpdf u log = o.pdf bpdf blogpdf (fun (j _ : Fin o.d) => .fin ((j.val : ℕ) : ℝ)) log := by
  have e : ∀ l : List (Fin o.d), (l.mapM fun j => (u.names j).asRow (d := o.d)) = .ok (l.map fun (j : Fin o.d) _ => .fin ((j.val : ℕ) : ℝ)) := by
    intro l
    induction l with
    | nil => rfl
    | cons a l ih =>
      rw [List.mapM_cons, ih, hn a]
      rfl
  simp only [EmpObj.pdfFrame, hb, ht, hk, e, bind, Except.bind, ne_eq, not_true_eq_false, if_false]
  congr 1
  funext j
  simp

/-! ### C152 -/

/-- **C152** The labels of the correlation matrix of two Series are two different names. -/
theorem corrNames_series_distinct (x y : Option String) :
    ∃ a b, corrNames (.series x y) = some [a, b] ∧ a ≠ b := by
  simp only [corrNames]
  split_ifs with h
  · refine ⟨_, _, rfl, fun hab => ?_⟩
    rw [h] at hab
    have := congrArg String.toList hab
    simp at this
  · exact ⟨_, _, rfl, h⟩

/-- **C152** Names that are given and differ are kept. -/
theorem corrNames_series_keep (a b : String) (ha : a ≠ "") (hb : b ≠ "") (h : a ≠ b) :
    corrNames (.series (some a) (some b)) = some [a, b] := by
  simp [corrNames, nameOr, ha, hb, h]

/-- **C152** The correlation matrix of a frame with distinct names, looked up by names, holds under the names of two columns what `corr`
computes for these columns. -/
theorem corrFrame_lookup (fns : CorrFns) (labels : List String) (hl : labels.Nodup) (rows : List (Fin labels.length → Fl))
    (method use : String) {f : String → String → Option Fl} (h : corrFrame fns labels rows method use = .ok f) :
    ∃ c : SqMat Fl labels.length, corr fns (.mat labels.length rows) none method use = .ok ⟨labels.length, c⟩ ∧
      ∀ i j : Fin labels.length, f labels[i] labels[j] = some (c i j) := by
  unfold corrFrame at h
  cases hc : corr fns (.mat labels.length rows) none method use with
  | error e => simp [hc, bind, Except.bind] at h
  | ok r =>
    have hr : r.1 = labels.length := by
      unfold corr at hc
      simp only [bind, Except.bind] at hc
      split at hc
      · cases hc
      · split at hc
        · cases hc
        · split at hc
          · cases hc
          · simp only [pure, Except.pure, Except.ok.injEq] at hc
            rw [← hc]
    obtain ⟨p, c⟩ := r
    simp only at hr
    subst hr
    refine ⟨c, rfl, fun i j => ?_⟩
    simp only [hc, bind, Except.bind, pure, Except.pure, Except.ok.injEq] at h
    rw [← h]
    have hi : labels.idxOf labels[i] = i := hl.idxOf_getElem i i.2
    have hj : labels.idxOf labels[j] = j := hl.idxOf_getElem j j.2
    show (if h : labels.idxOf labels[i] < labels.length ∧ labels.idxOf labels[j] < labels.length then
      some (c ⟨labels.idxOf labels[i], h.1⟩ ⟨labels.idxOf labels[j], h.2⟩) else none) = _
    rw [dif_pos ⟨by rw [hi]; exact i.2, by rw [hj]; exact j.2⟩]
    exact congrArg some (congrArg₂ c (Fin.ext hi) (Fin.ext hj))

theorem sample_relabel {p p' : ℕ} {u : CorrUse} {rows : List (Fin p → Fl)} {rows' : List (Fin p' → Fl)} {i j : Fin p} {i' j' : Fin p'}
    (h : List.Forall₂ (fun r r' => r i = r' i' ∧ r j = r' j' ∧ ((∀ k, ¬ (r k).isNan) ↔ ∀ k, ¬ (r' k).isNan)) rows rows') :
    Spec.sample u rows i j i = Spec.sample u rows' i' j' i' ∧ Spec.sample u rows i j j = Spec.sample u rows' i' j' j' := by
  induction h with
  | nil => exact ⟨rfl, rfl⟩
  | cons hr _ ih =>
    rename_i r r' t t' _
    have hiff : Spec.rowUsed u i j r ↔ Spec.rowUsed u i' j' r' := by
      cases u
      · rfl
      · exact hr.2.2
      · simp only [Spec.rowUsed, hr.1, hr.2.1]
    unfold Spec.sample at ih ⊢
    by_cases hc : Spec.rowUsed u i j r
    · have hc' := hiff.mp hc
      rw [List.filter_cons_of_pos (by simpa using hc), List.filter_cons_of_pos (by simpa using hc')]
      simp only [List.map_cons, hr.1, hr.2.1, ih.1, ih.2, and_self]
    · have hc' := fun h => hc (hiff.mpr h)
      rw [List.filter_cons_of_neg (by simpa using hc), List.filter_cons_of_neg (by simpa using hc')]
      exact ih

theorem sample_swap {p : ℕ} (u : CorrUse) (rows : List (Fin p → Fl)) (i j k : Fin p) :
    Spec.sample u rows i j k = Spec.sample u rows j i k := by
  unfold Spec.sample
  congr 1
  refine List.filter_congr fun r _ => ?_
  cases u
  · rfl
  · rfl
  · exact decide_eq_decide.mpr and_comm

theorem isEntry_swap {p : ℕ} {f : List Fl → List Fl → Except PyErr Fl} (hf : ∀ a b, f a b = f b a) {u : CorrUse}
    {rows : List (Fin p → Fl)} {i j : Fin p} {v : Fl} (h : Spec.IsEntry f u rows i j v) : Spec.IsEntry f u rows j i v := by
  unfold Spec.IsEntry at h ⊢
  rw [sample_swap u rows j i j, sample_swap u rows j i i, hf]
  exact ⟨fun hz => h.1 hz.symm, fun hz => h.2 fun h' => hz h'.symm⟩

/-- **C152** The order of the columns does not matter: two frames with the same columns under the same names, in whatever order, have
the same correlations under the same names, whatever the policy for missing values, provided that the coefficient does not depend on
the order of its arguments. -/
theorem corrFrame_reorder (fns : CorrFns) {labels labels' : List String} (hl : labels.Nodup) (hp : labels'.Perm labels)
    {rows : List (Fin labels.length → Fl)} {rows' : List (Fin labels'.length → Fl)}
    (hr : List.Forall₂ (fun r r' => ∀ (i : Fin labels.length) (i' : Fin labels'.length), labels[i] = labels'[i'] → r i = r' i') rows rows')
    {method use : String} (hsym : ∀ g, corrFunc fns method = .ok g → ∀ u v, g u v = g v u) {f f' : String → String → Option Fl}
    (h : corrFrame fns labels rows method use = .ok f) (h' : corrFrame fns labels' rows' method use = .ok f') {a b : String}
    (ha : a ∈ labels) (hb : b ∈ labels) : f a b = f' a b ∧ (f a b).isSome := by
  obtain ⟨c, hc, hv⟩ := corrFrame_lookup fns labels hl rows method use h
  obtain ⟨c', hc', hv'⟩ := corrFrame_lookup fns labels' (hp.nodup_iff.mpr hl) rows' method use h'
  obtain ⟨i, hi, rfl⟩ := List.getElem_of_mem ha
  obtain ⟨j, hj, rfl⟩ := List.getElem_of_mem hb
  obtain ⟨i', hi', ei⟩ := List.getElem_of_mem (hp.mem_iff.mpr ha)
  obtain ⟨j', hj', ej⟩ := List.getElem_of_mem (hp.mem_iff.mpr hb)
  have e1 := hv ⟨i, hi⟩ ⟨j, hj⟩
  have e2 := hv' ⟨i', hi'⟩ ⟨j', hj'⟩
  simp only [Fin.getElem_fin] at e1 e2
  rw [ei, ej] at e2
  rw [e1, e2]
  refine ⟨congrArg some ?_, rfl⟩
  obtain ⟨u, g, c1, hu, hg, q1, hd, hs, he⟩ := corr_spec fns _ rows method use _ hc
  obtain ⟨u', g', c2, hu', hg', q2, hd', hs', he'⟩ := corr_spec fns _ rows' method use _ hc'
  obtain rfl : c = c1 := by simpa using q1
  obtain rfl : c' = c2 := by simpa using q2
  rw [hg] at hg'
  obtain rfl : g = g' := by simpa using hg'
  have huu : u = u' := by
    rw [hu] at hu'
    cases u <;> cases u' <;> first | rfl | (simp [Spec.useName] at hu')
  subst huu
  have hsg := hsym g hg
  by_cases hij : i = j
  · subst hij
    have : i' = j' := (hp.nodup_iff.mpr hl).getElem_inj_iff.mp (ei.trans ej.symm)
    subst this
    rw [hd, hd']
  have hij' : i' ≠ j' := by
    rintro rfl
    exact hij (hl.getElem_inj_iff.mp (ei.symm.trans ej))
  have all : ∀ x y : Fin labels.length, x ≠ y → Spec.IsEntry g u rows x y (c x y) := by
    intro x y hxy
    rcases lt_or_gt_of_ne hxy with hlt | hlt
    · exact he x y hlt
    · rw [hs x y]
      exact isEntry_swap hsg (he y x hlt)
  have all' : ∀ x y : Fin labels'.length, x ≠ y → Spec.IsEntry g u rows' x y (c' x y) := by
    intro x y hxy
    rcases lt_or_gt_of_ne hxy with hlt | hlt
    · exact he' x y hlt
    · rw [hs' x y]
      exact isEntry_swap hsg (he' y x hlt)
  have hsam := sample_relabel (u := u) (i := ⟨i, hi⟩) (j := ⟨j, hj⟩) (i' := ⟨i', hi'⟩) (j' := ⟨j', hj'⟩) (rows := rows) (rows' := rows')
    (hr.imp fun r r' hrr => ⟨hrr _ _ ei.symm, hrr _ _ ej.symm, by
    constructor
    · intro hk k'
      obtain ⟨k, hk1, ek⟩ := List.getElem_of_mem (hp.mem_iff.mp (List.getElem_mem k'.2))
      rw [← hrr ⟨k, hk1⟩ k' ek]
      exact hk _
    · intro hk k
      obtain ⟨k', hk1, ek⟩ := List.getElem_of_mem (hp.mem_iff.mpr (List.getElem_mem k.2))
      rw [hrr k ⟨k', hk1⟩ ek.symm]
      exact hk _⟩)
  exact IsEntry_unique hsam.1 hsam.2 (all _ _ fun h => hij (congrArg Fin.val h)) (all' _ _ fun h => hij' (congrArg Fin.val h))

/-! ### The hypotheses can be met -/

private def empDemo : EmpObj := ⟨3, 2, fun i j => i.val + j.val, .beta, .str "min", .num 0⟩

example : EmpObj.new (fun (i : Fin 3) (j : Fin 2) => ((i.val + j.val : ℕ) : ℝ)) (some "beta") (.str "min") (.num 0) =
    .ok ⟨3, 2, fun i j => ((i.val + j.val : ℕ) : ℝ), .beta, .str "min", .num 0⟩ := rfl

example := empirical_settings (n := 3) (d := 2) (data := fun i j => ((i.val + j.val : ℕ) : ℝ)) (s := some "beta") (t := .str "min")
  (off := .num 0) rfl [.setSmoothing (some "Beta"), .setTies (.str "max"), .setSmoothing none]

example (btdtr : ℝ → ℝ → Fl → Fl) (bpdf blogpdf : Fl → ℝ → ℝ → Fl) (u : Fin 4 → Fin 2 → Fl) :=
  empirical_usable_partial btdtr bpdf blogpdf (o := empDemo) rfl rfl u true

example (btdtr : ℝ → ℝ → Fl → Fl) := empirical_ties_unchecked btdtr empDemo (t := .str "median") (by
  rintro s ⟨⟩ k
  cases k <;> decide)

example (btdtr : ℝ → ℝ → Fl → Fl) (bpdf blogpdf : Fl → ℝ → ℝ → Fl) (u : Fin 4 → Fin 2 → Fl) :=
  empirical_offset_unchecked btdtr bpdf blogpdf (o := { empDemo with offset := .npNum 1 }) rfl rfl u true

example (bpdf blogpdf : Fl → ℝ → ℝ → Fl) (M : Fin 4 → Fin 2 → Fl) := empirical_pdf_named_frame bpdf blogpdf (o := empDemo) le_rfl rfl rfl
  (k := .min) (by decide) ⟨4, ![.str "a", .str "b"], M⟩ (s := "a") rfl false

example (bpdf blogpdf : Fl → ℝ → ℝ → Fl) (M : Fin 4 → Fin 2 → Fl) := empirical_pdf_numbered_frame bpdf blogpdf (o := empDemo)
  ⟨4, fun j => .num j, M⟩ (fun _ => rfl) false rfl rfl (k := .min) (by decide)

example (fns : CorrFns) (hs : ∀ u v, fns.kendall u v = fns.kendall v u) (r : Fin 2 → Fl) {f f' : String → String → Option Fl}
    (h : corrFrame fns ["a", "b"] [r] "kendall" "complete" = .ok f)
    (h' : corrFrame fns ["b", "a"] [![r 1, r 0]] "kendall" "complete" = .ok f') : f "a" "b" = f' "a" "b" := by
  refine (corrFrame_reorder fns (by decide) (List.Perm.swap _ _ _) (List.Forall₂.cons ?_ .nil) ?_ h h' (by simp) (by simp)).1
  · intro i i' hi
    fin_cases i <;> fin_cases i' <;> simp_all
  · intro g hg
    have : corrFunc fns "kendall" = .ok fns.kendall := by rfl
    rw [this] at hg
    obtain rfl := Except.ok.inj hg
    exact hs

end Copulae
