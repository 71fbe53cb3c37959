import Verif.Model.FitDf
import Verif.Props.FitInv

/-!
C135: `StudentCopula.fit(data, fix_df=True)` keeps the degrees of freedom.
-/

namespace Copulae

open Classical

/-- The degrees of freedom are those of before. -/
def Spec.DfKept (o o' : FitObj) : Prop := o'.cop.df = o.cop.df

/-- The optimiser starts by evaluating the objective at the point; before this it may evaluate the constraint if it
does not use the values (SLSQP counts the constraints in this way). -/
inductive Spec.StartsAt (x : List Fl) : ConTree → Prop
  | eval (next : Fl → ConTree) : StartsAt x (.eval x next)
  | con (y : List Fl) (t : ConTree) (h : StartsAt x t) : StartsAt x (.con y fun _ => t)

/-- An optimiser that does not look at the constraint. -/
def OptTree.toCon : OptTree → ConTree
  | .done r => .done r
  | .eval x next => .eval x fun v => (next v).toCon

theorem runCon_toCon (env : FitEnv) {n d : ℕ} (data : Fin n → Fin d → ℚ) (scale : Fl) (t : OptTree) :
    ∀ c, runCon env data scale t.toCon c = runOpt env data scale t c := by
  induction t with
  | done r => intro c; rfl
  | eval x next ih =>
    intro c
    simp only [OptTree.toCon, runCon, runOpt, ih]
    rfl

/-- The fit with the constraint is the fit without it when the optimiser does not ask for the constraint. -/
theorem fitCon_toCon (env : FitEnv) (opt : List Fl → OptTree) (o : FitObj) {n d : ℕ} (data : Fin n → Fin d → ℚ)
    (x0 : Option ParamArg) (method ties : String) (toPobs : Bool) (scale : Fl) :
    o.fitCon env (fun p => (opt p).toCon) data x0 method ties toPobs scale =
      o.fit env opt data x0 method ties toPobs scale := by
  have h : ∀ (u : Fin n → Fin d → ℚ) c, fitCopulaCon env (fun p => (opt p).toCon) u c x0 method scale =
      fitCopula env opt u c x0 method scale := by
    intro u c
    simp only [fitCopulaCon, fitCopula, estimateMlCon, estimateMl, runCon_toCon]
    rfl
  simp only [FitObj.fitCon, FitObj.fit, h]
  rfl

/-- A vector `StudentCopula.params` accepts. -/
def Spec.StudentVec (dim : ℕ) (x : List Fl) : Prop :=
  x.length = 1 + dim * (dim - 1) / 2 ∧ (∀ v ∈ x, ¬ v.isNan) ∧ ∃ a l, x = a :: l ∧ ¬ a ≤ .fin 0

theorem calcLogLik_student (env : FitEnv) {n d : ℕ} (data : Fin n → Fin d → ℚ) (scale : Fl) (df : Fl) (s : Ell)
    {x : List Fl} (h : Spec.StudentVec s.dim x) :
    ∃ r, calcLogLik env data scale (.student df s) x = (.student (x.headD .nan) { s with rhos := x.tail }, r) ∧
      ∀ df' l, calcLogLik env data scale (.student df' { s with rhos := l }) x =
        (.student (x.headD .nan) { s with rhos := x.tail }, r) := by
  obtain ⟨h1, h2, a, l, rfl, h3⟩ := h
  have key : ∀ df' m, (FitCop.student df' { s with rhos := m }).setParams (.vec (a :: l)) =
      (.student a { s with rhos := l }, none) := by
    intro df' m
    simp only [FitCop.setParams]
    rw [if_neg (not_not.mpr h1), if_neg h3]
  have hn : ¬ ∃ x ∈ a :: l, x.isNan := fun ⟨v, hv, hv'⟩ => h2 v hv hv'
  have key' : ∀ df' m, calcLogLik env data scale (.student df' { s with rhos := m }) (a :: l) =
      (.student a { s with rhos := l },
        (calcLogLik env data scale (.student df { s with rhos := s.rhos }) (a :: l)).2) := by
    intro df' m
    unfold calcLogLik
    rw [if_neg hn, if_neg hn, key, key]
    simp only
    split <;> rfl
  refine ⟨_, key' df s.rhos, key'⟩

/-- C135, why the constraint does not constrain: at the point the objective was evaluated at last it is zero, whatever
the point and whatever the degrees of freedom were before. -/
theorem dfConstraint_vacuous (env : FitEnv) {n d : ℕ} (data : Fin n → Fin d → ℚ) (scale : Fl) (df : Fl) (s : Ell)
    {ν : ℝ} {l : List Fl} (h : Spec.StudentVec s.dim (.fin ν :: l)) :
    dfConstraint (calcLogLik env data scale (.student df s) (.fin ν :: l)).1 (.fin ν :: l) = .fin 0 := by
  obtain ⟨r, e, -⟩ := calcLogLik_student env data scale df s h
  rw [e]
  simp [dfConstraint, FitCop.df, Fl.fin_sub_fin]

example := dfConstraint_vacuous fitExampleEnv (fun (_ _ : Fin 2) => 1 / 2) (.fin 1) (.fin 7) (Ell.init 2) (ν := 3)
  (l := [.fin (1 / 2)]) ⟨rfl, by simp [Fl.isNan], _, _, rfl, by rw [Fl.fin_le_fin]; norm_num⟩

/-- C135, what the optimiser is told instead: the constraint is the distance to the degrees of freedom the objective was evaluated
at last; those the user wants to keep do not occur. -/
theorem dfConstraint_lags (env : FitEnv) {n d : ℕ} (data : Fin n → Fin d → ℚ) (scale : Fl) (df : Fl) (s : Ell)
    {μ ν : ℝ} {l l' : List Fl} (h : Spec.StudentVec s.dim (.fin μ :: l)) (told : Fl → ConTree) :
    (∃ v, runCon env data scale (.eval (.fin μ :: l) fun _ => .con (.fin ν :: l') told) (.student df s) =
      runCon env data scale (told (.fin (ν - μ))) (.student (.fin μ) { s with rhos := l }) ∧
      (calcLogLik env data scale (.student df s) (.fin μ :: l)).2 = .ok v) ∨
    ∃ e, (calcLogLik env data scale (.student df s) (.fin μ :: l)).2 = .error e := by
  obtain ⟨r, e, -⟩ := calcLogLik_student env data scale df s h
  rw [e]
  cases r with
  | error er => exact Or.inr ⟨er, rfl⟩
  | ok v =>
    refine Or.inl ⟨v, ?_, rfl⟩
    simp only [runCon, e]
    simp [dfConstraint, FitCop.df, Fl.fin_sub_fin]

example := dfConstraint_lags fitExampleEnv (fun (_ _ : Fin 2) => 1 / 2) (.fin 1) (.fin 7) (Ell.init 2) (μ := 3) (ν := 4)
  (l := [.fin (1 / 2)]) (l' := [.fin 0]) ⟨rfl, by simp [Fl.isNan], _, _, rfl, by rw [Fl.fin_le_fin]; norm_num⟩

theorem runCon_forgets (env : FitEnv) {n d : ℕ} (data : Fin n → Fin d → ℚ) (scale : Fl) (s : Ell) {x : List Fl}
    (h : Spec.StudentVec s.dim x) {t : ConTree} (ht : Spec.StartsAt x t) (df₁ df₂ : Fl) :
    runCon env data scale t (.student df₁ s) = runCon env data scale t (.student df₂ s) := by
  induction ht with
  | eval next =>
    obtain ⟨r, e, e'⟩ := calcLogLik_student env data scale df₁ s h
    have e2 := e' df₂ s.rhos
    simp only [runCon]
    rw [e, show (FitCop.student df₂ s) = .student df₂ { s with rhos := s.rhos } from rfl, e2]
  | con y t _ ih => simpa only [runCon] using ih

theorem lowerCorr_student (env : FitEnv) {n d : ℕ} (data : Fin n → Fin d → ℚ) (s : Ell) (m : String) (df₁ df₂ : Fl) :
    lowerCorr env (.student df₁ s) data m = lowerCorr env (.student df₂ s) data m := rfl

/-- C135, violation: the degrees of freedom given by the user have no influence on what a fit by maximum likelihood
does. For every optimiser that starts at the vector `initial_params` gives it (4.669 and the sample correlations when the
user gives no starting value), two copulas that differ only in the degrees of freedom to be kept are the same after the
fit, and the outcome is the same. So at most one number can be kept. -/
theorem fixed_df_forgotten_violation (env : FitEnv) (opt : List Fl → ConTree) {n d : ℕ} (data : Fin n → Fin d → ℚ)
    (s : Ell) {method ties : String} (toPobs : Bool) (scale : Fl)
    (hm : pyLower method = "ml".toList) {u : Fin n → Fin d → ℚ} (hu : maybePobs data toPobs ties = .ok u)
    (hd : s.dim = d) (hr : ¬ ∃ i j, u i j < 0 ∨ 1 < u i j) (hn : s.dim ≤ n) {x0 : Option ParamArg} {x : ParamArg}
    (hx : ∀ df, initialParams env u (.student df s) x0 = (.student df s, .ok x))
    (hv : Spec.StudentVec s.dim x.toVec) (hopt : Spec.StartsAt x.toVec (opt x.toVec)) (df₁ df₂ : Fl)
    (sm : Option FitSummary) :
    FitObj.fitCon env opt ⟨.student df₁ s, sm⟩ data x0 method ties toPobs scale =
      FitObj.fitCon env opt ⟨.student df₂ s, sm⟩ data x0 method ties toPobs scale := by
  have hml : ∀ df, fitCopulaCon env opt u (.student df s) x0 method scale =
      estimateMlCon env opt u scale (.student df s) x := by
    intro df
    unfold fitCopulaCon
    rw [if_neg (by simpa [FitCop.dim] using hn), if_pos hm, hx]
  have he : estimateMlCon env opt u scale (.student df₁ s) x = estimateMlCon env opt u scale (.student df₂ s) x := by
    unfold estimateMlCon
    rw [runCon_forgets env u scale s hv hopt df₁ df₂]
  have hd' : ∀ df, (FitCop.student df s).dim = d := fun _ => hd
  unfold FitObj.fitCon
  rw [hu]
  simp only [hd', ne_eq, not_true_eq_false, if_false, if_neg hr, hml, he]

example := fixed_df_forgotten_violation fitExampleEnv (fun p => .con p fun _ => .eval p fun v => .done ⟨true, p, v⟩)
  (fun (i : Fin 3) (_ : Fin 2) => ((i.val + 1) / 4 : ℚ)) (Ell.init 2) (method := "ml") (ties := "average") false (.fin 1)
  (by decide) rfl rfl (by rintro ⟨i, j, h⟩; fin_cases i <;> norm_num at h) (by norm_num [Ell.init])
  (x0 := some (.vec [.fin 3, .fin (1 / 2)])) (x := .vec [.fin 3, .fin (1 / 2)])
  (fun df => by simp [initialParams, Option.filter, ParamArg.toVec, Fl.isFin])
  ⟨rfl, by simp [Fl.isNan, ParamArg.toVec], _, _, rfl, by rw [Fl.fin_le_fin]; norm_num⟩ (.con _ _ (.eval _)) (.fin 5) (.fin 9) none

/-- With no starting value the vector starts with 4.669. -/
theorem initialParams_student {env : FitEnv} {n d : ℕ} {data : Fin n → Fin d → ℚ} {s : Ell} {l : List Fl} {df : Fl}
    (hl : lowerCorr env (.student df s) data "pearson" = .ok l) (df' : Fl) :
    initialParams env data (.student df' s) none = (.student df' s, .ok (.vec (.fin 4.669 :: l))) := by
  have : lowerCorr env (.student df' s) data "pearson" = .ok l := hl
  simp [initialParams, this, Except.map]

/-- Pearson's correlations of the columns exist and are numbers. -/
def Spec.PearsonOk (env : FitEnv) {n d : ℕ} (u : Fin n → Fin d → ℚ) : Prop :=
  ∀ i j : Fin d, i < j → ∃ v, env.fns.pearson (Spec.col u i) (Spec.col u j) = .ok v ∧ ¬ v.isNan

theorem studentVec_start {env : FitEnv} {n d : ℕ} {u : Fin n → Fin d → ℚ} (hp : Spec.PearsonOk env u) {s : Ell}
    (hd : s.dim = d) : ∃ l, (∀ df, lowerCorr env (.student df s) u "pearson" = .ok l) ∧
      Spec.StudentVec s.dim (.fin 4.669 :: l) := by
  have hf : corrFunc env.fns "pearson" = .ok env.fns.pearson := (corrFunc_names env.fns "pearson").2.2.1 (by decide)
  have hd' : (FitCop.student .nan s).dim = d := hd
  obtain ⟨l, hl⟩ := lowerCorr_ok (c := .student .nan s) hd' hf fun i j hij => by
    obtain ⟨v, hv, -⟩ := hp i j hij
    exact ⟨v, hv⟩
  obtain ⟨f, hf', h1, h2⟩ := lowerCorr_spec hd' hl
  rw [hf] at hf'
  obtain rfl := Except.ok.inj hf'
  refine ⟨l, fun _ => hl, by rw [List.length_cons, h1, hd, add_comm], ?_, _, _, rfl, ?_⟩
  · intro v hv
    rcases List.mem_cons.1 hv with rfl | hv
    · simp [Fl.isNan]
    · obtain ⟨k, hk, rfl⟩ := List.getElem_of_mem hv
      obtain ⟨i, j, hij, hj, e⟩ := rhoPos_surj (h1 ▸ hk)
      obtain ⟨v, hv, hl'⟩ := h2 ⟨i, hij.trans hj⟩ ⟨j, hj⟩ hij
      obtain ⟨v', hv', hn⟩ := hp ⟨i, hij.trans hj⟩ ⟨j, hj⟩ hij
      rw [hv] at hv'
      obtain rfl := Except.ok.inj hv'
      simp only [e] at hl'
      rw [List.getElem?_eq_getElem hk] at hl'
      rw [Option.some.inj hl']
      exact hn
  · rw [Fl.fin_le_fin]
    norm_num

/-- C135, violation: without a starting value, and with an optimiser that starts where it is told to, two different
degrees of freedom are not both kept; this holds for every sample whose correlations can be computed. -/
theorem fixed_df_not_kept_violation (env : FitEnv) (opt : List Fl → ConTree) {n d : ℕ} (data : Fin n → Fin d → ℚ)
    (s : Ell) {method ties : String} (toPobs : Bool) (scale : Fl)
    (hm : pyLower method = "ml".toList) {u : Fin n → Fin d → ℚ} (hu : maybePobs data toPobs ties = .ok u)
    (hd : s.dim = d) (hr : ¬ ∃ i j, u i j < 0 ∨ 1 < u i j) (hn : s.dim ≤ n) (hp : Spec.PearsonOk env u)
    (hopt : ∀ p, Spec.StartsAt p (opt p)) {df₁ df₂ : Fl} (hdf : df₁ ≠ df₂) (sm : Option FitSummary) :
    ¬ (∀ df ∈ [df₁, df₂], Spec.DfKept ⟨.student df s, sm⟩
      (studentFitFixed env opt ⟨.student df s, sm⟩ data none method ties toPobs scale none).1.1) := by
  intro h
  obtain ⟨l, hl, hv⟩ := studentVec_start hp hd
  have h1 := h df₁ (by simp)
  have h2 := h df₂ (by simp)
  simp only [studentFitFixed] at h1 h2
  rw [fixed_df_forgotten_violation env opt data s toPobs scale hm hu hd hr hn
    (initialParams_student (hl .nan)) hv (hopt _) df₁ df₂ sm] at h1
  unfold Spec.DfKept at h1 h2
  exact hdf (h1.symm.trans h2)

/-- A sample, an optimiser and correlations as in `fixed_df_not_kept_violation`. -/
example : ∃ (fns : CorrFns) (u : Fin 2 → Fin 2 → ℚ) (opt : List Fl → ConTree),
    (∀ env : FitEnv, env.fns = fns → Spec.PearsonOk env u) ∧ maybePobs u false "average" = .ok u ∧
      (¬ ∃ i j, u i j < 0 ∨ 1 < u i j) ∧ ∀ p, Spec.StartsAt p (opt p) := by
  refine ⟨⟨fun _ _ => .ok (.fin (1 / 2)), fun _ _ => .ok 0, fun _ _ => .ok 0⟩, fun i _ => (i.val + 1) / 3,
    fun p => .con p fun _ => .eval p fun v => .done ⟨true, p, v⟩, ?_, rfl, ?_, fun p => .con p _ (.eval _)⟩
  · intro env h i j _
    exact ⟨.fin (1 / 2), by rw [h], by simp [Fl.isNan]⟩
  · rintro ⟨i, j, h⟩
    fin_cases i <;> norm_num at h

theorem setParams_student_shape (df : Fl) (s : Ell) (x : List Fl) :
    ∃ df' s', ((FitCop.student df s).setParams (.vec x)).1 = .student df' s' := by
  simp only [FitCop.setParams]
  split_ifs
  · exact ⟨_, _, rfl⟩
  · cases x with
    | nil => exact ⟨_, _, rfl⟩
    | cons a l =>
      simp only
      split_ifs <;> exact ⟨_, _, rfl⟩

theorem setParams_student_head {df : Fl} {s : Ell} {x : List Fl} {c : FitCop}
    (h : (FitCop.student df s).setParams (.vec x) = (c, none)) : c.df = x.headD .nan := by
  simp only [FitCop.setParams] at h
  split_ifs at h
  · simp at h
  · cases x with
    | nil => simp at h
    | cons a l =>
      simp only at h
      split_ifs at h
      · simp at h
      · simp only [Prod.mk.injEq, and_true] at h
        rw [← h]
        rfl

theorem calcLogLik_shape (env : FitEnv) {n d : ℕ} (data : Fin n → Fin d → ℚ) (scale : Fl) (df : Fl) (s : Ell)
    (x : List Fl) : ∃ df' s', (calcLogLik env data scale (.student df s) x).1 = .student df' s' := by
  unfold calcLogLik
  split_ifs
  · exact ⟨_, _, rfl⟩
  · obtain ⟨df', s', e⟩ := setParams_student_shape df s x
    cases hset : (FitCop.student df s).setParams (.vec x) with
    | mk c' err =>
      rw [hset] at e
      simp only at e
      subst e
      refine ⟨df', s', ?_⟩
      split
      all_goals rename_i heq; simp only [Prod.mk.injEq] at heq; obtain ⟨rfl, -⟩ := heq
      · rfl
      · rfl
      · split <;> rfl

theorem runCon_student (env : FitEnv) {n d : ℕ} (data : Fin n → Fin d → ℚ) (scale : Fl) (t : ConTree) :
    ∀ (df : Fl) (s : Ell) {c' : FitCop} {r : Except PyErr OptRes},
      runCon env data scale t (.student df s) = (c', r) → ∃ df' s', c' = .student df' s' := by
  induction t with
  | done r =>
    intro df s c' r' h
    simp only [runCon, Prod.mk.injEq] at h
    exact ⟨_, _, h.1.symm⟩
  | con x next ih =>
    intro df s c' r' h
    simp only [runCon] at h
    exact ih _ df s h
  | eval x next ih =>
    intro df s c' r' h
    simp only [runCon] at h
    obtain ⟨df', s', e⟩ := calcLogLik_shape env data scale df s x
    cases hc : calcLogLik env data scale (.student df s) x with
    | mk c₁ v =>
      rw [hc] at h e
      simp only at e
      subst e
      cases v with
      | error e =>
        simp only [Prod.mk.injEq] at h
        exact ⟨_, _, h.1.symm⟩
      | ok v => exact ih v df' s' h

/-- An optimiser that does not move the first coordinate, as an equality constraint on it would make it. -/
def Spec.KeepsFirst (env : FitEnv) (opt : List Fl → ConTree) {n d : ℕ} (u : Fin n → Fin d → ℚ) (scale : Fl) : Prop :=
  ∀ p c c' r, runCon env u scale (opt p) c = (c', .ok r) → r.success = true → r.x.headD .nan = p.headD .nan

theorem fixed_df_start (env : FitEnv) (opt : List Fl → ConTree) {n d : ℕ} (data : Fin n → Fin d → ℚ)
    {o o' : FitObj} {s : Ell} {df : Fl} (ho : o.cop = .student df s) {method ties : String} (toPobs : Bool) (scale : Fl)
    (hm : pyLower method = "ml".toList) {u : Fin n → Fin d → ℚ} (hu : maybePobs data toPobs ties = .ok u)
    {x0 : Option ParamArg} {a : ParamArg} (hl : initialParams env u o.cop x0 = (o.cop, .ok a))
    (hfit : o.fitCon env opt data x0 method ties toPobs scale = (o', .ok ())) (hs : o'.smry.bind (·.success) = some true)
    (hkeep : Spec.KeepsFirst env opt u scale) : o'.cop.df = a.toVec.headD .nan := by
  obtain ⟨cop, sm⟩ := o
  simp only at ho hl
  subst ho
  unfold FitObj.fitCon at hfit
  rw [hu] at hfit
  simp only at hfit
  split_ifs at hfit with h1 h2
  · simp at hfit
  · simp at hfit
  unfold fitCopulaCon at hfit
  by_cases h3 : n < (FitCop.student df s).dim
  · rw [if_pos h3] at hfit
    simp at hfit
  rw [if_neg h3, if_pos hm, hl] at hfit
  simp only [estimateMlCon] at hfit
  cases hrun : runCon env u scale (opt a.toVec) (.student df s) with
  | mk c' res =>
    rw [hrun] at hfit
    cases res with
    | error e => simp at hfit
    | ok r =>
      simp only at hfit
      by_cases hsucc : r.success = true
      · rw [if_pos hsucc] at hfit
        have hk := hkeep _ _ _ _ hrun hsucc
        cases hset : c'.setParams (.vec r.x) with
        | mk c'' err =>
          rw [hset] at hfit
          cases err with
          | some e => simp at hfit
          | none =>
            simp only [Prod.mk.injEq, and_true] at hfit
            rw [← hfit]
            obtain ⟨df', s', rfl⟩ := runCon_student env u scale (opt a.toVec) df s hrun
            rw [setParams_student_head hset, hk]
      · rw [if_neg hsucc] at hfit
        simp only [Prod.mk.injEq, and_true] at hfit
        rw [← hfit] at hs
        simp at hs

/-- C135, violation: even an optimiser that never moves the first coordinate ends at 4.669 degrees of freedom,
whatever the user asked to keep, because the fit starts there. -/
theorem fixed_df_default_violation (env : FitEnv) (opt : List Fl → ConTree) {n d : ℕ} (data : Fin n → Fin d → ℚ)
    {o o' : FitObj} {s : Ell} {df : Fl} (ho : o.cop = .student df s) {method ties : String} (toPobs : Bool) (scale : Fl)
    (hm : pyLower method = "ml".toList) {u : Fin n → Fin d → ℚ} (hu : maybePobs data toPobs ties = .ok u)
    (hd : s.dim = d) (hp : Spec.PearsonOk env u)
    (hfit : (studentFitFixed env opt o data none method ties toPobs scale none).1 = (o', .ok ()))
    (hs : o'.smry.bind (·.success) = some true) (hkeep : Spec.KeepsFirst env opt u scale) :
    o'.cop.df = .fin 4.669 := by
  obtain ⟨l, hl, -⟩ := studentVec_start hp hd
  have hi : initialParams env u o.cop none = (o.cop, .ok (.vec (.fin 4.669 :: l))) := by
    rw [ho]
    exact initialParams_student (hl df) df
  rw [fixed_df_start env opt data ho toPobs scale hm hu hi hfit hs hkeep]
  rfl

/-- An optimiser that keeps the first coordinate and sets the others to zero. -/
def headOpt (p : List Fl) : ConTree := .con p fun _ => .done ⟨true, p.headD .nan :: p.tail.map fun _ => .fin 0, .fin 0⟩

/-- Nine degrees of freedom are asked to be kept and 4.669 are returned. -/
example : ∃ o', (studentFitFixed fitExampleEnv headOpt ⟨.student (.fin 9) (Ell.init 2), none⟩ (fun (i : Fin 3) (_ : Fin 2) => ((i.val + 1) / 4 : ℚ)) none "ml" "average" false
      (.fin 1) none).1 = (o', .ok ()) ∧ o'.cop.df = .fin 4.669 := by
  have hp : Spec.PearsonOk fitExampleEnv fun (i : Fin 3) (_ : Fin 2) => ((i.val + 1) / 4 : ℚ) :=
    fun i j _ => ⟨.fin (1 / 2), rfl, by simp [Fl.isNan]⟩
  have hr : ¬ ∃ (i : Fin 3) (_ : Fin 2), ((i.val + 1) / 4 : ℚ) < 0 ∨ 1 < ((i.val + 1) / 4 : ℚ) := by
    rintro ⟨i, j, h⟩
    fin_cases i <;> norm_num at h
  obtain ⟨l, hl, hlen, -⟩ := studentVec_start hp (s := Ell.init 2) rfl
  obtain ⟨a, rfl⟩ : ∃ a, l = [a] := List.length_eq_one_iff.1 (by simpa [Ell.init] using hlen)
  have hfit : (studentFitFixed fitExampleEnv headOpt ⟨.student (.fin 9) (Ell.init 2), none⟩ (fun (i : Fin 3) (_ : Fin 2) => ((i.val + 1) / 4 : ℚ)) none "ml" "average" false
      (.fin 1) none).1 = (⟨.student (.fin 4.669) ⟨2, [.fin 0]⟩, some ⟨[.fin 4.669, .fin 0], -.fin 0, 3, some true⟩⟩, .ok ()) := by
    have hml : pyLower "ml" = "ml".toList := by decide
    simp only [studentFitFixed, FitObj.fitCon, maybePobs, Bool.false_eq_true, if_false]
    rw [if_neg (by simp [FitCop.dim, Ell.init]), if_neg hr]
    unfold fitCopulaCon
    rw [if_neg (by simp [FitCop.dim, Ell.init]), if_pos hml, initialParams_student (hl .nan)]
    simp only [estimateMlCon, headOpt, ParamArg.toVec, runCon, List.headD, List.tail, List.map, if_true, FitCop.setParams, Ell.init]
    norm_num
  refine ⟨_, hfit, ?_⟩
  refine fixed_df_default_violation fitExampleEnv headOpt (fun (i : Fin 3) (_ : Fin 2) => ((i.val + 1) / 4 : ℚ)) (method := "ml") (ties := "average") rfl false (.fin 1) (by decide) rfl rfl hp hfit rfl ?_
  intro p c c' r h _
  simp only [headOpt, runCon, Prod.mk.injEq, Except.ok.injEq] at h
  rw [← h.2]
  rfl

/-- C135, the other part that holds: a user who starts the optimiser at the degrees of freedom to be kept gets them
back from an optimiser that does not move the first coordinate. Missing: that the constraint makes an optimiser do
this; it does not (`dfConstraint_vacuous`). -/
theorem fixed_df_own_start_partial (env : FitEnv) (opt : List Fl → ConTree) {n d : ℕ} (data : Fin n → Fin d → ℚ)
    {o o' : FitObj} {s : Ell} {df : Fl} (ho : o.cop = .student df s) {method ties : String} (toPobs : Bool) (scale : Fl)
    (hm : pyLower method = "ml".toList) {u : Fin n → Fin d → ℚ} (hu : maybePobs data toPobs ties = .ok u)
    {l : List Fl} (hfin : ∀ v ∈ df :: l, v.isFin)
    (hfit : (studentFitFixed env opt o data (some (.vec (df :: l))) method ties toPobs scale none).1 = (o', .ok ()))
    (hs : o'.smry.bind (·.success) = some true) (hkeep : Spec.KeepsFirst env opt u scale) : Spec.DfKept o o' := by
  have hi : initialParams env u o.cop (some (.vec (df :: l))) = (o.cop, .ok (.vec (df :: l))) := by
    have : (some (ParamArg.vec (df :: l))).filter (fun a => decide (∀ x ∈ a.toVec, x.isFin)) =
        some (.vec (df :: l)) := by
      rw [Option.filter_some, if_pos]
      exact decide_eq_true hfin
    unfold initialParams
    rw [this]
  unfold Spec.DfKept
  rw [fixed_df_start env opt data ho toPobs scale hm hu hi hfit hs hkeep, ho]
  rfl

/-- An optimiser that does not move the first coordinate. -/
example (env : FitEnv) {n d : ℕ} (u : Fin n → Fin d → ℚ) (scale : Fl) :
    Spec.KeepsFirst env (fun p => .con p fun _ => .done ⟨true, p.headD .nan :: p.tail.map fun _ => .fin 0, .fin 0⟩) u
      scale := by
  intro p c c' r h _
  simp only [runCon, Prod.mk.injEq, Except.ok.injEq] at h
  rw [← h.2]
  rfl

/-- C135, violation: options without the key `'constraints'` raise `KeyError`, and the caller's list grows with every
fit. -/
theorem fixed_df_options_violation (env : FitEnv) (opt : List Fl → ConTree) (o : FitObj) {n d : ℕ}
    (data : Fin n → Fin d → ℚ) (x0 : Option ParamArg) (method ties : String) (toPobs : Bool) (scale : Fl) :
    studentFitFixed env opt o data x0 method ties toPobs scale (some none) = ((o, .error .keyError), none) ∧
      ∀ k, (studentFitFixed env opt o data x0 method ties toPobs scale (some (some k))).2 = some (k + 1) :=
  ⟨rfl, fun _ => rfl⟩

/-- C135, the part that holds: a fit by correlation inversion keeps the degrees of freedom, whatever its outcome.
Missing, because violated: fits by maximum likelihood (`fixed_df_not_kept_violation`). -/
theorem fixed_df_kept_partial (env : FitEnv) (opt : List Fl → ConTree) (o : FitObj) {n d : ℕ}
    (data : Fin n → Fin d → ℚ) (x0 : Option ParamArg) {method ties : String} (toPobs : Bool) (scale : Fl)
    (hm : pyLower method ≠ "ml".toList) (constraints : Option (Option ℕ)) {df : Fl} {s : Ell} (ho : o.cop = .student df s) :
    Spec.DfKept o (studentFitFixed env opt o data x0 method ties toPobs scale constraints).1.1 := by
  obtain ⟨cop, sm⟩ := o
  simp only at ho
  subst ho
  have hcorr : ∀ (u : Fin n → Fin d → ℚ) typ, (estimateCorr env u (.student df s) typ).1.df = df := by
    intro u typ
    unfold estimateCorr
    cases fitCor env (.student df s) u typ with
    | error e => rfl
    | ok icor =>
      simp only [storeEstimate]
      split <;> rfl
  have hfit : (FitObj.fitCon env opt ⟨.student df s, sm⟩ data x0 method ties toPobs scale).1.cop.df = df := by
    unfold FitObj.fitCon
    cases hu : maybePobs data toPobs ties with
    | error e => rfl
    | ok u =>
      simp only
      split_ifs
      · rfl
      · rfl
      · have hcop : (fitCopulaCon env opt u (.student df s) x0 method scale).1.df = df := by
          unfold fitCopulaCon
          rw [if_neg hm]
          split_ifs
          · rfl
          · exact hcorr u _
          · exact hcorr u _
          · rfl
        split <;> rename_i heq <;> rw [heq] at hcop <;> exact hcop
  unfold Spec.DfKept
  rcases constraints with _ | _ | k
  · exact hfit
  · rfl
  · exact hfit

example (env : FitEnv) (opt : List Fl → ConTree) (o : Option FitSummary) := fixed_df_kept_partial env opt
  ⟨.student (.fin 9) (Ell.init 3), o⟩ (fun (i : Fin 4) (_ : Fin 3) => (i.1 : ℚ)) none (method := "itau") (ties := "average")
  true (.fin 1) (by decide) (some (some 2)) rfl

end Copulae
