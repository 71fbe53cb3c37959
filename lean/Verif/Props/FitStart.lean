import Verif.Lemmas.Fit

/-!
C95: starting values of maximum likelihood.
-/

namespace Copulae

/-- C95: finite starting values are used as they are, and the copula is not touched before the
optimisation. -/
theorem initialParams_finite (env : FitEnv) {n d : ℕ} (data : Fin n → Fin d → ℚ) (c : FitCop) {a : ParamArg}
    (h : ∀ x ∈ a.toVec, x.isFin) : initialParams env data c (some a) = (c, .ok a) := by
  unfold initialParams
  rw [Option.filter_some, if_pos ((@decide_eq_true_eq _ (_)).mpr h)]

example (env : FitEnv) := initialParams_finite env (fun (i : Fin 3) (j : Fin 2) => (i.val / (4 + j.val) : ℚ)) (.gaussian (Ell.init 2))
  (a := .vec [.fin (1 / 2)]) (by simp [ParamArg.toVec, Fl.isFin])

/-- C95: starting values of which one is infinite or NaN are ignored: the fit is the one without starting
values. -/
theorem fit_start_invalid (env : FitEnv) (opt : List Fl → OptTree) (o : FitObj) {n d : ℕ}
    (data : Fin n → Fin d → ℚ) {a : ParamArg} (h : ∃ x ∈ a.toVec, ¬ x.isFin) (method ties : String)
    (toPobs : Bool) (scale : Fl) :
    o.fit env opt data (some a) method ties toPobs scale = o.fit env opt data none method ties toPobs scale := by
  have e : ∀ (u : Fin n → Fin d → ℚ) (c : FitCop),
      initialParams env u c (some a) = initialParams env u c none := by
    intro u c
    unfold initialParams
    rw [Option.filter_some, if_neg]
    · rfl
    · intro hc
      obtain ⟨x, hx, hn⟩ := h
      exact hn ((@decide_eq_true_eq _ (_)).mp hc x hx)
  unfold FitObj.fit fitCopula
  simp only [e]

example (env : FitEnv) (opt : List Fl → OptTree) := fit_start_invalid env opt ⟨.student (.fin 4) (Ell.init 2), none⟩
  (fun (i : Fin 3) (j : Fin 2) => (i.val / (4 + j.val) : ℚ)) (a := .vec [.fin 3, .nan]) (by simp [ParamArg.toVec, Fl.isFin]) "ml" "average" true (.fin 1)

/-- C95: without usable starting values the correlations of the data are used for Gaussian copulas, and
for Student copulas together with 4.669 degrees of freedom. -/
theorem initialParams_ell (env : FitEnv) {n d : ℕ} (data : Fin n → Fin d → ℚ) :
    (∀ s, initialParams env data (.gaussian s) none =
      (.gaussian s, (lowerCorr env (.gaussian s) data "pearson").map .vec)) ∧
    ∀ df s, initialParams env data (.student df s) none =
      (.student df s, (lowerCorr env (.student df s) data "pearson").map fun l => .vec (.fin 4.669 :: l)) :=
  ⟨fun _ => rfl, fun _ _ => rfl⟩

theorem setParams_scalar_arch {F : Family} {st : ArchState} {x : Fl} {c' : FitCop}
    (h : (FitCop.arch F st).setParams (.scalar x) = (c', none)) : ∃ st', c' = .arch F st' ∧ st'.theta = x := by
  simp only [FitCop.setParams, FitCop.toFloat, Prod.mk.injEq] at h
  obtain ⟨h1, h2⟩ := h
  refine ⟨_, h1.symm, ?_⟩
  rw [(setParams_effect F st x).2 h2]

theorem estimateCorr_arch {env : FitEnv} {n d : ℕ} {data : Fin n → Fin d → ℚ} {F : Family} {st : ArchState}
    {c' : FitCop} {smry : FitSummary} (h : estimateCorr env data (.arch F st) .itau = (c', .ok smry)) :
    ∃ st', c' = .arch F st' ∧ smry.params.headD .nan = st'.theta := by
  unfold estimateCorr at h
  cases hf : fitCor env (.arch F st) data .itau with
  | error e => rw [hf] at h; simp at h
  | ok icor =>
    rw [hf] at h
    simp only [storeEstimate] at h
    rcases hs : (FitCop.arch F st).setParams (.scalar (npMean icor.toVec)) with ⟨c1, _ | e⟩
    · rw [hs] at h
      simp only at h
      cases hl : logLik env c1 data true "average" with
      | error e => rw [hl] at h; simp at h
      | ok v =>
        rw [hl] at h
        simp only [Prod.mk.injEq, Except.ok.injEq] at h
        obtain ⟨rfl, rfl⟩ := h
        obtain ⟨st', h1, h2⟩ := setParams_scalar_arch hs
        exact ⟨st', h1, h2.symm⟩
    · rw [hs] at h; simp at h

theorem claytonRestart_start (env : FitEnv) {n d : ℕ} (data : Fin n → Fin d → ℚ) (k : ℕ) :
    ∀ {F : Family} (st : ArchState) {c' : FitCop} {s : Fl},
      claytonRestart env data k (.arch F st) st.theta = (c', .ok s) → ∃ st', c' = .arch F st' ∧ s = st'.theta := by
  induction k with
  | zero =>
    intro F st c' s h
    simp only [claytonRestart, Prod.mk.injEq, Except.ok.injEq] at h
    exact ⟨st, h.1.symm, h.2.symm⟩
  | succ k ih =>
    intro F st c' s h
    simp only [claytonRestart] at h
    by_cases h0 : st.theta < Fl.fin 0
    · rw [if_pos h0] at h
      rcases hs : (FitCop.arch F st).setParams (.scalar (st.theta + .fin (1 / 5))) with ⟨c1, _ | e⟩
      · obtain ⟨st1, rfl, h2⟩ := setParams_scalar_arch hs
        rw [hs] at h
        simp only at h
        cases hl : logLik env (.arch F st1) data true "average" with
        | error e => rw [hl] at h; simp at h
        | ok v =>
          rw [hl] at h
          simp only at h
          by_cases hv : v.isFin
          · rw [if_pos hv] at h
            simp only [Prod.mk.injEq, Except.ok.injEq] at h
            exact ⟨st1, h.1.symm, by rw [← h.2, h2]⟩
          · rw [if_neg hv, ← h2] at h
            exact ih _ h
      · rw [hs] at h; simp at h
    · rw [if_neg h0] at h
      simp only [Prod.mk.injEq, Except.ok.injEq] at h
      exact ⟨st, h.1.symm, h.2.symm⟩

/-- C95: an Archimedean copula is given its starting value before the optimisation: whatever branch is taken, the
value handed to the optimiser is the parameter that the copula then has. -/
theorem initialParams_arch (env : FitEnv) {n d : ℕ} (data : Fin n → Fin d → ℚ) (F : Family) (st : ArchState)
    {c' : FitCop} {a : ParamArg} (h : initialParams env data (.arch F st) none = (c', .ok a)) :
    a = c'.paramArg := by
  unfold initialParams at h
  rw [Option.filter_none] at h
  simp only at h
  rcases hs : estimateCorr env data (.arch F st) .itau with ⟨c1, e | smry⟩
  · rw [hs] at h
    cases e <;> simp only [Prod.mk.injEq, Except.ok.injEq, reduceCtorEq, and_false] at h
    rw [← h.1, ← h.2]
  · rw [hs] at h
    obtain ⟨st1, rfl, h1⟩ := estimateCorr_arch hs
    simp only [h1] at h
    cases hl : logLik env (.arch F st1) data true "average" with
    | error e =>
      rw [hl] at h
      cases e <;> simp only [Prod.mk.injEq, Except.ok.injEq, reduceCtorEq, and_false] at h
      rw [← h.1, ← h.2]
    | ok ll =>
      rw [hl] at h
      simp only at h
      by_cases hf : ll.isFin
      · rw [if_pos hf] at h
        simp only [Prod.mk.injEq, Except.ok.injEq] at h
        rw [← h.1, ← h.2]
        rfl
      · rw [if_neg hf] at h
        have hq : ∀ c2 s, (if F = .clayton ∧ st.dim = 2 then claytonRestart env data 5 (.arch F st1) st1.theta
            else (FitCop.arch F st1, Except.ok st1.theta)) = (c2, .ok s) →
            ∃ st2, c2 = .arch F st2 ∧ s = st2.theta := by
          intro c2 s hq
          split_ifs at hq with hc
          · exact claytonRestart_start env data 5 st1 hq
          · simp only [Prod.mk.injEq, Except.ok.injEq] at hq
            exact ⟨st1, hq.1.symm, hq.2.symm⟩
        rcases hr : (if F = .clayton ∧ st.dim = 2 then claytonRestart env data 5 (.arch F st1) st1.theta
            else (FitCop.arch F st1, Except.ok st1.theta)) with ⟨c2, e | s⟩
        · rw [hr] at h
          cases e <;> simp only [Prod.mk.injEq, Except.ok.injEq, reduceCtorEq, and_false] at h
          rw [← h.1, ← h.2]
        · rw [hr] at h
          obtain ⟨st2, rfl, rfl⟩ := hq _ _ hr
          simp only at h
          split_ifs at h <;> simp only [Prod.mk.injEq, Except.ok.injEq] at h
          · rw [← h.1, ← h.2]
          · rw [← h.1, ← h.2]
            rfl

/-- A vector with one NaN entry meets the hypothesis. -/
example : ∃ x ∈ (ParamArg.vec [.fin 0, .nan]).toVec, ¬ x.isFin :=
  ⟨.nan, by simp [ParamArg.toVec], by simp [Fl.isFin]⟩

end Copulae
