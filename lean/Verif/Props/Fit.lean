import Verif.Lemmas.Fit
import Verif.Props.Elliptical

/-!
C54: a fit summary describes the fitted copula. C70: fitting keeps the class, the dimension and the
admissibility of the parameters. C71: a fit that raises keeps the former summary, and data that are refused
change nothing.
-/

namespace Copulae

open Classical

/-- The log-likelihood a user computes on the data given to `fit` is that of the pseudo-observations. -/
theorem logLik_pobs (env : FitEnv) (c : FitCop) {n d : ℕ} {data u : Fin n → Fin d → ℚ} {toPobs : Bool}
    {ties : String} (h : maybePobs data toPobs ties = .ok u) (t : String) :
    logLik env c data toPobs ties = logLik env c u false t := by
  have h' : maybePobs u false t = .ok u := by simp [maybePobs]
  unfold logLik
  simp only [h, h', bind, Except.bind]

theorem fit_ok {env : FitEnv} {opt : List Fl → OptTree} {o o' : FitObj} {n d : ℕ}
    {data : Fin n → Fin d → ℚ} {x0 : Option ParamArg} {method ties : String} {toPobs : Bool} {scale : Fl}
    (h : o.fit env opt data x0 method ties toPobs scale = (o', .ok ())) :
    ∃ u s, maybePobs data toPobs ties = .ok u ∧ o.cop.dim = d ∧ (∀ i j, 0 ≤ u i j ∧ u i j ≤ 1) ∧
      fitCopula env opt u o.cop x0 method scale = (o'.cop, .ok s) ∧ o'.smry = some s := by
  unfold FitObj.fit at h
  cases hu : maybePobs data toPobs ties with
  | error e => rw [hu] at h; simp at h
  | ok u =>
    rw [hu] at h
    simp only at h
    by_cases h1 : o.cop.dim ≠ d
    · rw [if_pos h1] at h; simp at h
    · rw [if_neg h1] at h
      by_cases h2 : ∃ i j, u i j < 0 ∨ 1 < u i j
      · rw [if_pos h2] at h; simp at h
      · rw [if_neg h2] at h
        rcases hf : fitCopula env opt u o.cop x0 method scale with ⟨c', e | s⟩
        · rw [hf] at h; simp at h
        · rw [hf] at h
          simp only [Prod.mk.injEq, and_true] at h
          subst h
          refine ⟨u, s, rfl, not_not.mp h1, fun i j => ?_, hf, rfl⟩
          push Not at h2
          exact h2 i j

theorem estimateMl_success {env : FitEnv} {opt : List Fl → OptTree} {n d : ℕ} {u : Fin n → Fin d → ℚ}
    {scale : Fl} {c c' : FitCop} {x0 : ParamArg} {s : FitSummary} (hopt : ∀ x, (opt x).Honest [])
    (h : estimateMl env opt u scale c x0 = (c', .ok s)) :
    s.nsample = n ∧ (s.success = some true ∨ s.success = some false ∧ ∀ x ∈ s.params, x = .nan) ∧
      (s.success = some true → s.logLik ≠ .ninf →
        s.params = c'.params ∧ ∃ L, logLik env c' u false "average" = .ok L ∧ s.logLik = L * scale) := by
  unfold estimateMl at h
  rcases hr : runOpt env u scale (opt x0.toVec) c with ⟨c1, e | r⟩
  · rw [hr] at h; simp at h
  · rw [hr] at h
    simp only at h
    by_cases hs : r.success = true
    · rw [if_pos hs] at h
      rcases hp : c1.setParams (.vec r.x) with ⟨c2, _ | e⟩
      · rw [hp] at h
        simp only [Prod.mk.injEq, Except.ok.injEq] at h
        obtain ⟨rfl, rfl⟩ := h
        refine ⟨rfl, Or.inl rfl, fun _ hn => ⟨(FitCop.setParams_vec_ok hp).1.symm, ?_⟩⟩
        have hv := runOpt_honest env u scale c (opt x0.toVec) [] c c1 r (FitCop.SameKind.refl c) (hopt _)
          (by simp) hr hs
        have hk : c.SameKind c1 := by
          have := runOpt_sameKind env u scale (opt x0.toVec) c
          rwa [hr] at this
        rw [calcLogLik_congr env u scale hk] at hv
        have hfn : r.fn ≠ .pinf := by
          intro h0
          apply hn
          simp only [h0]
          rfl
        obtain ⟨c3, L, h3, hL, hvL⟩ := calcLogLik_value env u scale c1 r.x hv hfn
        rw [hp] at h3
        simp only [Prod.mk.injEq, and_true] at h3
        subst h3
        exact ⟨L, hL, by simp only [hvL, neg_neg_mul]⟩
      · rw [hp] at h; simp at h
    · rw [if_neg hs] at h
      simp only [Prod.mk.injEq, Except.ok.injEq] at h
      obtain ⟨rfl, rfl⟩ := h
      refine ⟨rfl, Or.inr ⟨rfl, ?_⟩, by simp⟩
      intro x hx
      simp only [List.mem_map] at hx
      obtain ⟨_, -, h⟩ := hx
      exact h.symm

/-- **C54** (maximum likelihood). The summary of a successful fit names the parameters the copula now has,
the number of rows, and `scale` times the log-likelihood of the data under the copula; the summary of an
unsuccessful one has no parameters. Missing for the full claim: the log-likelihood when `scale` is not 1
(`fit_scaled_logLik`) and the parameters of the copula after a failure (`fit_failure_changes_copula`). -/
theorem fit_ml_summary_partial {env : FitEnv} {opt : List Fl → OptTree} {o o' : FitObj} {n d : ℕ}
    {data : Fin n → Fin d → ℚ} {x0 : Option ParamArg} {method ties : String} {toPobs : Bool} {scale : Fl}
    (hopt : ∀ x, (opt x).Honest []) (hm : pyLower method = "ml".toList)
    (h : o.fit env opt data x0 method ties toPobs scale = (o', .ok ())) :
    ∃ s, o'.smry = some s ∧ s.nsample = n ∧
      (s.success = some true ∨ s.success = some false ∧ ∀ x ∈ s.params, x = .nan) ∧
      (s.success = some true → s.logLik ≠ .ninf →
        s.params = o'.cop.params ∧
        ∃ L, logLik env o'.cop data toPobs ties = .ok L ∧ s.logLik = L * scale ∧
          (scale = .fin 1 → s.logLik = L)) := by
  obtain ⟨u, s, hu, -, -, hf, hsm⟩ := fit_ok h
  unfold fitCopula at hf
  by_cases h1 : n < o.cop.dim
  · rw [if_pos h1] at hf; simp at hf
  · rw [if_neg h1, if_pos hm] at hf
    rcases hi : initialParams env u o.cop x0 with ⟨c1, e | a⟩
    · rw [hi] at hf; simp at hf
    · rw [hi] at hf
      obtain ⟨h2, h3, h4⟩ := estimateMl_success hopt hf
      refine ⟨s, hsm, h2, h3, fun hs hn => ?_⟩
      obtain ⟨h5, L, hL, h6⟩ := h4 hs hn
      refine ⟨h5, L, ?_, h6, ?_⟩
      · rw [logLik_pobs env o'.cop hu "average"]; exact hL
      · rintro rfl
        rw [h6]
        exact mul_one L

/-- **C54, violation.** With a `scale` other than 1 the reported value is not the log-likelihood. -/
theorem fit_scaled_logLik {env : FitEnv} {opt : List Fl → OptTree} {o o' : FitObj} {n d : ℕ}
    {data : Fin n → Fin d → ℚ} {x0 : Option ParamArg} {method ties : String} {toPobs : Bool} {k L : ℝ}
    (hopt : ∀ x, (opt x).Honest []) (hm : pyLower method = "ml".toList) (hk : k ≠ 1) (hL : L ≠ 0)
    (h : o.fit env opt data x0 method ties toPobs (.fin k) = (o', .ok ()))
    (hl : logLik env o'.cop data toPobs ties = .ok (.fin L)) :
    ∃ s, o'.smry = some s ∧ (s.success = some true → s.logLik ≠ .fin L) := by
  obtain ⟨s, hs, -, -, h4⟩ := fit_ml_summary_partial hopt hm h
  refine ⟨s, hs, fun hsucc heq => ?_⟩
  obtain ⟨-, L', hL', he, -⟩ := h4 hsucc (by rw [heq]; simp)
  rw [hl] at hL'
  obtain rfl := Except.ok.inj hL'
  rw [heq, Fl.fin_mul_fin] at he
  have := Fl.fin.inj he
  apply hk
  have h5 : L * (k - 1) = 0 := by linarith
  rcases mul_eq_zero.mp h5 with h | h
  · exact absurd h hL
  · linarith

/-- **C54, violation.** A failed optimisation leaves the copula with whatever was tried last: here a Clayton
copula with parameter 2, an optimiser that evaluates the point 5 and gives up. -/
theorem fit_failure_changes_copula (env : FitEnv) {n : ℕ} (hn : 2 ≤ n) (data : Fin n → Fin 2 → ℚ)
    (st : ArchState) (hdim : st.dim = 2) (hθ : st.theta = .fin 2) (sm : Option FitSummary) {v : Fl}
    {u : Fin n → Fin 2 → ℚ} (hu : pobsMat data "average" = .ok u)
    (hv : env.logPdfSum (.arch .clayton { st with theta := .fin 5 }) n 2 u = .ok v) :
    ∃ o', FitObj.fit env (fun _ => .eval [.fin 5] fun w => .done ⟨false, [.fin 5], w⟩)
        ⟨.arch .clayton st, sm⟩ data (some (.scalar (.fin 2))) "ml" "average" true (.fin 1) = (o', .ok ()) ∧
      (∃ s, o'.smry = some s ∧ s.params = [.nan]) ∧
      o'.cop.params = [.fin 5] ∧ (FitCop.arch .clayton st).params = [.fin 2] := by
  have hrange : ¬ ∃ i j, u i j < 0 ∨ 1 < u i j := by
    have h1 := pobsMat_eq data "average"
    obtain ⟨w, hw, hb⟩ := pseudoObs_mem_Ioo data (s := "average") (m := .average) (by decide)
    rw [hu, hw] at h1
    simp only [Except.map, Except.ok.injEq, NDArr.mat.injEq, heq_eq_eq, true_and] at h1
    subst h1
    rintro ⟨i, j, h | h⟩
    · exact absurd (hb i j).1 (not_lt.mpr h.le)
    · exact absurd (hb i j).2 (not_lt.mpr h.le)
  have hset : (FitCop.arch .clayton st).setParams (.vec [.fin 5])
      = (.arch .clayton { st with theta := .fin 5 }, none) := by
    simp only [FitCop.setParams, FitCop.toFloat, Family.setParams, hdim]
    rw [if_neg, if_neg]
    · simp
    · rintro ⟨-, h⟩
      rw [Fl.fin_lt_fin] at h
      norm_num at h
  have hcl : calcLogLik env u (.fin 1) (.arch .clayton st) [.fin 5]
      = (.arch .clayton { st with theta := .fin 5 }, .ok (-v * .fin 1)) := by
    unfold calcLogLik
    rw [if_neg (by simp [Fl.isNan]), hset]
    simp only [logLik, logLikCut, bind, Except.bind, maybePobs, Bool.false_eq_true, if_false, hv]
  refine ⟨⟨.arch .clayton { st with theta := .fin 5 }, some ⟨[.nan], -(-v * .fin 1), n, some false⟩⟩, ?_,
    ⟨_, rfl, rfl⟩, rfl, by simp [FitCop.params, hθ]⟩
  have hd : ¬ n < (FitCop.arch .clayton st).dim := by simp only [FitCop.dim, hdim]; omega
  have hip : initialParams env u (.arch .clayton st) (some (.scalar (.fin 2)))
      = (.arch .clayton st, .ok (.scalar (.fin 2))) := by
    unfold initialParams
    simp [Option.filter, ParamArg.toVec, Fl.isFin]
  have hml : pyLower "ml" = "ml".toList := by decide
  have hfit : fitCopula env (fun _ => .eval [.fin 5] fun w => .done ⟨false, [.fin 5], w⟩) u
      (.arch .clayton st) (some (.scalar (.fin 2))) "ml" (.fin 1)
      = (.arch .clayton { st with theta := .fin 5 }, .ok ⟨[.nan], -(-v * .fin 1), n, some false⟩) := by
    simp only [fitCopula, if_neg hd, if_pos hml, hip, estimateMl, runOpt, hcl, Bool.false_eq_true, if_false,
      ParamArg.toVec, List.map_cons, List.map_nil]
  have hdd : ¬ (FitCop.arch .clayton st).dim ≠ 2 := by simp [FitCop.dim, hdim]
  unfold FitObj.fit
  simp only [maybePobs, if_true, hu, if_neg hdd, if_neg hrange, hfit]

example (env : FitEnv) (hv : env.logPdfSum = fun _ _ _ _ => .ok (.fin 3)) := fit_failure_changes_copula env (n := 3)
  (by norm_num) (fun i j => ![4, 7, 9] i * (j + 1)) ⟨2, .fin 2, .fin (-1), .pinf⟩ rfl rfl none rfl (by rw [hv])

/-- The shape of a successful fit by inversion. -/
theorem estimateCorr_ok {env : FitEnv} {n d : ℕ} {u : Fin n → Fin d → ℚ} {c c' : FitCop} {typ : CorType}
    {s : FitSummary} (h : estimateCorr env u c typ = (c', .ok s)) :
    ∃ icor, fitCor env c u typ = .ok icor ∧ storeEstimate c icor = (c', .ok s.params) ∧
      logLik env c' u true "average" = .ok s.logLik ∧ s.nsample = n ∧ s.success = none := by
  unfold estimateCorr at h
  cases hf : fitCor env c u typ with
  | error e => rw [hf] at h; simp at h
  | ok icor =>
    rw [hf] at h
    simp only at h
    rcases hs : storeEstimate c icor with ⟨c1, e | est⟩
    · rw [hs] at h; simp at h
    · rw [hs] at h
      simp only at h
      cases hl : logLik env c1 u true "average" with
      | error e => rw [hl] at h; simp at h
      | ok v =>
        rw [hl] at h
        simp only [Prod.mk.injEq, Except.ok.injEq] at h
        obtain ⟨rfl, rfl⟩ := h
        exact ⟨icor, rfl, hs, hl, rfl, rfl⟩

theorem squeeze_vec {l theta : List Fl} (hl : squeeze l = .vec theta) : theta = l ∧ theta.length ≠ 1 := by
  cases l with
  | nil => simp only [squeeze, ParamArg.vec.injEq] at hl; subst hl; simp
  | cons a r =>
    cases r with
    | nil => simp [squeeze] at hl
    | cons b r => simp only [squeeze, ParamArg.vec.injEq] at hl; subst hl; simp

/-- The raw coefficients of an elliptical copula. -/
theorem rawTheta_ell {env : FitEnv} {n d : ℕ} {u : Fin n → Fin d → ℚ} {c : FitCop} {typ : CorType}
    {th : ParamArg} (hc : c.isEll = true) (h : rawTheta env c u typ = .ok th) :
    ∃ l, th = squeeze l ∧
      (typ = .itau → ∃ tau, lowerCorr env c u "kendall" = .ok tau ∧ l = tau.map ellItau) ∧
      (typ = .irho → ∃ r, lowerCorr env c u "spearman" = .ok r ∧ l = r.map ellIrho) := by
  cases typ with
  | itau =>
    simp only [rawTheta, bind, Except.bind] at h
    cases hk : lowerCorr env c u "kendall" with
    | error e => rw [hk] at h; simp at h
    | ok tau =>
      rw [hk] at h
      have hi : copItau env c tau = .ok (squeeze (tau.map ellItau)) := by
        cases c with
        | arch F st => simp [FitCop.isEll] at hc
        | gaussian s => rfl
        | student df s => rfl
      simp only [hi, Except.ok.injEq] at h
      exact ⟨_, h.symm, fun _ => ⟨tau, rfl, rfl⟩, fun h => by cases h⟩
  | irho =>
    simp only [rawTheta, bind, Except.bind] at h
    cases hk : lowerCorr env c u "spearman" with
    | error e => rw [hk] at h; simp at h
    | ok rho =>
      rw [hk] at h
      cases c with
      | arch F st => simp [FitCop.isEll] at hc
      | student df s => simp [copIrho] at h
      | gaussian s =>
        simp only [copIrho, Except.ok.injEq] at h
        exact ⟨_, h.symm, fun h => (by cases h), fun _ => ⟨rho, rfl, rfl⟩⟩

/-- `fit_cor` of an elliptical copula needs several coefficients. -/
theorem fitCor_ell {env : FitEnv} {n d : ℕ} {u : Fin n → Fin d → ℚ} {c : FitCop} {typ : CorType}
    {icor : ParamArg} (hc : c.isEll = true) (h : fitCor env c u typ = .ok icor) :
    ∃ l theta, icor = .vec l ∧ theta.length ≠ 1 ∧ psdLower env c.dim (.vec theta) = .ok l ∧
      (typ = .itau → ∃ tau, lowerCorr env c u "kendall" = .ok tau ∧ theta = tau.map ellItau) ∧
      (typ = .irho → ∃ r, lowerCorr env c u "spearman" = .ok r ∧ theta = r.map ellIrho) := by
  unfold fitCor at h
  simp only [hc, if_true, bind, Except.bind, pure, Except.pure] at h
  cases ht : rawTheta env c u typ with
  | error e => rw [ht] at h; simp at h
  | ok th =>
    rw [ht] at h
    simp only at h
    cases hp : psdLower env c.dim th with
    | error e => rw [hp] at h; simp at h
    | ok l =>
      rw [hp] at h
      simp only [Except.ok.injEq] at h
      obtain ⟨theta, rfl, h1, h2⟩ := rawTheta_ell hc ht
      cases hs : squeeze theta with
      | scalar x => rw [hs] at hp; simp [psdLower, covOfArg, bind, Except.bind] at hp
      | student a b => rw [hs] at hp; simp [psdLower, covOfArg, bind, Except.bind] at hp
      | vec theta' =>
        obtain ⟨h3, h4⟩ := squeeze_vec hs
        subst h3
        rw [hs] at hp
        exact ⟨l, theta', h.symm, h4, hp, h1, h2⟩

end Copulae
