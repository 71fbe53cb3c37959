import Verif.Props.Fit
import Verif.Props.Correlation
import Verif.Props.CovMatrix
import Verif.Props.ArchMeasures
import Verif.Props.FrankTau
import Verif.Props.GmcParam

/-!
C54 (summaries of fits by inversion), C70 (fitting keeps the class and the admissibility of the parameters),
C71 (refused data and failed fits), C72 (`itau` fits reproduce the sample's Kendall tau), C73 (documented
methods work for every family), C74 (the starting value of maximum likelihood) and C75 (maximum likelihood
gives a correlation matrix).
-/

namespace Copulae

open Classical

/-! ### C71 -/

/-- **C71** A fit that raises leaves the fit summary as it was. -/
theorem fit_error_keeps_summary (env : FitEnv) (opt : List Fl → OptTree) (o : FitObj) {n d : ℕ}
    (data : Fin n → Fin d → ℚ) (x0 : Option ParamArg) (method ties : String) (toPobs : Bool) (scale : Fl)
    (h : (o.fit env opt data x0 method ties toPobs scale).2 ≠ .ok ()) :
    (o.fit env opt data x0 method ties toPobs scale).1.smry = o.smry := by
  unfold FitObj.fit at h ⊢
  cases hu : maybePobs data toPobs ties with
  | error e => rfl
  | ok u =>
    simp only [hu] at h ⊢
    by_cases h1 : o.cop.dim ≠ d
    · simp only [if_pos h1]
    · simp only [if_neg h1] at h ⊢
      by_cases h2 : ∃ i j, u i j < 0 ∨ 1 < u i j
      · simp only [if_pos h2]
      · simp only [if_neg h2] at h ⊢
        rcases hf : fitCopula env opt u o.cop x0 method scale with ⟨c', e | s⟩
        · rfl
        · rw [hf] at h
          exact absurd rfl h

/-- **C71** Data that are refused change nothing: an unknown tie method, the wrong number of columns,
values outside the unit interval (when they are not ranked), too few rows, or an unknown estimation
method. -/
theorem fit_refused (env : FitEnv) (opt : List Fl → OptTree) (o : FitObj) {n d : ℕ}
    (data : Fin n → Fin d → ℚ) (x0 : Option ParamArg) (method ties : String) (toPobs : Bool) (scale : Fl)
    (h : (toPobs = true ∧ parseTies ties = .error .valueError) ∨ o.cop.dim ≠ d ∨
      (toPobs = false ∧ ∃ i j, data i j < 0 ∨ 1 < data i j) ∨ n < o.cop.dim ∨
      (pyLower method ≠ "ml".toList ∧ pyLower method ≠ "itau".toList ∧ pyLower method ≠ "irho".toList)) :
    (o.fit env opt data x0 method ties toPobs scale).1 = o ∧
      ∃ e, (o.fit env opt data x0 method ties toPobs scale).2 = .error e := by
  unfold FitObj.fit
  cases hu : maybePobs data toPobs ties with
  | error e => exact ⟨rfl, e, rfl⟩
  | ok u =>
    simp only
    by_cases h1 : o.cop.dim ≠ d
    · simp [if_pos h1]
    · simp only [if_neg h1]
      by_cases h2 : ∃ i j, u i j < 0 ∨ 1 < u i j
      · simp [if_pos h2]
      · simp only [if_neg h2]
        have hf : ∃ e, fitCopula env opt u o.cop x0 method scale = (o.cop, .error e) := by
          unfold fitCopula
          rcases h with ⟨ht, hp⟩ | h | ⟨hf, hr⟩ | h | ⟨ha, hb, hc⟩
          · subst ht
            simp [maybePobs, pobsMat, hp, bind, Except.bind] at hu
          · exact absurd h h1
          · subst hf
            simp only [maybePobs, Bool.false_eq_true, if_false, Except.ok.injEq] at hu
            subst hu
            exact absurd hr h2
          · exact ⟨.valueError, by rw [if_pos h]⟩
          · by_cases h3 : n < o.cop.dim
            · exact ⟨.valueError, by rw [if_pos h3]⟩
            · exact ⟨.notImplemented, by rw [if_neg h3, if_neg ha, if_neg hb, if_neg hc]⟩
        obtain ⟨e, he⟩ := hf
        rw [he]
        exact ⟨rfl, e, rfl⟩

/-- A case for `fit_refused`: the method name `"mle"`. -/
example : pyLower "mle" ≠ "ml".toList ∧ pyLower "mle" ≠ "itau".toList ∧ pyLower "mle" ≠ "irho".toList := by
  decide

/-! ### C70 -/

/-- The parameters an Archimedean copula of the given dimension may have, NaN (unset) included. -/
def Spec.Admissible (F : Family) (d : ℕ) (θ : Fl) : Prop :=
  match F with
  | .clayton => (d = 2 → ¬ θ < .fin (-1)) ∧ (d > 2 → ¬ θ < .fin 0)
  | .frank => d > 2 → ¬ θ < .fin 0
  | .gumbel => ¬ θ < .fin 1

/-- **C70** Whatever a fit does — success, failure of the optimiser, an exception half-way — the object is
still a copula of the same class, dimension and bounds. -/
theorem fit_keeps_kind (env : FitEnv) (opt : List Fl → OptTree) (o : FitObj) {n d : ℕ}
    (data : Fin n → Fin d → ℚ) (x0 : Option ParamArg) (method ties : String) (toPobs : Bool) (scale : Fl) :
    o.cop.SameKind (o.fit env opt data x0 method ties toPobs scale).1.cop :=
  fit_inv (fun c => o.cop.SameKind c) (fun _ _ _ h h' => h.trans (FitCop.setParams_sameKind h')) env opt o
    data x0 method ties toPobs scale (FitCop.SameKind.refl _)

theorem setParams_admissible {F : Family} {st : ArchState} {v : Fl} (h : (F.setParams st v).2 = none) :
    Spec.Admissible F st.dim v := by
  cases F <;> simp only [Family.setParams] at h <;> simp only [Spec.Admissible]
  · split_ifs at h with h1 h2
    exact ⟨fun hd hv => h1 ⟨hd, hv⟩, fun hd hv => h2 ⟨hd, hv⟩⟩
  · split_ifs at h with h1
    exact fun hd hv => h1 ⟨hd, hv⟩
  · split_ifs at h with h1
    exact h1

/-- **C70** An Archimedean copula with an admissible parameter has one after every fit, whatever its
outcome. -/
theorem fit_admissible (env : FitEnv) (opt : List Fl → OptTree) (o : FitObj) {n d : ℕ}
    (data : Fin n → Fin d → ℚ) (x0 : Option ParamArg) (method ties : String) (toPobs : Bool) (scale : Fl)
    {F : Family} {st : ArchState} (hc : o.cop = .arch F st) (h : Spec.Admissible F st.dim st.theta) :
    ∃ st', (o.fit env opt data x0 method ties toPobs scale).1.cop = .arch F st' ∧ st'.dim = st.dim ∧
      Spec.Admissible F st.dim st'.theta := by
  have := fit_inv (fun c => ∃ st', c = .arch F st' ∧ st'.dim = st.dim ∧ Spec.Admissible F st.dim st'.theta)
    (fun c p c' hc' hs => by
      obtain ⟨st1, rfl, hd, ha⟩ := hc'
      simp only [FitCop.setParams] at hs
      cases hf : FitCop.toFloat p with
      | error e =>
        rw [hf] at hs
        simp only at hs
        split at hs <;> simp at hs
      | ok θ =>
        rw [hf] at hs
        simp only at hs
        obtain ⟨h1, h2⟩ := Prod.mk.inj hs
        have h3 := setParams_admissible h2
        rw [(setParams_effect F st1 θ).2 h2] at h1
        exact ⟨_, h1.symm, hd, hd ▸ h3⟩) env opt o data x0 method ties toPobs scale ⟨st, hc, rfl, h⟩
  exact this

/-- **C75** After a successful maximum likelihood fit with a log-likelihood above minus infinity, the correlation matrix of
an elliptical copula passes the library's test for positive semi-definiteness (and the degrees of freedom
are not zero or less). -/
theorem fit_ml_psd {env : FitEnv} {opt : List Fl → OptTree} {o o' : FitObj} {n d : ℕ}
    {data : Fin n → Fin d → ℚ} {x0 : Option ParamArg} {method ties : String} {toPobs : Bool} {k : ℝ}
    (hk : 0 < k) (hopt : ∀ x, (opt x).Honest []) (hm : pyLower method = "ml".toList)
    (h : o.fit env opt data x0 method ties toPobs (.fin k) = (o', .ok ())) :
    ∃ s, o'.smry = some s ∧ (s.success = some true → s.logLik ≠ .ninf →
      match o'.cop with
      | .arch _ _ => True
      | .gaussian e => ∃ M, e.sigma = .ok M ∧ isPsd M.2
      | .student df e => ¬ df ≤ .fin 0 ∧ ∃ M, e.sigma = .ok M ∧ isPsd M.2) := by
  obtain ⟨s, hs, -, -, h4⟩ := fit_ml_summary_partial hopt hm h
  refine ⟨s, hs, fun hsucc hn => ?_⟩
  obtain ⟨-, L, hL, hLs, -⟩ := h4 hsucc hn
  have hLn : L ≠ .ninf := by
    rintro rfl
    apply hn
    rw [hLs]
    show Fl.infSign (-k) = .ninf
    rw [Fl.infSign, if_neg (by linarith), if_pos (by linarith)]
  unfold logLik at hL
  cases hcut : logLikCut o'.cop with
  | error e => simp [hcut, bind, Except.bind] at hL
  | ok b =>
    cases b with
    | true =>
      simp only [hcut, bind, Except.bind, if_true, pure, Except.pure, Except.ok.injEq] at hL
      exact absurd hL.symm hLn
    | false =>
      cases hc : o'.cop with
      | arch F st => trivial
      | gaussian e =>
        rw [hc] at hcut
        cases hM : e.sigma with
        | error e' => simp [logLikCut, hM, bind, Except.bind] at hcut
        | ok M =>
          simp only [logLikCut, hM, bind, Except.bind, pure, Except.pure, Except.ok.injEq,
            decide_eq_false_iff_not, not_not] at hcut
          exact ⟨M, hM, hcut⟩
      | student df e =>
        rw [hc] at hcut
        cases hM : e.sigma with
        | error e' => simp [logLikCut, hM, bind, Except.bind] at hcut
        | ok M =>
          simp only [logLikCut, hM, bind, Except.bind, pure, Except.pure, Except.ok.injEq,
            decide_eq_false_iff_not, not_or, not_not] at hcut
          exact ⟨hcut.2, M, hM, hcut.1⟩

/-! ### C54, inversion -/

theorem fancyRead_length {α : Type} {d : ℕ} {M : SqMat α d} {idx : List ℕ × List ℕ} {l : List α}
    (h : fancyRead M idx = .ok l) : l.length = (idx.1.zip idx.2).length :=
  (mapM_ok_length h).1

theorem psdLower_length {env : FitEnv} {dim : ℕ} {th : ParamArg} {l : List Fl}
    (h : psdLower env dim th = .ok l) : l.length = dim * (dim - 1) / 2 := by
  unfold psdLower at h
  cases hM : covOfArg th with
  | error e => simp [hM, bind, Except.bind] at h
  | ok M =>
    simp only [hM, bind, Except.bind] at h
    cases hN : nearPsd env.ext (.mat M.1 M.1 M.2) with
    | error e => simp [hN] at h
    | ok N =>
      simp only [hN, triIndices_lower] at h
      have := fancyRead_length h
      rw [this, List.length_zip]
      simp [length_triLoop_one]

/-- **C54** The summary of a fit by inversion: the number of observations, and the log-likelihood of the
fitted copula — computed on the data ranked once more with average ties; it is the log-likelihood of the
original data if these were ranked with average ties in the first place. Missing from the full statement: see
`fit_corr_raw_logLik`; and the reported parameters of a Student copula lack the degrees of freedom. -/
theorem fit_corr_summary_partial {env : FitEnv} {opt : List Fl → OptTree} {o o' : FitObj} {n d : ℕ}
    {data : Fin n → Fin d → ℚ} {x0 : Option ParamArg} {method ties : String} {toPobs : Bool} {scale : Fl}
    (hm : pyLower method = "itau".toList ∨ pyLower method = "irho".toList)
    (h : o.fit env opt data x0 method ties toPobs scale = (o', .ok ())) :
    ∃ s u, o'.smry = some s ∧ maybePobs data toPobs ties = .ok u ∧ s.nsample = n ∧ s.success = none ∧
      logLik env o'.cop u true "average" = .ok s.logLik ∧
      (toPobs = true → parseTies ties = .ok .average → logLik env o'.cop data true ties = .ok s.logLik) ∧
      match o'.cop with
      | .student _ e => s.params = e.rhos
      | c => (∀ e, o.cop = .gaussian e → e.WF) → s.params = c.params := by
  obtain ⟨u, s, hu, hd, -, hf, hs⟩ := fit_ok h
  have hE : ∃ typ, estimateCorr env u o.cop typ = (o'.cop, .ok s) := by
    unfold fitCopula at hf
    by_cases h1 : n < o.cop.dim
    · rw [if_pos h1] at hf
      simp at hf
    · rw [if_neg h1] at hf
      rcases hm with hm | hm
      · rw [if_neg (by rw [hm]; decide), if_pos hm] at hf
        exact ⟨_, hf⟩
      · rw [if_neg (by rw [hm]; decide), if_neg (by rw [hm]; decide), if_pos hm] at hf
        exact ⟨_, hf⟩
  obtain ⟨typ, hE⟩ := hE
  obtain ⟨icor, h1, h2, h3, h4, h5⟩ := estimateCorr_ok hE
  refine ⟨s, u, hs, hu, h4, h5, h3, fun ht hp => ?_, ?_⟩
  · subst ht
    have h6 : pobsMat data "average" = .ok u := by
      have h7 : parseTies "average" = .ok .average := by decide
      simp only [maybePobs, if_true, pobsMat, hp] at hu
      simp only [pobsMat, h7]
      exact hu
    have h8 : maybePobs u true "average" = .ok u := by
      rw [maybePobs, if_pos rfl]
      exact pobsMat_idem h6
    rw [logLik_pobs env o'.cop hu "average", ← logLik_pobs env o'.cop h8 "average", h3]
  · cases hc : o.cop with
    | arch F st =>
      rw [hc] at h2
      simp only [storeEstimate] at h2
      cases hs' : (FitCop.arch F st).setParams (.scalar (npMean icor.toVec)) with
      | mk c1 e1 =>
        rw [hs'] at h2
        cases e1 with
        | some e => simp at h2
        | none =>
          simp only [Prod.mk.injEq, Except.ok.injEq] at h2
          simp only [FitCop.setParams, FitCop.toFloat, Prod.mk.injEq] at hs'
          rw [← h2.1, ← hs'.1, (setParams_effect F st _).2 hs'.2]
          exact fun _ => h2.2.symm
    | gaussian e =>
      rw [hc] at h2 h1
      obtain ⟨l, theta, rfl, -, hl, -⟩ := fitCor_ell rfl h1
      have hlen := psdLower_length hl
      simp only [storeEstimate] at h2
      by_cases hw : e.WF
      · rw [if_pos (show (ParamArg.vec l).toVec.length = e.rhos.length from by
          rw [hw.2]; exact hlen)] at h2
        simp only [Prod.mk.injEq, Except.ok.injEq] at h2
        rw [← h2.1]
        exact fun _ => h2.2.symm
      · have hg : ∃ e', o'.cop = .gaussian e' := by
          split_ifs at h2
          · exact ⟨_, (Prod.mk.inj h2).1.symm⟩
          · split at h2
            · exact ⟨_, (Prod.mk.inj h2).1.symm⟩
            · simp at h2
        obtain ⟨e', he'⟩ := hg
        rw [he']
        exact fun hall => absurd (hall e rfl) hw
    | student df e =>
      rw [hc] at h2
      simp only [storeEstimate, Prod.mk.injEq, Except.ok.injEq] at h2
      rw [← h2.1]
      exact h2.2.symm

/-- **C54**, the code differs from the property: after a fit by inversion to data that are not to be ranked,
the log-likelihood reported is that of the ranks. -/
theorem fit_corr_raw_logLik {env : FitEnv} {opt : List Fl → OptTree} {o o' : FitObj} {n d : ℕ}
    {data : Fin n → Fin d → ℚ} {x0 : Option ParamArg} {method ties : String} {scale : Fl}
    (hm : pyLower method = "itau".toList ∨ pyLower method = "irho".toList)
    (h : o.fit env opt data x0 method ties false scale = (o', .ok ())) :
    ∃ s, o'.smry = some s ∧ logLik env o'.cop data true "average" = .ok s.logLik ∧
      (logLik env o'.cop data false ties ≠ logLik env o'.cop data true "average" →
        logLik env o'.cop data false ties ≠ .ok s.logLik) := by
  obtain ⟨s, u, hs, hu, -, -, hl, -⟩ := fit_corr_summary_partial hm h
  simp only [maybePobs, Bool.false_eq_true, if_false, Except.ok.injEq] at hu
  subst hu
  exact ⟨s, hs, hl, fun hne => by rwa [hl] at hne⟩

/-! ### C72 -/

/-- Column `j` of the data. -/
noncomputable def Spec.col {n d : ℕ} (u : Fin n → Fin d → ℚ) (j : Fin d) : List Fl :=
  List.ofFn fun i => Fl.fin ((u i j : ℚ) : ℝ)

theorem sample_dataRows {n d : ℕ} (u : Fin n → Fin d → ℚ) (i j k : Fin d) :
    Spec.sample .everything (dataRows u) i j k = Spec.col u k := by
  unfold Spec.sample
  rw [filter_decide_self (P := Spec.rowUsed .everything i j) fun _ _ => trivial, dataRows, List.map_ofFn]
  rfl

theorem useName_everything {u : CorrUse} (h : pyLower "everything" = (Spec.useName u).toList) :
    u = .everything := by
  cases u
  · rfl
  · revert h; decide
  · revert h; decide

theorem isEntry_dataRows {n d : ℕ} {f : List Fl → List Fl → Except PyErr Fl} {u : Fin n → Fin d → ℚ}
    {i j : Fin d} {v : Fl} (h : Spec.IsEntry f .everything (dataRows u) i j v) :
    f (Spec.col u i) (Spec.col u j) = .ok v := by
  have h1 := h.1
  simp only [sample_dataRows] at h1
  apply h1
  constructor <;> intro z hz <;> obtain ⟨a, rfl⟩ := List.mem_ofFn.1 hz <;> simp [Fl.isFin]

/-- The coefficients computed by a fit, in the order of the parameters. -/
theorem lowerCorr_spec {env : FitEnv} {c : FitCop} {n d : ℕ} {u : Fin n → Fin d → ℚ} {m : String}
    {l : List Fl} (hd : c.dim = d) (h : lowerCorr env c u m = .ok l) :
    ∃ f, corrFunc env.fns m = .ok f ∧ l.length = d * (d - 1) / 2 ∧
      ∀ i j : Fin d, i < j → ∃ v, f (Spec.col u i) (Spec.col u j) = .ok v ∧ l[rhoPos d i j]? = some v := by
  subst hd
  unfold lowerCorr at h
  cases hC : corr env.fns (.mat c.dim (dataRows u)) none m "everything" with
  | error e =>
    rw [triIndices_lower] at h
    simp [hC, bind, Except.bind] at h
  | ok C =>
    obtain ⟨us, f, M, hu, hf, rfl, -, h2, h3⟩ := corr_spec _ _ _ _ _ _ hC
    obtain rfl := useName_everything hu
    obtain ⟨l', h4, h5, h6⟩ := readLower_ok M
    rw [triIndices_lower] at h h4
    simp only [hC, bind, Except.bind] at h h4
    rw [h] at h4
    obtain rfl := Except.ok.inj h4
    exact ⟨f, hf, h5, fun i j hij => ⟨M i j, isEntry_dataRows (h3 i j hij), by rw [h6 i j hij, h2]⟩⟩

theorem lowerCorr_ok {env : FitEnv} {c : FitCop} {n d : ℕ} {u : Fin n → Fin d → ℚ} {m : String}
    {f : List Fl → List Fl → Except PyErr Fl} (hd : c.dim = d) (hf : corrFunc env.fns m = .ok f)
    (h : ∀ i j : Fin d, i < j → ∃ v, f (Spec.col u i) (Spec.col u j) = .ok v) :
    ∃ l, lowerCorr env c u m = .ok l := by
  subst hd
  cases hC : corr env.fns (.mat c.dim (dataRows u)) none m "everything" with
  | error e =>
    exfalso
    rcases corr_error _ _ _ _ _ _ hC with ⟨-, h1⟩ | ⟨-, h1⟩ | ⟨us, f', i, j, h1, h2, h3, h4⟩
    · exact h1 .everything (by decide)
    · rw [hf] at h1; cases h1
    · obtain rfl := useName_everything h1
      rw [hf] at h2
      obtain rfl := Except.ok.inj h2
      obtain ⟨v, hv⟩ := h i j h3
      rw [sample_dataRows, sample_dataRows, hv] at h4
      cases h4
  | ok C =>
    obtain ⟨us, f', M, hu, hf', rfl, -⟩ := corr_spec _ _ _ _ _ _ hC
    obtain ⟨l', h4, -⟩ := readLower_ok M
    refine ⟨l', ?_⟩
    unfold lowerCorr
    rw [triIndices_lower] at h4 ⊢
    simp only [hC, bind, Except.bind] at h4 ⊢
    exact h4

theorem corrFunc_kendall (fns : CorrFns) : corrFunc fns "kendall" = .ok fns.kendall :=
  (corrFunc_names fns "kendall").1 (.inl (by decide))

theorem corrFunc_spearman (fns : CorrFns) : corrFunc fns "spearman" = .ok fns.spearman :=
  (corrFunc_names fns "spearman").2.1 (.inl (by decide))

/-- In two dimensions there is one coefficient. -/
theorem lowerCorr_two {env : FitEnv} {c : FitCop} {n : ℕ} {u : Fin n → Fin 2 → ℚ} {t : Fl} (hd : c.dim = 2)
    (h : env.fns.kendall (Spec.col u 0) (Spec.col u 1) = .ok t) : lowerCorr env c u "kendall" = .ok [t] := by
  obtain ⟨l, hl⟩ := lowerCorr_ok (u := u) hd (corrFunc_kendall env.fns) (fun i j hij => by
    fin_cases i <;> fin_cases j <;> first | exact ⟨t, h⟩ | exact absurd hij (by decide))
  obtain ⟨f, hf, h1, h2⟩ := lowerCorr_spec hd hl
  rw [corrFunc_kendall] at hf
  obtain rfl := Except.ok.inj hf
  obtain ⟨v, hv, hl'⟩ := h2 0 1 (by decide)
  rw [h] at hv
  obtain rfl := Except.ok.inj hv
  have h0 : rhoPos 2 (0 : Fin 2).val (1 : Fin 2).val = 0 := by decide
  rw [h0] at hl'
  rw [hl]
  match l, h1, hl' with
  | [x], _, h => simp at h; rw [h]

/-- The values of Kendall's tau that can be fitted in two dimensions. For the Frank copula the search interval
of the code leaves out values too close to 0 and to 1 in absolute value, and SciPy's root finder and the Debye
function are assumed to do what they are documented to do. -/
def Spec.TauRange (env : FitEnv) (F : Family) (t : ℝ) : Prop :=
  match F with
  | .clayton => -1 ≤ t ∧ t < 1
  | .gumbel => 0 ≤ t ∧ t < 1
  | .frank => IsBrentq env.brentq ∧ IsDebye1 env.d1 ∧ 1 / 10 ^ 16 ≤ |t| ∧ |t| ≤ 1 - 4 / 10 ^ 20

/-- `θ` is an admissible bivariate parameter and `copula.tau` is `t` for it. -/
def Spec.HasTau (env : FitEnv) (F : Family) (θ t : ℝ) : Prop :=
  match F with
  | .clayton => -1 ≤ θ ∧ claytonTau θ = .ok t
  | .gumbel => 1 ≤ θ ∧ gumbelTau θ = .ok t
  | .frank => frankTauOf env.d1 θ = .ok (.fin t)

/-- **C72** Fitting a bivariate Archimedean copula by inversion of Kendall's tau gives the copula whose tau
is the sample's: the sample tau `t` of the (pseudo-)observations `u` must be one the family can have. The
log-likelihood is assumed not to raise. -/
theorem fit_itau_two {env : FitEnv} {opt : List Fl → OptTree} {o : FitObj} {n : ℕ} {data u : Fin n → Fin 2 → ℚ}
    {x0 : Option ParamArg} {method ties : String} {toPobs : Bool} {scale : Fl} {F : Family} {st : ArchState}
    {t : ℝ} (hm : pyLower method = "itau".toList) (hc : o.cop = .arch F st) (hdim : st.dim = 2) (hn : 2 ≤ n)
    (hu : maybePobs data toPobs ties = .ok u) (hr : ∀ i j, 0 ≤ u i j ∧ u i j ≤ 1)
    (hk : env.fns.kendall (Spec.col u 0) (Spec.col u 1) = .ok (.fin t))
    (hll : ∀ c (w : Fin n → Fin 2 → ℚ), ∃ v, env.logPdfSum c n 2 w = .ok v)
    (ht : Spec.TauRange env F t) :
    (o.fit env opt data x0 method ties toPobs scale).2 = .ok () ∧
    ∃ θ : ℝ, (o.fit env opt data x0 method ties toPobs scale).1.cop = .arch F { st with theta := .fin θ } ∧
      Spec.HasTau env F θ t := by
  have hd : o.cop.dim = 2 := by rw [hc]; exact hdim
  have key : ∀ θ : ℝ, copItau env (.arch F st) [.fin t] = .ok (.scalar (.fin θ)) →
      (F.setParams st (.fin θ)).2 = none →
      (o.fit env opt data x0 method ties toPobs scale).2 = .ok () ∧
      (o.fit env opt data x0 method ties toPobs scale).1.cop = .arch F { st with theta := .fin θ } := by
    intro θ h1 h2
    have hset : (FitCop.arch F st).setParams (.scalar (.fin θ)) = (.arch F { st with theta := .fin θ }, none) := by
      simp only [FitCop.setParams, FitCop.toFloat, (setParams_effect F st _).2 h2, h2]
    have hmean : npMean (ParamArg.scalar (.fin θ)).toVec = .fin θ := by
      simp only [npMean, ParamArg.toVec, List.sum_cons, List.sum_nil, List.length_cons, List.length_nil]
      rw [add_zero, Fl.fin_div_fin' _ (by norm_num)]
      norm_num
    obtain ⟨v, hv⟩ : ∃ v, logLik env (.arch F { st with theta := .fin θ }) u true "average" = .ok v := by
      obtain ⟨w, hw⟩ : ∃ w, maybePobs u true "average" = .ok w := by
        have h7 : parseTies "average" = .ok .average := by decide
        simp only [maybePobs, if_true, pobsMat, h7, bind, Except.bind, pure, Except.pure]
        exact ⟨_, rfl⟩
      obtain ⟨v, hv⟩ := hll (.arch F { st with theta := .fin θ }) w
      exact ⟨v, by simp only [logLik, logLikCut, bind, Except.bind, Bool.false_eq_true, if_false, hw, hv]⟩
    have hfit : fitCopula env opt u o.cop x0 method scale
        = (.arch F { st with theta := .fin θ }, .ok ⟨[.fin θ], v, n, none⟩) := by
      unfold fitCopula
      rw [if_neg (by rw [hd]; omega), if_neg (by rw [hm]; decide), if_pos hm, hc]
      have hl : lowerCorr env (.arch F st) u "kendall" = .ok [.fin t] := lowerCorr_two hdim hk
      have hcor : fitCor env (.arch F st) u .itau = .ok (.scalar (.fin θ)) := by
        simp only [fitCor, rawTheta, hl, bind, Except.bind, h1, FitCop.isEll, Bool.false_eq_true, if_false,
          pure, Except.pure]
      simp only [estimateCorr, hcor, storeEstimate, hmean, hset, hv]
    have : o.fit env opt data x0 method ties toPobs scale
        = (⟨.arch F { st with theta := .fin θ }, some ⟨[.fin θ], v, n, none⟩⟩, .ok ()) := by
      unfold FitObj.fit
      simp only [hu]
      rw [if_neg (by rw [hd]; simp), if_neg (by
        push Not
        exact fun i j => ⟨(hr i j).1, (hr i j).2⟩), hfit]
    rw [this]
    exact ⟨rfl, rfl⟩
  cases F with
  | clayton =>
    obtain ⟨θ, h1, -, h3⟩ := clayton_tau_itau.2.1 t ht.2
    have hθ : -1 ≤ θ := by
      rw [claytonItau, Fl.fin_mul_fin, Fl.fin_sub_fin, Fl.fin_div_fin' _ (by linarith [ht.2])] at h1
      rw [← Fl.fin.inj h1, le_div_iff₀ (by linarith [ht.2])]
      linarith [ht.1]
    obtain ⟨k1, k2⟩ := key θ (by simp [copItau, squeeze, h1]) (by
      simp only [Family.setParams]
      rw [if_neg (by rw [Fl.fin_lt_fin]; rintro ⟨-, h⟩; linarith), if_neg (by rw [hdim]; omega)])
    exact ⟨k1, θ, k2, hθ, h3⟩
  | frank =>
    obtain ⟨hB, hD, h1, h2⟩ := ht
    obtain ⟨θ, h3, -, h4⟩ := frank_itau hB hD h1 h2
    obtain ⟨k1, k2⟩ := key θ (by
      simp only [copItau, List.mapM_cons, List.mapM_nil, frankItauFl, h3, bind, Except.bind, pure, Except.pure,
        squeeze]) (by
      simp only [Family.setParams]
      rw [if_neg (by rw [hdim]; omega)])
    exact ⟨k1, θ, k2, h4⟩
  | gumbel =>
    obtain ⟨θ, h1, h2, h3⟩ := gumbel_tau_itau.2.1 t ht.1 ht.2
    have h1' : gumbelItau (.arr [.fin t]) = .ok (.scalar (.fin θ)) := by
      rw [← h1]; rfl
    obtain ⟨k1, k2⟩ := key θ (by
      simp only [copItau, h1', bind, Except.bind, pure, Except.pure]) (by
      simp only [Family.setParams]
      rw [if_neg (by rw [Fl.fin_lt_fin]; linarith)])
    exact ⟨k1, θ, k2, h2, h3⟩

theorem ellItau_fin (t : ℝ) : ellItau (.fin t) = .fin (Real.sin (t * Real.pi / 2)) := by
  rw [ellItau, Fl.fin_mul_fin, Fl.fin_div_fin' _ (by norm_num)]
  rfl

/-- **C72** Fitting a Gaussian or Student copula in three or more dimensions by inversion of Kendall's tau
gives, for every pair of columns, a correlation whose Kendall tau is that of the sample, provided the matrix
of these correlations passes the library's test for positive semi-definiteness (otherwise it is repaired).
The degrees of freedom stay as they were. -/
theorem fit_itau_ell {env : FitEnv} {opt : List Fl → OptTree} {o o' : FitObj} {n d : ℕ}
    {data u : Fin n → Fin d → ℚ} {x0 : Option ParamArg} {method ties : String} {toPobs : Bool} {scale : Fl}
    {e : Ell} (he : e.WF) (hm : pyLower method = "itau".toList)
    (hc : o.cop = .gaussian e ∨ ∃ df, o.cop = .student df e) (hu : maybePobs data toPobs ties = .ok u)
    (T : Fin d → Fin d → ℝ) (hT : ∀ i j, -1 ≤ T i j ∧ T i j ≤ 1) (hT1 : ∀ i, T i i = 1)
    (hTs : ∀ i j, T i j = T j i)
    (hk : ∀ i j : Fin d, i < j → env.fns.kendall (Spec.col u i) (Spec.col u j) = .ok (.fin (T i j)))
    (hpsd : isPsd fun i j : Fin d => Fl.fin (Real.sin (Real.pi * T i j / 2)))
    (h : o.fit env opt data x0 method ties toPobs scale = (o', .ok ())) :
    ∃ e', (o.cop = .gaussian e → o'.cop = .gaussian e') ∧ (∀ df, o.cop = .student df e → o'.cop = .student df e') ∧
      e'.dim = d ∧ ∀ i j : Fin d, ∃ ρ, e'.getItem (ixPair i j) = .ok (.scalar (.fin ρ)) ∧
        ellTau (.fin ρ) = .fin (T i j) := by
  obtain ⟨u', s, hu', hd, -, hf, -⟩ := fit_ok h
  rw [hu] at hu'
  obtain rfl := Except.ok.inj hu'
  have hE : estimateCorr env u o.cop .itau = (o'.cop, .ok s) := by
    unfold fitCopula at hf
    by_cases h1 : n < o.cop.dim
    · rw [if_pos h1] at hf
      simp at hf
    · rw [if_neg h1, if_neg (by rw [hm]; decide), if_pos hm] at hf
      exact hf
  obtain ⟨icor, h1, h2, -, -, -⟩ := estimateCorr_ok hE
  have hell : o.cop.isEll = true := by
    rcases hc with hc | ⟨df, hc⟩ <;> rw [hc] <;> rfl
  have hed : e.dim = d := by
    rw [← hd]
    rcases hc with hc | ⟨df, hc⟩ <;> rw [hc] <;> rfl
  obtain ⟨l, theta, rfl, -, hl, hit, -⟩ := fitCor_ell hell h1
  obtain ⟨tau, htau, rfl⟩ := hit rfl
  obtain ⟨f, hf', hlen, hent⟩ := lowerCorr_spec hd htau
  rw [corrFunc_kendall] at hf'
  obtain rfl := Except.ok.inj hf'
  have hd2 : 2 ≤ d := hed ▸ he.1
  have hent' : ∀ i j : Fin d, i < j →
      (tau.map ellItau)[rhoPos d i j]? = some (.fin (Real.sin (Real.pi * T i j / 2))) := by
    intro i j hij
    obtain ⟨v, hv, hp⟩ := hent i j hij
    rw [hk i j hij] at hv
    obtain rfl := Except.ok.inj hv
    rw [List.getElem?_map, hp, Option.map_some, ellItau_fin]
    rw [mul_comm Real.pi]
  obtain ⟨M, hM, hM1, hM2⟩ := createCovMatrix_ok (d := d) (by omega) (tau.map ellItau) (by simpa using hlen)
  have hMe : M = fun i j : Fin d => Fl.fin (Real.sin (Real.pi * T i j / 2)) := by
    funext i j
    rcases lt_trichotomy i j with hij | rfl | hij
    · have := (hM2 i j hij).1
      rw [hent' i j hij] at this
      exact (Option.some.inj this).symm
    · rw [hM1, hT1, mul_one, Real.sin_pi_div_two]
      rfl
    · have := (hM2 j i hij).2
      rw [hent' j i hij] at this
      rw [hTs i j]
      exact (Option.some.inj this).symm
  have hl' : l = tau.map ellItau := by
    unfold psdLower at hl
    obtain ⟨l0, h4, h5, h6⟩ := readLower_ok M
    rw [hd] at hl
    simp only [covOfArg, hM, bind, Except.bind, nearPsd_psd (hMe ▸ hpsd), triIndices_lower] at hl h4
    rw [hl] at h4
    obtain rfl := Except.ok.inj h4
    refine list_ext_rho h5 (by simpa using hlen) fun i j hij hj => ?_
    rw [h6 ⟨i, by omega⟩ ⟨j, hj⟩ hij, (hM2 ⟨i, by omega⟩ ⟨j, hj⟩ hij).2]
  have hlrho : l.length = e.rhos.length := by
    rw [hl', List.length_map, hlen, he.2, hed]
  refine ⟨{ e with rhos := l }, fun hg => ?_, fun df hs => ?_, hed, fun i j => ?_⟩
  · rw [hg] at h2
    simp only [storeEstimate] at h2
    rw [if_pos (show (ParamArg.vec l).toVec.length = e.rhos.length from hlrho)] at h2
    exact (Prod.mk.inj h2).1.symm
  · rw [hs] at h2
    simp only [storeEstimate] at h2
    exact (Prod.mk.inj h2).1.symm
  · subst hed
    have hsig : Ell.sigma { e with rhos := l } = .ok ⟨e.dim, M⟩ := by
      simp only [Ell.sigma, hl', hM]
    have hr := ell_tau_itau.2.1 (T i j) (hT i j).1 (hT i j).2
    obtain ⟨ρ, k1, -, -, k2⟩ := hr
    refine ⟨ρ, ?_, k2⟩
    rw [getItem_pair (s := { e with rhos := l }) hsig, hMe]
    rw [ellItau_fin] at k1
    rw [← k1]
    show Except.ok (PyVal.scalar (Fl.fin (Real.sin (Real.pi * T i j / 2)))) = _
    rw [mul_comm Real.pi]

/-- **C72.** In three or more dimensions such a fit succeeds, for every sample whose pseudo-observations can be formed and every
starting value, whenever the log-likelihood can be computed. -/
theorem fit_itau_ell_succeeds {env : FitEnv} {opt : List Fl → OptTree} {o : FitObj} {n d : ℕ}
    {data u : Fin n → Fin d → ℚ} {x0 : Option ParamArg} {method ties : String} {toPobs : Bool} {scale : Fl}
    {e : Ell} (he : e.WF) (hm : pyLower method = "itau".toList)
    (hc : o.cop = .gaussian e ∨ ∃ df, o.cop = .student df e) (hed : e.dim = d) (hd : 3 ≤ d) (hn : d ≤ n)
    (hu : maybePobs data toPobs ties = .ok u) (hr : ∀ i j, 0 ≤ u i j ∧ u i j ≤ 1)
    (T : Fin d → Fin d → ℝ) (hT1 : ∀ i, T i i = 1) (hTs : ∀ i j, T i j = T j i)
    (hk : ∀ i j : Fin d, i < j → env.fns.kendall (Spec.col u i) (Spec.col u j) = .ok (.fin (T i j)))
    (hpsd : isPsd fun i j : Fin d => Fl.fin (Real.sin (Real.pi * T i j / 2)))
    (hll : ∀ c (w : Fin n → Fin d → ℚ), ∃ v, env.logPdfSum c n d w = .ok v) :
    (o.fit env opt data x0 method ties toPobs scale).2 = .ok () := by
  have hod : o.cop.dim = d := by rcases hc with hc | ⟨df, hc⟩ <;> rw [hc] <;> exact hed
  have hell : o.cop.isEll = true := by rcases hc with hc | ⟨df, hc⟩ <;> rw [hc] <;> rfl
  obtain ⟨tau, htau⟩ := lowerCorr_ok (u := u) hod (corrFunc_kendall env.fns) fun i j hij => ⟨_, hk i j hij⟩
  obtain ⟨f, hf', hlen, hent⟩ := lowerCorr_spec hod htau
  rw [corrFunc_kendall] at hf'
  obtain rfl := Except.ok.inj hf'
  obtain ⟨M, hM, hM1, hM2⟩ := createCovMatrix_ok (d := d) (by omega) (tau.map ellItau) (by simpa using hlen)
  have hent' : ∀ i j : Fin d, i < j →
      (tau.map ellItau)[rhoPos d i j]? = some (.fin (Real.sin (Real.pi * T i j / 2))) := by
    intro i j hij
    obtain ⟨v, hv, hp⟩ := hent i j hij
    rw [hk i j hij] at hv
    obtain rfl := Except.ok.inj hv
    rw [List.getElem?_map, hp, Option.map_some, ellItau_fin]
    rw [mul_comm Real.pi]
  have hMe : M = fun i j : Fin d => Fl.fin (Real.sin (Real.pi * T i j / 2)) := by
    funext i j
    rcases lt_trichotomy i j with hij | rfl | hij
    · have := (hM2 i j hij).1
      rw [hent' i j hij] at this
      exact (Option.some.inj this).symm
    · rw [hM1, hT1, mul_one, Real.sin_pi_div_two]
      rfl
    · have := (hM2 j i hij).2
      rw [hent' j i hij] at this
      rw [hTs i j]
      exact (Option.some.inj this).symm
  obtain ⟨l, h4, h5, -⟩ := readLower_ok M
  have hl3 : 3 ≤ d * (d - 1) / 2 := by
    obtain ⟨k, rfl⟩ : ∃ k, d = k + 3 := ⟨d - 3, by omega⟩
    rw [Nat.le_div_iff_mul_le (by norm_num)]
    have : k + 3 - 1 = k + 2 := rfl
    rw [this]
    nlinarith
  have hsq : squeeze (tau.map ellItau) = .vec (tau.map ellItau) := by
    match tau, hlen with
    | [], h => simp at h; omega
    | [_], h => simp at h; omega
    | _ :: _ :: _, _ => rfl
  have hraw : rawTheta env o.cop u .itau = .ok (.vec (tau.map ellItau)) := by
    simp only [rawTheta, htau, bind, Except.bind]
    rcases hc with hc | ⟨df, hc⟩ <;> rw [hc] <;> simp only [copItau, hsq]
  have hfc : fitCor env o.cop u .itau = .ok (.vec l) := by
    simp only [fitCor, hraw, hell, if_true, bind, Except.bind, psdLower, covOfArg, hM, nearPsd_psd (hMe ▸ hpsd)]
    rw [hod]
    rw [show (do fancyRead M (← triIndices d 1 "lower")) = Except.bind (triIndices d 1 "lower") fun i => fancyRead M i from rfl]
      at h4
    simp only [Except.bind] at h4
    simp only [h4, pure, Except.pure]
  obtain ⟨M', hM', -⟩ := createCovMatrix_ok (d := d) (by omega) l h5
  obtain ⟨c', hst, hsig⟩ : ∃ c', storeEstimate o.cop (.vec l) = (c', .ok l) ∧ ∃ b, logLikCut c' = .ok b := by
    rcases hc with hc | ⟨df, hc⟩ <;> rw [hc]
    · refine ⟨.gaussian { e with rhos := l }, ?_, ?_⟩
      · have hle : (ParamArg.vec l).toVec.length = e.rhos.length := by
          rw [show (ParamArg.vec l).toVec = l from rfl, h5, he.2, hed]
        simp only [storeEstimate]
        rw [if_pos hle]
        rfl
      · exact ⟨_, by simp only [logLikCut, Ell.sigma, hM', bind, Except.bind, pure, Except.pure]; rfl⟩
    · exact ⟨.student df { e with rhos := l }, rfl, _, by
        simp only [logLikCut, Ell.sigma, hM', bind, Except.bind, pure, Except.pure]; rfl⟩
  obtain ⟨b, hb⟩ := hsig
  obtain ⟨v, hv⟩ : ∃ v, logLik env c' u true "average" = .ok v := by
    obtain ⟨w, hw⟩ : ∃ w, maybePobs u true "average" = .ok w := ⟨_, rfl⟩
    obtain ⟨x, hx⟩ := hll c' w
    cases b with
    | true => exact ⟨.ninf, by simp only [logLik, hb, bind, Except.bind, if_true]; rfl⟩
    | false => exact ⟨x, by simp only [logLik, hb, bind, Except.bind, Bool.false_eq_true, if_false, hw, hx]⟩
  unfold FitObj.fit fitCopula
  simp only [hu]
  rw [if_neg (by simp [hod]), if_neg, if_neg (by omega), if_neg (by rw [hm]; decide), if_pos hm]
  · simp only [estimateCorr, hfc, hst, hv]
  · rintro ⟨i, j, h | h⟩
    · exact absurd (hr i j).1 (not_le.2 h)
    · exact absurd (hr i j).2 (not_le.2 h)

/-! ### C73 -/

/-- **C73**, the code differs from the property: a bivariate Gaussian or Student copula cannot be fitted by
inversion. The fit raises and leaves the copula unchanged, whatever the data. -/
theorem fit_inversion_two_fails (env : FitEnv) (opt : List Fl → OptTree) (o : FitObj) {n d : ℕ}
    (data : Fin n → Fin d → ℚ) (x0 : Option ParamArg) (method ties : String) (toPobs : Bool) (scale : Fl)
    (hell : o.cop.isEll = true) (hd2 : o.cop.dim = 2)
    (hm : pyLower method = "itau".toList ∨ pyLower method = "irho".toList) :
    ∃ er, o.fit env opt data x0 method ties toPobs scale = (o, .error er) := by
  have key : ∀ (u : Fin n → Fin d → ℚ) typ, o.cop.dim = d → ∃ er, estimateCorr env u o.cop typ = (o.cop, .error er) := by
    intro u typ hd
    cases hf : fitCor env o.cop u typ with
    | error e => exact ⟨e, by simp only [estimateCorr, hf]⟩
    | ok icor =>
      exfalso
      obtain ⟨l, theta, -, hne, -, h1, h2⟩ := fitCor_ell hell hf
      apply hne
      have hd' : d = 2 := hd ▸ hd2
      subst hd'
      cases typ with
      | itau =>
        obtain ⟨tau, ht, rfl⟩ := h1 rfl
        obtain ⟨-, -, hl, -⟩ := lowerCorr_spec hd ht
        simpa using hl
      | irho =>
        obtain ⟨tau, ht, rfl⟩ := h2 rfl
        obtain ⟨-, -, hl, -⟩ := lowerCorr_spec hd ht
        simpa using hl
  unfold FitObj.fit
  cases hu : maybePobs data toPobs ties with
  | error e => exact ⟨e, rfl⟩
  | ok u =>
    simp only
    by_cases h1 : o.cop.dim ≠ d
    · exact ⟨_, by rw [if_pos h1]⟩
    · rw [if_neg h1]
      by_cases h2 : ∃ i j, u i j < 0 ∨ 1 < u i j
      · exact ⟨_, by rw [if_pos h2]⟩
      · rw [if_neg h2]
        have : ∃ er, fitCopula env opt u o.cop x0 method scale = (o.cop, .error er) := by
          unfold fitCopula
          by_cases h3 : n < o.cop.dim
          · exact ⟨_, by rw [if_pos h3]⟩
          · rcases hm with hm | hm
            · obtain ⟨er, h⟩ := key u .itau (not_not.1 h1)
              exact ⟨er, by rw [if_neg h3, if_neg (by rw [hm]; decide), if_pos hm, h]⟩
            · obtain ⟨er, h⟩ := key u .irho (not_not.1 h1)
              exact ⟨er, by rw [if_neg h3, if_neg (by rw [hm]; decide), if_neg (by rw [hm]; decide), if_pos hm, h]⟩
        obtain ⟨er, h⟩ := this
        exact ⟨er, by rw [h]⟩

/-- **C73**, the code differs from the property: the method `"irho"` raises for every copula that is not
Gaussian, whatever the data. -/
theorem fit_irho_fails (env : FitEnv) (opt : List Fl → OptTree) (o : FitObj) {n d : ℕ}
    (data : Fin n → Fin d → ℚ) (x0 : Option ParamArg) (method ties : String) (toPobs : Bool) (scale : Fl)
    (hng : ∀ e, o.cop ≠ .gaussian e) (hm : pyLower method = "irho".toList) :
    ∃ er, o.fit env opt data x0 method ties toPobs scale = (o, .error er) := by
  have key : ∀ u : Fin n → Fin d → ℚ, ∃ er, estimateCorr env u o.cop .irho = (o.cop, .error er) := by
    intro u
    have : ∃ er, fitCor env o.cop u .irho = .error er := by
      unfold fitCor rawTheta
      cases hl : lowerCorr env o.cop u "spearman" with
      | error e => exact ⟨e, by simp only [bind, Except.bind]⟩
      | ok l =>
        refine ⟨.typeError, ?_⟩
        cases hc : o.cop with
        | gaussian e => exact absurd hc (hng e)
        | arch F st => simp only [bind, Except.bind, copIrho]
        | student df e => simp only [bind, Except.bind, copIrho]
    obtain ⟨er, h⟩ := this
    exact ⟨er, by simp only [estimateCorr, h]⟩
  unfold FitObj.fit
  cases hu : maybePobs data toPobs ties with
  | error e => exact ⟨e, rfl⟩
  | ok u =>
    simp only
    by_cases h1 : o.cop.dim ≠ d
    · exact ⟨_, by rw [if_pos h1]⟩
    · rw [if_neg h1]
      by_cases h2 : ∃ i j, u i j < 0 ∨ 1 < u i j
      · exact ⟨_, by rw [if_pos h2]⟩
      · rw [if_neg h2]
        have : ∃ er, fitCopula env opt u o.cop x0 method scale = (o.cop, .error er) := by
          unfold fitCopula
          by_cases h3 : n < o.cop.dim
          · exact ⟨_, by rw [if_pos h3]⟩
          · obtain ⟨er, h⟩ := key u
            exact ⟨er, by rw [if_neg h3, if_neg (by rw [hm]; decide), if_neg (by rw [hm]; decide), if_pos hm, h]⟩
        obtain ⟨er, h⟩ := this
        exact ⟨er, by rw [h]⟩

/-! ### C74 -/

theorem npMean_neg {l : List ℝ} (hl : l ≠ []) (h : ∀ x ∈ l, x < 0) :
    ∃ m, npMean (l.map Fl.fin) = .fin m ∧ m < 0 := by
  have hsum : ∀ l : List ℝ, (l.map Fl.fin).sum = .fin l.sum := by
    intro l
    induction l with
    | nil => rfl
    | cons a t ih => rw [List.map_cons, List.sum_cons, ih, Fl.fin_add_fin, List.sum_cons]
  have hneg : ∀ l : List ℝ, l ≠ [] → (∀ x ∈ l, x < 0) → l.sum < 0 := by
    intro l
    induction l with
    | nil => intro h; exact absurd rfl h
    | cons a t ih =>
      intro _ h
      rw [List.sum_cons]
      have ha := h a (by simp)
      by_cases ht : t = []
      · subst ht; simpa using ha
      · have := ih ht fun x hx => h x (List.mem_cons_of_mem _ hx)
        linarith
  have hlen : (0 : ℝ) < (l.length : ℝ) := by
    have := List.length_pos_iff.2 hl
    exact_mod_cast this
  refine ⟨l.sum / l.length, ?_, div_neg_of_neg_of_pos (hneg l hl h) hlen⟩
  rw [npMean, hsum, List.length_map, Fl.fin_div_fin' _ hlen.ne']

/-- The estimate of a Clayton or Frank copula is negative when all coefficients are. -/
theorem copItau_neg {env : FitEnv} {F : Family} {st : ArchState}
    (hF : F = .clayton ∨ F = .frank ∧ IsBrentq env.brentq ∧ IsDebye1 env.d1) {l : List ℝ} (hl : l ≠ [])
    (h : ∀ t ∈ l, -(1 - 4 / 10 ^ 20) ≤ t ∧ t ≤ -(1 / 10 ^ 16)) :
    ∃ icor m, copItau env (.arch F st) (l.map Fl.fin) = .ok icor ∧ npMean icor.toVec = .fin m ∧ m < 0 := by
  have hsq : ∀ l : List Fl, (squeeze l).toVec = l := by
    intro l
    unfold squeeze
    split <;> rfl
  have key : ∃ ths : List ℝ, copItau env (.arch F st) (l.map Fl.fin) = .ok (squeeze (ths.map Fl.fin)) ∧
      ths.length = l.length ∧ ∀ x ∈ ths, x < 0 := by
    rcases hF with rfl | ⟨rfl, hB, hD⟩
    · refine ⟨l.map fun t => 2 * t / (1 - t), ?_, by simp, ?_⟩
      · simp only [copItau, List.map_map]
        congr 2
        apply List.map_congr_left
        intro t ht
        have := h t ht
        simp only [Function.comp, claytonItau]
        rw [Fl.fin_mul_fin, Fl.fin_sub_fin, Fl.fin_div_fin' _ (by norm_num at this ⊢; linarith)]
      · intro x hx
        obtain ⟨t, ht, rfl⟩ := List.mem_map.1 hx
        have := h t ht
        exact div_neg_of_neg_of_pos (by norm_num at this ⊢; linarith) (by norm_num at this ⊢; linarith)
    · have : ∀ l : List ℝ, (∀ t ∈ l, -(1 - 4 / 10 ^ 20) ≤ t ∧ t ≤ -(1 / 10 ^ 16)) →
          ∃ ths : List ℝ, (l.map Fl.fin).mapM (frankItauFl env) = .ok (ths.map Fl.fin) ∧
            ths.length = l.length ∧ ∀ x ∈ ths, x < 0 := by
        intro l
        induction l with
        | nil => intro _; exact ⟨[], rfl, rfl, by simp⟩
        | cons a t ih =>
          intro h
          obtain ⟨ths, h1, h2, h3⟩ := ih fun x hx => h x (List.mem_cons_of_mem _ hx)
          have ha := h a (by simp)
          have hneg : a < 0 := lt_of_le_of_lt ha.2 (by norm_num)
          obtain ⟨θ, k1, k2, -⟩ := frank_itau hB hD (t := a) (by rw [abs_of_neg hneg]; linarith [ha.2])
            (by rw [abs_of_neg hneg]; linarith [ha.1])
          refine ⟨θ :: ths, ?_, by simp [h2], ?_⟩
          · simp only [List.map_cons, List.mapM_cons, frankItauFl, k1, bind, Except.bind, pure, Except.pure, h1]
          · intro x hx
            rcases List.mem_cons.1 hx with rfl | hx
            · by_contra hc
              have : x * a ≤ 0 := mul_nonpos_of_nonneg_of_nonpos (not_lt.1 hc) hneg.le
              linarith
            · exact h3 x hx
      obtain ⟨ths, h1, h2, h3⟩ := this l h
      exact ⟨ths, by simp only [copItau, h1, bind, Except.bind, pure, Except.pure], h2, h3⟩
  obtain ⟨ths, h1, h2, h3⟩ := key
  obtain ⟨m, h4, h5⟩ := npMean_neg (l := ths) (by
    intro h0
    apply hl
    rw [h0] at h2
    exact List.length_eq_zero_iff.1 h2.symm) h3
  exact ⟨_, m, h1, by rw [hsq]; exact h4, h5⟩

/-- **C74**, the code differs from the property: a Clayton or Frank copula of dimension three or more cannot
be fitted by maximum likelihood without a starting value (nor by inversion) when all sample taus are
negative: the starting value is refused by the copula itself and `ValueError` is raised. -/
theorem fit_negative_fails {env : FitEnv} (opt : List Fl → OptTree) {o : FitObj} {n d : ℕ}
    {data u : Fin n → Fin d → ℚ} {method ties : String} {toPobs : Bool} {scale : Fl} {F : Family}
    {st : ArchState} (hF : F = .clayton ∨ F = .frank ∧ IsBrentq env.brentq ∧ IsDebye1 env.d1)
    (hm : pyLower method = "ml".toList ∨ pyLower method = "itau".toList) (hc : o.cop = .arch F st)
    (hd : st.dim = d) (hd3 : 3 ≤ d) (hn : d ≤ n) (hu : maybePobs data toPobs ties = .ok u)
    (hr : ∀ i j, 0 ≤ u i j ∧ u i j ≤ 1)
    (hk : ∀ i j : Fin d, i < j → ∃ t : ℝ, env.fns.kendall (Spec.col u i) (Spec.col u j) = .ok (.fin t) ∧
      -(1 - 4 / 10 ^ 20) ≤ t ∧ t ≤ -(1 / 10 ^ 16)) :
    o.fit env opt data none method ties toPobs scale = (o, .error .valueError) := by
  have hcd : (FitCop.arch F st).dim = d := hd
  obtain ⟨l, hl⟩ := lowerCorr_ok (c := .arch F st) (u := u) hcd (corrFunc_kendall env.fns) (fun i j hij => by
    obtain ⟨t, ht, -⟩ := hk i j hij
    exact ⟨_, ht⟩)
  obtain ⟨f, hf, h1, h2⟩ := lowerCorr_spec hcd hl
  rw [corrFunc_kendall] at hf
  obtain rfl := Except.ok.inj hf
  have hall : ∀ x ∈ l, ∃ t : ℝ, x = .fin t ∧ -(1 - 4 / 10 ^ 20) ≤ t ∧ t ≤ -(1 / 10 ^ 16) := by
    intro x hx
    obtain ⟨k, hk', rfl⟩ := List.mem_iff_getElem.1 hx
    obtain ⟨i, j, hij, hj, he⟩ := rhoPos_surj (h1 ▸ hk')
    obtain ⟨v, hv, hp⟩ := h2 ⟨i, by omega⟩ ⟨j, hj⟩ hij
    obtain ⟨t, ht, htr⟩ := hk ⟨i, by omega⟩ ⟨j, hj⟩ hij
    rw [ht] at hv
    obtain rfl := Except.ok.inj hv
    simp only [he, List.getElem?_eq_getElem hk'] at hp
    exact ⟨t, Option.some.inj hp, htr⟩
  have hlist : ∃ l' : List ℝ, l = l'.map Fl.fin ∧ ∀ t ∈ l', -(1 - 4 / 10 ^ 20) ≤ t ∧ t ≤ -(1 / 10 ^ 16) := by
    clear hl h1 h2
    induction l with
    | nil => exact ⟨[], rfl, by simp⟩
    | cons a t ih =>
      obtain ⟨l', rfl, h'⟩ := ih fun x hx => hall x (List.mem_cons_of_mem _ hx)
      obtain ⟨b, rfl, hb⟩ := hall a (by simp)
      exact ⟨b :: l', rfl, by
        intro x hx
        rcases List.mem_cons.1 hx with rfl | hx
        · exact hb
        · exact h' x hx⟩
  obtain ⟨l', rfl, hl'⟩ := hlist
  have hne : l' ≠ [] := by
    rintro rfl
    simp only [List.map_nil, List.length_nil] at h1
    obtain ⟨m, rfl⟩ : ∃ m, d = m + 3 := ⟨d - 3, by omega⟩
    have : 2 ≤ (m + 3) * (m + 3 - 1) := by
      rw [show m + 3 - 1 = m + 2 by omega]; nlinarith
    omega
  obtain ⟨icor, m, k1, k2, k3⟩ := copItau_neg (st := st) hF hne hl'
  have hcor : fitCor env (.arch F st) u .itau = .ok icor := by
    simp only [fitCor, rawTheta, hl, k1, bind, Except.bind, FitCop.isEll, Bool.false_eq_true, if_false, pure,
      Except.pure]
  have hset : (FitCop.arch F st).setParams (.scalar (.fin m)) = (.arch F st, some .valueError) := by
    rcases hF with rfl | ⟨rfl, -⟩
    · simp only [FitCop.setParams, FitCop.toFloat, Family.setParams]
      rw [if_neg (by rintro ⟨h, -⟩; omega), if_pos ⟨by omega, by rw [Fl.fin_lt_fin]; exact k3⟩]
    · simp only [FitCop.setParams, FitCop.toFloat, Family.setParams]
      rw [if_pos ⟨by omega, by rw [Fl.fin_lt_fin]; exact k3⟩]
  have hest : estimateCorr env u (.arch F st) .itau = (.arch F st, .error .valueError) := by
    simp only [estimateCorr, hcor, storeEstimate, k2, hset]
  have hfit : fitCopula env opt u o.cop none method scale = (o.cop, .error .valueError) := by
    rw [hc]
    unfold fitCopula
    rw [if_neg (by rw [hcd]; omega)]
    rcases hm with hm | hm
    · rw [if_pos hm]
      simp only [initialParams, Option.filter_none, hest]
    · rw [if_neg (by rw [hm]; decide), if_pos hm, hest]
  unfold FitObj.fit
  simp only [hu]
  rw [if_neg (by rw [hc, hcd]; simp), if_neg (by
    push Not
    exact fun i j => ⟨(hr i j).1, (hr i j).2⟩), hfit]

/-- The hypotheses of `fit_itau_two`, `fit_itau_ell` and `fit_negative_fails` can be met: three observations
of three variables, coefficients that are all `1/4` (or all `-1/4`). -/
example (env : FitEnv) (t : ℝ) (ht : t = 1 / 4 ∨ t = -(1 / 4)) :
    ∃ env' : FitEnv, env'.ext = env.ext ∧ ∀ (u : Fin 3 → Fin 3 → ℚ) (i j : Fin 3), i < j →
      env'.fns.kendall (Spec.col u i) (Spec.col u j) = .ok (.fin t) ∧ -(1 - 4 / 10 ^ 20) ≤ t ∧ t < 1 :=
  ⟨{ env with fns := { env.fns with kendall := fun _ _ => .ok (.fin t) } }, rfl, fun u i j _ =>
    ⟨rfl, by rcases ht with rfl | rfl <;> norm_num, by rcases ht with rfl | rfl <;> norm_num⟩⟩

/-! ### Fits that succeed -/

theorem createCovMatrix_two {α : Type} [Zero α] [One α] (r : α) :
    createCovMatrix [r] = .ok ⟨2, fun i j => if i = j then 1 else r⟩ := by
  obtain ⟨M, h1, h2, h3, h4⟩ := createCovMatrix_roundTrip (d := 2) (by norm_num) [r] rfl
  have h5 : (do fancyRead M (← triIndices 2 1 "lower")) = .ok [M 1 0] := rfl
  rw [h5] at h4
  have h6 : M 1 0 = r := by simpa using h4
  rw [h1]
  congr 2
  funext i j
  fin_cases i <;> fin_cases j
  · exact h2 0
  · exact (h3 0 1).trans h6
  · exact h6
  · exact h2 1

/-- An optimiser that evaluates its starting point and returns it. -/
def stayOpt (x : List Fl) : OptTree := .eval x fun v => .done ⟨true, x, v⟩

theorem stayOpt_honest (x : List Fl) : (stayOpt x).Honest [] := by
  intro v
  simp [OptTree.Honest]

theorem isPsd_half : isPsd fun i j : Fin 2 => if i = j then (1 : Fl) else .fin (1 / 2) := by
  have h := (isPsd_of_posSemidef (fun _ M => M) !![1, 1 / 2; 1 / 2, 1] (.of_dotProduct_mulVec_nonneg
    (by ext i j; fin_cases i <;> fin_cases j <;> simp) fun x => by
      simp [Matrix.mulVec, dotProduct, Fin.sum_univ_two]
      nlinarith [sq_nonneg (x 0 + x 1), sq_nonneg (x 0), sq_nonneg (x 1)])).1
  convert h using 1
  funext i j
  fin_cases i <;> fin_cases j <;> simp [flMat] <;> rfl

theorem fit_example_cut : logLikCut (.gaussian ⟨2, [.fin (1 / 2)]⟩) = .ok false := by
  simp only [logLikCut, Ell.sigma, createCovMatrix_two, bind, Except.bind, pure, Except.pure, isPsd_half]
  simp

/-- A successful fit of a Gaussian copula by maximum likelihood, with the given scale. -/
theorem fit_example (env : FitEnv) (hv : ∀ c n d u, env.logPdfSum c n d u = .ok (.fin 3)) (k : ℝ) :
    FitObj.fit env stayOpt ⟨.gaussian (Ell.init 2), none⟩ (fun (i : Fin 3) (j : Fin 2) => ![1, 2, 2] i / (4 + j))
      (some (.vec [.fin (1 / 2)])) "ml" "average" false (.fin k) =
      (⟨.gaussian ⟨2, [.fin (1 / 2)]⟩, some ⟨[.fin (1 / 2)], .fin (3 * k), 3, some true⟩⟩, .ok ()) := by
  have hc := fit_example_cut
  unfold FitObj.fit
  simp only [maybePobs, Bool.false_eq_true, if_false]
  rw [if_neg (by simp [FitCop.dim, Ell.init]), if_neg]
  · have hml : pyLower "ml" = "ml".toList := by decide
    have hip : ∀ u : Fin 3 → Fin 2 → ℚ, initialParams env u (.gaussian (Ell.init 2)) (some (.vec [.fin (1 / 2)]))
        = (.gaussian (Ell.init 2), .ok (.vec [.fin (1 / 2)])) := by
      intro u
      unfold initialParams
      simp [Option.filter, ParamArg.toVec, Fl.isFin]
    unfold fitCopula
    rw [if_neg (by simp [FitCop.dim, Ell.init]), if_pos hml, hip]
    simp only [estimateMl, stayOpt, ParamArg.toVec, runOpt, calcLogLik]
    rw [if_neg (by simp [Fl.isNan])]
    simp only [FitCop.setParams, logLik, Ell.init]
    simp only [hc, hv, bind, Except.bind, maybePobs, Bool.false_eq_true, if_false, if_true, Fl.neg_fin, Fl.fin_mul_fin]
    norm_num
  · rintro ⟨i, j, h⟩
    fin_cases i <;> fin_cases j <;> norm_num at h


/-- Three columns with Kendall's tau 1/3 between any two of them. -/
noncomputable def thirdTau (i j : Fin 3) : ℝ := if i = j then 1 else 1 / 3

theorem thirdTau_psd : isPsd fun i j : Fin 3 => Fl.fin (Real.sin (Real.pi * thirdTau i j / 2)) := by
  have hs : Real.sin (Real.pi * (1 / 3) / 2) = 1 / 2 := by
    rw [show Real.pi * (1 / 3) / 2 = Real.pi / 6 by ring, Real.sin_pi_div_six]
  have h := (isPsd_of_posSemidef (fun _ M => M) !![1, 1 / 2, 1 / 2; 1 / 2, 1, 1 / 2; 1 / 2, 1 / 2, 1]
    (.of_dotProduct_mulVec_nonneg (by ext i j; fin_cases i <;> fin_cases j <;> simp) fun x => by
      simp [Matrix.mulVec, dotProduct, Fin.sum_univ_three]
      nlinarith [sq_nonneg (x 0 + x 1 + x 2), sq_nonneg (x 0), sq_nonneg (x 1), sq_nonneg (x 2)])).1
  convert h using 1
  funext i j
  fin_cases i <;> fin_cases j <;> simp [flMat, thirdTau] <;> linarith

/-- The outside functions of the examples below. -/
noncomputable def fitExampleEnv : FitEnv where
  logPdfSum _ _ _ _ := .ok (.fin 3)
  fns := ⟨fun _ _ => .ok (.fin (1 / 2)), fun _ _ => .ok (.fin (1 / 3)), fun _ _ => .ok (.fin (1 / 4))⟩
  ext _ M := M
  brentq _ a b := .ok ((a + b) / 2)
  d1 _ := 0

theorem fitExample_range (i : Fin 4) (j : Fin 3) : 0 ≤ ((i.val + 1) / (5 + j.val) : ℚ) ∧ ((i.val + 1) / (5 + j.val) : ℚ) ≤ 1 := by
  fin_cases i <;> fin_cases j <;> norm_num

/-- A successful fit of a Student copula by inversion of Kendall's tau. -/
theorem fit_itau_example : (FitObj.fit fitExampleEnv stayOpt ⟨.student (.fin 4) (Ell.init 3), none⟩
    (fun (i : Fin 4) (j : Fin 3) => ((i.val + 1) / (5 + j.val) : ℚ)) none "iTau" "average" false (.fin 1)).2 = .ok () :=
  fit_itau_ell_succeeds (Ell.init_wf (by norm_num)) (by decide) (.inr ⟨_, rfl⟩) rfl le_rfl (by norm_num) rfl
    fitExample_range thirdTau (by simp [thirdTau]) (by intro i j; simp [thirdTau, eq_comm])
    (by intro i j h; simp [thirdTau, h.ne, fitExampleEnv]) thirdTau_psd (fun _ _ => ⟨_, rfl⟩)

example := fit_itau_ell (T := thirdTau) (Ell.init_wf (by norm_num)) (by decide) (.inr ⟨_, rfl⟩) rfl
  (by intro i j; unfold thirdTau; split_ifs <;> norm_num) (by simp [thirdTau]) (by intro i j; simp [thirdTau, eq_comm])
  (by intro i j h; simp [thirdTau, h.ne, fitExampleEnv]) thirdTau_psd (Prod.ext rfl fit_itau_example)

example := fit_corr_summary_partial (.inl (by decide)) (Prod.ext rfl fit_itau_example)

example := fit_corr_raw_logLik (.inl (by decide)) (Prod.ext rfl fit_itau_example)

example := fit_ml_psd (env := fitExampleEnv) (k := 2) (by norm_num) stayOpt_honest (by decide)
  (fit_example fitExampleEnv (fun _ _ _ _ => rfl) 2)

example := fit_ml_summary_partial (env := fitExampleEnv) stayOpt_honest (by decide)
  (fit_example fitExampleEnv (fun _ _ _ _ => rfl) 1)

example := fit_scaled_logLik (env := fitExampleEnv) (k := 2) (L := 3) stayOpt_honest (by decide) (by norm_num)
  (by norm_num) (fit_example fitExampleEnv (fun _ _ _ _ => rfl) 2) (by
    simp only [logLik, fit_example_cut, bind, Except.bind, maybePobs, Bool.false_eq_true, if_false, fitExampleEnv])

example (o : Option FitSummary) := fit_error_keeps_summary fitExampleEnv stayOpt ⟨.gaussian (Ell.init 2), o⟩
  (fun (i : Fin 4) (j : Fin 3) => ((i.val + 1) / (5 + j.val) : ℚ)) none "ml" "average" false (.fin 1)
  (by simp [FitObj.fit, maybePobs, FitCop.dim, Ell.init])

example (env : FitEnv) (o : Option FitSummary) := fit_admissible env stayOpt
  ⟨.arch .clayton ⟨3, .fin 2, .fin 0, .pinf⟩, o⟩ (fun (i : Fin 4) (j : Fin 3) => ((i.val + 1) / (5 + j.val) : ℚ)) none "ml"
  "average" false (.fin 1) rfl ⟨by simp, by simp [Fl.fin_lt_fin]⟩

example (o : Option FitSummary) := fit_itau_two (env := fitExampleEnv) (opt := stayOpt)
  (o := ⟨.arch .gumbel ⟨2, .nan, .fin 1, .pinf⟩, o⟩) (data := fun (i : Fin 3) (_ : Fin 2) => ((i.val + 1) / 4 : ℚ))
  (x0 := none) (method := "itau") (ties := "average") (toPobs := false) (scale := .fin 1) (t := 1 / 3)
  (by decide) rfl rfl (by norm_num) rfl (by intro i j; fin_cases i <;> norm_num) rfl (fun _ _ => ⟨_, rfl⟩)
  ⟨by norm_num, by norm_num⟩

example (env : FitEnv) (o : Option FitSummary) := fit_inversion_two_fails env stayOpt ⟨.gaussian (Ell.init 2), o⟩
  (fun (i : Fin 3) (_ : Fin 2) => ((i.val + 1) / 4 : ℚ)) none "irho" "average" false (.fin 1) rfl rfl (.inr (by decide))

example (env : FitEnv) (o : Option FitSummary) := fit_irho_fails env stayOpt
  ⟨.arch .gumbel ⟨2, .nan, .fin 1, .pinf⟩, o⟩
  (fun (i : Fin 3) (_ : Fin 2) => ((i.val + 1) / 4 : ℚ)) none "irho" "average" false (.fin 1) (by simp) (by decide)

end Copulae
