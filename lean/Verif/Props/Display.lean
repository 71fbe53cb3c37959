import Verif.Model.Display
import Mathlib.Tactic.SplitIfs
import Mathlib.Tactic.Linarith

/-!
**C155** Summaries show what they summarise.
-/

namespace Copulae

/-- The cells of a table in two halves, as dictionaries: the first halves of the first rows and the second halves of the first rows. -/
def Spec.Halves (rows : List (String × String × String × String)) (s r : Items) : Prop :=
  (rows.take s.length).map (fun c => (c.1, c.2.1)) = s ∧ (rows.take r.length).map (fun c => (c.2.2.1, c.2.2.2)) = r ∧
    rows.length = max s.length r.length ∧ (∀ c ∈ rows.drop s.length, c.1 = "None" ∧ c.2.1 = "None") ∧
      ∀ c ∈ rows.drop r.length, c.2.2.1 = "None" ∧ c.2.2.2 = "None"

open Spec

theorem fitRows_nil_right (s : Items) : fitRows s [] = s.map fun e => (e.1, e.2, "None", "None") := by
  induction s with
  | nil => simp [fitRows]
  | cons e t ih =>
    obtain ⟨k, v⟩ := e
    simp [fitRows, ih]

theorem fitRows_nil_left (r : Items) : fitRows [] r = r.map fun e => ("None", "None", e.1, e.2) := by
  induction r with
  | nil => simp [fitRows]
  | cons e t ih =>
    obtain ⟨k, v⟩ := e
    simp [fitRows, ih]

theorem fitRows_halves (s r : Items) : Halves (fitRows s r) s r := by
  induction s generalizing r with
  | nil =>
    rw [fitRows_nil_left]
    refine ⟨by simp, by simp [← List.map_take, Function.comp_def], by simp, ?_, by simp [← List.map_drop]⟩
    intro c hc
    simp only [List.length_nil, List.drop_zero, List.mem_map] at hc
    obtain ⟨e, -, rfl⟩ := hc
    simp
  | cons a s ih =>
    cases r with
    | nil =>
      rw [fitRows_nil_right]
      refine ⟨by simp [Function.comp_def], by simp, by simp, by simp [← List.map_drop], ?_⟩
      intro c hc
      simp only [List.length_nil, List.drop_zero, List.mem_map] at hc
      obtain ⟨e, -, rfl⟩ := hc
      simp
    | cons b r =>
      obtain ⟨k, v⟩ := a
      obtain ⟨k', v'⟩ := b
      obtain ⟨h1, h2, h3, h4, h5⟩ := ih r
      refine ⟨by simp [fitRows, h1], by simp [fitRows, h2], by simp [fitRows, h3], ?_, ?_⟩
      · simpa [fitRows] using h4
      · simpa [fitRows] using h5

/-- **C155**, fits by maximum likelihood: the table of HTML lists the items of the options and of the result, each once, in order. -/
theorem fit_html_ml (logLik nsample : String) (options results : Items) :
    ∃ rows, (shownMl logLik nsample options results).html =
      .ok ([("Log Likelihood", logLik), ("Method", "Maximum likelihood"), ("Data Points", nsample)], rows) ∧ Halves rows options results :=
  ⟨_, rfl, fitRows_halves _ _⟩

/-- Finding (**C155** is violated): the summary of a fit by inversion cannot be displayed as HTML. -/
theorem fit_html_inversion (method logLik nsample : String) : (shownInversion method logLik nsample).html = .error .attributeError := rfl

/-- **C155**, the text: it has the method, the log-likelihood and the number of data, and all items but the simplex, in order. -/
theorem fit_text (f : FitShown) : f.text.1.map Prod.snd = [f.logLik, f.method, f.nsample] ∧
    (∀ d, f.setup = some d → ∃ l, ("Optimization Setup", l) ∈ f.text.2 ∧ ∀ e, e ∈ l ↔ e ∈ d ∧ e.1 ≠ "final_simplex") ∧
    (∀ d, f.results = some d → ∃ l, ("Results", l) ∈ f.text.2 ∧ ∀ e, e ∈ l ↔ e ∈ d ∧ e.1 ≠ "final_simplex") := by
  refine ⟨rfl, fun d hd => ⟨d.filter fun e => e.1 ≠ "final_simplex", ?_, ?_⟩, fun d hd => ⟨d.filter fun e => e.1 ≠ "final_simplex", ?_, ?_⟩⟩
  · simp [FitShown.text, hd, fitSection]
  · intro e; simp
  · simp [FitShown.text, hd, fitSection]
  · intro e; simp

/-- **C155**, summaries of copulas: a parameter is shown, with its value, if it is a number of Python or a string or a matrix. -/
theorem summary_shows (params : List (String × ShownVal)) (k t : String) : (k, t) ∈ summaryShown params ↔
    (k, ShownVal.python t) ∈ params ∨ (k, ShownVal.array 2 t) ∈ params := by
  simp only [summaryShown, List.mem_filterMap, Option.map_eq_some_iff, Prod.mk.injEq]
  constructor
  · rintro ⟨⟨k', v⟩, he, t', ht, rfl, rfl⟩
    cases v with
    | python s => simp only [ShownVal.shown, Option.some.injEq] at ht; subst ht; exact .inl he
    | numpy s => simp [ShownVal.shown] at ht
    | array n s =>
      simp only [ShownVal.shown] at ht
      split_ifs at ht with hn
      subst hn
      obtain rfl := Option.some.inj ht
      exact .inr he
  · rintro (h | h)
    · exact ⟨_, h, t, rfl, rfl, rfl⟩
    · exact ⟨_, h, t, rfl, rfl, rfl⟩

/-- **C155** The summaries of Gaussian and Archimedean copulas show all parameters. -/
theorem summary_all (sigma theta : String) : gaussianSummary sigma = [("Correlation Matrix", sigma)] ∧ archSummary theta = [("theta", theta)] :=
  ⟨rfl, rfl⟩

/-- **C155**, Student copulas (partial): the degrees of freedom are shown if they were assigned among floats. -/
theorem student_summary_partial (df sigma : String) :
    studentSummary (studentDfShown false df) sigma = [("Degree of Freedom", df), ("Correlation Matrix", sigma)] := rfl

/-- Finding (**C155** is violated): after `copula.params = [4, 0, 0, 0]` the summary does not show the degrees of freedom. -/
theorem student_summary_integers (df sigma : String) : studentSummary (studentDfShown true df) sigma = [("Correlation Matrix", sigma)] := rfl

/-- **C155**, empirical copulas: the settings are shown, except that an offset of a type of NumPy is left out. -/
theorem empirical_summary (dim ties offset smoothing : String) :
    empiricalSummary dim ties (.python offset) smoothing =
      [("Dimensions", dim), ("Ties method", ties), ("Offset", offset), ("Smoothing", smoothing)] ∧
    empiricalSummary dim ties (.numpy offset) smoothing = [("Dimensions", dim), ("Ties method", ties), ("Smoothing", smoothing)] := ⟨rfl, rfl⟩

/-- **C155**, Gaussian mixture copulas: the display has the probabilities, the means, every covariance under its number, and the method of
the fit. -/
theorem gmc_html (p : GmcShown) (method : Option String) : ∃ l, gmcHtml (some p) method = .ok l ∧ ("Mixture Probability", p.prob) ∈ l ∧
    ("Means", p.means) ∈ l ∧ (∀ (i : ℕ) (h : i < p.covs.length), (s!"Margin {i + 1}", p.covs[i]) ∈ l) ∧
      ∀ m, method = some m → ("Algorithm", m) ∈ l := by
  refine ⟨_, rfl, by simp, by simp, fun i h => ?_, fun m hm => by simp [hm]⟩
  refine List.mem_append_left _ (List.mem_append_right _ (List.mem_map.mpr ⟨(p.covs[i], i), ?_, rfl⟩))
  exact List.mem_zipIdx_iff_getElem?.mpr (by simp [h])

/-- Finding (**C155** is violated): the summary of a Gaussian mixture copula without parameters cannot be displayed as HTML, although it can be
printed. -/
theorem gmc_html_unfitted (render : GmcShown → String) (method : Option String) :
    gmcHtml none method = .error .attributeError ∧ gmcText render none = "None" := ⟨rfl, rfl⟩

/-- **C155** The display of the fit of a Gaussian mixture copula has the method, the number of data and all details. -/
theorem gmc_fit_shown (method nsample : String) (setup : Items) (e : String × String) :
    e ∈ gmcFitShown method nsample (some setup) ↔ e = ("Method", method) ∨ e = ("Data Points", nsample) ∨ e ∈ setup := by
  simp [gmcFitShown]

/-! ### The hypotheses can be met -/

example : Halves [("method", "SLSQP", "fun", "-1.5"), ("None", "None", "success", "True")] [("method", "SLSQP")]
    [("fun", "-1.5"), ("success", "True")] := by
  have := fitRows_halves [("method", "SLSQP")] [("fun", "-1.5"), ("success", "True")]
  simpa [fitRows] using this

example : ∃ l, ("Results", l) ∈ (shownMl "1.5" "100" [] [("fun", "-1.5"), ("final_simplex", "...")]).text.2 ∧ ("fun", "-1.5") ∈ l := by
  obtain ⟨l, h1, h2⟩ := (fit_text (shownMl "1.5" "100" [] [("fun", "-1.5"), ("final_simplex", "...")])).2.2 _ rfl
  exact ⟨l, h1, (h2 _).mpr (by simp)⟩

end Copulae
