import Verif.Model.MarginalGmc
import Verif.Props.GmcFit
import Verif.Props.MarginalFit

/-!
**C167** Fitting a marginal copula around a Gaussian mixture copula.
-/

namespace Copulae

variable {m n d : ℕ} {env : ℕ → GmcEnv d} {distFit : Dist → List ℚ → Except PyErr (List Fl)} {o : MargGmc} {data : Fin n → Fin d → ℚ}
  {x0 : GmcStart} {method ties : String} {toPobs : Bool} {scale : Fl} {ms : List Frozen} {start : GMCParam m d}

/-- **C167** The full statement: if the margins can be fitted, the fit leaves the inner copula as its own `fit` with the same data, start,
method and ties does, and has the same result. It holds for k-means, and for `method='sgd'` with `max_iter` one (or zero, where `to_pobs` is
`False`). -/
theorem margGmc_inner_partial (hdim : o.inner.dim = d) (hms : refitMargins distFit (column data) 0 o.margins = (ms, none))
    (hm : pyLower method ≠ "pem".toList) (criteria : String) (eps : ℝ) :
    let k := if toPobs then 1 else 0
    o.fit env distFit m data x0 method ties toPobs scale =
      (⟨(gmcFit (env k) m o.inner data x0 method ties k criteria eps).obj, ms⟩,
        (gmcFit (env k) m o.inner data x0 method ties k criteria eps).res) := by
  have e : ∀ k, gmcFit (env k) m o.inner data x0 method ties k "" 0 = gmcFit (env k) m o.inner data x0 method ties k criteria eps :=
    fun k => by
      unfold gmcFit
      simp only [if_neg hm]
  unfold MargGmc.fit
  simp only [hdim, ne_eq, not_true_eq_false, if_false, hms, gmcFitNum, if_neg hm, e]

/-- **C167** K-means through the marginal copula does not depend on `to_pobs`, `scale`, the number of iterations and the criterion. -/
theorem margGmc_kmeans (hdim : o.inner.dim = d) (hms : refitMargins distFit (column data) 0 o.margins = (ms, none))
    (hm : pyLower method = "kmeans".toList) {p : GMCParam m d} (hstart : ∀ k, gmcStart (env k) m data x0 = .ok start)
    (hp : ∀ k, kMeans (env k).ext (env k).km data m "average" = .ok p) :
    o.fit env distFit m data x0 method ties toPobs scale =
      (⟨{ o.inner with param := some ⟨m, d, p⟩, method := some "kmeans" }, ms⟩, .ok ⟨p, true, "kmeans", n⟩) := by
  have h1 : pyLower method ≠ "pem".toList := by rw [hm]; decide
  have h2 : pyLower method ≠ "sgd".toList := by rw [hm]; decide
  rw [margGmc_inner_partial hdim hms h1 "" 0]
  simp only
  have h3 := gmcFit_kmeans (env (if toPobs then 1 else 0)) o.inner data x0 (hstart _) (hp _) hm ties (if toPobs then 1 else 0) "" 0
  have h4 := gmcFit_success _ _ _ _ _ _ _ _ _ h3
  rw [h3, h4.1]

/-- **C167**, violated: with `method='pem'`, the default of the mixture copula, the fit through the marginal copula always raises: where the
margins, the start, the ranks and the quantiles can be computed, it is an `AttributeError`. -/
theorem margGmc_pem_violation (hm : pyLower method = "pem".toList) :
    (∃ e, (o.fit env distFit m data x0 method ties toPobs scale).2 = .error e) ∧
      ∀ {u : Fin n → Fin d → ℚ} {q}, o.inner.dim = d → refitMargins distFit (column data) 0 o.margins = (ms, none) →
        (∀ k, gmcStart (env k) m data x0 = .ok start) → pobsMat data ties = .ok u → (∀ k, (emFns (env k) m (toFl u)).ppf start = .ok q) →
        o.fit env distFit m data x0 method ties toPobs scale =
          (⟨{ o.inner with param := some ⟨m, d, start⟩ }, ms⟩, .error .attributeError) := by
  constructor
  · unfold MargGmc.fit
    by_cases hdim : o.inner.dim ≠ d
    · rw [if_pos hdim]
      exact ⟨_, rfl⟩
    · rw [if_neg hdim]
      rcases refitMargins distFit (column data) 0 o.margins with ⟨l, e | e⟩
      · simp only [gmcFitNum, if_pos hm]
        cases gmcStart (env (if toPobs = true then 1 else 0)) m data x0 with
        | error e => exact ⟨_, rfl⟩
        | ok start =>
          simp only [bind, Except.bind]
          cases pobsMat data ties with
          | error e => exact ⟨_, rfl⟩
          | ok u =>
            simp only
            cases (emFns (env (if toPobs = true then 1 else 0)) m (toFl u)).ppf start with
            | error e => exact ⟨_, rfl⟩
            | ok q => exact ⟨_, rfl⟩
      · exact ⟨_, rfl⟩
  · intro u q hdim hms hstart hu hq
    unfold MargGmc.fit
    simp only [hdim, ne_eq, not_true_eq_false, if_false, hms, gmcFitNum, if_pos hm, hstart, hu, hq, bind, Except.bind]

/-- **C167**, violated: with the default `method='ml'`, which the mixture copula does not have, the fit through the marginal copula always
raises; by then the margins and the parameters of the inner copula have been replaced. -/
theorem margGmc_default_violation :
    (∃ e, (o.fit env distFit m data x0 "ml" ties toPobs scale).2 = .error e) ∧
      (o.inner.dim = d → refitMargins distFit (column data) 0 o.margins = (ms, none) → (∀ k, gmcStart (env k) m data x0 = .ok start) →
        o.fit env distFit m data x0 "ml" ties toPobs scale = (⟨{ o.inner with param := some ⟨m, d, start⟩ }, ms⟩, .error .gmcFitMethod)) := by
  have h1 : pyLower "ml" ≠ "pem".toList := by decide
  have h2 : pyLower "ml" ≠ "sgd".toList := by decide
  have h3 : pyLower "ml" ≠ "kmeans".toList := by decide
  constructor
  · unfold MargGmc.fit
    by_cases hdim : o.inner.dim ≠ d
    · rw [if_pos hdim]
      exact ⟨_, rfl⟩
    · rw [if_neg hdim]
      rcases refitMargins distFit (column data) 0 o.margins with ⟨l, e | e⟩
      · simp only [gmcFitNum, if_neg h1, gmcFit, if_neg h2, if_neg h3]
        cases gmcStart (env (if toPobs = true then 1 else 0)) m data x0 with
        | error e => exact ⟨_, rfl⟩
        | ok start => exact ⟨_, rfl⟩
      · exact ⟨_, rfl⟩
  · intro hdim hms hstart
    unfold MargGmc.fit
    simp only [hdim, ne_eq, not_true_eq_false, if_false, hms, gmcFitNum, if_neg h1, gmcFit, if_neg h2, if_neg h3, hstart]

theorem refitMargins_fails {col : ℕ → List ℚ} {f : Frozen} {l₂ : List Frozen} {e : PyErr} : ∀ (l₁ : List Frozen) (k : ℕ),
    (∀ i (h : i < l₁.length), ∃ a, distFit l₁[i].dist (col (k + i)) = .ok a) → distFit f.dist (col (k + l₁.length)) = .error e →
      (refitMargins distFit col k (l₁ ++ f :: l₂)).2 = some e
  | [], k, _, hf => by
    have hf' : distFit f.dist (col k) = .error e := hf
    simp only [List.nil_append, refitMargins, hf']
  | g :: l₁, k, h, hf => by
    obtain ⟨a, ha⟩ := h 0 (Nat.succ_pos _)
    have ha' : distFit g.dist (col k) = .ok a := ha
    simp only [List.cons_append, refitMargins, ha']
    refine refitMargins_fails l₁ (k + 1) (fun i hi => ?_) ?_
    · have := h (i + 1) (by simpa using hi)
      rwa [show k + 1 + i = k + (i + 1) by omega]
    · rwa [show k + 1 + l₁.length = k + (g :: l₁).length by simp; omega]

/-- **C167** Where a margin cannot be fitted, the exception of the first such margin is raised, and the inner copula is left as it was. -/
theorem margGmc_margin_fails {l₁ l₂ : List Frozen} {f : Frozen} {e : PyErr} (hdim : o.inner.dim = d) (ho : o.margins = l₁ ++ f :: l₂)
    (h : ∀ i (hi : i < l₁.length), ∃ a, distFit l₁[i].dist (column data i) = .ok a) (hf : distFit f.dist (column data l₁.length) = .error e) :
    (o.fit env distFit m data x0 method ties toPobs scale).2 = .error e ∧
      (o.fit env distFit m data x0 method ties toPobs scale).1.inner = o.inner := by
  have h1 := refitMargins_fails (l₂ := l₂) l₁ 0 (fun i hi => by rw [zero_add]; exact h i hi) (by rw [zero_add]; exact hf)
  rw [← ho] at h1
  have h2 : refitMargins distFit (column data) 0 o.margins = ((refitMargins distFit (column data) 0 o.margins).1, some e) := Prod.ext rfl h1
  unfold MargGmc.fit
  rw [if_neg (not_not.mpr hdim), h2]
  exact ⟨rfl, rfl⟩

/-! ### Cases: two normal margins around a mixture of two components, four rows -/

/-- Two standard normal margins around a mixture copula without parameters. -/
def margGmcEx : MargGmc := ⟨⟨2, 2, none, none⟩, [⟨distNorm, [], []⟩, ⟨distNorm, [], []⟩]⟩

theorem margGmcEx_margins : refitMargins (fun _ _ => .ok [.fin 5, .fin 1])
    (column fun (i : Fin 4) (j : Fin 2) => (i.val * (j.val + 1) : ℚ)) 0 margGmcEx.margins =
      ([⟨distNorm, [.fin 5, .fin 1], []⟩, ⟨distNorm, [.fin 5, .fin 1], []⟩], none) := rfl

theorem margGmcEx_kMeans (mvn : MvnPdf 2) : ∃ p : GMCParam 2 2, kMeans (gmcExampleEnv mvn).ext (gmcExampleEnv mvn).km
    (fun (i : Fin 4) (j : Fin 2) => (i.val * (j.val + 1) : ℚ)) 2 "average" = .ok p := by
  obtain ⟨p, μ, S, h, -⟩ := kMeans_valid (m := 2) (labels := fun i : Fin 4 => i.val / 2) (gmcExampleEnv mvn).ext
    (gmcExampleEnv mvn).km le_rfl (data := fun (i : Fin 4) (j : Fin 2) => (i.val * (j.val + 1) : ℚ))
    (ties := "average") rfl rfl (by norm_num) (fun i => by omega) (by decide)
  exact ⟨_, h⟩

example (mvn : MvnPdf 2) : ∃ p : GMCParam 2 2, margGmcEx.fit (fun _ => gmcExampleEnv mvn) (fun _ _ => .ok [.fin 5, .fin 1]) 2
    (fun (i : Fin 4) (j : Fin 2) => (i.val * (j.val + 1) : ℚ)) .none "KMeans" "average" true (.fin 1) =
      (⟨⟨2, 2, some ⟨2, 2, p⟩, some "kmeans"⟩, [⟨distNorm, [.fin 5, .fin 1], []⟩, ⟨distNorm, [.fin 5, .fin 1], []⟩]⟩,
        .ok ⟨p, true, "kmeans", 4⟩) := by
  obtain ⟨p, hp⟩ := margGmcEx_kMeans mvn
  exact ⟨p, margGmc_kmeans rfl margGmcEx_margins (by decide) (start := p) (fun _ => hp) fun _ => hp⟩

/-- `fit(data)` with nothing else. -/
example (mvn : MvnPdf 2) : ∃ p : GMCParam 2 2, margGmcEx.fit (fun _ => gmcExampleEnv mvn) (fun _ _ => .ok [.fin 5, .fin 1]) 2
    (fun (i : Fin 4) (j : Fin 2) => (i.val * (j.val + 1) : ℚ)) .none "ml" "average" true (.fin 1) =
      (⟨⟨2, 2, some ⟨2, 2, p⟩, none⟩, [⟨distNorm, [.fin 5, .fin 1], []⟩, ⟨distNorm, [.fin 5, .fin 1], []⟩]⟩,
        .error .gmcFitMethod) := by
  obtain ⟨p, hp⟩ := margGmcEx_kMeans mvn
  exact ⟨p, margGmc_default_violation.2 rfl margGmcEx_margins fun _ => hp⟩

example (mvn : MvnPdf 2) := (margGmc_pem_violation (m := 2) (o := margGmcEx) (env := fun _ => gmcExampleEnv mvn)
  (distFit := fun _ _ => .ok [.fin 5, .fin 1]) (data := fun (i : Fin 4) (j : Fin 2) => (i.val * (j.val + 1) : ℚ)) (x0 := .none)
  (method := "PEM") (ties := "average") (toPobs := true) (scale := .fin 1) (ms := []) (start := flParam ![1 / 3, 2 / 3]
    (fun i _ => i.val) fun _ => 1) (by decide)).1

/-- The second margin cannot be fitted. -/
example (mvn : MvnPdf 2) := margGmc_margin_fails (m := 2) (o := margGmcEx) (env := fun _ => gmcExampleEnv mvn)
  (distFit := fun _ l => if l = [0, 2, 4, 6] then .error .valueError else .ok [.fin 5, .fin 1])
  (data := fun (i : Fin 4) (j : Fin 2) => (i.val * (j.val + 1) : ℚ)) (x0 := .none) (method := "kmeans") (ties := "average") (toPobs := true)
  (scale := .fin 1) rfl (l₁ := [⟨distNorm, [], []⟩]) (l₂ := []) (f := ⟨distNorm, [], []⟩) (e := .valueError) rfl
  (fun i hi => by
    obtain rfl : i = 0 := by simpa using hi
    exact ⟨[.fin 5, .fin 1], by simp [column, List.ofFn_succ]⟩) (by norm_num [column, List.ofFn_succ])

end Copulae
