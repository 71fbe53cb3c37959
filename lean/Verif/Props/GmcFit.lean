import Verif.Props.GmcKmeans
import Verif.Props.GmcParam
import Verif.Lemmas.LogSum

/-!
C115, C116: `fit` of the Gaussian mixture copula and its gradient descent estimator.
-/

namespace Copulae

open Matrix

variable {m d n : ℕ}

/-! ### What `fit` does to the copula and to `x0` -/

/-- **C115.** After a successful `fit` the parameters of the copula are those of the summary, the method is recorded in lower
case, the numbers of clusters and dimensions are unchanged and the summary counts the rows of the data. -/
theorem gmcFit_success (env : GmcEnv d) (before : GmcObj) (data : Fin n → Fin d → ℚ) (x0 : GmcStart)
    (method ties : String) (maxIter : ℕ) (criteria : String) (eps : ℝ) {s : GmcSummary m d}
    (h : (gmcFit env m before data x0 method ties maxIter criteria eps).res = .ok s) :
    (gmcFit env m before data x0 method ties maxIter criteria eps).obj =
      { clusters := before.clusters, dim := before.dim, param := some ⟨m, d, s.best⟩, method := some s.method } ∧
    s.method.toList = pyLower method ∧ s.nsample = n := by
  unfold gmcFit at h ⊢
  cases hs : gmcStart env m data x0 with
  | error e => simp only [hs] at h; cases h
  | ok start =>
    simp only [hs] at h ⊢
    by_cases h1 : pyLower method = "pem".toList
    · simp only [if_pos h1] at h ⊢
      revert h
      cases hu : pobsMat data ties with
      | error e => simp [bind, Except.bind]
      | ok u =>
        cases he : expectationMaximization (emFns env m (toFl u)) start maxIter criteria eps with
        | error e => simp [bind, Except.bind, he]
        | ok r =>
          simp only [bind, Except.bind, he, pure, Except.pure, Except.ok.injEq]
          rintro rfl
          exact ⟨rfl, h1.symm, rfl⟩
    · simp only [if_neg h1] at h ⊢
      by_cases h2 : pyLower method = "sgd".toList
      · simp only [if_pos h2] at h ⊢
        revert h
        cases hu : pobsMat data ties with
        | error e => simp
        | ok u =>
          simp only
          cases hg : (gradientDescent env (toFl u) start).2 with
          | error e => simp
          | ok r =>
            simp only [Except.ok.injEq]
            rintro rfl
            have : r.method = "sgd" ∧ r.nsample = n := by
              unfold gradientDescent at hg
              simp only [bind, Except.bind, pure, Except.pure] at hg
              revert hg
              cases runSgd env m (toFl u) (env.opt start.toVector.2) with
              | error e => simp
              | ok o =>
                simp only
                cases fromVector env.ext m d o.x with
                | error e => simp
                | ok q =>
                  simp only [Except.ok.injEq]
                  rintro rfl
                  exact ⟨rfl, rfl⟩
            refine ⟨by rw [this.1], by rw [this.1]; exact h2.symm, this.2⟩
      · simp only [if_neg h2] at h ⊢
        by_cases h3 : pyLower method = "kmeans".toList
        · simp only [if_pos h3] at h ⊢
          cases x0 with
          | none =>
            simp only [Except.ok.injEq] at h ⊢
            subst h
            exact ⟨rfl, h3.symm, rfl⟩
          | param m' d' q =>
            revert h
            cases hk : kMeans env.ext env.km data m "average" with
            | error e => simp [bind, Except.bind]
            | ok r =>
              simp only [bind, Except.bind, pure, Except.pure, Except.ok.injEq]
              rintro rfl
              exact ⟨rfl, h3.symm, rfl⟩
          | vec l =>
            revert h
            cases hk : kMeans env.ext env.km data m "average" with
            | error e => simp [bind, Except.bind]
            | ok r =>
              simp only [bind, Except.bind, pure, Except.pure, Except.ok.injEq]
              rintro rfl
              exact ⟨rfl, h3.symm, rfl⟩
        · simp only [if_neg h3] at h
          cases h

/-- **C115, the part that holds.** The estimators other than gradient descent leave `x0` alone. Missing for the full
claim: gradient descent, see `gmcFit_sgd_x0_partial` and `gmcFit_sgd_changes_x0`. -/
theorem gmcFit_x0_partial (env : GmcEnv d) (before : GmcObj) (data : Fin n → Fin d → ℚ) (x0 : GmcStart)
    (method ties : String) (maxIter : ℕ) (criteria : String) (eps : ℝ) (hm : pyLower method ≠ "sgd".toList) :
    (gmcFit env m before data x0 method ties maxIter criteria eps).x0 = x0 := by
  unfold gmcFit
  cases hs : gmcStart env m data x0 with
  | error e => rfl
  | ok start =>
    simp only [if_neg hm]
    split_ifs
    · split <;> rfl
    · split <;> rfl
    · rfl

theorem gmcStart_param (env : GmcEnv d) (data : Fin n → Fin d → ℚ) (p : GMCParam m d) :
    gmcStart env m data (.param m d p) = .ok p := by
  simp [gmcStart]

/-- Gradient descent changes `x0` to what `to_vector` leaves. -/
theorem gmcFit_sgd_x0 (env : GmcEnv d) (before : GmcObj) (data : Fin n → Fin d → ℚ) (p : GMCParam m d)
    {method ties : String} (hm : pyLower method = "sgd".toList) {t : TieMethod} (ht : parseTies ties = .ok t)
    (maxIter : ℕ) (criteria : String) (eps : ℝ) :
    (gmcFit env m before data (.param m d p) method ties maxIter criteria eps).x0 = .param m d p.toVector.1 := by
  have h1 : ¬ pyLower method = "pem".toList := by
    rw [hm]
    decide
  have hu : ∃ u, pobsMat data ties = .ok u := ⟨_, by simp only [pobsMat, ht, bind, Except.bind, pure, Except.pure]; rfl⟩
  obtain ⟨u, hu⟩ := hu
  unfold gmcFit
  simp only [gmcStart_param, if_neg h1, if_pos hm, hu]
  split <;> rfl

/-- **C115, the part that holds** for gradient descent: `x0` is unchanged when its probabilities lie strictly between zero
and one. -/
theorem gmcFit_sgd_x0_partial (env : GmcEnv d) (before : GmcObj) (data : Fin n → Fin d → ℚ) (hk : 2 ≤ m) (hd : 1 ≤ d)
    {p : Fin m → ℝ} (hp : ∀ i, p i ∈ Set.Ioo (0 : ℝ) 1) (hs : ∑ i, p i = 1) (μ : Fin m → Fin d → ℝ)
    {S : Fin m → Matrix (Fin d) (Fin d) ℝ} (hS : ∀ i, (S i).PosSemidef)
    {method ties : String} (hm : pyLower method = "sgd".toList) {t : TieMethod} (ht : parseTies ties = .ok t)
    (maxIter : ℕ) (criteria : String) (eps : ℝ) :
    (gmcFit env m before data (.param m d (flParam p μ S)) method ties maxIter criteria eps).x0 =
      .param m d (flParam p μ S) := by
  rw [gmcFit_sgd_x0 env before data _ hm ht, (gmc_roundtrip_self env.ext hk hd p hp hs μ S hS).1]

/-- **C115 is violated**: gradient descent changes the object passed as `x0` when one of its probabilities is zero,
whatever the data and the optimiser. -/
theorem gmcFit_sgd_changes_x0 (env : GmcEnv d) (before : GmcObj) (data : Fin n → Fin d → ℚ) (hk : 2 ≤ m)
    {p : Fin m → ℝ} (h0 : ∀ i, 0 ≤ p i) {i : Fin m} (hi : p i = 0) (μ : Fin m → Fin d → ℝ)
    (S : Fin m → Matrix (Fin d) (Fin d) ℝ) {method ties : String} (hm : pyLower method = "sgd".toList)
    {t : TieMethod} (ht : parseTies ties = .ok t) (maxIter : ℕ) (criteria : String) (eps : ℝ) :
    (gmcFit env m before data (.param m d (flParam p μ S)) method ties maxIter criteria eps).x0 ≠
      .param m d (flParam p μ S) := by
  rw [gmcFit_sgd_x0 env before data _ hm ht]
  intro h
  refine toVector_changes hk p h0 i hi μ S ?_
  simpa using h

/-- **C115 is violated**: a call that raises changes the copula. With an unknown method the parameters are already
replaced by `x0`, whatever they were. -/
theorem gmcFit_unknown_method (env : GmcEnv d) (before : GmcObj) (data : Fin n → Fin d → ℚ) (p : GMCParam m d)
    {method ties : String} (hm : pyLower method ∉ ["pem".toList, "sgd".toList, "kmeans".toList])
    (maxIter : ℕ) (criteria : String) (eps : ℝ) :
    (gmcFit env m before data (.param m d p) method ties maxIter criteria eps).res = .error .gmcFitMethod ∧
    (gmcFit env m before data (.param m d p) method ties maxIter criteria eps).obj.param = some ⟨m, d, p⟩ := by
  simp only [List.mem_cons, List.not_mem_nil, or_false, not_or] at hm
  unfold gmcFit
  simp only [gmcStart_param, if_neg hm.1, if_neg hm.2.1, if_neg hm.2.2, and_self]

/-- An unknown method exists. -/
example : pyLower "mle" ∉ ["pem".toList, "sgd".toList, "kmeans".toList] := by decide

/-- **C115 is violated**: the k-means estimator ignores `ties`, and so even accepts values which the other estimators
refuse. -/
theorem gmcFit_kmeans_ties (env : GmcEnv d) (before : GmcObj) (data : Fin n → Fin d → ℚ) (x0 : GmcStart)
    {method : String} (hm : pyLower method = "kmeans".toList) (ties ties' : String) (maxIter : ℕ) (criteria : String)
    (eps : ℝ) :
    gmcFit env m before data x0 method ties maxIter criteria eps =
      gmcFit env m before data x0 method ties' maxIter criteria eps := by
  have h1 : ¬ pyLower method = "pem".toList := by rw [hm]; decide
  have h2 : ¬ pyLower method = "sgd".toList := by rw [hm]; decide
  unfold gmcFit
  simp only [if_neg h1, if_neg h2]

/-- **C115.** Without `x0` the fit starts from the parameters found by k-means with average ranks: the copula and the
summary are those of a fit with these as `x0`, and if k-means raises the call does too and leaves the copula alone. -/
theorem gmcFit_default_start (env : GmcEnv d) (before : GmcObj) (data : Fin n → Fin d → ℚ)
    (method ties : String) (maxIter : ℕ) (criteria : String) (eps : ℝ) :
    (∀ p, kMeans env.ext env.km data m "average" = .ok p →
      (gmcFit env m before data .none method ties maxIter criteria eps).obj =
        (gmcFit env m before data (.param m d p) method ties maxIter criteria eps).obj ∧
      (gmcFit env m before data .none method ties maxIter criteria eps).res =
        (gmcFit env m before data (.param m d p) method ties maxIter criteria eps).res) ∧
    ∀ e, kMeans env.ext env.km data m "average" = .error e →
      (gmcFit env m before data .none method ties maxIter criteria eps).obj = before ∧
      (gmcFit env m before data .none method ties maxIter criteria eps).res = .error e := by
  constructor
  · intro p hp
    have h0 : gmcStart env m data .none = .ok p := hp
    unfold gmcFit
    simp only [h0, gmcStart_param, hp, bind, Except.bind, pure, Except.pure]
    split_ifs
    · split <;> exact ⟨rfl, rfl⟩
    · split
      · exact ⟨rfl, rfl⟩
      · split <;> exact ⟨rfl, rfl⟩
    · exact ⟨rfl, rfl⟩
    · exact ⟨rfl, rfl⟩
  · intro e he
    have h0 : gmcStart env m data .none = .error e := he
    unfold gmcFit
    simp only [h0, and_self]

/-- **C115.** The k-means method returns the parameters of k-means, whatever the start was. -/
theorem gmcFit_kmeans (env : GmcEnv d) (before : GmcObj) (data : Fin n → Fin d → ℚ) (x0 : GmcStart) {start p : GMCParam m d}
    (hstart : gmcStart env m data x0 = .ok start) (hp : kMeans env.ext env.km data m "average" = .ok p)
    {method : String} (hm : pyLower method = "kmeans".toList) (ties : String) (maxIter : ℕ) (criteria : String) (eps : ℝ) :
    (gmcFit env m before data x0 method ties maxIter criteria eps).res = .ok ⟨p, true, "kmeans", n⟩ := by
  have h1 : ¬ pyLower method = "pem".toList := by rw [hm]; decide
  have h2 : ¬ pyLower method = "sgd".toList := by rw [hm]; decide
  unfold gmcFit
  simp only [hstart, if_neg h1, if_neg h2, if_pos hm, hp, bind, Except.bind, pure, Except.pure]
  cases x0 with
  | none =>
    have : start = p := by
      have h3 : gmcStart env m data .none = .ok p := hp
      rw [h3] at hstart
      exact (Except.ok.inj hstart).symm
    simp only [this]
  | param => rfl
  | vec => rfl

/-! ### Gradient descent -/

theorem list_sum_nan {l : List Fl} (h : Fl.nan ∈ l) : l.sum = .nan := by
  induction l with
  | nil => simp at h
  | cons a l ih =>
    rw [List.sum_cons]
    rcases List.mem_cons.mp h with h | h
    · rw [← h]
      exact Fl.nan_add _
    · rw [ih h]
      exact Fl.add_nan _

theorem logistic_cases (x : Fl) : Fl.exp x / (.fin 1 + Fl.exp x) = .nan ∨
    ∃ r : ℝ, 0 ≤ r ∧ Fl.exp x / (.fin 1 + Fl.exp x) = .fin r := by
  cases x with
  | nan => exact Or.inl rfl
  | pinf => exact Or.inl rfl
  | ninf =>
    refine Or.inr ⟨0, le_rfl, ?_⟩
    rw [Fl.exp_ninf, Fl.fin_add_fin, Fl.fin_div_fin' _ (by norm_num), zero_div]
  | fin r =>
    refine Or.inr ⟨Real.exp r / (1 + Real.exp r), by positivity, ?_⟩
    have : 1 + Real.exp r ≠ 0 := by positivity
    rw [Fl.exp_fin, Fl.fin_add_fin, Fl.fin_div_fin' _ this]

/-- The probabilities of an object made by `from_vector` sum to one. -/
theorem fromVector_prob (ext : CovNearest) {v : List Fl} {s : GMCParam m d} (h : fromVector ext m d v = .ok s) :
    ∃ e : Fin m → ℝ, s.prob = (fun i => .fin (e i)) ∧ (∀ i, 0 ≤ e i) ∧ ∑ i, e i = 1 := by
  set q := (v.take m).map fun x => Fl.exp x / (.fin 1 + Fl.exp x) with hq
  have hp : setProb m (q.map fun x => x / q.sum) = .ok s.prob := by
    rw [fromVector] at h
    simp only [bind, Except.bind] at h
    split_ifs at h with h1 h2
    · revert h
      cases (blocks (d * (d + 1) / 2) (v.drop (m + m * d)).length (v.drop (m + m * d))).mapM (covOfUpper d) with
      | error e => simp
      | ok covs =>
        simp only [GMCParam.mk', bind, Except.bind, pure, Except.pure]
        rw [← hq]
        cases setProb m (q.map fun x => x / q.sum) with
        | error e => simp
        | ok P =>
          simp only
          cases setMeans m d _ with
          | error e => simp
          | ok M =>
            simp only
            cases setCovs ext m d _ with
            | error e => simp
            | ok C =>
              simp only [Except.ok.injEq]
              rintro rfl
              rfl
  rw [setProb] at hp
  split_ifs at hp with hl hc
  push Not at hc
  have hclose := hc.2.2
  have hP := (Except.ok.inj hp).symm
  have hne : (q.map fun x => x / q.sum) ≠ [] := by
    intro h0
    rw [h0] at hclose
    norm_num [closeTo] at hclose
  have hnn : Fl.nan ∉ (q.map fun x => x / q.sum) := fun hmem => by
    rw [list_sum_nan hmem] at hclose
    exact hclose
  have hqn : Fl.nan ∉ q := fun hmem => by
    refine hnn (List.mem_map.mpr ⟨_, hmem, ?_⟩)
    exact Fl.nan_div _
  obtain ⟨r, hr0, hr⟩ : ∃ r : List ℝ, (∀ x ∈ r, 0 ≤ x) ∧ q = r.map Fl.fin := by
    have : ∀ l : List Fl, Fl.nan ∉ l.map (fun x => Fl.exp x / (.fin 1 + Fl.exp x)) →
        ∃ r : List ℝ, (∀ x ∈ r, 0 ≤ x) ∧ l.map (fun x => Fl.exp x / (.fin 1 + Fl.exp x)) = r.map Fl.fin := by
      intro l
      induction l with
      | nil => exact fun _ => ⟨[], by simp, rfl⟩
      | cons a l ih =>
        intro hn
        rw [List.map_cons, List.mem_cons, not_or] at hn
        obtain ⟨r, hr0, hr⟩ := ih hn.2
        rcases logistic_cases a with ha | ⟨x, hx, ha⟩
        · exact absurd ha.symm hn.1
        · exact ⟨x :: r, by simpa using ⟨hx, hr0⟩, by rw [List.map_cons, List.map_cons, ha, hr]⟩
    exact this _ hqn
  have hsum : q.sum = .fin r.sum := by rw [hr, list_sum_fin]
  have hE : r.sum ≠ 0 := by
    intro h0
    obtain ⟨a, ha⟩ := List.exists_mem_of_ne_nil _ hne
    obtain ⟨x, hx, rfl⟩ := List.mem_map.mp ha
    have hx' := hx
    rw [hr] at hx'
    obtain ⟨y, hy, rfl⟩ := List.mem_map.mp hx'
    have hy0 : y = 0 := by
      have := List.single_le_sum hr0 y hy
      linarith [hr0 y hy]
    refine hnn ?_
    rw [hsum, h0, hy0, Fl.fin_div_fin, if_pos rfl] at ha
    have : Fl.infSign 0 = .nan := by simp [Fl.infSign]
    rw [this] at ha
    rwa [hsum, h0]
  have hlist : (q.map fun x => x / q.sum) = (r.map fun x => x / r.sum).map Fl.fin := by
    rw [hsum, hr, List.map_map, List.map_map]
    refine List.map_congr_left fun x _ => ?_
    simp only [Function.comp]
    rw [Fl.fin_div_fin' _ hE]
  have hlen : (r.map fun x => x / r.sum).length = m := by
    rw [hlist, List.length_map] at hl
    exact hl
  refine ⟨fun i => (r.map fun x => x / r.sum)[i.val]'(i.2.trans_eq hlen.symm), ?_, fun i => ?_, ?_⟩
  · rw [hP]
    funext i
    simp only [hlist, List.getElem_map]
  · simp only [List.getElem_map]
    exact div_nonneg (hr0 _ (List.getElem_mem _)) (List.sum_nonneg hr0)
  · have h1 : ∑ i : Fin m, (r.map fun x => x / r.sum)[i.val]'(i.2.trans_eq hlen.symm) =
        (r.map fun x => x / r.sum).sum := by
      rw [← List.sum_ofFn]
      congr 1
      refine List.ext_getElem (by simp [hlen]) fun k h1 h2 => ?_
      simp
    rw [h1]
    have h2 : ∀ l : List ℝ, (l.map fun x => x / r.sum).sum = l.sum / r.sum := fun l => by
      induction l with
      | nil => simp
      | cons a l ih => rw [List.map_cons, List.sum_cons, ih, List.sum_cons, add_div]
    rw [h2, div_self hE]

/-- The objective at a vector is the negative of the log-likelihood of the parameters it stands for. -/
theorem sgdObjective_eq (env : GmcEnv d) (u : Fin n → Fin d → Fl) {x : List Fl} {s : GMCParam m d}
    (h : fromVector env.ext m d x = .ok s) :
    sgdObjective env m u x = (gmcmLogLik env.mvn s u).map fun v => -v := by
  obtain ⟨e, he, he0, hes⟩ := fromVector_prob env.ext h
  have hd1 : (fun i : Fin m => s.prob i / ∑ k, s.prob k) = fun i => .fin (e i) := by
    rw [he]
    funext i
    rw [Fl.sum_fin, hes, Fl.fin_div_fin' _ one_ne_zero, div_one]
  have hset : setProb m (List.ofFn fun i => s.prob i / ∑ k, s.prob k) = .ok s.prob := by
    rw [hd1, he]
    refine setProb_ok e he0 (fun i => ?_) (by rw [hes]; norm_num)
    rw [← hes]
    exact Finset.single_le_sum (fun i _ => he0 i) (Finset.mem_univ i)
  unfold sgdObjective
  simp only [h, hset, bind, Except.bind, pure, Except.pure]
  cases gmcmLogLik env.mvn s u with
  | error e => rfl
  | ok v => rfl

namespace OptTree

/-- The contract of `minimize` used here: it evaluates the objective at the start, and returns a point at which it
evaluated the objective, with a value that is not larger than that at the start. `seen` are the evaluations so far. -/
def Descends (x0 : List Fl) : List (List Fl × Fl) → OptTree → Prop
  | seen, .done r => (r.x, r.fn) ∈ seen ∧ ∃ v, (x0, v) ∈ seen ∧ ¬ v < r.fn
  | seen, .eval x next => ∀ v, Descends x0 ((x, v) :: seen) (next v)

end OptTree

theorem runSgd_descends (env : GmcEnv d) (u : Fin n → Fin d → Fl) {x0 : List Fl} :
    ∀ (t : OptTree) (seen : List (List Fl × Fl)), t.Descends x0 seen →
      (∀ p ∈ seen, sgdObjective env m u p.1 = .ok p.2) → ∀ r, runSgd env m u t = .ok r →
      sgdObjective env m u r.x = .ok r.fn ∧ ∃ v, sgdObjective env m u x0 = .ok v ∧ ¬ v < r.fn
  | .done r, seen, hh, hs, r', h => by
    cases h
    obtain ⟨h1, v, h2, h3⟩ := hh
    exact ⟨hs _ h1, v, hs _ h2, h3⟩
  | .eval x next, seen, hh, hs, r, h => by
    rw [runSgd] at h
    cases hx : sgdObjective env m u x with
    | error e => rw [hx] at h; cases h
    | ok v =>
      rw [hx] at h
      refine runSgd_descends env u (next v) ((x, v) :: seen) (hh v) (fun p hp => ?_) r h
      rcases List.mem_cons.mp hp with rfl | hp
      · exact hx
      · exact hs p hp

/-- **C116.** For two or more clusters, from a start with probabilities strictly between zero and one: when gradient descent
succeeds, the parameters it returns have probabilities with sum one, and their log-likelihood is not below that of the
start. -/
theorem sgd_improves (env : GmcEnv d) (hopt : ∀ x, (env.opt x).Descends x []) (hk : 2 ≤ m) (hd : 1 ≤ d)
    {p : Fin m → ℝ} (hp : ∀ i, p i ∈ Set.Ioo (0 : ℝ) 1) (hs : ∑ i, p i = 1) (μ : Fin m → Fin d → ℝ)
    {S : Fin m → Matrix (Fin d) (Fin d) ℝ} (hS : ∀ i, (S i).PosSemidef) (u : Fin n → Fin d → Fl)
    {s : GmcSummary m d} (h : (gradientDescent env u (flParam p μ S)).2 = .ok s) :
    (∃ e : Fin m → ℝ, s.best.prob = (fun i => .fin (e i)) ∧ (∀ i, 0 ≤ e i) ∧ ∑ i, e i = 1) ∧
    ∃ a b, gmcmLogLik env.mvn (flParam p μ S) u = .ok a ∧ gmcmLogLik env.mvn s.best u = .ok b ∧ ¬ b < a := by
  obtain ⟨h1, h2⟩ := gmc_roundtrip_self env.ext hk hd p hp hs μ S hS
  unfold gradientDescent at h
  simp only [bind, Except.bind, pure, Except.pure] at h
  cases hr : runSgd env m u (env.opt (flParam p μ S).toVector.2) with
  | error e => rw [hr] at h; cases h
  | ok r =>
    rw [hr] at h
    simp only at h
    cases hf : fromVector env.ext m d r.x with
    | error e => rw [hf] at h; cases h
    | ok q =>
      rw [hf] at h
      obtain ⟨hx, v, hv, hlt⟩ := runSgd_descends env u _ [] (hopt _) (by simp) r hr
      rw [sgdObjective_eq env u hf] at hx
      rw [sgdObjective_eq env u h2] at hv
      simp only [Except.ok.injEq] at h
      subst h
      refine ⟨fromVector_prob env.ext hf, ?_⟩
      cases ha : gmcmLogLik env.mvn (flParam p μ S) u with
      | error e => rw [ha] at hv; cases hv
      | ok a =>
        cases hb : gmcmLogLik env.mvn q u with
        | error e => rw [hb] at hx; cases hx
        | ok b =>
          rw [ha] at hv
          rw [hb] at hx
          simp only [Except.map, Except.ok.injEq] at hv hx
          refine ⟨a, b, rfl, rfl, fun hab => hlt ?_⟩
          rw [← hv, ← hx]
          cases a <;> cases b <;> first | exact hab.elim | skip
          all_goals first | exact trivial | skip
          rw [Fl.neg_fin, Fl.neg_fin, Fl.fin_lt_fin]
          rw [Fl.fin_lt_fin] at hab
          linarith

/-- An optimiser that meets the contract: it evaluates the start and stops. -/
example (x : List Fl) : (OptTree.eval x fun v => .done ⟨true, x, v⟩).Descends x [] := by
  intro v
  refine ⟨by simp, v, by simp, ?_⟩
  cases v with
  | fin r => rw [Fl.fin_lt_fin]; exact lt_irrefl r
  | _ => exact fun h => h

/-- **C116 is violated** for one cluster: gradient descent raises `GMCParamError` at the first evaluation, for all means,
covariances, data and optimisers that begin at the start. -/
theorem sgd_one_cluster_fails (env : GmcEnv d) (hopt : ∀ x, ∃ next, env.opt x = .eval x next) (hd : 1 ≤ d)
    (μ : Fin 1 → Fin d → ℝ) {S : Fin 1 → Matrix (Fin d) (Fin d) ℝ} (hS : ∀ i, (S i).PosSemidef)
    (u : Fin n → Fin d → Fl) :
    (gradientDescent env u (flParam (fun _ => 1) μ S)).2 = .error .gmcParam := by
  obtain ⟨next, hn⟩ := hopt (flParam (fun _ => 1) μ S).toVector.2
  unfold gradientDescent
  simp only [bind, Except.bind, hn, runSgd, sgdObjective, gmc_one_cluster_fails env.ext hd μ S hS]

/-! ### The parameters fit the copula -/

/-- **C117, the part that holds.** Parameters assigned as a `GMCParam` object or as a vector, to a new or to an existing
copula, have its numbers of clusters and dimensions; anything else raises and `None` leaves the copula without parameters.
Missing for the full claim: parameters given as a dictionary, see `gmcInit_dict_mismatch`. -/
theorem gmcSetParams_shape_partial (ext : CovNearest) (clusters dim : ℕ) {a : GmcArg} (ha : ∀ p m c, a ≠ .dict p m c)
    {m d : ℕ} {p : GMCParam m d} (h : gmcSetParams ext clusters dim a = .ok (some ⟨m, d, p⟩)) :
    m = clusters ∧ d = dim := by
  cases a with
  | none => simp [gmcSetParams] at h
  | dict x y z => exact absurd rfl (ha x y z)
  | param m' d' q =>
    simp only [gmcSetParams] at h
    split_ifs at h with hc
    push Not at hc
    simp only [Except.ok.injEq, Option.some.injEq, Sigma.mk.injEq] at h
    exact ⟨h.1.symm.trans hc.2, by
      obtain ⟨rfl, h2⟩ := h
      have := congrArg Sigma.fst (eq_of_heq h2)
      exact this.symm.trans hc.1⟩
  | vec l =>
    simp only [gmcSetParams, bind, Except.bind, pure, Except.pure] at h
    revert h
    cases fromVector ext clusters dim l with
    | error e => simp
    | ok q =>
      simp only [Except.ok.injEq, Option.some.injEq, Sigma.mk.injEq]
      rintro ⟨rfl, h2⟩
      have := congrArg Sigma.fst (eq_of_heq h2)
      exact ⟨rfl, this.symm⟩
  | other => simp [gmcSetParams] at h

/-- A `GMCParam` with other numbers of clusters or dimensions is refused. -/
theorem gmcSetParams_mismatch (ext : CovNearest) (clusters dim : ℕ) {m d : ℕ} (p : GMCParam m d)
    (h : d ≠ dim ∨ m ≠ clusters) : gmcSetParams ext clusters dim (.param m d p) = .error .gmcMismatch := by
  rw [gmcSetParams, if_pos h]

/-- Values of other types are refused, `None` removes the parameters and a `GMCParam` that fits is stored as it is. -/
theorem gmcSetParams_other (ext : CovNearest) (clusters dim : ℕ) :
    gmcSetParams ext clusters dim .other = .error .gmcMismatch ∧
    gmcSetParams ext clusters dim .none = .ok none ∧
    ∀ p : GMCParam clusters dim, gmcSetParams ext clusters dim (.param clusters dim p) = .ok (some ⟨clusters, dim, p⟩) :=
  ⟨rfl, rfl, fun p => by simp [gmcSetParams]⟩

/-- **C117 is violated** by dictionaries: a copula with any numbers of clusters and dimensions accepts the dictionary of
every valid mixture of any other size. -/
theorem gmcInit_dict_mismatch (ext : CovNearest) (clusters dim : ℕ) (hdim : 2 ≤ dim) {m d : ℕ} {p : Fin m → ℝ}
    (hp : ∀ i, 0 ≤ p i) (hs : ∑ i, p i = 1) (μ : Fin m → Fin d → ℝ) {S : Fin m → Matrix (Fin d) (Fin d) ℝ}
    (hS : ∀ i, (S i).PosSemidef) :
    gmcInit ext clusters dim (.dict (List.ofFn fun i => .fin (p i))
      ⟨m, d, fun i j => if h : i < m ∧ j < d then .fin (μ ⟨i, h.1⟩ ⟨j, h.2⟩) else .nan⟩
      ⟨m, d, d, fun i a b => if h : i < m ∧ a < d ∧ b < d then .fin (S ⟨i, h.1⟩ ⟨a, h.2.1⟩ ⟨b, h.2.2⟩) else .nan⟩) =
    .ok ⟨clusters, dim, some ⟨m, d, flParam p μ S⟩, none⟩ := by
  have hk := mk'_ok ext p hp (fun i => by
      rw [← hs]
      exact Finset.single_le_sum (fun i _ => hp i) (Finset.mem_univ i)) (by rw [hs]; norm_num) μ S hS _ rfl
    (fun i j => if h : i < m ∧ j < d then .fin (μ ⟨i, h.1⟩ ⟨j, h.2⟩) else .nan)
    (fun i j => by rw [dif_pos ⟨i.2, j.2⟩])
    (fun i a b => if h : i < m ∧ a < d ∧ b < d then .fin (S ⟨i, h.1⟩ ⟨a, h.2.1⟩ ⟨b, h.2.2⟩) else .nan)
    (fun i a b => by rw [dif_pos ⟨i.2, a.2, b.2⟩])
  simp only [gmcInit, not_not.mpr hdim, if_false, gmcSetParams, fromDict, hk, bind, Except.bind, pure, Except.pure]

/-- Functions for the examples: k-means puts the first half of the rows into one cluster, the optimiser returns its start. -/
noncomputable def gmcExampleEnv (mvn : MvnPdf 2) : GmcEnv 2 where
  ext _ M := M
  km _ _ _ _ := .ok fun i => i.val / 2
  mvn := mvn
  opt x := .done ⟨true, x, .fin 0⟩

theorem half_weights (i : Fin 2) : (![1 / 3, 2 / 3] i : ℝ) ∈ Set.Ioo (0 : ℝ) 1 := by fin_cases i <;> norm_num

/-- A successful fit. -/
theorem gmcFit_example (mvn : MvnPdf 2) (o : GmcObj) :
    (gmcFit (gmcExampleEnv mvn) 2 o (fun (i : Fin 4) (j : Fin 2) => (i.val * (j.val + 1) : ℚ))
      (.param 2 2 (flParam ![1 / 3, 2 / 3] (fun i _ => i.val) fun _ => 1)) "SGD" "average" 100 "GMCM" 1e-4).res =
    .ok ⟨flParam ![1 / 3, 2 / 3] (fun i _ => i.val) fun _ => 1, true, "sgd", 4⟩ := by
  obtain ⟨h1, h2⟩ := gmc_roundtrip_self (gmcExampleEnv mvn).ext (m := 2) (d := 2) le_rfl (by norm_num) ![1 / 3, 2 / 3] half_weights
    (by norm_num [Fin.sum_univ_two]) (fun i _ => i.val) (fun _ => 1) fun _ => Matrix.PosSemidef.one
  have hp : pyLower "SGD" ≠ "pem".toList := by decide
  have hs : pyLower "SGD" = "sgd".toList := by decide
  obtain ⟨u, hu⟩ : ∃ u, pobsMat (fun (i : Fin 4) (j : Fin 2) => (i.val * (j.val + 1) : ℚ)) "average" = .ok u := ⟨_, rfl⟩
  unfold gmcFit
  rw [gmcStart_param]
  simp only [if_neg hp, if_pos hs, hu]
  simp only [gradientDescent, gmcExampleEnv, runSgd, bind, Except.bind, h1]
  simp only [gmcExampleEnv] at h2
  simp only [h2]
  rfl

example (mvn : MvnPdf 2) (o : GmcObj) := gmcFit_success _ o _ _ _ _ _ _ _ (gmcFit_example mvn o)

example (mvn : MvnPdf 2) (o : GmcObj) (l : List Fl) := gmcFit_x0_partial (m := 2) (gmcExampleEnv mvn) o
  (fun (i : Fin 4) (j : Fin 2) => (i.val * (j.val + 1) : ℚ)) (.vec l) "pem" "average" 100 "GMCM" 1e-4 (by decide)

example (mvn : MvnPdf 2) (o : GmcObj) := gmcFit_sgd_x0_partial (gmcExampleEnv mvn) o
  (fun (i : Fin 4) (j : Fin 2) => (i.val * (j.val + 1) : ℚ)) le_rfl (by norm_num) half_weights
  (by norm_num [Fin.sum_univ_two]) (fun i _ => i.val) (S := fun _ => 1) (fun _ => Matrix.PosSemidef.one) (method := "sgd")
  (by decide) (ties := "average") (t := .average) (by decide) 100 "GMCM" 1e-4

example (mvn : MvnPdf 2) (o : GmcObj) := gmcFit_sgd_changes_x0 (gmcExampleEnv mvn) o
  (fun (i : Fin 4) (j : Fin 2) => (i.val * (j.val + 1) : ℚ)) le_rfl (p := ![0, 1])
  (by intro i; fin_cases i <;> norm_num) (i := 0) rfl (fun i _ => i.val) (fun _ => 1) (method := "sgd")
  (by decide) (ties := "average") (t := .average) (by decide) 100 "GMCM" 1e-4

example (mvn : MvnPdf 2) (o : GmcObj) := gmcFit_kmeans_ties (m := 2) (gmcExampleEnv mvn) o
  (fun (i : Fin 4) (j : Fin 2) => (i.val * (j.val + 1) : ℚ)) .none (method := "KMeans") (by decide) "average" "nonsense" 100
  "GMCM" 1e-4

example (mvn : MvnPdf 2) (o : GmcObj) : ∃ r, (gmcFit (m := 2) (gmcExampleEnv mvn) o
    (fun (i : Fin 4) (j : Fin 2) => (i.val * (j.val + 1) : ℚ)) .none "kmeans" "average" 100 "GMCM" 1e-4).res = .ok r := by
  obtain ⟨p, μ, S, h, -⟩ := kMeans_valid (m := 2) (labels := fun i : Fin 4 => i.val / 2) (gmcExampleEnv mvn).ext
    (gmcExampleEnv mvn).km le_rfl (data := fun (i : Fin 4) (j : Fin 2) => (i.val * (j.val + 1) : ℚ))
    (ties := "average") rfl rfl (by norm_num) (fun i => by omega) (by decide)
  exact ⟨_, gmcFit_kmeans (gmcExampleEnv mvn) o _ .none h h (by decide) _ _ _ _⟩

example (ext : CovNearest) := fromVector_prob ext (gmc_roundtrip_self ext (m := 2) (d := 2) le_rfl (by norm_num) ![1 / 3, 2 / 3]
  half_weights (by norm_num [Fin.sum_univ_two]) (fun i _ => i.val) (fun _ => 1) fun _ => Matrix.PosSemidef.one).2

example (mvn : MvnPdf 2) (u : Fin 5 → Fin 2 → Fl) := sgdObjective_eq (gmcExampleEnv mvn) u
  (gmc_roundtrip_self (gmcExampleEnv mvn).ext (m := 2) (d := 2) le_rfl (by norm_num) ![1 / 3, 2 / 3] half_weights
    (by norm_num [Fin.sum_univ_two]) (fun i _ => i.val) (fun _ => 1) fun _ => Matrix.PosSemidef.one).2

example (mvn : MvnPdf 2) (u : Fin 5 → Fin 2 → Fl) := sgd_one_cluster_fails
  { gmcExampleEnv mvn with opt := fun x => .eval x fun v => .done ⟨true, x, v⟩ } (fun _ => ⟨_, rfl⟩) (by norm_num)
  (fun _ j => j.val) (S := fun _ => 1) (fun _ => Matrix.PosSemidef.one) u

example (ext : CovNearest) (p : GMCParam 2 3) := gmcSetParams_shape_partial ext 2 3 (a := .param 2 3 p) (by simp) (p := p)
  (by simp [gmcSetParams])

example (ext : CovNearest) (p : GMCParam 2 3) := gmcSetParams_mismatch ext 2 4 p (.inl (by norm_num))

example (ext : CovNearest) := gmcInit_dict_mismatch ext 3 4 (by norm_num) (m := 2) (d := 2) (p := ![1 / 3, 2 / 3])
  (fun i => (half_weights i).1.le) (by norm_num [Fin.sum_univ_two]) (fun i _ => i.val) (S := fun _ => 1)
  (fun _ => Matrix.PosSemidef.one)

end Copulae
