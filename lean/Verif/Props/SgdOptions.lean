import Verif.Model.SgdOptions
import Mathlib.Tactic.SplitIfs

/-!
**C154** The options of gradient descent: `fit(data, method='sgd', max_iter=..., optim_options=...)` of a Gaussian mixture copula.
-/

namespace Copulae

/-- The optimisers for which the library has defaults. -/
def Spec.sgdKnown (m : String) : Prop :=
  pyLower m ∈ ["nelder-mead".toList, "bfgs".toList, "slsqp".toList, "cobyla".toList, "trust-constr".toList]

/-- The optimiser asked for. -/
def Spec.sgdMethod (opts : PyDict SgdLeaf) : DVal SgdLeaf := (dget opts "method").getD (.leaf (.str "nelder-mead"))

open Spec

theorem dget_dpop {α : Type} (a : PyDict α) (k k' : String) : dget (dpop a k) k' = if k' = k then none else dget a k' := by
  induction a with
  | nil => simp [dpop, dget]
  | cons e t ih =>
    obtain ⟨x, v⟩ := e
    unfold dpop at ih ⊢
    by_cases hx : x = k
    · subst hx
      rw [List.filter_cons_of_neg (by simp), ih]
      by_cases hk : k' = x
      · simp [hk]
      · have : ¬ x = k' := fun h => hk h.symm
        simp [dget, hk, this]
    · rw [List.filter_cons_of_pos (by simpa using hx)]
      by_cases hk : x = k'
      · subst hk
        simp [dget, hx]
      · simp only [dget, hk, if_false, ih]

/-- What is passed on. -/
def Spec.sgdPassed (opts rest : PyDict SgdLeaf) : Prop :=
  ∀ k, dget rest k = if k ∈ ["method", "disp", "options", "args"] then none else dget opts k

theorem sgd_rest (opts : PyDict SgdLeaf) : sgdPassed opts (dpop (dpop (dpop (dpop opts "method") "disp") "options") "args") := by
  intro k
  simp only [dget_dpop, List.mem_cons, List.not_mem_nil, or_false]
  split_ifs <;> simp_all

/-- **C154** When `minimize` is called, it gets the optimiser asked for, the options given, and every other keyword unchanged; `args` and
`disp` are not passed on. -/
theorem sgd_passes {maxIter : ℕ} {opts : PyDict SgdLeaf} {r : SgdCall} (h : sgdCall maxIter opts = .ok r) :
    r.method = sgdMethod opts ∧ (∀ o, dget opts "options" = some o → r.options = o) ∧ sgdPassed opts r.rest := by
  unfold sgdCall at h
  split_ifs at h
  simp only [bind, Except.bind] at h
  cases hd : sgdDefault ((dget opts "method").getD (.leaf (.str "nelder-mead"))) ((dget opts "disp").getD (.leaf (.bool false))) maxIter with
  | error e => simp [hd] at h
  | ok d =>
    simp only [hd] at h
    split_ifs at h
    obtain rfl := Except.ok.inj h
    refine ⟨rfl, fun o ho => ?_, sgd_rest opts⟩
    simp [ho]

/-- **C154**, for the optimisers with defaults (partial): unless options are given, the optimiser is told the greatest number of
iterations, and `disp` as given. -/
theorem sgd_maxiter_partial {maxIter : ℕ} {opts : PyDict SgdLeaf} {r : SgdCall} (h : sgdCall maxIter opts = .ok r) {m : String}
    (hm : sgdMethod opts = .leaf (.str m)) (hk : sgdKnown m) (ho : dget opts "options" = none) :
    ∃ d, r.options = .dict d ∧ dget d "maxiter" = some (.leaf (.num maxIter)) ∧
      dget d "disp" = some ((dget opts "disp").getD (.leaf (.bool false))) := by
  unfold sgdCall at h
  split_ifs at h
  simp only [bind, Except.bind] at h
  unfold sgdMethod at hm
  rw [hm] at h
  cases hd : sgdDefault (.leaf (.str m)) ((dget opts "disp").getD (.leaf (.bool false))) maxIter with
  | error e => simp [hd] at h
  | ok d =>
    simp only [hd, ho, Option.getD_none] at h
    split_ifs at h
    obtain rfl := Except.ok.inj h
    refine ⟨d, rfl, ?_⟩
    simp only [sgdKnown, List.mem_cons, List.not_mem_nil, or_false] at hk
    simp only [sgdDefault] at hd
    split_ifs at hd with h1 h2 h3 h4 h5
    · obtain rfl := Except.ok.inj hd; simp [dget]
    · obtain rfl := Except.ok.inj hd; simp [dget]
    · obtain rfl := Except.ok.inj hd; simp [dget]
    · obtain rfl := Except.ok.inj hd; simp [dget]
    · obtain rfl := Except.ok.inj hd; simp [dget]
    · exact absurd hk (by simp only [h1, h2, h3, h4, h5, or_self, not_false_eq_true])

/-- Finding (**C154** is violated): every other optimiser of SciPy gets no options at all, so that `max_iter` and `disp` are ignored. -/
theorem sgd_maxiter_violation {maxIter : ℕ} {opts : PyDict SgdLeaf} {r : SgdCall} (h : sgdCall maxIter opts = .ok r) {m : String}
    (hm : sgdMethod opts = .leaf (.str m)) (hk : ¬ sgdKnown m) (ho : dget opts "options" = none) : r.options = .dict [] := by
  unfold sgdCall at h
  split_ifs at h
  simp only [bind, Except.bind] at h
  unfold sgdMethod at hm
  rw [hm] at h
  simp only [sgdKnown, List.mem_cons, List.not_mem_nil, or_false, not_or] at hk
  obtain ⟨h1, h2, h3, h4, h5⟩ := hk
  simp only [sgdDefault, h1, h2, h3, h4, h5, if_false, ho, Option.getD_none] at h
  split_ifs at h
  obtain rfl := Except.ok.inj h
  rfl

theorem dget_isSome_iff {α : Type} (a : PyDict α) (k : String) : (dget a k).isSome ↔ k ∈ a.map Prod.fst := by
  induction a with
  | nil => simp [dget]
  | cons e t ih =>
    obtain ⟨x, v⟩ := e
    by_cases hx : x = k
    · simp [dget, hx]
    · have : ¬ k = x := fun h => hx h.symm
      simp [dget, hx, this, ih]

/-- **C154** Which options are accepted: the optimiser has to be named by a string, even if options are given, and every key has to be
one that `minimize` knows, or `method`, `options`, `disp`, `args`. In particular `max_iter` is not accepted among the options. -/
theorem sgd_accepts_iff (maxIter : ℕ) (opts : PyDict SgdLeaf) :
    (∃ r, sgdCall maxIter opts = .ok r) ↔ (∃ m, sgdMethod opts = .leaf (.str m)) ∧
      ∀ k ∈ opts.map Prod.fst, k ∈ ["method", "options", "disp", "args", "jac", "hess", "hessp", "bounds", "constraints", "tol", "callback"] := by
  have hall : ((dpop (dpop (dpop (dpop opts "method") "disp") "options") "args").all fun e => e.1 ∈ sgdKeywords) = true ↔
      ∀ k ∈ opts.map Prod.fst, k ∈ ["method", "options", "disp", "args", "jac", "hess", "hessp", "bounds", "constraints", "tol", "callback"] := by
    simp only [dpop, List.all_eq_true, List.mem_filter, List.mem_map, sgdKeywords, decide_eq_true_eq, ne_eq, List.mem_cons,
      List.not_mem_nil, or_false]
    constructor
    · rintro h k ⟨e, he, rfl⟩
      by_cases c1 : e.1 = "method"
      · exact .inl c1
      by_cases c2 : e.1 = "disp"
      · exact .inr (.inr (.inl c2))
      by_cases c3 : e.1 = "options"
      · exact .inr (.inl c3)
      by_cases c4 : e.1 = "args"
      · exact .inr (.inr (.inr (.inl c4)))
      exact .inr (.inr (.inr (.inr (h e ⟨⟨⟨⟨he, c1⟩, c2⟩, c3⟩, c4⟩))))
    · rintro h e ⟨⟨⟨⟨he, c1⟩, c2⟩, c3⟩, c4⟩
      have := h e.1 ⟨e, he, rfl⟩
      simp only [c1, c2, c3, c4, false_or] at this
      exact this
  unfold sgdCall
  split_ifs with hdup
  · refine ⟨fun ⟨r, hr⟩ => by simp at hr, fun ⟨_, hk⟩ => ?_⟩
    simp only [dget_isSome_iff] at hdup
    rcases hdup with hd | hd | hd
    all_goals
      have := hk _ hd
      simp at this
  · simp only [bind, Except.bind]
    cases hm : (dget opts "method").getD (.leaf (.str "nelder-mead")) with
    | dict d => simp [sgdDefault, sgdMethod, hm]
    | leaf l =>
      cases l with
      | str m =>
        have hok : ∃ d, sgdDefault (.leaf (.str m)) ((dget opts "disp").getD (.leaf (.bool false))) maxIter = .ok d := by
          simp only [sgdDefault]
          split_ifs <;> exact ⟨_, rfl⟩
        obtain ⟨d, hd⟩ := hok
        simp only [hd]
        split_ifs with hr
        · exact ⟨fun _ => ⟨⟨m, hm⟩, hall.mp hr⟩, fun _ => ⟨_, rfl⟩⟩
        · refine ⟨fun ⟨r, hr⟩ => by simp at hr, fun ⟨_, hk⟩ => absurd (hall.mpr hk) hr⟩
      | num q => simp [sgdDefault, sgdMethod, hm]
      | bool b => simp [sgdDefault, sgdMethod, hm]
      | obj k => simp [sgdDefault, sgdMethod, hm]

/-- **C154** Keys that are not accepted raise `TypeError`, provided the optimiser is named by a string. -/
theorem sgd_refuses {maxIter : ℕ} {opts : PyDict SgdLeaf} {m : String} (hm : sgdMethod opts = .leaf (.str m)) {e : PyErr}
    (h : sgdCall maxIter opts = .error e) : e = .typeError := by
  unfold sgdCall at h
  unfold sgdMethod at hm
  split_ifs at h
  · exact (Except.error.inj h).symm
  · simp only [bind, Except.bind, hm] at h
    have hok : ∃ d, sgdDefault (.leaf (.str m)) ((dget opts "disp").getD (.leaf (.bool false))) maxIter = .ok d := by
      simp only [sgdDefault]
      split_ifs <;> exact ⟨_, rfl⟩
    obtain ⟨d, hd⟩ := hok
    simp only [hd] at h
    split_ifs at h
    exact (Except.error.inj h).symm

/-! ### The hypotheses can be met -/

example : ∃ r, sgdCall 50 [("method", .leaf (.str "BFGS")), ("tol", .leaf (.num (1 / 1000)))] = .ok r ∧
    ∃ d, r.options = .dict d ∧ dget d "maxiter" = some (.leaf (.num 50)) := by
  obtain ⟨r, hr⟩ := (sgd_accepts_iff 50 [("method", .leaf (.str "BFGS")), ("tol", .leaf (.num (1 / 1000)))]).mpr
    ⟨⟨"BFGS", rfl⟩, by simp⟩
  obtain ⟨d, h1, h2, -⟩ := sgd_maxiter_partial hr (m := "BFGS") rfl (by unfold sgdKnown; decide) rfl
  exact ⟨r, hr, d, h1, h2⟩

example : ∃ r, sgdCall 50 [("method", .leaf (.str "Powell"))] = .ok r ∧ r.options = .dict [] := by
  obtain ⟨r, hr⟩ := (sgd_accepts_iff 50 [("method", .leaf (.str "Powell"))]).mpr ⟨⟨"Powell", rfl⟩, by simp⟩
  exact ⟨r, hr, sgd_maxiter_violation hr (m := "Powell") rfl (by unfold sgdKnown; decide) rfl⟩

example : sgdCall 50 [("max_iter", .leaf (.num 10))] = .error .typeError := by
  cases h : sgdCall 50 [("max_iter", .leaf (.num 10))] with
  | ok r => exact absurd ((sgd_accepts_iff 50 _).mp ⟨r, h⟩).2 (by simp)
  | error e => rw [sgd_refuses (m := "nelder-mead") rfl h]

end Copulae
