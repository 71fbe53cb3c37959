import Verif.Model.Keyword

/-!
C136: an argument may be passed by position or by name.
-/

namespace Copulae

variable {V : Type} [PyArr V]

/-- The value a method with the parameters `params` receives for a parameter. -/
def Spec.bound (params : List String) (c : PyCall V) (p : String) : Option V :=
  ((params.zip c.args).find? fun e => decide (e.1 = p)).map Prod.snd |>.or
    ((c.kwargs.find? fun e => decide (e.1 = p)).map Prod.snd)

/-- A call Python accepts: no more values than parameters, and no parameter given twice. -/
structure Spec.GoodCall (params : List String) (c : PyCall V) : Prop where
  nodup : params.Nodup
  len : c.args.length ≤ params.length
  keys : (c.kwargs.map Prod.fst).Nodup
  names : ∀ k ∈ c.kwargs.map Prod.fst, k ∈ params.drop c.args.length

/-- Two outcomes of a decorator that are the same for the method. -/
def Spec.SameCall (params : List String) : Except PyErr (PyCall V) → Except PyErr (PyCall V) → Prop
  | .ok c, .ok c' => ∀ p, Spec.bound params c p = Spec.bound params c' p
  | .error e, .error e' => e = e'
  | _, _ => False

/-- A decorator for which it does not matter how an argument is passed. -/
def Spec.KeywordFree (params : List String) (D : PyCall V → Except PyErr (PyCall V)) : Prop :=
  ∀ c c', Spec.GoodCall params c → Spec.GoodCall params c' →
    (∀ p, Spec.bound params c p = Spec.bound params c' p) → Spec.SameCall params (D c) (D c')

omit [PyArr V] in
theorem find_map_kw {W : Type} (g : String → V → W) (l : List (String × V)) (p : String) :
    ((l.map fun e => (e.1, g e.1 e.2)).find? fun e => decide (e.1 = p)).map Prod.snd =
      ((l.find? fun e => decide (e.1 = p)).map Prod.snd).map (g p) := by
  induction l with
  | nil => rfl
  | cons a l ih =>
    by_cases h : a.1 = p
    · subst h
      simp
    · simp only [List.map_cons]
      rw [List.find?_cons_of_neg (by simpa using h), List.find?_cons_of_neg (by simpa using h), ih]

theorem checkPos_zip (dims : List (String × List ℕ)) (params : List String) (as : List V) :
    params.zip (checkPos dims params as).1 = (params.zip as).map fun e => (e.1, (checkData dims e.1 e.2).1) := by
  induction params generalizing as with
  | nil => simp
  | cons p ps ih =>
    cases as with
    | nil => simp [checkPos]
    | cons a as => simp [checkPos, ih]

theorem checkPos_bad (dims : List (String × List ℕ)) (params : List String) (as : List V) :
    (checkPos dims params as).2 = (params.zip as).any fun e => (checkData dims e.1 e.2).2 := by
  induction params generalizing as with
  | nil => simp [checkPos]
  | cons p ps ih =>
    cases as with
    | nil => simp [checkPos]
    | cons a as => simp [checkPos, ih]

omit [PyArr V] in
theorem find_mem_nodup {l : List (String × V)} (h : (l.map Prod.fst).Nodup) {k : String} {v : V} (hm : (k, v) ∈ l) :
    (l.find? fun e => decide (e.1 = k)).map Prod.snd = some v := by
  induction l with
  | nil => cases hm
  | cons a l ih =>
    rw [List.map_cons, List.nodup_cons] at h
    rcases List.mem_cons.1 hm with rfl | hm
    · simp
    · have : a.1 ≠ k := fun e => h.1 (e ▸ List.mem_map_of_mem hm)
      rw [List.find?_cons_of_neg (by simpa using this)]
      exact ih h.2 hm

omit [PyArr V] in
theorem zip_keys (params : List String) (as : List V) : ((params.zip as).map Prod.fst) = params.take as.length := by
  induction params generalizing as with
  | nil => simp
  | cons p ps ih =>
    cases as with
    | nil => simp
    | cons a as => simp [ih]

omit [PyArr V] in
/-- The values of a good call are exactly the values in its argument lists. -/
theorem bound_iff {params : List String} {c : PyCall V} (h : Spec.GoodCall params c) (p : String) (v : V) :
    Spec.bound params c p = some v ↔ (p, v) ∈ params.zip c.args ∨ (p, v) ∈ c.kwargs := by
  have hz : ((params.zip c.args).map Prod.fst).Nodup := by
    rw [zip_keys]
    exact h.nodup.sublist (List.take_sublist _ _)
  have hdis : p ∈ (params.zip c.args).map Prod.fst → p ∉ c.kwargs.map Prod.fst := by
    intro h1 h2
    rw [zip_keys] at h1
    have := h.nodup
    rw [← List.take_append_drop c.args.length params, List.nodup_append] at this
    exact this.2.2 p h1 p (h.names p h2) rfl
  have hfind : ∀ {l : List (String × V)}, (l.find? fun e => decide (e.1 = p)).map Prod.snd = some v → (p, v) ∈ l := by
    intro l hl
    rw [Option.map_eq_some_iff] at hl
    obtain ⟨e, he, rfl⟩ := hl
    have h1 := List.find?_some he
    simp only [decide_eq_true_eq] at h1
    subst h1
    exact List.mem_of_find?_eq_some he
  constructor
  · intro hb
    unfold Spec.bound at hb
    rcases Option.or_eq_some_iff.1 hb with hb | ⟨-, hb⟩
    · exact .inl (hfind hb)
    · exact .inr (hfind hb)
  · rintro (hm | hm)
    · unfold Spec.bound
      rw [find_mem_nodup hz hm]
      rfl
    · have hn : ((params.zip c.args).find? fun e => decide (e.1 = p)) = none := by
        rw [List.find?_eq_none]
        intro e he hp
        simp only [decide_eq_true_eq] at hp
        exact hdis (List.mem_map.2 ⟨e, he, hp⟩) (List.mem_map.2 ⟨_, hm, rfl⟩)
      unfold Spec.bound
      rw [hn, find_mem_nodup h.keys hm]
      rfl

theorem validateDims_cases (dims : List (String × List ℕ)) {params : List String} {c : PyCall V}
    (hd : ∀ e ∈ dims, e.1 ∈ params) (hc : Spec.GoodCall params c) :
    (∃ p v, Spec.bound params c p = some v ∧ (checkData dims p v).2 = true ∧
      validateDims dims params c = .error .valueError) ∨
    ((∀ p v, Spec.bound params c p = some v → (checkData dims p v).2 = false) ∧
      ∃ c', validateDims dims params c = .ok c' ∧
        ∀ p, Spec.bound params c' p = (Spec.bound params c p).map fun v => (checkData dims p v).1) := by
  have ha : (dims.any fun e => decide (e.1 ∉ params)) = false := by
    rw [List.any_eq_false]
    intro e he
    simpa using hd e he
  unfold validateDims
  rw [ha]
  simp only [Bool.false_eq_true, if_false, checkPos_bad]
  by_cases hb : ((params.zip c.args).any fun e => (checkData dims e.1 e.2).2) ||
      c.kwargs.any fun e => (checkData dims e.1 e.2).2
  · left
    rw [if_pos hb]
    rw [Bool.or_eq_true, List.any_eq_true, List.any_eq_true] at hb
    rcases hb with ⟨⟨p, v⟩, hm, hv⟩ | ⟨⟨p, v⟩, hm, hv⟩
    · exact ⟨p, v, (bound_iff hc p v).2 (.inl hm), hv, rfl⟩
    · exact ⟨p, v, (bound_iff hc p v).2 (.inr hm), hv, rfl⟩
  · right
    rw [if_neg hb]
    rw [Bool.or_eq_true, List.any_eq_true, List.any_eq_true] at hb
    push Not at hb
    refine ⟨fun p v hv => ?_, _, rfl, fun p => ?_⟩
    · rcases (bound_iff hc p v).1 hv with hm | hm
      · simpa using hb.1 _ hm
      · simpa using hb.2 _ hm
    · unfold Spec.bound
      simp only [checkPos_zip, find_map_kw fun k v => (checkData dims k v).1]
      cases ((params.zip c.args).find? fun e => decide (e.1 = p)).map Prod.snd <;> simp

/-- The array of a value: itself or `np.array` of it. -/
def Spec.arrayOf (v : V) : V := if PyArr.isArr v then v else PyArr.npArray v

theorem checkData_mem {dims : List (String × List ℕ)} (h : (dims.map Prod.fst).Nodup) {p : String} {ideal : List ℕ}
    (hm : (p, ideal) ∈ dims) (v : V) :
    checkData dims p v = (Spec.arrayOf v, decide (PyArr.ndim (Spec.arrayOf v) ∉ ideal)) := by
  have : dimsOf dims p = some ideal := find_mem_nodup h hm
  simp only [checkData, this]
  rfl

theorem checkData_not_mem {dims : List (String × List ℕ)} {p : String} (h : p ∉ dims.map Prod.fst) (v : V) :
    checkData dims p v = (v, false) := by
  have : dimsOf dims p = none := by
    unfold dimsOf
    rw [Option.map_eq_none_iff, List.find?_eq_none]
    intro e he hp
    simp only [decide_eq_true_eq] at hp
    exact h (List.mem_map.2 ⟨e, he, hp⟩)
  simp only [checkData, this]

/-- C136, what `validate_data_dim` does, however the arguments are passed: it raises `ValueError` if an argument it names
has none of the dimensions asked for, and otherwise the method receives these arguments as arrays and the others as they
are. -/
theorem validateDims_spec {dims : List (String × List ℕ)} (hn : (dims.map Prod.fst).Nodup) {params : List String}
    {c : PyCall V} (hd : ∀ e ∈ dims, e.1 ∈ params) (hc : Spec.GoodCall params c) :
    ((∃ p ideal v, (p, ideal) ∈ dims ∧ Spec.bound params c p = some v ∧ PyArr.ndim (Spec.arrayOf v) ∉ ideal) →
      validateDims dims params c = .error .valueError) ∧
    ((∀ p ideal v, (p, ideal) ∈ dims → Spec.bound params c p = some v → PyArr.ndim (Spec.arrayOf v) ∈ ideal) →
      ∃ c', validateDims dims params c = .ok c' ∧
        (∀ p ∈ dims.map Prod.fst, Spec.bound params c' p = (Spec.bound params c p).map Spec.arrayOf) ∧
        ∀ p ∉ dims.map Prod.fst, Spec.bound params c' p = Spec.bound params c p) := by
  rcases validateDims_cases dims hd hc with ⟨p, v, hv, hbad, e⟩ | ⟨hall, d, e, hd1⟩
  · refine ⟨fun _ => e, fun h => ?_⟩
    by_cases hp : p ∈ dims.map Prod.fst
    · obtain ⟨⟨p', ideal⟩, hm, rfl⟩ := List.mem_map.1 hp
      rw [checkData_mem hn hm] at hbad
      simp only [decide_eq_true_eq] at hbad
      exact absurd (h _ _ v hm hv) hbad
    · rw [checkData_not_mem hp] at hbad
      cases hbad
  · refine ⟨?_, fun _ => ⟨d, e, ?_, ?_⟩⟩
    · rintro ⟨p, ideal, v, hm, hv, hbad⟩
      have := hall p v hv
      rw [checkData_mem hn hm] at this
      simp only [decide_eq_false_iff_not, not_not] at this
      exact absurd this hbad
    · intro p hp
      obtain ⟨⟨p', ideal⟩, hm, rfl⟩ := List.mem_map.1 hp
      rw [hd1]
      simp only [checkData_mem hn hm]
    · intro p hp
      rw [hd1]
      simp only [checkData_not_mem hp, Option.map_id']

/-- C136, the part that holds: `validate_data_dim` does not care how an argument is passed. Missing, because violated:
`cast_input` and `shape_first_input_to_cop_dim`. -/
theorem validateDims_keyword_partial (dims : List (String × List ℕ)) {params : List String}
    (hd : ∀ e ∈ dims, e.1 ∈ params) : Spec.KeywordFree (V := V) params (validateDims dims params) := by
  intro c c' hc hc' h
  rcases validateDims_cases dims hd hc with ⟨p, v, hv, hbad, e⟩ | ⟨hall, d, e, hd1⟩ <;>
    rcases validateDims_cases dims hd hc' with ⟨p', v', hv', hbad', e'⟩ | ⟨hall', d', e', hd'⟩
  · rw [e, e']
    rfl
  · rw [h] at hv
    rw [hall' p v hv] at hbad
    cases hbad
  · rw [← h] at hv'
    rw [hall p' v' hv'] at hbad'
    cases hbad'
  · rw [e, e']
    intro p
    rw [hd1, hd', h]

/-- The dimensions of `cdf`, and the two ways of passing a list: both good calls with the same value. -/
example : Spec.GoodCall ["x", "log"] (⟨[.list [.fin 1, .fin 2]], []⟩ : PyCall UserVal) ∧
    Spec.GoodCall ["x", "log"] (⟨[], [("x", .list [.fin 1, .fin 2])]⟩ : PyCall UserVal) ∧
    ∀ p, Spec.bound ["x", "log"] (⟨[.list [.fin 1, .fin 2]], []⟩ : PyCall UserVal) p =
      Spec.bound ["x", "log"] ⟨[], [("x", .list [.fin 1, .fin 2])]⟩ p := by
  refine ⟨⟨by decide, by simp, by simp, by simp⟩, ⟨by decide, by simp, by simp, by simp⟩, fun p => ?_⟩
  unfold Spec.bound
  by_cases h : "x" = p <;> simp [h]

theorem castKw_id (names : List String) (optional : Bool) (kw : List (String × V)) :
    castKw names optional kw = .ok kw := by
  unfold castKw
  induction kw with
  | nil => rfl
  | cons a l ih =>
    rw [List.mapM_cons, ih]
    simp [bind, Except.bind, pure, Except.pure]

/-- C136, what `cast_input` does to arguments passed by position: those it names become arrays, the others and `None`
stay as they are, and `None` for a named argument that is not optional raises `ValueError`. -/
theorem castPos_spec (names : List String) (optional : Bool) (params : List String) (as : List V) :
    ((∃ e ∈ params.zip as, e.1 ∈ names ∧ PyArr.isNone e.2 = true ∧ optional = false) →
      castPos names optional params as = .error .valueError) ∧
    ((∀ e ∈ params.zip as, e.1 ∈ names → PyArr.isNone e.2 = true → optional = true) →
      ∃ as', castPos names optional params as = .ok as' ∧ as'.length = as.length ∧
        as'.drop params.length = as.drop params.length ∧
        params.zip as' = (params.zip as).map fun e =>
          (e.1, if e.1 ∈ names ∧ PyArr.isNone e.2 = false then Spec.arrayOf e.2 else e.2)) := by
  induction params generalizing as with
  | nil => simp [castPos]
  | cons p ps ih =>
    cases as with
    | nil => simp [castPos]
    | cons a as =>
      obtain ⟨ih1, ih2⟩ := ih as
      have hcast : p ∈ names → PyArr.isNone a = true → optional = false →
          castPos names optional (p :: ps) (a :: as) = .error .valueError := by
        rintro h1 h2 rfl
        simp [castPos, h1, castArg, h2, bind, Except.bind]
      have hgood : (p ∈ names → PyArr.isNone a = true → optional = true) →
          castPos names optional (p :: ps) (a :: as) = (castPos names optional ps as).map
            fun l => (if p ∈ names ∧ PyArr.isNone a = false then Spec.arrayOf a else a) :: l := by
        intro h
        by_cases h1 : p ∈ names
        · by_cases h2 : PyArr.isNone a = true
          · simp only [castPos, h1, h2, castArg, h h1 h2]
            cases castPos names true ps as <;> rfl
          · simp only [castPos, h1, h2, castArg, Spec.arrayOf, if_true]
            cases castPos names optional ps as <;> simp [bind, Except.bind, pure, Except.pure, Except.map]
        · simp only [castPos, h1]
          cases castPos names optional ps as <;> rfl
      constructor
      · rintro ⟨e, he, h1, h2, h3⟩
        by_cases hb : p ∈ names → PyArr.isNone a = true → optional = true
        · rw [List.zip_cons_cons, List.mem_cons] at he
          rcases he with rfl | he
          · rw [hb h1 h2] at h3
            cases h3
          · rw [hgood hb, ih1 ⟨e, he, h1, h2, h3⟩]
            rfl
        · push Not at hb
          exact hcast hb.1 hb.2.1 (by simpa using hb.2.2)
      · intro h
        have hb := h (p, a) (by simp)
        obtain ⟨as', e1, e2, e3, e4⟩ := ih2 fun e he => h e (by simp [he])
        exact ⟨_, by rw [hgood hb, e1]; rfl, by simp [e2],
          by simpa using e3, by simp [e4]⟩

/-- C136, violation: `cast_input` hands keyword arguments on as they are, so a value that is not an array reaches the
method uncast by name and cast by position, and `None` is rejected by position only. -/
theorem castInput_keyword_violation (p : String) (v : V) (hv : PyArr.isNone v = false) (ha : PyArr.isArr v = false)
    (optional : Bool) :
    castInput [p] optional [p] ⟨[v], []⟩ = .ok ⟨[PyArr.npArray v], []⟩ ∧
      castInput [p] optional [p] ⟨[], [(p, v)]⟩ = .ok ⟨[], [(p, v)]⟩ ∧
      ∀ w : V, PyArr.isNone w = true → castInput [p] false [p] ⟨[w], []⟩ = .error .valueError ∧
        castInput [p] false [p] ⟨[], [(p, w)]⟩ = .ok ⟨[], [(p, w)]⟩ := by
  have hk : ∀ o (w : V), castInput [p] o [p] ⟨[], [(p, w)]⟩ = .ok ⟨[], [(p, w)]⟩ := by
    intro o w
    simp only [castInput, castKw_id, castPos, bind, Except.bind, pure, Except.pure]
  refine ⟨?_, hk _ _, fun w hw => ⟨?_, hk _ _⟩⟩
  · simp [castInput, castKw_id, castPos, castArg, hv, ha, bind, Except.bind, pure, Except.pure]
  · simp [castInput, castPos, castArg, hw, bind, Except.bind]

/-- C136, violation in terms of results: `ClaytonCopula().itau([...])` returns the parameters, `itau(tau=[...])` raises
`TypeError`, for every list; `itau(1.0)` is an array division (infinity), `itau(tau=1.0)` raises `ZeroDivisionError`. -/
theorem claytonItau_keyword_violation (l : List Fl) :
    claytonItauCall ⟨[.list l], []⟩ = .ok (.arr (l.map claytonItau)) ∧
      claytonItauCall ⟨[], [("tau", .list l)]⟩ = .error .typeError ∧
      (claytonItauCall ⟨[.num (.fin 1)], []⟩ = .ok (.scalar .pinf)) ∧
      claytonItauCall ⟨[], [("tau", .num (.fin 1))]⟩ = .error .zeroDivision := by
  have h1 := fun l => (castInput_keyword_violation (V := UserVal) "tau" (.list l) rfl rfl false)
  have h2 := (castInput_keyword_violation (V := UserVal) "tau" (.num (.fin 1)) rfl rfl false)
  unfold claytonItauCall
  rw [(h1 l).1, (h1 l).2.1, h2.1, h2.2.1]
  refine ⟨rfl, rfl, ?_, ?_⟩
  · simp only [bind, Except.bind, bindOne, PyArr.npArray, claytonItauBody, NdArg.map, claytonItau]
    rw [Fl.fin_mul_fin, Fl.fin_sub_fin, Fl.fin_div_fin]
    norm_num [Fl.infSign]
  · simp only [bind, Except.bind, bindOne, if_true, claytonItauBody]
    rw [if_pos (by simp [Fl.fin_sub_fin])]

/-- C136, violation: `cdf` and `pdf` of every copula raise when the points are passed by name: `IndexError` for points
with one or two dimensions, whatever the shape, the copula and the other arguments by name. -/
theorem evalCall_keyword_violation (shape : V → Except PyErr V) {x : String} (hx : x ≠ "log") {v : V}
    (hv : PyArr.ndim (castData v) ∈ [1, 2]) (rest : List (String × V)) (hr : rest = [] ∨ ∃ b, rest = [("log", b)]) :
    evalCall shape x ⟨[], (x, v) :: rest⟩ = .error .indexError := by
  have hl : dimsOf [(x, [1, 2])] "log" = none := by simp [dimsOf, hx]
  have hd : dimsOf [(x, [1, 2])] x = some [1, 2] := by simp [dimsOf]
  have hc : checkData [(x, [1, 2])] x v = (castData v, false) := by simp only [checkData, hd]; simp [hv]
  unfold evalCall validateDims
  rcases hr with rfl | ⟨b, rfl⟩
  · simp [checkPos, hc, shapeFirstCall, bind, Except.bind]
  · have hb : checkData [(x, [1, 2])] "log" b = (b, false) := by simp only [checkData, hl]
    simp [checkPos, hc, hb, shapeFirstCall, bind, Except.bind]

/-- By position the points reach the method. -/
theorem evalCall_positional (shape : V → Except PyErr V) {x : String} (hx : x ≠ "log") {v w : V}
    (hv : PyArr.ndim (castData v) ∈ [1, 2]) (hw : shape (castData v) = .ok w) (rest : List (String × V))
    (hr : rest = [] ∨ ∃ b, rest = [("log", b)]) :
    evalCall shape x ⟨[v], rest⟩ = .ok ⟨[w], rest⟩ := by
  have hl : dimsOf [(x, [1, 2])] "log" = none := by simp [dimsOf, hx]
  have hd : dimsOf [(x, [1, 2])] x = some [1, 2] := by simp [dimsOf]
  have hc : checkData [(x, [1, 2])] x v = (castData v, false) := by simp only [checkData, hd]; simp [hv]
  unfold evalCall validateDims
  rcases hr with rfl | ⟨b, rfl⟩
  · simp [checkPos, hc, shapeFirstCall, bind, Except.bind, hw, pure, Except.pure]
  · have hb : checkData [(x, [1, 2])] "log" b = (b, false) := by simp only [checkData, hl]
    simp [checkPos, hc, hb, shapeFirstCall, bind, Except.bind, hw, pure, Except.pure]

omit [PyArr V] in
/-- C136, `summary`: the category is found by position and by name. -/
theorem selectSummary_keyword (category : V → Option Bool) (v : V) (fitted : Bool) :
    selectSummary category ⟨[v], []⟩ fitted = selectSummary category ⟨[], [("category", v)]⟩ fitted := by
  simp [selectSummary]

omit [PyArr V] in
/-- C136, `summary`: without a category it is the summary of the copula; the summary of the fit raises before a fit was
made, and an unknown category raises. -/
theorem selectSummary_spec (category : V → Option Bool) (v : V) (fitted : Bool) :
    selectSummary category ⟨[], []⟩ fitted = .ok false ∧
      (category v = some false → selectSummary category ⟨[v], []⟩ fitted = .ok false) ∧
      (category v = some true → selectSummary category ⟨[v], []⟩ fitted =
        if fitted then .ok true else .error .notFitted) ∧
      (category v = none → selectSummary category ⟨[v], []⟩ fitted = .error .valueError) := by
  refine ⟨rfl, fun h => ?_, fun h => ?_, fun h => ?_⟩ <;> simp [selectSummary, h]

/-- A list of two numbers has one dimension once it is an array. -/
example : PyArr.ndim (castData (UserVal.list [.fin (1 / 2), .fin (1 / 3)])) ∈ [1, 2] := by decide

example := validateDims_spec (V := UserVal) (dims := [("x", [1, 2])]) (by simp) (params := ["x", "log"])
  (c := ⟨[.list [.fin 1, .fin 2]], []⟩) (by simp) ⟨by decide, by simp, by simp, by simp⟩

example := castInput_keyword_violation (V := UserVal) "tau" (.list [.fin (1 / 2)]) rfl rfl true

/-- `tau` and another positional argument: the list becomes an array, the number stays a number. -/
example : castPos ["tau"] false ["tau", "x"] [UserVal.list [.fin (1 / 2)], .num (.fin 1)] =
    .ok [.arr (.arr [.fin (1 / 2)]), .num (.fin 1)] := rfl

example (shape : UserVal → Except PyErr UserVal) := evalCall_keyword_violation shape (x := "x") (by decide)
  (v := .list [.fin (1 / 2), .fin (1 / 3)]) (by decide) [] (.inl rfl)

example := evalCall_positional (V := UserVal) (fun v => .ok v) (x := "x") (by decide)
  (v := .list [.fin (1 / 2), .fin (1 / 3)]) (by decide) rfl [("log", .num (.fin 1))] (.inr ⟨_, rfl⟩)

end Copulae
