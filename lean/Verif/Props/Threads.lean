import Verif.Model.Threads

/-!
C36: the parallel and the serial element-wise loops agree under every schedule.
C37: which arguments the special functions overwrite.
-/

namespace Copulae

variable {T n : ℕ} {P A : Type*}

/-- What OpenMP guarantees about the distribution of the iterations: each one is executed by exactly
one thread, once. -/
def IsPartition (work : Fin T → List (Fin n)) : Prop :=
  (∀ t, (work t).Nodup) ∧ (∀ t t', t ≠ t' → (work t).Disjoint (work t')) ∧ ∀ i, ∃ t, i ∈ work t

/-- The start of a `prange` loop. -/
def PRun.start (x : Fin n → A) (work : Fin T → List (Fin n)) (priv : Fin T → P) : PRun T n P A :=
  ⟨x, fun t => ⟨work t, 0, priv t⟩⟩

/-- All threads have finished. -/
def PRun.Done (s : PRun T n P A) : Prop := ∀ t, (s.th t).todo = []

/-- The result of a body does not depend on the values the private variables have at its start. -/
def Overwrites (body : List (Action P A)) (f : A → A) : Prop :=
  ∀ p a, (runBody body (p, a)).2 = f a

theorem mapBody_overwrites (f : A → A) : Overwrites (mapBody f) f := fun _ _ => rfl

theorem mapcBody_overwrites (f : A → A → A × A) :
    Overwrites (mapcBody f) fun x => f x.1 x.2 := fun _ _ => rfl

structure PInv (body : List (Action P A)) (x : Fin n → A) (f : A → A) (s : PRun T n P A) : Prop where
  nodup : ∀ t, (s.th t).todo.Nodup
  disj : ∀ t t', t ≠ t' → (s.th t).todo.Disjoint (s.th t').todo
  fin : ∀ i, (∀ t, i ∉ (s.th t).todo) → s.mem i = f (x i)
  head : ∀ t i rest, (s.th t).todo = i :: rest →
    (∃ p, ((s.th t).priv, s.mem i) = runBody (body.take (s.th t).pc) (p, x i)) ∧
      ∀ j ∈ rest, s.mem j = x j

theorem runBody_append (l m : List (Action P A)) (s : P × A) :
    runBody (l ++ m) s = runBody m (runBody l s) := by
  induction l generalizing s with
  | nil => rfl
  | cons a l ih => simp only [List.cons_append, runBody, ih]

theorem PInv.step {body : List (Action P A)} {f : A → A} (hf : Overwrites body f) {x : Fin n → A}
    {s : PRun T n P A} (h : PInv body x f s) (t : Fin T) : PInv body x f (s.step body t) := by
  unfold PRun.step
  rcases hd : (s.th t).todo with _ | ⟨i, rest⟩
  · exact h
  have hnd := h.nodup t
  rw [hd] at hnd
  obtain ⟨⟨p, hp⟩, hrest⟩ := h.head t i rest hd
  rcases hb : body[(s.th t).pc]? with _ | a
  · simp only
    rw [List.getElem?_eq_none_iff] at hb
    rw [List.take_of_length_le hb] at hp
    have hmi : s.mem i = f (x i) := by rw [← hf p (x i), ← hp]
    constructor
    · intro t'
      by_cases e : t' = t
      · subst e
        simpa using hnd.tail
      · simpa [Function.update_of_ne e] using h.nodup t'
    · intro t1 t2 h12
      by_cases e1 : t1 = t
      · subst e1
        have := h.disj t1 t2 h12
        rw [hd] at this
        simpa [Function.update_of_ne (Ne.symm h12)] using (List.disjoint_cons_left.mp this).2
      · by_cases e2 : t2 = t
        · subst e2
          have := h.disj t1 t2 h12
          rw [hd] at this
          simpa [Function.update_of_ne h12] using (List.disjoint_cons_right.mp this).2
        · simpa [Function.update_of_ne e1, Function.update_of_ne e2] using h.disj t1 t2 h12
    · intro j hj
      by_cases e : j = i
      · rw [e]
        exact hmi
      · refine h.fin j fun t' => ?_
        have := hj t'
        by_cases e' : t' = t
        · subst e'
          simp only [Function.update_self] at this
          rw [hd, List.mem_cons, not_or]
          exact ⟨e, this⟩
        · simp only [Function.update_of_ne e'] at this
          exact this
    · intro t' j rest' hj
      by_cases e' : t' = t
      · subst e'
        simp only [Function.update_self] at hj ⊢
        refine ⟨⟨(s.th t').priv, ?_⟩, fun k hk => ?_⟩
        · rw [List.take_zero]
          have hx : s.mem j = x j := hrest j (by rw [hj]; exact List.mem_cons_self)
          simp only [runBody, hx]
        · exact hrest k (by rw [hj]; exact List.mem_cons_of_mem _ hk)
      · simp only [Function.update_of_ne e'] at hj ⊢
        exact h.head t' j rest' hj
  · simp only
    have hin : ∀ j ∈ rest, j ≠ i := by
      rintro j hj rfl
      exact (List.nodup_cons.mp hnd).1 hj
    have hoth : ∀ t', t' ≠ t → ∀ j ∈ (s.th t').todo, j ≠ i := by
      rintro t' ht' j hj rfl
      have := h.disj t' t ht'
      exact this hj (by rw [hd]; exact List.mem_cons_self)
    constructor
    · intro t'
      by_cases e : t' = t
      · subst e
        simpa using hnd
      · simpa [Function.update_of_ne e] using h.nodup t'
    · intro t1 t2 h12
      by_cases e1 : t1 = t
      · subst e1
        have := h.disj t1 t2 h12
        rw [hd] at this
        simpa [Function.update_of_ne (Ne.symm h12)] using this
      · by_cases e2 : t2 = t
        · subst e2
          have := h.disj t1 t2 h12
          rw [hd] at this
          simpa [Function.update_of_ne h12] using this
        · simpa [Function.update_of_ne e1, Function.update_of_ne e2] using h.disj t1 t2 h12
    · intro j hj
      have hji : j ≠ i := by
        rintro rfl
        have := hj t
        simp only [Function.update_self] at this
        exact this List.mem_cons_self
      simp only [Function.update_of_ne hji]
      refine h.fin j fun t' => ?_
      have := hj t'
      by_cases e' : t' = t
      · subst e'
        simp only [Function.update_self] at this
        rwa [hd]
      · simp only [Function.update_of_ne e'] at this
        exact this
    · intro t' j rest' hj
      by_cases e' : t' = t
      · subst e'
        simp only [Function.update_self] at hj ⊢
        obtain ⟨rfl, rfl⟩ := List.cons.inj hj
        refine ⟨⟨p, ?_⟩, fun k hk => ?_⟩
        · rw [List.take_add_one, hb, Option.toList_some, runBody_append, ← hp]
          simp only [runBody, Function.update_self]
        · rw [Function.update_of_ne (hin k hk)]
          exact hrest k hk
      · simp only [Function.update_of_ne e'] at hj ⊢
        have hall := hoth t' e'
        rw [hj] at hall
        rw [Function.update_of_ne (hall j List.mem_cons_self)]
        obtain ⟨hq, hr⟩ := h.head t' j rest' hj
        refine ⟨hq, fun k hk => ?_⟩
        rw [Function.update_of_ne (hall k (List.mem_cons_of_mem _ hk))]
        exact hr k hk

theorem PInv.start {body : List (Action P A)} {f : A → A} {x : Fin n → A}
    {work : Fin T → List (Fin n)} (hw : IsPartition work) (priv : Fin T → P) :
    PInv body x f (PRun.start x work priv) where
  nodup := hw.1
  disj := hw.2.1
  fin i hi := by
    obtain ⟨t, ht⟩ := hw.2.2 i
    exact absurd ht (hi t)
  head t i rest _ := ⟨⟨priv t, rfl⟩, fun _ _ => rfl⟩

theorem PInv.run {body : List (Action P A)} {f : A → A} (hf : Overwrites body f) {x : Fin n → A}
    (sched : List (Fin T)) {s : PRun T n P A} (h : PInv body x f s) :
    PInv body x f (s.run body sched) := by
  induction sched generalizing s with
  | nil => exact h
  | cons t sched ih => exact ih (h.step hf t)

theorem serialLoop_aux {body : List (Action P A)} {f : A → A} (hf : Overwrites body f)
    (l : List (Fin n)) (hl : l.Nodup) (p : P) (mem : Fin n → A) :
    (l.foldl (fun s i => let r := runBody body (s.1, s.2 i); (r.1, Function.update s.2 i r.2))
      (p, mem)).2 = fun i => if i ∈ l then f (mem i) else mem i := by
  induction l generalizing p mem with
  | nil => simp
  | cons a l ih =>
    have hn := List.nodup_cons.mp hl
    rw [List.foldl_cons]
    simp only
    rw [ih hn.2]
    funext i
    by_cases e : i = a
    · subst e
      rw [if_neg hn.1, Function.update_self, if_pos List.mem_cons_self, hf]
    · rw [Function.update_of_ne e]
      simp only [List.mem_cons, e, false_or]

/-- C36 for a general loop body: whatever the distribution of the iterations over threads, the values
left in private variables and the schedule, once all threads have finished the array is the one the
serial loop computes. -/
theorem prange_eq_serial {body : List (Action P A)} {f : A → A} (hf : Overwrites body f)
    (x : Fin n → A) {work : Fin T → List (Fin n)} (hw : IsPartition work) (priv : Fin T → P) (p : P)
    (sched : List (Fin T)) (hd : ((PRun.start x work priv).run body sched).Done) :
    ((PRun.start x work priv).run body sched).mem = (serialLoop body p x).2 ∧
      (serialLoop body p x).2 = fun i => f (x i) := by
  have h2 : (serialLoop body p x).2 = fun i => f (x i) := by
    unfold serialLoop
    rw [serialLoop_aux hf _ (List.nodup_finRange n)]
    simp only [List.mem_finRange, if_true]
  refine ⟨?_, h2⟩
  rw [h2]
  funext i
  refine ((PInv.start hw priv).run hf sched).fin i fun t => ?_
  rw [hd t]
  exact List.not_mem_nil

/-- C36 for the loop over one array. -/
theorem map_dbl_p_eq_s (f : A → A) (x : Fin n → A) {work : Fin T → List (Fin n)}
    (hw : IsPartition work) (priv : Fin T → A) (p : A) (sched : List (Fin T))
    (hd : ((PRun.start x work priv).run (mapBody f) sched).Done) :
    ((PRun.start x work priv).run (mapBody f) sched).mem = mapDblS f p x ∧
      mapDblS f p x = fun i => f (x i) :=
  prange_eq_serial (mapBody_overwrites f) x hw priv p sched hd

/-- C36 for the loop over the two arrays of `dilog_complex`. -/
theorem mapc_dbl_p_eq_s (f : A → A → A × A) (x : Fin n → A × A) {work : Fin T → List (Fin n)}
    (hw : IsPartition work) (priv : Fin T → A × (A × A)) (p : A × (A × A)) (sched : List (Fin T))
    (hd : ((PRun.start x work priv).run (mapcBody f) sched).Done) :
    ((PRun.start x work priv).run (mapcBody f) sched).mem = mapcDblS f p x ∧
      mapcDblS f p x = fun i => f (x i).1 (x i).2 :=
  prange_eq_serial (mapcBody_overwrites f) x hw priv p sched hd

theorem PRun.step_other {body : List (Action P A)} (s : PRun T n P A) {t t' : Fin T} (h : t' ≠ t) :
    (s.step body t).th t' = s.th t' := by
  unfold PRun.step
  rcases (s.th t).todo with _ | ⟨i, rest⟩
  · rfl
  · simp only
    rcases body[(s.th t).pc]? with _ | a <;> simp [Function.update_of_ne h]

theorem PRun.finish_thread (body : List (Action P A)) (t : Fin T) (s : PRun T n P A) :
    ∃ k, ((s.run body (List.replicate k t)).th t).todo = [] ∧
      ∀ t', t' ≠ t → (s.run body (List.replicate k t)).th t' = s.th t' := by
  have key : ∀ (m : ℕ) (todo : List (Fin n)) (s : PRun T n P A), (s.th t).todo = todo →
      body.length - (s.th t).pc = m → ∃ k, ((s.run body (List.replicate k t)).th t).todo = [] ∧
      ∀ t', t' ≠ t → (s.run body (List.replicate k t)).th t' = s.th t' := by
    intro m todo
    induction todo generalizing m with
    | nil =>
      intro s h1 _
      exact ⟨0, by simpa [PRun.run] using h1, fun _ _ => rfl⟩
    | cons i rest ih =>
      induction m with
      | zero =>
        intro s h1 h2
        have hb : body[(s.th t).pc]? = none := by
          rw [List.getElem?_eq_none_iff]
          omega
        have hs : ((s.step body t).th t).todo = rest := by
          simp only [PRun.step, h1, hb, Function.update_self]
        obtain ⟨k, e1, e2⟩ := ih _ (s.step body t) hs rfl
        refine ⟨k + 1, ?_, fun t' ht' => ?_⟩
        · simpa [PRun.run, List.replicate_succ] using e1
        · have := e2 t' ht'
          rw [PRun.step_other s ht'] at this
          simpa [PRun.run, List.replicate_succ] using this
      | succ m ihm =>
        intro s h1 h2
        have hlt : (s.th t).pc < body.length := by omega
        have hb : body[(s.th t).pc]? = some body[(s.th t).pc] := List.getElem?_eq_getElem hlt
        obtain ⟨k, e1, e2⟩ := ihm (s.step body t)
          (by simp only [PRun.step, h1, hb, Function.update_self])
          (by simp only [PRun.step, h1, hb, Function.update_self]; omega)
        refine ⟨k + 1, ?_, fun t' ht' => ?_⟩
        · simpa [PRun.run, List.replicate_succ] using e1
        · have := e2 t' ht'
          rw [PRun.step_other s ht'] at this
          simpa [PRun.run, List.replicate_succ] using this
  exact key _ _ s rfl rfl

theorem PRun.run_append (body : List (Action P A)) (s : PRun T n P A) (l m : List (Fin T)) :
    s.run body (l ++ m) = (s.run body l).run body m := by
  simp [PRun.run, List.foldl_append]

/-- Every loop can be finished: the hypothesis on the schedule in the theorems above can be met. -/
theorem exists_done (body : List (Action P A)) (s : PRun T n P A) :
    ∃ sched : List (Fin T), (s.run body sched).Done := by
  have key : ∀ l : List (Fin T), ∃ sched : List (Fin T),
      ∀ t ∈ l, ((s.run body sched).th t).todo = [] := by
    intro l
    induction l with
    | nil => exact ⟨[], fun _ h => absurd h List.not_mem_nil⟩
    | cons t l ih =>
      obtain ⟨sched, h⟩ := ih
      obtain ⟨k, h1, h2⟩ := (s.run body sched).finish_thread body t
      refine ⟨sched ++ List.replicate k t, fun t' ht' => ?_⟩
      rw [PRun.run_append]
      by_cases e : t' = t
      · subst e
        exact h1
      · rw [h2 t' e]
        exact h t' ((List.mem_cons.mp ht').resolve_left e)
  obtain ⟨sched, h⟩ := key (List.finRange T)
  exact ⟨sched, fun t => h t (List.mem_finRange t)⟩

/-- Two threads, three cells, an interleaved schedule: the hypotheses hold together. -/
example : ∃ (work : Fin 2 → List (Fin 3)) (sched : List (Fin 2)), IsPartition work ∧
    ((PRun.start (fun i : Fin 3 => (i : ℕ)) work fun _ => 0).run (mapBody (· + 10)) sched).Done ∧
    ((PRun.start (fun i : Fin 3 => (i : ℕ)) work fun _ => 0).run (mapBody (· + 10)) sched).mem
      = fun i : Fin 3 => (i : ℕ) + 10 := by
  have hw : IsPartition (fun t : Fin 2 => if t = 0 then [(0 : Fin 3), 2] else [1]) := by
    refine ⟨by decide, fun t t' h => ?_, by decide⟩
    fin_cases t <;> fin_cases t' <;> simp at h ⊢
  have hd : ((PRun.start (fun i : Fin 3 => (i : ℕ))
      (fun t : Fin 2 => if t = 0 then [(0 : Fin 3), 2] else [1]) fun _ => 0).run (mapBody (· + 10))
      [0, 1, 0, 1, 0, 1, 0, 0, 0]).Done := by
    intro t
    fin_cases t <;> rfl
  refine ⟨_, _, hw, hd, ?_⟩
  have := map_dbl_p_eq_s (· + 10) (fun i : Fin 3 => (i : ℕ)) hw (fun _ => 0) 0 _ hd
  rw [this.1, this.2]

/-- The ways the element-wise loop of a public function can run: serially, or in parallel with some
distribution of the iterations and some schedule. -/
inductive LoopRun (f : Fl → Fl) {n : ℕ} (x : Fin n → Fl) : (Fin n → Fl) → Prop
  | serial (p : Fl) : LoopRun f x (mapDblS f p x)
  | parallel {T : ℕ} {work : Fin T → List (Fin n)} (hw : IsPartition work) (priv : Fin T → Fl)
      (sched : List (Fin T)) (hd : ((PRun.start x work priv).run (mapBody f) sched).Done) :
      LoopRun f x ((PRun.start x work priv).run (mapBody f) sched).mem

theorem LoopRun.eq {f : Fl → Fl} {n : ℕ} {x y : Fin n → Fl} (h : LoopRun f x y) :
    y = fun i => f (x i) := by
  cases h with
  | serial p =>
    unfold mapDblS serialLoop
    rw [serialLoop_aux (mapBody_overwrites f) _ (List.nodup_finRange n)]
    simp only [List.mem_finRange, if_true]
  | parallel hw priv sched hd =>
    have := map_dbl_p_eq_s f x hw priv (.fin 0) sched hd
    rw [this.1, this.2]

/-- C36, C37: the values returned by a public special function are the element function's values, in
the shape of the argument, except that an argument with one element gives a scalar; the caller's array
keeps its elements unless it is a contiguous array of 64-bit floats with a number of elements other
than one, and in that case it holds the results afterwards. -/
theorem specCall_spec (f : Fl → Fl) {loop : ∀ {n}, (Fin n → Fl) → Fin n → Fl}
    (hl : ∀ {n} (x : Fin n → Fl), LoopRun f x (loop x)) (x : SpecArg) :
    (∀ v, x.data = [v] → specCall f loop x = (.scalar (f v), x.data)) ∧
      (x.data.length ≠ 1 → (specCall f loop x).1 = .array x.shape (x.data.map f) ∧
        ((x.isFloat64 = true ∧ x.contiguous = true) →
          (specCall f loop x).2 = x.data.map f) ∧
        (¬ (x.isFloat64 = true ∧ x.contiguous = true) →
          (specCall f loop x).2 = x.data)) := by
  obtain ⟨shape, data, fl, ct⟩ := x
  have key : ∀ l : List Fl, List.ofFn (loop fun i : Fin l.length => l[i]) = l.map f := by
    intro l
    rw [(hl _).eq]
    refine List.ext_getElem (by simp) fun i h1 h2 => by simp
  constructor
  · rintro v rfl
    rfl
  · intro h
    have e : specCall f loop ⟨shape, data, fl, ct⟩
        = (.array shape (data.map f), if fl && ct then data.map f else data) := by
      rcases data with _ | ⟨a, _ | ⟨b, l⟩⟩
      · simp only [specCall, key]
      · exact absurd rfl h
      · simp only [specCall, key]
    rw [e]
    cases fl <;> cases ct <;> simp

example (f : Fl → Fl) (p : Fl) := specCall_spec f (loop := mapDblS f p) (fun _ => .serial p)
  ⟨[2], [.fin 1, .fin 2], true, true⟩

/-- C37, the part that holds: arguments of other types, non-contiguous arrays and arrays with one
element are left alone. -/
theorem specCall_keeps_partial (f : Fl → Fl) {loop : ∀ {n}, (Fin n → Fl) → Fin n → Fl}
    (hl : ∀ {n} (x : Fin n → Fl), LoopRun f x (loop x)) (x : SpecArg)
    (h : x.isFloat64 = false ∨ x.contiguous = false ∨ x.data.length = 1) :
    (specCall f loop x).2 = x.data := by
  by_cases h1 : x.data.length = 1
  · obtain ⟨v, hv⟩ := List.length_eq_one_iff.mp h1
    rw [(specCall_spec f hl x).1 v hv]
  · refine ((specCall_spec f hl x).2 h1).2.2 ?_
    rintro ⟨h2, h3⟩
    simp [h1, h2, h3] at h

example (f : Fl → Fl) (p : Fl) := specCall_keeps_partial f (loop := mapDblS f p) (fun _ => .serial p)
  ⟨[2], [.fin 1, .fin 2], true, false⟩ (by simp)

/-- Instance for `prange_eq_serial` and `mapc_dbl_p_eq_s`: two threads share three cells. -/
theorem twoThreads : IsPartition (fun t : Fin 2 => if t = 0 then [(0 : Fin 3), 2] else [1]) := by
  refine ⟨by decide, fun t t' h => ?_, by decide⟩
  fin_cases t <;> fin_cases t' <;> simp at h ⊢

example (f : ℕ → ℕ) := prange_eq_serial (mapBody_overwrites f) (fun i : Fin 3 => (i : ℕ)) twoThreads (fun _ => 5) 7 _
  (exists_done (mapBody f) (PRun.start (fun i : Fin 3 => (i : ℕ)) _ fun _ => 5)).choose_spec

example (f : ℕ → ℕ → ℕ × ℕ) := mapc_dbl_p_eq_s f (fun i : Fin 3 => ((i : ℕ), 1)) twoThreads (fun _ => 5) 7 _
  (exists_done (mapcBody f) (PRun.start (fun i : Fin 3 => ((i : ℕ), 1)) _ fun _ => 5)).choose_spec

end Copulae
