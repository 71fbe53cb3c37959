import Verif.Lemmas.Alias
import Verif.Lemmas.Elliptical
import Verif.Props.Linalg
import Mathlib.Algebra.Order.Star.Real
import Mathlib.Tactic.Linarith

/-!
**C153** Copulas own their parameters.

`Spec/Owned.lean` says what programs with arrays and elliptical copulas should do if nothing is shared. The code does so for programs
that assign copies of arrays and floats only (`owned_partial`). Otherwise assigning an array makes the copula follow the array, without
any check (`shared_follows`), two copulas that were assigned the same array change each other (`shared_copulas`), a fit by inversion
overwrites the array of the caller (`shared_fit_overwrites`), and changing a copula changes the summary of its fit
(`shared_summary`). With integers for parameters, assignments and fits are cut down to integers (`integer_fit_zero`,
`integer_assignment_lost`).
-/

namespace Copulae

open Spec

variable {N : ℕ}

theorem Owns.new (kinds : Fin N → Bool × ℕ × Fl) : Owns (AState.new kinds) (VState.new kinds) where
  student _ := rfl
  dim _ := rfl
  df _ := rfl
  rhos c := by simp [AState.read, AState.new, VState.new]
  off _ := Nat.zero_le _
  float c := by simp [AState.new]
  lt c := c.2
  inj _ _ h := Fin.ext h
  nodup := List.nodup_nil
  varsLt := by simp [AState.new]
  apart c := by simp [AState.new]
  arrays := rfl

theorem Owns.bind {s : AState N} {v : VState N} (h : Owns s v) (c : Fin N) (l : List Fl) (sm : Option View) :
    ((s.alloc ⟨.float, l⟩).1.bind c s.next).2 = ((v.cops c).assigned l).2 ∧
    (((s.alloc ⟨.float, l⟩).1.bind c s.next).2 = .ok () →
      Owns (((s.alloc ⟨.float, l⟩).1.bind c s.next).1.setCop c { ((s.alloc ⟨.float, l⟩).1.bind c s.next).1.cops c with smry := sm })
        { v with cops := Function.update v.cops c ((v.cops c).assigned l).1 }) ∧
    Owns ((s.alloc ⟨.float, l⟩).1.bind c s.next).1 { v with cops := Function.update v.cops c ((v.cops c).assigned l).1 } := by
  have hn : (s.alloc ⟨.float, l⟩).1.heap s.next = ⟨.float, l⟩ := Function.update_self _ _ _
  have hst := h.student c
  have hdim := h.dim c
  have hself : ∀ e : VCop, e = v.cops c → { v with cops := Function.update v.cops c e } = v := by
    rintro e rfl
    simp
  have fin : ∀ (df : Fl) (off : ℕ), off ≤ l.length → (s.cops c).accept l = .ok (df, off) →
      (v.cops c).assigned l = ({ v.cops c with df := df, rhos := l.drop off }, .ok ()) →
      ((s.alloc ⟨.float, l⟩).1.bind c s.next).2 = ((v.cops c).assigned l).2 ∧
      (((s.alloc ⟨.float, l⟩).1.bind c s.next).2 = .ok () →
        Owns (((s.alloc ⟨.float, l⟩).1.bind c s.next).1.setCop c { ((s.alloc ⟨.float, l⟩).1.bind c s.next).1.cops c with smry := sm })
          { v with cops := Function.update v.cops c ((v.cops c).assigned l).1 }) ∧
      Owns ((s.alloc ⟨.float, l⟩).1.bind c s.next).1 { v with cops := Function.update v.cops c ((v.cops c).assigned l).1 } := by
    intro df off ho ha hv
    have hb : (s.alloc ⟨.float, l⟩).1.bind c s.next =
        ((s.alloc ⟨.float, l⟩).1.setCop c { s.cops c with df := df, rhos := ⟨s.next, off⟩ }, .ok ()) := by
      unfold AState.bind
      rw [hn]
      show (match (s.cops c).accept l with | .error e => _ | .ok (df, off) => _) = _
      rw [ha]
      rfl
    rw [hb, hv]
    refine ⟨rfl, fun _ => ?_, h.rebind c l off ho hst hdim rfl rfl rfl⟩
    have := h.rebind c l off ho (e := { s.cops c with df := df, rhos := ⟨s.next, off⟩, smry := sm })
      (w := { v.cops c with df := df, rhos := l.drop off }) hst hdim rfl rfl rfl
    simpa [AState.setCop] using this
  have bad : ∀ e, (s.cops c).accept l = .error e → (v.cops c).assigned l = (v.cops c, .error e) →
      ((s.alloc ⟨.float, l⟩).1.bind c s.next).2 = ((v.cops c).assigned l).2 ∧
      (((s.alloc ⟨.float, l⟩).1.bind c s.next).2 = .ok () →
        Owns (((s.alloc ⟨.float, l⟩).1.bind c s.next).1.setCop c { ((s.alloc ⟨.float, l⟩).1.bind c s.next).1.cops c with smry := sm })
          { v with cops := Function.update v.cops c ((v.cops c).assigned l).1 }) ∧
      Owns ((s.alloc ⟨.float, l⟩).1.bind c s.next).1 { v with cops := Function.update v.cops c ((v.cops c).assigned l).1 } := by
    intro e ha hv
    have hb : (s.alloc ⟨.float, l⟩).1.bind c s.next = ((s.alloc ⟨.float, l⟩).1, .error e) := by
      unfold AState.bind
      rw [hn]
      show (match (s.cops c).accept l with | .error e => _ | .ok (df, off) => _) = _
      rw [ha]
    rw [hb, hv]
    refine ⟨rfl, fun (h : Except.error e = Except.ok ()) => (by cases h), ?_⟩
    rw [hself _ rfl]
    exact h.alloc _
  cases hs : (v.cops c).student with
  | false =>
    refine fin (s.cops c).df 0 (Nat.zero_le _) ?_ ?_
    · simp [ECop.accept, hst, hs]
    · rw [h.df c]
      simp [VCop.assigned, hs]
  | true =>
    cases l with
    | nil =>
      refine bad .valueError ?_ ?_
      · simp [ECop.accept, hst, hs]
      · simp [VCop.assigned, hs]
    | cons df l =>
      by_cases hl : l.length = (v.cops c).dim * ((v.cops c).dim - 1) / 2
      · by_cases hd : df ≤ .fin 0
        · refine bad .valueError ?_ ?_
          · simp [ECop.accept, hst, hs, hdim, hl, hd, add_comm]
          · simp [VCop.assigned, hs, hd]
        · refine fin df 1 (by simp) ?_ ?_
          · simp [ECop.accept, hst, hs, hdim, hl, hd, add_comm]
          · simp [VCop.assigned, hs, hl, hd]
      · refine bad .valueError ?_ ?_
        · have : ¬ (l.length + 1 = 1 + (v.cops c).dim * ((v.cops c).dim - 1) / 2) := by omega
          simp [ECop.accept, hst, hs, hdim, this]
        · simp [VCop.assigned, hs, hl]

theorem castFloat (l : List ℝ) : (l.mapM fun x => NpType.float.cast (.fin x)) = .ok (l.map .fin) := by
  induction l with
  | nil => rfl
  | cons a l ih => rw [List.mapM_cons, ih]; rfl

/-- One step of a careful program: the same outcome, and nothing is shared afterwards. -/
theorem owned_step (ext : CovNearest) {s : AState N} {v : VState N} (h : Owns s v) {op : AOp N} (hop : Careful op) :
    (s.exec ext op).2 = (v.exec ext op).2 ∧ Owns (s.exec ext op).1 (v.exec ext op).1 := by
  have hself : ∀ (c : Fin N) (l : List Fl), l = (v.cops c).rhos →
      { v with cops := Function.update v.cops c { v.cops c with rhos := l } } = v := by
    rintro c l rfl
    have : { v.cops c with rhos := (v.cops c).rhos } = v.cops c := rfl
    rw [this, Function.update_eq_self]
  cases op with
  | newArray a =>
    refine ⟨rfl, ?_⟩
    have h' := h.alloc a
    have hn : (s.alloc a).1.heap s.next = a := Function.update_self _ _ _
    exact
      { student := h'.student
        dim := h'.dim
        df := h'.df
        rhos := h'.rhos
        off := h'.off
        float := h'.float
        lt := h'.lt
        inj := h'.inj
        nodup := by
          show (s.vars ++ [s.next]).Nodup
          rw [List.nodup_append]
          refine ⟨h.nodup, by simp, ?_⟩
          intro a ha b hb
          rw [List.mem_singleton] at hb
          exact hb ▸ (h.varsLt a ha).ne
        varsLt := by
          show ∀ a ∈ s.vars ++ [s.next], a < s.next + 1
          intro a ha
          rcases List.mem_append.mp ha with ha | ha
          · exact (h.varsLt a ha).trans (Nat.lt_succ_self _)
          · rw [List.mem_singleton.mp ha]; exact Nat.lt_succ_self _
        apart := by
          intro c
          show (s.cops c).rhos.addr ∉ s.vars ++ [s.next]
          rw [List.mem_append, List.mem_singleton]
          exact not_or.mpr ⟨h.apart c, (h.lt c).ne⟩
        arrays := by
          show v.arrays ++ [a] = (s.vars ++ [s.next]).map (s.alloc a).1.heap
          have e : s.vars.map (s.alloc a).1.heap = v.arrays := h'.arrays.symm
          rw [List.map_append, e]
          simp [hn] }
  | write k i x =>
    have hk : v.arrays[k]? = (s.vars[k]?).map s.heap := by rw [h.arrays, List.getElem?_map]
    simp only [AState.exec, VState.exec, hk]
    cases hv : s.vars[k]? with
    | none => exact ⟨rfl, h⟩
    | some a =>
      simp only [Option.map_some]
      split_ifs with hi
      · cases (s.heap a).dtype.cast x with
        | error e => exact ⟨rfl, h⟩
        | ok x' =>
          refine ⟨rfl, ?_⟩
          have ham : a ∈ s.vars := List.mem_of_getElem? hv
          have hne : ∀ c, (s.cops c).rhos.addr ≠ a := fun c e => h.apart c (e ▸ ham)
          exact
            { student := h.student
              dim := h.dim
              df := h.df
              rhos := fun c => by
                rw [← h.rhos c]
                simp only [AState.read, Function.update_of_ne (hne c)]
              off := fun c => by
                show (s.cops c).rhos.off ≤ _
                simpa only [Function.update_of_ne (hne c)] using h.off c
              float := fun c => by
                simpa only [Function.update_of_ne (hne c)] using h.float c
              lt := h.lt
              inj := h.inj
              nodup := h.nodup
              varsLt := h.varsLt
              apart := h.apart
              arrays := by
                show v.arrays.set k _ = s.vars.map (Function.update s.heap a _)
                rw [h.arrays]
                obtain ⟨hkl, hka⟩ := List.getElem?_eq_some_iff.mp hv
                refine List.ext_getElem (by simp) fun j h1 h2 => ?_
                simp only [List.getElem_set, List.getElem_map]
                split_ifs with hj
                · subst hj
                  rw [hka, Function.update_self]
                · rw [Function.update_of_ne]
                  intro e
                  exact hj ((h.nodup.getElem_inj_iff).mp (e.trans hka.symm)).symm }
      · exact ⟨rfl, h⟩
  | assign c k => exact hop.elim
  | assignCopy c a =>
    obtain ⟨dt, l⟩ := a
    obtain rfl : dt = .float := hop
    have := h.bind c l none
    exact ⟨this.1, this.2.2⟩
  | assignScalar c dt x =>
    obtain rfl : dt = .float := hop
    simp only [AState.exec, VState.exec, h.student c]
    split_ifs with hs
    · exact ⟨rfl, h⟩
    · refine ⟨rfl, ?_⟩
      rw [h.rhos c]
      exact h.rebind c (List.replicate (v.cops c).rhos.length x) 0 (Nat.zero_le _) rfl (h.dim c) (h.df c) rfl rfl
  | setItem c ix dt x =>
    simp only [AState.exec, VState.exec]
    by_cases hr : rangeOk x
    swap
    · have e1 : s.setItem ext c ix dt x = (s, .error .valueError) := by simp [AState.setItem, hr]
      have e2 : Ell.setItem ext ⟨(v.cops c).dim, (v.cops c).rhos⟩ ix x = (⟨(v.cops c).dim, (v.cops c).rhos⟩, .error .valueError) := by
        simp [Ell.setItem, hr]
      rw [e1, e2]
      exact ⟨rfl, by rw [hself c _ rfl]; exact h⟩
    rw [setItem_eq _ _ _ _ hr]
    unfold AState.setItem
    simp only [hr, not_true_eq_false, if_false, h.rhos c, h.dim c]
    by_cases hw : ix.whole = true
    · rw [if_pos hw, if_pos hw]
      rcases setSlice_cases ext ⟨(v.cops c).dim, (v.cops c).rhos⟩ x with ⟨e, he⟩ | ⟨l, hl⟩
      · rw [he]
        exact ⟨rfl, by rw [hself c _ rfl]; exact h⟩
      · rw [hl]
        refine ⟨rfl, ?_⟩
        obtain rfl : dt = .float := hop
        have hdt : wholeNpType .float x = .float := by
          unfold wholeNpType
          split
          · split_ifs <;> rfl
          · rfl
        simp only [hdt]
        exact h.rebind c l 0 (Nat.zero_le _) (h.student c) rfl (h.df c) rfl rfl
    · rw [if_neg hw, if_neg hw, h.float c]
      have hcast : NpType.float.cast = Except.ok := rfl
      rw [hcast]
      have hp := h.put c (ellWrites .ok ⟨(v.cops c).dim, (v.cops c).rhos⟩ ix x).1
      cases hwr : ellWrites .ok ⟨(v.cops c).dim, (v.cops c).rhos⟩ ix x with
      | mk l o =>
        rw [hwr] at hp
        cases o with
        | error e => exact ⟨rfl, hp⟩
        | ok _ =>
          simp only
          rcases forcePsd_cases ext ⟨(v.cops c).dim, l⟩ with ⟨e, he⟩ | ⟨l', hl'⟩
          · rw [he]
            exact ⟨rfl, hp⟩
          · rw [hl']
            refine ⟨rfl, ?_⟩
            have := hp.rebind c l' 0 (Nat.zero_le _) (e := ⟨(s.cops c).student, (v.cops c).dim, (s.cops c).df, ⟨s.next, 0⟩, (s.cops c).smry⟩)
              (w := { v.cops c with rhos := l' }) (h.student c) rfl (h.df c) rfl rfl
            rw [Function.update_idem] at this
            exact this
  | fitInversion c est =>
    simp only [AState.exec, VState.exec, AState.fitInversion, h.student c]
    split_ifs with hs
    · refine ⟨rfl, ?_⟩
      exact h.rebind c (est.map .fin) 0 (Nat.zero_le _) rfl (h.dim c) (h.df c) rfl rfl
    · rw [h.rhos c, h.float c]
      cases broadcastTo (v.cops c).rhos.length est with
      | error e => exact ⟨rfl, h⟩
      | ok l =>
        simp only [castFloat]
        refine ⟨trivial, ?_⟩
        have := (h.alloc ⟨.float, est.map .fin⟩).put c (l.map .fin)
        exact this.resummarise c (h.student c).symm rfl rfl rfl
  | fitMl c est =>
    have hb := h.bind c est (some ⟨s.next, 0⟩)
    simp only [AState.exec, VState.exec, AState.fitMl]
    show (match (s.alloc ⟨.float, est⟩).1.bind c s.next with
      | (_, .error err) => (s, .error err)
      | (s', .ok _) => (s'.setCop c { s'.cops c with smry := some ⟨s.next, 0⟩ }, .ok ()) : AState N × Except PyErr Unit).2 = _ ∧
      Owns (match (s.alloc ⟨.float, est⟩).1.bind c s.next with
      | (_, .error err) => (s, .error err)
      | (s', .ok _) => (s'.setCop c { s'.cops c with smry := some ⟨s.next, 0⟩ }, .ok ()) : AState N × Except PyErr Unit).1 _
    cases hbb : (s.alloc ⟨.float, est⟩).1.bind c s.next with
    | mk s' o =>
      rw [hbb] at hb
      cases o with
      | error e =>
        refine ⟨hb.1, ?_⟩
        have has : (v.cops c).assigned est = (v.cops c, ((v.cops c).assigned est).2) := by
          have h2 : ((v.cops c).assigned est).2 = .error e := hb.1.symm
          revert h2
          unfold VCop.assigned
          split
          · intro h2; cases h2
          · split_ifs
            · intro h2; cases h2
            · intro; rfl
          · intro; rfl
        rw [has, Function.update_eq_self]
        exact h
      | ok u => exact ⟨hb.1, hb.2.1 rfl⟩

/-- **C153**, for programs that assign copies and floats only (partial): whatever the program does, every copula reports the parameters,
and every array of the caller holds the numbers, that it should if nothing is shared, and every step raises when it should. -/
theorem owned_partial (ext : CovNearest) (kinds : Fin N → Bool × ℕ × Fl) (ops : List (AOp N)) (hops : ∀ op ∈ ops, Careful op) :
    (∀ c, ((AState.new kinds).run ext ops).params c = ((((VState.new kinds).run ext ops).cops c).df, (((VState.new kinds).run ext ops).cops c).rhos)) ∧
    (∀ k, ((AState.new kinds).run ext ops).array k = (((VState.new kinds).run ext ops).arrays[k]?).map NdArr.vals) ∧
    ∀ op, Careful op → (((AState.new kinds).run ext ops).exec ext op).2 = (((VState.new kinds).run ext ops).exec ext op).2 := by
  have key : ∀ (s : AState N) (v : VState N), Owns s v → Owns (s.run ext ops) (v.run ext ops) := by
    induction ops with
    | nil => exact fun s v h => h
    | cons op l ih =>
      intro s v h
      exact ih (fun o ho => hops o (List.mem_cons_of_mem _ ho)) _ _ (owned_step ext h (hops op List.mem_cons_self)).2
  have h := key _ _ (Owns.new kinds)
  refine ⟨fun c => ?_, fun k => ?_, fun op hop => (owned_step ext h hop).1⟩
  · exact Prod.ext (h.df c) (h.rhos c)
  · rw [h.arrays, AState.array, List.getElem?_map, Option.map_map]
    rfl

/-! ### Violations -/

/-- Assigning an array to the parameters of a Gaussian copula makes the copula refer to it. -/
theorem assign_gaussian (ext : CovNearest) (s : AState N) {c : Fin N} (hg : (s.cops c).student = false) {k a : ℕ} (hk : s.vars[k]? = some a) :
    s.exec ext (.assign c k) = (s.setCop c { s.cops c with rhos := ⟨a, 0⟩ }, .ok ()) := by
  simp [AState.exec, hk, AState.bind, ECop.accept, hg]

/-- Finding (**C153** is violated): after `copula.params = x` the copula follows the array: `x[i] = v` changes its parameters, whatever
the number `v` is. -/
theorem shared_follows (ext : CovNearest) (s : AState N) {c : Fin N} (hg : (s.cops c).student = false) {k a : ℕ} (hk : s.vars[k]? = some a)
    (hf : (s.heap a).dtype = .float) {i : ℕ} (hi : i < (s.heap a).vals.length) (v : Fl) :
    ((s.exec ext (.assign c k)).1.exec ext (.write k i v)).2 = .ok () ∧
    (s.exec ext (.assign c k)).1.params c = ((s.cops c).df, (s.heap a).vals) ∧
    ((s.exec ext (.assign c k)).1.exec ext (.write k i v)).1.params c = ((s.cops c).df, (s.heap a).vals.set i v) := by
  rw [assign_gaussian ext s hg hk]
  refine ⟨?_, ?_, ?_⟩
  · simp [AState.exec, AState.setCop, hk, hf, hi, NpType.cast]
  · simp [AState.params, AState.setCop, AState.read]
  · simp [AState.exec, AState.setCop, hk, hf, hi, NpType.cast, AState.params, AState.read]

theorem writes_int {l : List Fl} {d p : ℕ} (hp : p < l.length) (x : Fl) :
    ellWrites NpType.float.cast ⟨d, l⟩ (.int p) (.scalar x) = (l.set p x, .ok ()) := by
  have hn : npPos l.length (p : ℤ) = .ok p := by
    unfold npPos
    rw [if_pos ⟨by omega, by omega⟩]
    simp
  simp [ellWrites, hn, PyVal.flat, storeCellAs, NpType.cast, bind, Except.bind, pure, Except.pure]

/-- `copula[p] = x`: the array of the copula holds the number afterwards, and the copula refers to this array or to a new one. -/
theorem setItem_int_heap (ext : CovNearest) (s : AState N) (c : Fin N) (hf : (s.heap (s.cops c).rhos.addr).dtype = .float) {p : ℕ}
    (hp : p < (s.read (s.cops c).rhos).length) {x : ℝ} (hx : -1 ≤ x ∧ x ≤ 1) (dt : NpType) :
    (∀ a, a < s.next → a ≠ (s.cops c).rhos.addr → (s.exec ext (.setItem c (.int p) dt (.scalar (.fin x)))).1.heap a = s.heap a) ∧
    ((s.cops c).rhos.addr < s.next → (s.exec ext (.setItem c (.int p) dt (.scalar (.fin x)))).1.heap (s.cops c).rhos.addr =
      ⟨.float, (s.heap (s.cops c).rhos.addr).vals.take (s.cops c).rhos.off ++ (s.read (s.cops c).rhos).set p (.fin x)⟩) ∧
    ∀ c', c' ≠ c → (s.exec ext (.setItem c (.int p) dt (.scalar (.fin x)))).1.cops c' = s.cops c' := by
  have hr : rangeOk (.scalar (.fin x)) := by
    simp only [rangeOk, Fl.fin_lt_fin]
    push Not
    exact hx
  have hput : ∀ (c' : Fin N), (s.put (s.cops c).rhos ((s.read (s.cops c).rhos).set p (.fin x))).cops c' = s.cops c' := fun _ => rfl
  have h1 : ∀ a, a ≠ (s.cops c).rhos.addr → (s.put (s.cops c).rhos ((s.read (s.cops c).rhos).set p (.fin x))).heap a = s.heap a :=
    fun a ha => Function.update_of_ne ha _ _
  have h2 : (s.put (s.cops c).rhos ((s.read (s.cops c).rhos).set p (.fin x))).heap (s.cops c).rhos.addr =
      ⟨.float, (s.heap (s.cops c).rhos.addr).vals.take (s.cops c).rhos.off ++ (s.read (s.cops c).rhos).set p (.fin x)⟩ := by
    rw [← hf]
    exact Function.update_self _ _ _
  have hnext : (s.put (s.cops c).rhos ((s.read (s.cops c).rhos).set p (.fin x))).next = s.next := rfl
  have hE : s.exec ext (.setItem c (.int p) dt (.scalar (.fin x))) =
      match Ell.forcePsd ext ⟨(s.cops c).dim, (s.read (s.cops c).rhos).set p (.fin x)⟩ with
      | (_, .error err) => (s.put (s.cops c).rhos ((s.read (s.cops c).rhos).set p (.fin x)), .error err)
      | (f, .ok _) => (((s.put (s.cops c).rhos ((s.read (s.cops c).rhos).set p (.fin x))).alloc ⟨.float, f.rhos⟩).1.setCop c
          { s.cops c with rhos := ⟨s.next, 0⟩ }, .ok ()) := by
    simp only [AState.exec, AState.setItem, hr, not_true_eq_false, if_false, Ix.whole, Bool.false_eq_true, hf, writes_int hp]
    rfl
  generalize s.put (s.cops c).rhos ((s.read (s.cops c).rhos).set p (.fin x)) = s' at *
  rw [hE]
  rcases forcePsd_cases ext ⟨(s.cops c).dim, (s.read (s.cops c).rhos).set p (.fin x)⟩ with ⟨e, he⟩ | ⟨l, hl⟩
  · rw [he]
    exact ⟨fun a _ ha => h1 a ha, fun _ => h2, fun c' _ => hput c'⟩
  · rw [hl]
    refine ⟨fun a ha hne => ?_, fun ha => ?_, fun c' hc => ?_⟩
    · show (s'.alloc _).1.heap a = _
      rw [heap_alloc (hnext ▸ ha), h1 a hne]
    · show (s'.alloc _).1.heap _ = _
      rw [heap_alloc (hnext ▸ ha), h2]
    · show Function.update s'.cops c _ c' = _
      rw [Function.update_of_ne hc, hput]

theorem AState.setItem_vars (ext : CovNearest) (s : AState N) (c : Fin N) (ix : Ix) (dt : NpType) (v : PyVal) :
    (s.setItem ext c ix dt v).1.vars = s.vars := by
  unfold AState.setItem
  dsimp only
  repeat' split
  all_goals rfl

theorem AState.setItem_smry (ext : CovNearest) (s : AState N) (c : Fin N) (ix : Ix) (dt : NpType) (v : PyVal) :
    ((s.setItem ext c ix dt v).1.cops c).smry = (s.cops c).smry := by
  unfold AState.setItem
  dsimp only
  repeat' split
  all_goals first | rfl | simp [AState.setCop]

/-- Finding (**C153** is violated): two Gaussian copulas that were assigned the same array: `first[p] = x` changes the parameters of the
second one, and the array of the caller, and no matrix is made positive semi-definite there. -/
theorem shared_copulas (ext : CovNearest) (s : AState N) {c c' : Fin N} (hcc : c ≠ c') (hg : (s.cops c).student = false)
    (hg' : (s.cops c').student = false) {k a : ℕ} (hk : s.vars[k]? = some a) (ha : a < s.next) (hf : (s.heap a).dtype = .float) {p : ℕ}
    (hp : p < (s.heap a).vals.length) {x : ℝ} (hx : -1 ≤ x ∧ x ≤ 1) (dt : NpType) :
    ((s.run ext [.assign c k, .assign c' k]).params c').2 = (s.heap a).vals ∧
    ((s.run ext [.assign c k, .assign c' k, .setItem c (.int p) dt (.scalar (.fin x))]).params c').2 = (s.heap a).vals.set p (.fin x) ∧
    (s.run ext [.assign c k, .assign c' k, .setItem c (.int p) dt (.scalar (.fin x))]).array k = some ((s.heap a).vals.set p (.fin x)) := by
  have e1 : (s.exec ext (.assign c k)).1 = s.setCop c { s.cops c with rhos := ⟨a, 0⟩ } := by rw [assign_gaussian ext s hg hk]
  have hc' : ((s.setCop c { s.cops c with rhos := ⟨a, 0⟩ }).cops c') = s.cops c' := Function.update_of_ne hcc.symm _ _
  have e2 := congrArg Prod.fst (assign_gaussian ext (s.setCop c { s.cops c with rhos := ⟨a, 0⟩ }) (c := c') (by rw [hc']; exact hg') (k := k) hk)
  have e3 : s.run ext [.assign c k, .assign c' k] =
      (s.setCop c { s.cops c with rhos := ⟨a, 0⟩ }).setCop c' { s.cops c' with rhos := ⟨a, 0⟩ } := by
    simp only [AState.run, List.foldl_cons, List.foldl_nil, e1]
    rw [e2, hc']
  have e4 : s.run ext [.assign c k, .assign c' k, .setItem c (.int p) dt (.scalar (.fin x))] =
      ((s.run ext [.assign c k, .assign c' k]).exec ext (.setItem c (.int p) dt (.scalar (.fin x)))).1 := rfl
  rw [e4, e3]
  generalize hS : (s.setCop c { s.cops c with rhos := ⟨a, 0⟩ }).setCop c' { s.cops c' with rhos := ⟨a, 0⟩ } = S
  have hSc : (S.cops c).rhos = ⟨a, 0⟩ := by
    rw [← hS]
    simp [AState.setCop, hcc]
  have hSc' : (S.cops c').rhos = ⟨a, 0⟩ := by
    rw [← hS]
    simp [AState.setCop]
  have hSh : S.heap = s.heap := by rw [← hS]; rfl
  have hSn : S.next = s.next := by rw [← hS]; rfl
  have hSv : S.vars = s.vars := by rw [← hS]; rfl
  obtain ⟨-, h2, h3⟩ := setItem_int_heap ext S c (by rw [hSc, hSh]; exact hf) (p := p) (by rw [hSc]; simpa [AState.read, hSh] using hp) hx dt
  have h2' := h2 (by rw [hSc, hSn]; exact ha)
  rw [hSc] at h2'
  simp only [AState.read, hSh, List.take_zero, List.nil_append, List.drop_zero] at h2'
  refine ⟨?_, ?_, ?_⟩
  · simp [AState.params, AState.read, hSc', hSh]
  · simp only [AState.params, AState.read]
    rw [h3 c' hcc.symm, hSc', h2']
    rfl
  · have hv : (S.exec ext (.setItem c (.int p) dt (.scalar (.fin x)))).1.vars = s.vars := (S.setItem_vars ext c _ dt _).trans hSv
    simp only [AState.array, hv, hk, Option.map_some, h2']

theorem castFloat' {s : AState N} {a : ℕ} (hf : (s.heap a).dtype = .float) (l : List ℝ) :
    (l.mapM fun x => (s.heap a).dtype.cast (.fin x)) = .ok (l.map .fin) := by
  rw [hf]
  exact castFloat l

/-- Finding (**C153** is violated): fitting a Gaussian copula by inversion overwrites the array that was assigned to its parameters. -/
theorem shared_fit_overwrites (ext : CovNearest) (s : AState N) {c : Fin N} (hg : (s.cops c).student = false) {k a : ℕ}
    (hk : s.vars[k]? = some a) (ha : a < s.next) (hf : (s.heap a).dtype = .float) {est : List ℝ} (he : est.length = (s.heap a).vals.length) :
    (s.run ext [.assign c k, .fitInversion c est]).array k = some (est.map .fin) := by
  have e1 : (s.exec ext (.assign c k)).1 = s.setCop c { s.cops c with rhos := ⟨a, 0⟩ } := by rw [assign_gaussian ext s hg hk]
  have hrun : s.run ext [.assign c k, .fitInversion c est] = ((s.setCop c { s.cops c with rhos := ⟨a, 0⟩ }).fitInversion c est).1 := by
    simp only [AState.run, List.foldl_cons, List.foldl_nil, e1]
    rfl
  rw [hrun]
  have hc : (s.setCop c { s.cops c with rhos := ⟨a, 0⟩ }).cops c = { s.cops c with rhos := ⟨a, 0⟩ } := Function.update_self _ _ _
  have hh : (s.setCop c { s.cops c with rhos := ⟨a, 0⟩ }).heap a = s.heap a := rfl
  have hnx : (s.setCop c { s.cops c with rhos := ⟨a, 0⟩ }).next = s.next := rfl
  have hv : (s.setCop c { s.cops c with rhos := ⟨a, 0⟩ }).vars = s.vars := rfl
  generalize s.setCop c { s.cops c with rhos := ⟨a, 0⟩ } = S at *
  have hfit : (S.fitInversion c est).1 = ((S.alloc ⟨.float, est.map .fin⟩).1.put ⟨a, 0⟩ (est.map .fin)).setCop c
      { s.cops c with rhos := ⟨a, 0⟩, smry := some ⟨S.next, 0⟩ } := by
    have hread : (S.read ⟨a, 0⟩).length = est.length := by simp [AState.read, hh, he]
    simp only [AState.fitInversion, hc, hg, Bool.false_eq_true, if_false, hread, broadcastTo, castFloat' (hh ▸ hf), if_true]
    rfl
  rw [hfit]
  have : ((S.alloc ⟨.float, est.map .fin⟩).1.put ⟨a, 0⟩ (est.map .fin)).heap a = ⟨.float, est.map .fin⟩ := by
    have h0 : (S.alloc ⟨.float, est.map .fin⟩).1.heap a = s.heap a := (heap_alloc (by rw [hnx]; exact ha) _).trans hh
    unfold AState.put
    simp only [Function.update_self, h0, hf, List.take_zero, List.nil_append]
  show (S.vars[k]?).map (fun a' => (((S.alloc ⟨.float, est.map .fin⟩).1.put ⟨a, 0⟩ (est.map .fin)).heap a').vals) = _
  rw [hv, hk, Option.map_some, this]

/-- What `copula.summary('fit').params` reports. -/
def AState.summary (s : AState N) (c : Fin N) : Option (List Fl) := (s.cops c).smry.map s.read

/-- Finding (**C153** is violated): after maximum likelihood the summary of the fit refers to the array of the copula: `copula[p] = x`
changes the summary. -/
theorem shared_summary (ext : CovNearest) (s : AState N) {c : Fin N} (hg : (s.cops c).student = false) (est : List Fl) {p : ℕ}
    (hp : p < est.length) {x : ℝ} (hx : -1 ≤ x ∧ x ≤ 1) (dt : NpType) :
    (s.run ext [.fitMl c est]).summary c = some est ∧
    (s.run ext [.fitMl c est, .setItem c (.int p) dt (.scalar (.fin x))]).summary c = some (est.set p (.fin x)) := by
  have hn : (s.alloc ⟨.float, est⟩).1.heap s.next = ⟨.float, est⟩ := Function.update_self _ _ _
  have e1 : s.run ext [.fitMl c est] =
      (s.alloc ⟨.float, est⟩).1.setCop c { s.cops c with rhos := ⟨s.next, 0⟩, smry := some ⟨s.next, 0⟩ } := by
    have hb : (s.alloc ⟨.float, est⟩).1.bind c s.next = ((s.alloc ⟨.float, est⟩).1.setCop c { s.cops c with rhos := ⟨s.next, 0⟩ }, .ok ()) := by
      unfold AState.bind
      rw [hn]
      show (match (s.cops c).accept est with | .error e => _ | .ok (df, off) => _) = _
      have hacc : (s.cops c).accept est = .ok ((s.cops c).df, 0) := by simp [ECop.accept, hg]
      rw [hacc]
      rfl
    have : (s.exec ext (.fitMl c est)).1 = (match (s.alloc ⟨.float, est⟩).1.bind c s.next with
      | (_, .error err) => (s, .error err)
      | (s', .ok _) => (s'.setCop c { s'.cops c with smry := some ⟨s.next, 0⟩ }, .ok ()) : AState N × Except PyErr Unit).1 := rfl
    rw [hb] at this
    simp only [AState.run, List.foldl_cons, List.foldl_nil, this]
    simp [AState.setCop]
  have e2 : s.run ext [.fitMl c est, .setItem c (.int p) dt (.scalar (.fin x))] =
      ((s.run ext [.fitMl c est]).exec ext (.setItem c (.int p) dt (.scalar (.fin x)))).1 := rfl
  rw [e2, e1]
  generalize hS : (s.alloc ⟨.float, est⟩).1.setCop c { s.cops c with rhos := ⟨s.next, 0⟩, smry := some ⟨s.next, 0⟩ } = S
  have hc : S.cops c = { s.cops c with rhos := ⟨s.next, 0⟩, smry := some ⟨s.next, 0⟩ } := by
    rw [← hS]; exact Function.update_self _ _ _
  have hh : S.heap s.next = ⟨.float, est⟩ := by rw [← hS]; exact hn
  have hnx : S.next = s.next + 1 := by rw [← hS]; rfl
  obtain ⟨-, h2, -⟩ := setItem_int_heap ext S c (by rw [hc]; simp [hh]) (p := p) (by rw [hc]; simpa [AState.read, hh] using hp) hx dt
  have h2' := h2 (by rw [hc, hnx]; exact Nat.lt_succ_self _)
  rw [hc] at h2'
  simp only [AState.read, hh, List.take_zero, List.nil_append, List.drop_zero] at h2'
  refine ⟨by simp [AState.summary, hc, AState.read, hh], ?_⟩
  have hs : ((S.exec ext (.setItem c (.int p) dt (.scalar (.fin x)))).1.cops c).smry = some ⟨s.next, 0⟩ :=
    (S.setItem_smry ext c _ dt _).trans (by rw [hc])
  simp only [AState.summary, hs, Option.map_some, AState.read, h2', List.drop_zero]

theorem castInt_small {x : ℝ} (hx : |x| < 1) : NpType.int.cast (.fin x) = .ok (.fin 0) := by
  have h := abs_lt.mp hx
  simp only [NpType.cast]
  split_ifs with h0
  · have : ⌊x⌋ = 0 := Int.floor_eq_iff.mpr ⟨by simpa using h0, by simpa using h.2⟩
    simp [this]
  · have : ⌈x⌉ = 0 := Int.ceil_eq_iff.mpr ⟨by simpa using h.1, by simpa using (not_le.mp h0).le⟩
    simp [this]

/-- Finding (**C153** is violated): a Gaussian copula whose parameters were assigned as an integer, `copula.params = 0`, has all
correlations zero after a fit by inversion, whatever the estimates between -1 and 1. -/
theorem integer_fit_zero (ext : CovNearest) (s : AState N) {c : Fin N} (hg : (s.cops c).student = false) (v : Fl) {est : List ℝ}
    (he : est.length = (s.read (s.cops c).rhos).length) (hx : ∀ x ∈ est, |x| < 1) :
    (s.run ext [.assignScalar c .int v, .fitInversion c est]).params c = ((s.cops c).df, List.replicate est.length (.fin 0)) ∧
    ((s.run ext [.assignScalar c .int v]).exec ext (.fitInversion c est)).2 = .ok () := by
  have e1 : s.run ext [.assignScalar c .int v] =
      (s.alloc ⟨.int, List.replicate est.length v⟩).1.setCop c { s.cops c with rhos := ⟨s.next, 0⟩ } := by
    simp only [AState.run, List.foldl_cons, List.foldl_nil, AState.exec, hg, Bool.false_eq_true, if_false, he]
    rfl
  have e2 : s.run ext [.assignScalar c .int v, .fitInversion c est] = ((s.run ext [.assignScalar c .int v]).exec ext (.fitInversion c est)).1 := rfl
  rw [e2, e1]
  have hc : ((s.alloc ⟨.int, List.replicate est.length v⟩).1.setCop c { s.cops c with rhos := ⟨s.next, 0⟩ }).cops c =
      { s.cops c with rhos := ⟨s.next, 0⟩ } := Function.update_self _ _ _
  have hh : ((s.alloc ⟨.int, List.replicate est.length v⟩).1.setCop c { s.cops c with rhos := ⟨s.next, 0⟩ }).heap s.next =
      ⟨.int, List.replicate est.length v⟩ := Function.update_self _ _ _
  have hnx : ((s.alloc ⟨.int, List.replicate est.length v⟩).1.setCop c { s.cops c with rhos := ⟨s.next, 0⟩ }).next = s.next + 1 := rfl
  generalize (s.alloc ⟨.int, List.replicate est.length v⟩).1.setCop c { s.cops c with rhos := ⟨s.next, 0⟩ } = S at *
  have hcast : (est.mapM fun x => NpType.int.cast (.fin x)) = .ok (List.replicate est.length (.fin 0)) := by
    clear e1 e2 he hh
    induction est with
    | nil => rfl
    | cons a l ih =>
      rw [List.mapM_cons, castInt_small (hx a List.mem_cons_self), ih fun x hx' => hx x (List.mem_cons_of_mem _ hx')]
      rfl
  have hfit : S.exec ext (.fitInversion c est) = (((S.alloc ⟨.float, est.map .fin⟩).1.put ⟨s.next, 0⟩ (List.replicate est.length (.fin 0))).setCop c
      { s.cops c with rhos := ⟨s.next, 0⟩, smry := some ⟨S.next, 0⟩ }, .ok ()) := by
    have hread : (S.read ⟨s.next, 0⟩).length = est.length := by simp [AState.read, hh]
    simp only [AState.exec, AState.fitInversion, hc, hg, Bool.false_eq_true, if_false, hread, broadcastTo, if_true, hh, hcast]
    rfl
  rw [hfit]
  refine ⟨?_, rfl⟩
  have h0 : (S.alloc ⟨.float, est.map .fin⟩).1.heap s.next = S.heap s.next := heap_alloc (by rw [hnx]; exact Nat.lt_succ_self _) _
  simp [AState.params, AState.setCop, AState.read, AState.put, h0, hh]

/-- Finding (**C153** is violated): with `copula.params = 0` the next assignment `copula[p] = x` of a number between -1 and 1 has no
effect. -/
theorem integer_assignment_lost (ext : CovNearest) (s : AState N) {c : Fin N} (hg : (s.cops c).student = false) (hd : 2 ≤ (s.cops c).dim)
    (hl : (s.read (s.cops c).rhos).length = (s.cops c).dim * ((s.cops c).dim - 1) / 2) {p : ℕ} (hp : p < (s.read (s.cops c).rhos).length)
    {x : ℝ} (hx : |x| < 1) (dt : NpType) :
    ((s.run ext [.assignScalar c .int (.fin 0)]).exec ext (.setItem c (.int p) dt (.scalar (.fin x)))).2 = .ok () ∧
    ((s.run ext [.assignScalar c .int (.fin 0), .setItem c (.int p) dt (.scalar (.fin x))]).params c).2 =
      List.replicate ((s.cops c).dim * ((s.cops c).dim - 1) / 2) (.fin 0) := by
  generalize hnn : (s.cops c).dim * ((s.cops c).dim - 1) / 2 = n at *
  have e1 : s.run ext [.assignScalar c .int (.fin 0)] =
      (s.alloc ⟨.int, List.replicate n (.fin 0)⟩).1.setCop c { s.cops c with rhos := ⟨s.next, 0⟩ } := by
    simp only [AState.run, List.foldl_cons, List.foldl_nil, AState.exec, hg, Bool.false_eq_true, if_false, hl]
    rfl
  have e2 : s.run ext [.assignScalar c .int (.fin 0), .setItem c (.int p) dt (.scalar (.fin x))] =
    ((s.run ext [.assignScalar c .int (.fin 0)]).exec ext (.setItem c (.int p) dt (.scalar (.fin x)))).1 := rfl
  rw [e2, e1]
  have hc : ((s.alloc ⟨.int, List.replicate n (.fin 0)⟩).1.setCop c { s.cops c with rhos := ⟨s.next, 0⟩ }).cops c =
      { s.cops c with rhos := ⟨s.next, 0⟩ } := Function.update_self _ _ _
  have hh : ((s.alloc ⟨.int, List.replicate n (.fin 0)⟩).1.setCop c { s.cops c with rhos := ⟨s.next, 0⟩ }).heap s.next =
      ⟨.int, List.replicate n (.fin 0)⟩ := Function.update_self _ _ _
  generalize (s.alloc ⟨.int, List.replicate n (.fin 0)⟩).1.setCop c { s.cops c with rhos := ⟨s.next, 0⟩ } = S at *
  have hr : rangeOk (.scalar (.fin x)) := by
    simp only [rangeOk, Fl.fin_lt_fin]
    push Not
    exact ⟨(abs_lt.mp hx).1.le, (abs_lt.mp hx).2.le⟩
  have hread : S.read ⟨s.next, 0⟩ = List.replicate n (.fin 0) := by simp [AState.read, hh]
  have hw : ellWrites NpType.int.cast ⟨(s.cops c).dim, List.replicate n (.fin 0)⟩ (.int p) (.scalar (.fin x)) =
      (List.replicate n (.fin 0), .ok ()) := by
    have hn : npPos n (p : ℤ) = .ok p := by
      unfold npPos
      rw [if_pos ⟨by omega, by omega⟩]
      simp
    simp [ellWrites, hn, PyVal.flat, storeCellAs, castInt_small hx, bind, Except.bind, pure, Except.pure, List.length_replicate]
  have hpsd : Ell.forcePsd ext ⟨(s.cops c).dim, List.replicate n (.fin 0)⟩ = (⟨(s.cops c).dim, List.replicate n (.fin 0)⟩, .ok ()) := by
    have hwf : (⟨(s.cops c).dim, List.replicate n (.fin 0)⟩ : Ell).WF := ⟨hd, by simp [hnn]⟩
    obtain ⟨M, h1, h2, h3, h4⟩ := Ell.sigma_ok hwf
    refine forcePsd_of_psd hwf h1 ?_
    have hM : M = flMat (1 : Matrix (Fin (s.cops c).dim) (Fin (s.cops c).dim) ℝ) := by
      have lt0 : ∀ i j : Fin (s.cops c).dim, i < j → M i j = .fin 0 := by
        intro i j hij
        have := List.mem_of_getElem? (h4 i j hij)
        exact (List.mem_replicate.mp this).2
      funext i j
      rcases lt_trichotomy i j with h | h | h
      · rw [lt0 i j h]; simp [flMat, Matrix.one_apply_ne h.ne]
      · subst h; rw [h2]; simp [flMat]
      · rw [h3, lt0 j i h]; simp [flMat, Matrix.one_apply_ne h.ne']
    rw [hM]
    exact (isPsd_of_posSemidef ext _ Matrix.PosSemidef.one).1
  have hE : S.exec ext (.setItem c (.int p) dt (.scalar (.fin x))) =
      (((S.put ⟨s.next, 0⟩ (List.replicate n (.fin 0))).alloc ⟨.float, List.replicate n (.fin 0)⟩).1.setCop c
        { s.cops c with rhos := ⟨S.next, 0⟩ }, .ok ()) := by
    simp only [AState.exec, AState.setItem, hr, not_true_eq_false, if_false, Ix.whole, Bool.false_eq_true, hc, hread, hh, hw, hpsd]
    rfl
  rw [hE]
  refine ⟨rfl, ?_⟩
  have hn2 : ((S.put ⟨s.next, 0⟩ (List.replicate n (.fin 0))).alloc ⟨.float, List.replicate n (.fin 0)⟩).1.heap S.next =
      ⟨.float, List.replicate n (.fin 0)⟩ := Function.update_self _ _ _
  simp only [AState.params, AState.setCop, Function.update_self, AState.read, hn2, List.drop_zero]

/-! ### The hypotheses can be met -/

/-- Two Gaussian copulas with three variables, and an array of three numbers, `x = np.array([0.9, 0.9, 0])`. -/
private noncomputable def aliasDemo : AState 2 :=
  ((AState.new fun _ => (false, 3, .fin 1)).exec (fun _ M => M) (.newArray ⟨.float, [.fin (9 / 10), .fin (9 / 10), .fin 0]⟩)).1

private theorem aliasDemo_vars : aliasDemo.vars[0]? = some 2 := rfl

private theorem aliasDemo_heap : aliasDemo.heap 2 = ⟨.float, [.fin (9 / 10), .fin (9 / 10), .fin 0]⟩ := by
  simp [aliasDemo, AState.exec, AState.alloc, AState.new]

example (ext : CovNearest) := shared_follows ext aliasDemo (c := 0) rfl aliasDemo_vars (by rw [aliasDemo_heap]) (i := 2)
  (by rw [aliasDemo_heap]; decide) (.fin 5)

/-- The second copula ends with correlations 9/10, 9/10, -1, which no three variables have. -/
example (ext : CovNearest) : ((aliasDemo.run ext [.assign 0 0, .assign 1 0, .setItem 0 (.int 2) .float (.scalar (.fin (-1)))]).params 1).2 =
    [.fin (9 / 10), .fin (9 / 10), .fin (-1)] := by
  have h := (shared_copulas ext aliasDemo (c := 0) (c' := 1) (by decide) rfl rfl aliasDemo_vars (by decide) (by rw [aliasDemo_heap]) (p := 2)
    (by rw [aliasDemo_heap]; decide) (x := -1) (by norm_num) .float).2.1
  rw [aliasDemo_heap] at h
  exact h

example (ext : CovNearest) := shared_fit_overwrites ext aliasDemo (c := 0) rfl aliasDemo_vars (by decide) (by rw [aliasDemo_heap])
  (est := [1 / 2, 1 / 3, 1 / 4]) (by rw [aliasDemo_heap]; rfl)

example (ext : CovNearest) := shared_summary ext aliasDemo (c := 0) rfl [.fin (1 / 2), .fin (1 / 3), .fin (1 / 4)] (p := 1) (by decide)
  (x := 0) (by norm_num) .float

private theorem aliasDemo_read : aliasDemo.read (aliasDemo.cops 0).rhos = [.fin 0, .fin 0, .fin 0] := rfl

example (ext : CovNearest) := integer_fit_zero ext aliasDemo (c := 0) rfl (.fin 0) (est := [1 / 2, 1 / 3, -1 / 4]) (by rw [aliasDemo_read]; rfl)
  (by
    intro x hx
    simp only [List.mem_cons, List.not_mem_nil, or_false] at hx
    rcases hx with rfl | rfl | rfl <;> rw [abs_lt] <;> constructor <;> norm_num)

example (ext : CovNearest) := integer_assignment_lost ext aliasDemo (c := 0) rfl (by decide) (by rw [aliasDemo_read]; rfl) (p := 1)
  (by rw [aliasDemo_read]; decide) (x := 1 / 2) (by rw [abs_lt]; constructor <;> norm_num) .float

/-- A program with copies only. -/
example (ext : CovNearest) := owned_partial ext (fun i : Fin 2 => (decide (i = 1), 3, .fin 4))
  [.newArray ⟨.float, [.fin (1 / 2), .fin 0, .fin 0]⟩, .assignCopy 0 ⟨.float, [.fin (1 / 2), .fin 0, .fin 0]⟩,
    .assignCopy 1 ⟨.float, [.fin 5, .fin (1 / 2), .fin 0, .fin 0]⟩, .write 0 0 (.fin 7),
    .setItem 0 (.tuple [.int 0, .int 1]) .float (.scalar (.fin (1 / 4))), .fitInversion 1 [1 / 2, 1 / 3, 1 / 4], .fitMl 0 [.fin 0, .fin 0, .fin 0]]
  (by
    intro op hop
    simp only [List.mem_cons, List.not_mem_nil, or_false] at hop
    rcases hop with rfl | rfl | rfl | rfl | rfl | rfl | rfl <;> trivial)

end Copulae
