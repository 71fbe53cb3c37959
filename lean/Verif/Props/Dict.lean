import Verif.Model.Dict

/-!
C50 and C64: dictionary merging and optimiser options.
-/

namespace Copulae

mutual

/-- Python's invariant that a dictionary has no key twice, at every level. -/
def DWF {α : Type} : PyDict α → Prop
  | [] => True
  | (k, v) :: t => (∀ p ∈ t, p.1 ≠ k) ∧ VWF v ∧ DWF t

def VWF {α : Type} : DVal α → Prop
  | .leaf _ => True
  | .dict d => DWF d

end

/-- What is found by following a path of keys: nothing (`none`), a dictionary (`some none`) or a
value that is not a dictionary. -/
def node {α : Type} : DVal α → List String → Option (Option α)
  | .leaf v, [] => some (some v)
  | .dict _, [] => some none
  | .leaf _, _ :: _ => none
  | .dict d, k :: p =>
      match d.find? fun e => decide (e.1 = k) with
      | some e => node e.2 p
      | none => none

/-- The deep right-biased merge, path by path: what the child defines wins; below a child value that is
not a dictionary there is nothing; everything else comes from the parent. -/
def IsDeepMerge {α : Type} (a b c : DVal α) : Prop :=
  (∀ p x, node b p = some x → node c p = some x) ∧
  (∀ p, node b p = none → (∃ q v, q <+: p ∧ node b q = some (some v)) → node c p = none) ∧
  (∀ p, node b p = none → (∀ q v, q <+: p → node b q ≠ some (some v)) → node c p = node a p)

lemma dget_find {α : Type} (a : PyDict α) (k : String) :
    dget a k = (a.find? fun e => decide (e.1 = k)).map Prod.snd := by
  induction a with
  | nil => rfl
  | cons e t ih =>
    obtain ⟨k', v⟩ := e
    by_cases h : k' = k <;> simp [dget, h, ih]

lemma node_cons {α : Type} (d : PyDict α) (k : String) (p : List String) :
    node (.dict d) (k :: p) = (dget d k).bind fun v => node v p := by
  rw [dget_find]
  simp only [node]
  cases d.find? fun e => decide (e.1 = k) <;> rfl

lemma dget_dset {α : Type} (a : PyDict α) (k k' : String) (v : DVal α) :
    dget (dset a k v) k' = if k = k' then some v else dget a k' := by
  induction a with
  | nil => simp [dset, dget]
  | cons e t ih =>
    obtain ⟨k0, w⟩ := e
    by_cases h : k0 = k
    · subst h
      by_cases h' : k0 = k' <;> simp [dset, dget, h']
    · by_cases h' : k = k'
      · subst h'
        simp [dset, dget, h, ih]
      · simp [dset, dget, h, ih, h']

lemma dget_none_of {α : Type} {t : PyDict α} {k : String} (h : ∀ p ∈ t, p.1 ≠ k) : dget t k = none := by
  induction t with
  | nil => rfl
  | cons e t ih =>
    obtain ⟨k', v⟩ := e
    have h1 := h (k', v) (by simp)
    simp only [dget, if_neg h1]
    exact ih fun p hp => h p (by simp [hp])

lemma dget_mergeDict {α : Type} (b : PyDict α) (hb : DWF b) (a : PyDict α) (k : String) :
    dget (mergeDict a b) k =
      match dget b k with
      | none => dget a k
      | some bv => some (mergeVal (dget a k) bv) := by
  induction b generalizing a with
  | nil => simp [mergeDict, dget]
  | cons e t ih =>
    obtain ⟨k', v⟩ := e
    rw [DWF] at hb
    rw [mergeDict, ih hb.2.2, dget_dset]
    by_cases h : k' = k
    · subst h
      simp [dget, dget_none_of hb.1]
    · simp only [dget, if_neg h]

lemma VWF_of_dget {α : Type} {b : PyDict α} (hb : DWF b) {k : String} {v : DVal α} (h : dget b k = some v) :
    VWF v := by
  induction b with
  | nil => simp [dget] at h
  | cons e t ih =>
    obtain ⟨k', w⟩ := e
    rw [DWF] at hb
    by_cases hk : k' = k
    · simp only [dget, if_pos hk, Option.some.injEq] at h
      exact h ▸ hb.2.1
    · simp only [dget, if_neg hk] at h
      exact ih hb.2.2 h

/-- C50: `merge_dict(a, b)` is the deep right-biased merge of the two dictionaries, for all nested
dictionaries. -/
theorem mergeDict_spec {α : Type} (a b : PyDict α) (hb : DWF b) :
    IsDeepMerge (.dict a) (.dict b) (.dict (mergeDict a b)) := by
  suffices h : ∀ (p : List String) (a b : PyDict α), DWF b →
      (∀ x, node (.dict b) p = some x → node (.dict (mergeDict a b)) p = some x) ∧
      (node (.dict b) p = none → (∃ q v, q <+: p ∧ node (.dict b) q = some (some v)) →
        node (.dict (mergeDict a b)) p = none) ∧
      (node (.dict b) p = none → (∀ q v, q <+: p → node (.dict b) q ≠ some (some v)) →
        node (.dict (mergeDict a b)) p = node (.dict a) p) from
    ⟨fun p => (h p a b hb).1, fun p => (h p a b hb).2.1, fun p => (h p a b hb).2.2⟩
  intro p
  induction p with
  | nil =>
    intro a b _
    refine ⟨fun x hx => hx, fun h => ?_, fun h => ?_⟩ <;> simp [node] at h
  | cons k p ih =>
    intro a b hb
    have key := dget_mergeDict b hb a k
    rw [node_cons, node_cons, node_cons, key]
    cases hbk : dget b k with
    | none =>
      refine ⟨fun x hx => by simp at hx, ?_, fun _ _ => rfl⟩
      rintro - ⟨q, v, hq, hn⟩
      exfalso
      rcases q with _ | ⟨k', q⟩
      · simp [node] at hn
      · rw [List.cons_prefix_cons] at hq
        obtain ⟨rfl, -⟩ := hq
        rw [node_cons, hbk] at hn
        simp at hn
    | some bv =>
      simp only [Option.bind_some]
      have hlift : ∀ {q : List String} {v : α}, q <+: p → node bv q = some (some v) →
          ∃ q' v', q' <+: k :: p ∧ node (.dict b) q' = some (some v') := by
        intro q v hq hn
        exact ⟨k :: q, v, by rw [List.cons_prefix_cons]; exact ⟨rfl, hq⟩, by
          rw [node_cons, hbk]; exact hn⟩
      have hdrop : (∃ q v, q <+: k :: p ∧ node (.dict b) q = some (some v)) →
          ∃ q v, q <+: p ∧ node bv q = some (some v) := by
        rintro ⟨q, v, hq, hn⟩
        rcases q with _ | ⟨k', q⟩
        · simp [node] at hn
        · rw [List.cons_prefix_cons] at hq
          obtain ⟨rfl, hq⟩ := hq
          rw [node_cons, hbk] at hn
          exact ⟨q, v, hq, hn⟩
      cases bv with
      | leaf w =>
        simp only [mergeVal]
        refine ⟨fun x hx => hx, fun h _ => h, fun h hno => ?_⟩
        exact absurd (by rw [node_cons, hbk]; rfl) (hno [k] w (by simp))
      | dict b' =>
        have hb' : DWF b' := by
          have := VWF_of_dget hb hbk
          rwa [VWF] at this
        cases hak : dget a k with
        | none =>
          simp only [mergeVal]
          exact ⟨fun x hx => hx, fun h _ => h, fun h _ => h⟩
        | some av =>
          cases av with
          | leaf w =>
            simp only [mergeVal, Option.bind_some]
            refine ⟨fun x hx => hx, fun h _ => h, fun h _ => ?_⟩
            rw [h]
            cases p with
            | nil => simp [node] at h
            | cons => rfl
          | dict a' =>
            simp only [mergeVal, Option.bind_some]
            obtain ⟨i1, i2, i3⟩ := ih a' b' hb'
            refine ⟨i1, fun h hex => i2 h (hdrop hex), fun h hno => i3 h fun q v hq hn => ?_⟩
            obtain ⟨q', v', h1, h2⟩ := hlift hq hn
            exact hno q' v' h1 h2

example := mergeDict_spec (α := ℕ) [("o", .dict [("x", .leaf 1)])] [("o", .dict [("y", .leaf 3)]), ("z", .leaf 4)]
  (by simp [DWF, VWF])

/-- A deep merge is determined by the two dictionaries: any two have the same content. -/
theorem IsDeepMerge.unique {α : Type} {a b c c' : DVal α} (h : IsDeepMerge a b c)
    (h' : IsDeepMerge a b c') (p : List String) : node c p = node c' p := by
  cases hb : node b p with
  | some x => rw [h.1 p x hb, h'.1 p x hb]
  | none =>
    by_cases hq : ∃ q v, q <+: p ∧ node b q = some (some v)
    · rw [h.2.1 p hb hq, h'.2.1 p hb hq]
    · have : ∀ q v, q <+: p → node b q ≠ some (some v) := fun q v h1 h2 => hq ⟨q, v, h1, h2⟩
      rw [h.2.2 p hb this, h'.2.2 p hb this]

lemma dset_fst {α : Type} (a : PyDict α) (k : String) (v : DVal α) (e : String × DVal α)
    (he : e ∈ dset a k v) : e = (k, v) ∨ e ∈ a := by
  induction a with
  | nil => simp [dset] at he; exact Or.inl he
  | cons c t ih =>
    obtain ⟨k0, w⟩ := c
    by_cases h : k0 = k
    · subst h
      simp only [dset, if_true, List.mem_cons] at he
      rcases he with he | he
      · exact Or.inl he
      · exact Or.inr (List.mem_cons_of_mem _ he)
    · simp only [dset, if_neg h, List.mem_cons] at he
      rcases he with he | he
      · exact Or.inr (he ▸ List.mem_cons_self)
      · rcases ih he with h1 | h1
        · exact Or.inl h1
        · exact Or.inr (List.mem_cons_of_mem _ h1)

lemma DWF_dset {α : Type} {a : PyDict α} (ha : DWF a) (k : String) {v : DVal α} (hv : VWF v) :
    DWF (dset a k v) := by
  induction a with
  | nil => simp [dset, DWF, hv]
  | cons c t ih =>
    obtain ⟨k0, w⟩ := c
    rw [DWF] at ha
    by_cases h : k0 = k
    · subst h
      simp only [dset, if_true, DWF]
      exact ⟨ha.1, hv, ha.2.2⟩
    · simp only [dset, if_neg h, DWF]
      refine ⟨fun p hp => ?_, ha.2.1, ih ha.2.2⟩
      rcases dset_fst _ _ _ _ hp with h1 | h1
      · rw [h1]; exact fun e => h e.symm
      · exact ha.1 p h1

mutual

/-- The result of a merge is again a dictionary without repeated keys. -/
theorem DWF_mergeDict {α : Type} (a b : PyDict α) (ha : DWF a) (hb : DWF b) : DWF (mergeDict a b) :=
  match b with
  | [] => by rw [mergeDict]; exact ha
  | (k, v) :: t => by
      rw [DWF] at hb
      rw [mergeDict]
      refine DWF_mergeDict _ t (DWF_dset ha k (VWF_mergeVal _ v (fun w hw => VWF_of_dget ha hw) hb.2.1)) hb.2.2

theorem VWF_mergeVal {α : Type} (av : Option (DVal α)) (v : DVal α) (ha : ∀ w, av = some w → VWF w)
    (hv : VWF v) : VWF (mergeVal av v) :=
  match v with
  | .leaf _ => by simp [mergeVal, VWF]
  | .dict b => by
      rw [VWF] at hv
      match av with
      | none => simpa [mergeVal, VWF] using hv
      | some (.leaf _) => simpa [mergeVal, VWF] using hv
      | some (.dict a) =>
        simp only [mergeVal, VWF]
        have := ha (.dict a) rfl
        rw [VWF] at this
        exact DWF_mergeDict a b this hv

end

example := DWF_mergeDict (α := ℕ) [("o", .dict [("x", .leaf 1)])] [("o", .dict [("y", .leaf 3)]), ("z", .leaf 4)]
  (by simp [DWF, VWF]) (by simp [DWF, VWF])

lemma dset_self {α : Type} {a : PyDict α} {k : String} {v : DVal α} (h : dget a k = some v) :
    dset a k v = a := by
  induction a with
  | nil => simp [dget] at h
  | cons c t ih =>
    obtain ⟨k0, w⟩ := c
    by_cases hk : k0 = k
    · simp only [dget, if_pos hk, Option.some.injEq] at h
      simp [dset, hk, h]
    · simp only [dget, if_neg hk] at h
      simp [dset, hk, ih h]

mutual

theorem mergeDict_sub {α : Type} (b a : PyDict α) (hb : DWF b)
    (h : ∀ k v, dget b k = some v → dget a k = some v) : mergeDict a b = a :=
  match b with
  | [] => by rw [mergeDict]
  | (k, v) :: t => by
      rw [DWF] at hb
      have hk : dget a k = some v := h k v (by simp [dget])
      rw [mergeDict, hk, mergeVal_self v hb.2.1, dset_self hk]
      refine mergeDict_sub t a hb.2.2 fun k' v' h' => h k' v' ?_
      by_cases hkk : k = k'
      · subst hkk
        rw [dget_none_of hb.1] at h'
        simp at h'
      · simp [dget, hkk, h']

theorem mergeVal_self {α : Type} (v : DVal α) (hv : VWF v) : mergeVal (some v) v = v :=
  match v with
  | .leaf _ => by rw [mergeVal]
  | .dict d => by
      rw [VWF] at hv
      simp only [mergeVal]
      rw [mergeDict_sub d d hv fun _ _ h => h]

end

/-- C50: merging a dictionary with itself changes nothing. -/
theorem mergeDict_self {α : Type} (a : PyDict α) (ha : DWF a) : mergeDict a a = a :=
  mergeDict_sub a a ha fun _ _ h => h

example := mergeDict_self (α := ℕ) [("o", .dict [("y", .leaf 3)]), ("z", .leaf 4)] (by simp [DWF, VWF])

/-- C50: `merge_dicts(d0, ..., dn)` merges from left to right; a call without arguments raises. -/
theorem mergeDicts_spec {α : Type} (a : PyDict α) (ha : DWF a) (rest : List (PyDict α)) :
    mergeDicts (a :: rest) = .ok (rest.foldl mergeDict a) ∧
      (mergeDicts ([] : List (PyDict α)) = .error .indexError) := by
  refine ⟨?_, rfl⟩
  cases rest with
  | nil => rfl
  | cons b t => simp only [mergeDicts, List.foldl_cons, mergeDict_self a ha]

example := mergeDicts_spec (α := ℕ) [("o", .dict [("y", .leaf 3)]), ("z", .leaf 4)] (by simp [DWF, VWF])
  [[("z", .leaf 5)], [("o", .leaf 6)]]

/-- C50: with any number of dictionaries the last one wins: what it defines is in the result. -/
theorem mergeDicts_last {α : Type} (a : PyDict α) (ha : DWF a) (mid : List (PyDict α)) (b : PyDict α)
    (hb : DWF b) (p : List String) (x : Option α) (hx : node (.dict b) p = some x) :
    ∃ c, mergeDicts (a :: (mid ++ [b])) = .ok c ∧ node (.dict c) p = some x := by
  refine ⟨_, (mergeDicts_spec a ha _).1, ?_⟩
  rw [List.foldl_append]
  exact (mergeDict_spec _ b hb).1 p x hx

/-- A merge in which both dictionaries contribute at depth two. -/
example : ∃ a b : PyDict ℕ, DWF b ∧ node (.dict (mergeDict a b)) ["o", "x"] = some (some 1) ∧
    node (.dict (mergeDict a b)) ["o", "y"] = some (some 3) := by
  refine ⟨[("o", .dict [("x", .leaf 1), ("y", .leaf 2)])], [("o", .dict [("y", .leaf 3)])], ?_, ?_, ?_⟩
  · simp [DWF, VWF]
  · simp [mergeDict, mergeVal, dget, dset, node]
  · simp [mergeDict, mergeVal, dget, dset, node]

/-! ### Optimiser options -/

/-- The options the user supplied, `{}` for `None`. -/
def givenOptions (optim : Option (PyDict OptLeaf)) : PyDict OptLeaf := optim.getD []

/-- The documented default optimiser. -/
def defaultMethod (arch : Bool) : String := if arch then "Nelder-Mead" else "SLSQP"

lemma dget_append_none {α : Type} {a : PyDict α} {k : String} (h : dget a k = none) (v : DVal α)
    (k' : String) : dget (a ++ [(k, v)]) k' = if k = k' then some v else dget a k' := by
  induction a with
  | nil => simp [dget]
  | cons e t ih =>
    obtain ⟨k0, w⟩ := e
    by_cases h0 : k0 = k
    · simp [dget, h0] at h
    · simp only [dget, if_neg h0] at h
      by_cases h1 : k0 = k'
      · subst h1
        simp [dget, Ne.symm h0]
      · simp [dget, h1, ih h]

lemma dget_dsetDefault {α : Type} (a : PyDict α) (k : String) (v : DVal α) (k' : String) :
    dget (dsetDefault a k v) k' =
      if k = k' then some ((dget a k).getD v) else dget a k' := by
  unfold dsetDefault
  cases h : dget a k with
  | none =>
    simp only [dget_append_none h, Option.getD_none]
  | some w =>
    by_cases hk : k = k'
    · subst hk
      simp [h]
    · simp [hk]

lemma DWF_append {α : Type} {a : PyDict α} (ha : DWF a) {k : String} {v : DVal α} (hv : VWF v)
    (hk : dget a k = none) : DWF (a ++ [(k, v)]) := by
  induction a with
  | nil => simp [DWF, hv]
  | cons e t ih =>
    obtain ⟨k0, w⟩ := e
    rw [DWF] at ha
    by_cases h0 : k0 = k
    · simp [dget, h0] at hk
    · simp only [dget, if_neg h0] at hk
      simp only [List.cons_append, DWF]
      refine ⟨fun p hp => ?_, ha.2.1, ih ha.2.2 hk⟩
      rcases List.mem_append.mp hp with hp | hp
      · exact ha.1 p hp
      · simp only [List.mem_singleton] at hp
        rw [hp]
        exact fun e => h0 e.symm

lemma DWF_dsetDefault {α : Type} {a : PyDict α} (ha : DWF a) {k : String} {v : DVal α} (hv : VWF v) :
    DWF (dsetDefault a k v) := by
  unfold dsetDefault
  cases h : dget a k with
  | none => exact DWF_append ha hv h
  | some w => exact ha

/-- Shape of a successful call of `form_options`. -/
lemma formOptions_ok {o : PyDict OptLeaf} {verbose : ℤ} {n : ℕ} {arch : Bool}
    {r : PyDict OptLeaf × PyDict OptLeaf} (h : formOptions o verbose n arch = .ok r) :
    ∃ m, dget (dsetDefault o "method" (.leaf (.str (defaultMethod arch)))) "method" = some (.leaf (.str m)) ∧
      r.1 = dsetDefault o "method" (.leaf (.str (defaultMethod arch))) ∧
      r.2 = match optDefaults (pyLower m) (min (n * 250) 20000) (decide (verbose ≥ 2)) with
        | some d => mergeDict d r.1
        | none => r.1 := by
  unfold formOptions at h
  simp only [← defaultMethod.eq_1] at h
  split at h
  · rename_i m hm
    refine ⟨m, hm, ?_⟩
    split at h
    · rename_i d hd
      simp only [Except.ok.injEq] at h
      subst h
      simp [hd]
    · rename_i hd
      simp only [Except.ok.injEq] at h
      subst h
      simp [hd]
  · simp at h

lemma fitOptions_form {optim : Option (PyDict OptLeaf)} {verbose : ℤ} {n : ℕ} {arch : Bool}
    {r : Option (PyDict OptLeaf) × PyDict OptLeaf} (h : fitOptions optim verbose n arch = .ok r) :
    ∃ o', formOptions (givenOptions optim) verbose n arch = .ok (o', r.2) := by
  unfold fitOptions at h
  split at h <;>
  · unfold givenOptions
    simp only [Option.getD_none, Option.getD_some]
    revert h
    cases hf : formOptions _ verbose n arch with
    | error e => simp [Except.map]
    | ok q =>
      intro h
      simp only [Except.map, Except.ok.injEq] at h
      subst h
      exact ⟨q.1, rfl⟩

/-- C50: everything the user put in `optim_options` is in the options used, at every depth. -/
theorem fitOptions_user_wins (optim : Option (PyDict OptLeaf)) (ho : DWF (givenOptions optim)) (verbose : ℤ)
    (n : ℕ) (arch : Bool) (r : Option (PyDict OptLeaf) × PyDict OptLeaf)
    (h : fitOptions optim verbose n arch = .ok r) (p : List String) (x : Option OptLeaf)
    (hx : node (.dict (givenOptions optim)) p = some x) : node (.dict r.2) p = some x := by
  obtain ⟨o', hf⟩ := fitOptions_form h
  obtain ⟨m, -, h1, h2⟩ := formOptions_ok hf
  simp only at h1 h2
  have hn : node (.dict o') p = some x := by
    rw [h1]
    cases p with
    | nil => simpa [node] using hx
    | cons k p =>
      rw [node_cons] at hx ⊢
      rw [dget_dsetDefault]
      split
      · rename_i hk
        subst hk
        revert hx
        cases dget (givenOptions optim) "method" <;> simp
      · exact hx
  rw [h2]
  split
  · exact (mergeDict_spec _ o' (h1 ▸ DWF_dsetDefault ho (by simp [VWF]))).1 p x hn
  · exact hn

example := fitOptions_user_wins (some [("options", .dict [("maxiter", .leaf (.int 7))])])
  (by simp [givenOptions, DWF, VWF]) 0 10 true _ rfl ["options", "maxiter"] (some (.int 7)) rfl

/-- C50: without a `method` in the options the optimiser is Nelder-Mead for Archimedean copulas and SLSQP
for the others, and the call succeeds. -/
theorem fitOptions_default_method (optim : Option (PyDict OptLeaf)) (ho : DWF (givenOptions optim))
    (hm : node (.dict (givenOptions optim)) ["method"] = none) (verbose : ℤ) (n : ℕ) (arch : Bool) :
    ∃ r, fitOptions optim verbose n arch = .ok r ∧
      node (.dict r.2) ["method"] = some (some (.str (if arch then "Nelder-Mead" else "SLSQP"))) := by
  have hg : dget (givenOptions optim) "method" = none := by
    rw [node_cons] at hm
    cases hd : dget (givenOptions optim) "method" with
    | none => rfl
    | some v =>
      rw [hd] at hm
      cases v <;> simp [node] at hm
  have hsd : dget (dsetDefault (givenOptions optim) "method" (.leaf (.str (defaultMethod arch)))) "method"
      = some (.leaf (.str (defaultMethod arch))) := by
    rw [dget_dsetDefault, if_pos rfl, hg]
    rfl
  have hex : ∃ q, formOptions (givenOptions optim) verbose n arch = .ok q := by
    unfold formOptions
    simp only [← defaultMethod.eq_1, hsd]
    split <;> exact ⟨_, rfl⟩
  obtain ⟨q, hq⟩ := hex
  have hfit : ∃ r, fitOptions optim verbose n arch = .ok r ∧ r.2 = q.2 := by
    unfold fitOptions
    split <;>
    · unfold givenOptions at hq
      simp only [Option.getD_none, Option.getD_some] at hq
      rw [hq]
      exact ⟨_, rfl, rfl⟩
  obtain ⟨r, hr, hrq⟩ := hfit
  refine ⟨r, hr, ?_⟩
  obtain ⟨m, -, h1, h2⟩ := formOptions_ok hq
  have hn : node (.dict q.1) ["method"] = some (some (.str (defaultMethod arch))) := by
    rw [h1, node_cons, hsd]
    rfl
  rw [hrq, h2]
  split
  · exact (mergeDict_spec _ q.1 (h1 ▸ DWF_dsetDefault ho (by simp [VWF]))).1 _ _ hn
  · exact hn

example := fitOptions_default_method (some [("options", .dict [("maxiter", .leaf (.int 7))])])
  (by simp [givenOptions, DWF, VWF]) rfl 0 10 true

/-- C50: an option the user did not set has its default: for each optimiser with defaults, a default at a
path that is not in the user's options, nor below a value the user set, is in the options used. -/
theorem fitOptions_defaults (optim : Option (PyDict OptLeaf)) (ho : DWF (givenOptions optim)) (verbose : ℤ)
    (n : ℕ) (arch : Bool) (r : Option (PyDict OptLeaf) × PyDict OptLeaf)
    (h : fitOptions optim verbose n arch = .ok r) (m : String)
    (hm : node (.dict r.2) ["method"] = some (some (.str m))) (d : PyDict OptLeaf)
    (hd : optDefaults (pyLower m) (min (n * 250) 20000) (decide (verbose ≥ 2)) = some d)
    (p : List String) (hp : p.head? ≠ some "method")
    (hu : node (.dict (givenOptions optim)) p = none)
    (hq : ∀ q v, q <+: p → node (.dict (givenOptions optim)) q ≠ some (some v)) :
    node (.dict r.2) p = node (.dict d) p := by
  obtain ⟨o', hf⟩ := fitOptions_form h
  obtain ⟨m', hm', h1, h2⟩ := formOptions_ok hf
  simp only at h1 h2
  have hwf : DWF o' := h1 ▸ DWF_dsetDefault ho (by simp [VWF])
  have hsame : ∀ q : List String, q.head? ≠ some "method" →
      node (.dict o') q = node (.dict (givenOptions optim)) q := by
    intro q hq
    cases q with
    | nil => rfl
    | cons k q =>
      have hk : "method" ≠ k := by
        intro e
        exact hq (by rw [← e]; rfl)
      rw [node_cons, node_cons, h1, dget_dsetDefault, if_neg hk]
  have hmm : m' = m := by
    have hno : node (.dict o') ["method"] = some (some (.str m')) := by
      rw [h1, node_cons, hm']
      rfl
    have : node (.dict r.2) ["method"] = some (some (.str m')) := by
      rw [h2]
      split
      · exact (mergeDict_spec _ o' hwf).1 _ _ hno
      · exact hno
    rw [this] at hm
    simpa using hm
  subst hmm
  rw [h2, hd]
  refine (mergeDict_spec d o' hwf).2.2 p (by rw [hsame p hp, hu]) fun q v hqp => ?_
  have hqh : q.head? ≠ some "method" := by
    rintro e
    cases q with
    | nil => simp at e
    | cons k q =>
      obtain ⟨t, rfl⟩ := hqp
      exact hp (by simpa using e)
  rw [hsame q hqh]
  exact hq q v hqp

/-- A call in which the user's `options` dictionary and the defaults are combined. -/
example : ∃ r, fitOptions (some [("options", .dict [("maxiter", .leaf (.int 7))])]) 0 10 true = .ok r ∧
    node (.dict r.2) ["options", "maxiter"] = some (some (.int 7)) ∧
    node (.dict r.2) ["options", "xatol"] = some (some (.float (1 / 10000))) := by
  refine ⟨_, rfl, ?_, ?_⟩ <;> rfl

/-- C64, partial: `fit` leaves the caller's `optim_options` as it is when it is `None`, empty or names the
method. What is missing: other dictionaries get a `method` entry, see `fitOptions_mutates`. -/
theorem fitOptions_unchanged_partial (optim : Option (PyDict OptLeaf))
    (hm : givenOptions optim = [] ∨ node (.dict (givenOptions optim)) ["method"] ≠ none) (verbose : ℤ)
    (n : ℕ) (arch : Bool) (r : Option (PyDict OptLeaf) × PyDict OptLeaf)
    (h : fitOptions optim verbose n arch = .ok r) : r.1 = optim := by
  rcases optim with _ | (_ | ⟨e, t⟩)
  · unfold fitOptions at h
    revert h
    cases formOptions [] verbose n arch <;> simp [Except.map]
    rintro rfl; rfl
  · unfold fitOptions at h
    revert h
    cases formOptions [] verbose n arch <;> simp [Except.map]
    rintro rfl; rfl
  · obtain hm | hm := hm
    · simp [givenOptions] at hm
    simp only [givenOptions, Option.getD_some] at hm
    unfold fitOptions at h
    revert h
    cases hf : formOptions (e :: t) verbose n arch with
    | error => simp [Except.map, hf]
    | ok q =>
      intro h
      simp only [Except.map, hf, Except.ok.injEq] at h
      subst h
      obtain ⟨m, -, h1, -⟩ := formOptions_ok hf
      simp only [h1, Option.some.injEq]
      unfold dsetDefault
      rw [node_cons] at hm
      cases hg : dget (e :: t) "method" with
      | none => rw [hg] at hm; simp at hm
      | some v => rfl

example := fitOptions_unchanged_partial (some [("method", .leaf (.str "BFGS"))]) (.inr (by simp [givenOptions, node]))
  0 10 true _ rfl

/-- C64 (violation): every non-empty dictionary without a `method` entry has one afterwards. -/
theorem fitOptions_mutates (o : PyDict OptLeaf) (hne : o ≠ []) (ho : DWF o)
    (hm : node (.dict o) ["method"] = none) (verbose : ℤ) (n : ℕ) (arch : Bool) :
    ∃ o' r, fitOptions (some o) verbose n arch = .ok (some o', r) ∧ o' ≠ o ∧
      node (.dict o') ["method"] = some (some (.str (if arch then "Nelder-Mead" else "SLSQP"))) := by
  obtain ⟨r, hr, -⟩ := fitOptions_default_method (some o) ho hm verbose n arch
  have hg : dget o "method" = none := by
    rw [node_cons] at hm
    cases hd : dget o "method" with
    | none => rfl
    | some v =>
      rw [hd] at hm
      cases v <;> simp [node] at hm
  rcases o with _ | ⟨e, t⟩
  · exact absurd rfl hne
  have hr' := hr
  unfold fitOptions at hr
  revert hr
  cases hf : formOptions (e :: t) verbose n arch with
  | error => simp [Except.map, hf]
  | ok q =>
    intro hr
    simp only [Except.map, hf, Except.ok.injEq] at hr
    obtain ⟨m, -, h1, -⟩ := formOptions_ok hf
    have hn : node (.dict q.1) ["method"] = some (some (.str (defaultMethod arch))) := by
      rw [h1, node_cons, dget_dsetDefault, if_pos rfl, hg]
      rfl
    refine ⟨q.1, r.2, ?_, ?_, hn⟩
    · rw [hr', ← hr]
    · intro e'
      rw [e'] at hn
      rw [hn] at hm
      simp at hm

example := fitOptions_mutates [("options", .dict [("maxiter", .leaf (.int 7))])] (by simp) (by simp [DWF, VWF]) rfl 0 10
  true

/-- C64 (violation): reusing one `optim_options` dictionary, first for an Archimedean copula and then for an
elliptical one, fits the second with Nelder-Mead instead of SLSQP. -/
theorem fitOptions_leaks : ∃ o o1 r1 r2 r2',
    fitOptions (some o) 1 100 true = .ok (some o1, r1) ∧
    fitOptions (some o1) 1 100 false = .ok r2 ∧ node (.dict r2.2) ["method"] = some (some (.str "Nelder-Mead")) ∧
    fitOptions (some o) 1 100 false = .ok r2' ∧ node (.dict r2'.2) ["method"] = some (some (.str "SLSQP")) :=
  ⟨[("options", .dict [("maxiter", .leaf (.int 7))])], _, _, _, _, rfl, rfl, rfl, rfl, rfl⟩

/-- Keyword arguments of `scipy.optimize.minimize` besides the objective and the starting point. -/
def minimizeKeywords : List String :=
  ["args", "method", "jac", "hess", "hessp", "bounds", "constraints", "tol", "callback", "options"]

/-- C65, partial: unless the optimiser is `trust-constr`, the keyword arguments passed to `minimize` are
those of the user and ones `minimize` has. What is missing: `fitOptions_trust_constr`. -/
theorem fitOptions_keywords_partial (optim : Option (PyDict OptLeaf)) (ho : DWF (givenOptions optim))
    (verbose : ℤ) (n : ℕ) (arch : Bool) (r : Option (PyDict OptLeaf) × PyDict OptLeaf)
    (h : fitOptions optim verbose n arch = .ok r) (m : String)
    (hm : node (.dict r.2) ["method"] = some (some (.str m))) (hne : pyLower m ≠ "trust-constr".toList)
    (k : String) (hk : node (.dict r.2) [k] ≠ none) :
    node (.dict (givenOptions optim)) [k] ≠ none ∨ k ∈ minimizeKeywords := by
  by_cases hmeth : k = "method"
  · right; simp [minimizeKeywords, hmeth]
  by_cases hu : node (.dict (givenOptions optim)) [k] = none
  · right
    obtain ⟨o', hf⟩ := fitOptions_form h
    obtain ⟨m', hm', h1, h2⟩ := formOptions_ok hf
    simp only at h1 h2
    cases hd : optDefaults (pyLower m) (min (n * 250) 20000) (decide (verbose ≥ 2)) with
    | some d =>
      rw [fitOptions_defaults optim ho verbose n arch r h m hm d hd [k] (by simpa using hmeth) hu
        (fun q v hq hn => by
          rcases q with _ | ⟨k', q⟩
          · simp [node] at hn
          · rw [List.cons_prefix_cons] at hq
            obtain ⟨rfl, hq⟩ := hq
            rw [List.prefix_nil] at hq
            subst hq
            rw [hu] at hn
            simp at hn)] at hk
      unfold optDefaults at hd
      rw [node_cons] at hk
      split_ifs at hd <;> simp only [Option.some.injEq] at hd <;> subst hd <;>
        simp only [dget] at hk <;> by_contra hc <;> simp [minimizeKeywords] at hc
      · rw [if_neg (fun e => hc.2.2.2.2.2.2.2.2.2 e.symm)] at hk; simp at hk
      · rw [if_neg (fun e => hc.2.2.2.2.2.2.2.2.2 e.symm)] at hk; simp at hk
      · rw [if_neg (fun e => hc.2.2.2.2.2.1 e.symm), if_neg (fun e => hc.2.2.2.2.2.2.2.2.2 e.symm)] at hk
        simp at hk
      · rw [if_neg (fun e => hc.2.2.2.2.2.1 e.symm), if_neg (fun e => hc.2.2.2.2.2.2.2.2.2 e.symm)] at hk
        simp at hk
    | none =>
      exfalso
      have hmm : m' = m := by
        have hno : node (.dict o') ["method"] = some (some (.str m')) := by
          rw [h1, node_cons, hm']
          rfl
        have : node (.dict r.2) ["method"] = some (some (.str m')) := by
          rw [h2]
          split
          · exact (mergeDict_spec _ o' (h1 ▸ DWF_dsetDefault ho (by simp [VWF]))).1 _ _ hno
          · exact hno
        rw [this] at hm
        simpa using hm
      subst hmm
      rw [hd] at h2
      rw [h2] at hk
      simp only at hk
      rw [node_cons, h1, dget_dsetDefault, if_neg (Ne.symm hmeth), ← node_cons, hu] at hk
      exact hk rfl
  · exact Or.inl hu

example := fitOptions_keywords_partial (some [("method", .leaf (.str "BFGS"))]) (by simp [givenOptions, DWF, VWF]) 0 10
  true _ rfl "BFGS" rfl (by decide) "method" (by decide)

/-- C65 (violation): with `trust-constr` the defaults `maxiter` and `disp` are passed to `minimize` itself,
which has no such arguments, instead of in its `options`. -/
theorem fitOptions_trust_constr (verbose : ℤ) (n : ℕ) (arch : Bool) :
    ∃ r, fitOptions (some [("method", .leaf (.str "trust-constr"))]) verbose n arch = .ok r ∧
      node (.dict r.2) ["maxiter"] = some (some (.int (min (n * 250) 20000))) ∧
      "maxiter" ∉ minimizeKeywords ∧ node (.dict r.2) ["options", "maxiter"] = none := by
  refine ⟨_, rfl, ?_, ?_, ?_⟩
  · cases arch <;> rfl
  · simp [minimizeKeywords]
  · cases arch <;> rfl

end Copulae
