import Verif.Spec.Binding
import Verif.Lemmas.Fit

/-!
Properties C83–C86: margins given by name and parameters, their details, and the fit of a `MarginalCopula`.
-/

namespace Copulae

open Spec

theorem pget_append {p q : ParamDict} {n : String} : pget (p ++ q) n = (pget p n).or (pget q n) := by
  unfold pget
  rw [List.find?_append]
  cases h : List.find? (fun e => decide (e.1 = n)) p <;> simp

theorem pget_single {n k : String} {v : Fl} : pget [(k, v)] n = if k = n then some v else none := by
  unfold pget
  by_cases h : k = n <;> simp [h]

open Classical in
/-- What filling in the missing shape parameters does. -/
theorem fillShapes_pget (sig : List (String × Option Fl)) (p : ParamDict) (n : String) :
    pget (fillShapes sig p) n =
      (pget p n).or (if (n, none) ∈ sig then some (.fin (1 / 2)) else none) := by
  induction sig generalizing p with
  | nil => simp [fillShapes]
  | cons e t ih =>
    obtain ⟨k, dflt⟩ := e
    cases dflt with
    | some v =>
      rw [fillShapes, ih]
      simp
    | none =>
      rw [fillShapes]
      by_cases hk : (pget p k).isSome
      · rw [if_pos hk, ih]
        by_cases hn : n = k
        · subst hn
          obtain ⟨w, hw⟩ := Option.isSome_iff_exists.mp hk
          simp [hw]
        · simp [hn]
      · rw [if_neg hk, ih, pget_append, pget_single]
        by_cases hn : n = k
        · subst hn
          have : pget p n = none := by simpa using hk
          simp [this]
        · rw [if_neg (fun e => hn e.symm)]
          simp [hn]

theorem pget_isSome_iff {p : ParamDict} {n : String} : (pget p n).isSome ↔ n ∈ p.map Prod.fst := by
  unfold pget
  simp

open Classical in
theorem fillShapes_keys (sig : List (String × Option Fl)) (p : ParamDict) {n : String}
    (h : n ∈ (fillShapes sig p).map Prod.fst) : n ∈ p.map Prod.fst ∨ (n, none) ∈ sig := by
  rw [← pget_isSome_iff, fillShapes_pget] at h
  by_cases hp : n ∈ p.map Prod.fst
  · exact Or.inl hp
  · right
    rw [← pget_isSome_iff] at hp
    have : pget p n = none := by simpa using hp
    rw [this] at h
    by_contra hc
    simp [hc] at h

theorem fillShapes_self {sig : List (String × Option Fl)} {p : ParamDict}
    (h : ∀ n, (n, none) ∈ sig → n ∈ p.map Prod.fst) : fillShapes sig p = p := by
  induction sig with
  | nil => rfl
  | cons e t ih =>
    obtain ⟨k, dflt⟩ := e
    have ih' := ih fun n hn => h n (List.mem_cons_of_mem _ hn)
    cases dflt with
    | some v => rw [fillShapes, ih']
    | none => rw [fillShapes, if_pos (pget_isSome_iff.mpr (h k List.mem_cons_self)), ih']

/-- The dictionary the caller gave, or an empty one. -/
def Details.dict (h : Heap) (d : Details) : ParamDict :=
  match d.parameters with
  | none => []
  | some r => h r

theorem createUnivariate_result (stats : List Char → Option Dist) (h : Heap) (d : Details) :
    (createUnivariate stats h d).2 =
      (getMarginalClass stats d).bind fun D => freeze D (fillShapes D.sig (d.dict h)) := by
  unfold createUnivariate Details.dict
  cases getMarginalClass stats d with
  | error e => rfl
  | ok D => cases d.parameters <;> rfl

/-! ### C83 -/

/-- **C83** A margin created from a type and parameters has that distribution, the given parameters, 0.5 for
shape parameters that were not given and the defaults for the others; names that are no parameters raise
`TypeError`. -/
theorem createUnivariate_spec {stats : List Char → Option Dist} {h : Heap} {d : Details} {D : Dist}
    (hD : getMarginalClass stats d = .ok D) (hnd : (D.sig.map Prod.fst).Nodup) :
    ((∀ n ∈ (d.dict h).map Prod.fst, n ∈ D.sig.map Prod.fst) →
      ∃ f, (createUnivariate stats h d).2 = .ok f ∧ f.dist = D ∧
        ∀ i n dflt, D.sig[i]? = some (n, dflt) → ∀ v, IsBound f i v ↔
          v = ((pget (d.dict h) n).getD (dflt.getD (.fin (1 / 2))))) ∧
    ((∃ n ∈ (d.dict h).map Prod.fst, n ∉ D.sig.map Prod.fst) →
      (createUnivariate stats h d).2 = .error .typeError) := by
  rw [createUnivariate_result, hD]
  simp only [Except.bind, freeze]
  constructor
  · intro hk
    rw [if_pos]
    · refine ⟨_, rfl, rfl, fun i n dflt hi v => ?_⟩
      have hmem : (n, dflt) ∈ D.sig := List.mem_of_getElem? hi
      have huniq : ∀ o, (n, o) ∈ D.sig → o = dflt := by
        intro o ho
        obtain ⟨j, hj⟩ := List.mem_iff_getElem?.mp ho
        have e1 : (D.sig.map Prod.fst)[i]? = some n := by rw [List.getElem?_map, hi]; rfl
        have e2 : (D.sig.map Prod.fst)[j]? = some n := by rw [List.getElem?_map, hj]; rfl
        have hlt : i < (D.sig.map Prod.fst).length := by
          rw [List.getElem?_eq_some_iff] at e1
          exact e1.1
        have : i = j := (List.getElem?_inj hlt hnd).mp (e1.trans e2.symm)
        subst this
        rw [hi] at hj
        exact ((Prod.mk.inj (Option.some.inj hj)).2).symm
      have key : pget (fillShapes D.sig (d.dict h)) n =
          (pget (d.dict h) n).or (if dflt = none then some (.fin (1 / 2)) else none) := by
        rw [fillShapes_pget]
        congr 1
        by_cases hdn : dflt = none
        · rw [if_pos hdn, if_pos (hdn ▸ hmem)]
        · rw [if_neg hdn, if_neg fun hm => hdn (huniq none hm).symm]
      constructor
      · rintro ⟨n', dflt', hi', hv⟩
        have hi'' : D.sig[i]? = some (n', dflt') := hi'
        rw [hi] at hi''
        obtain ⟨rfl, rfl⟩ := Prod.mk.inj (Option.some.inj hi'')
        simp only [List.getElem?_nil, reduceCtorEq, true_and, false_or] at hv
        rw [key] at hv
        cases hp : pget (d.dict h) n with
        | some w =>
          rw [hp] at hv
          simp only [Option.some_or, Option.some.injEq, reduceCtorEq, false_and, or_false] at hv
          simp [hv]
        | none =>
          rw [hp] at hv
          cases dflt with
          | none =>
            simp only [Option.none_or, if_true, Option.some.injEq, reduceCtorEq, false_and, or_false] at hv
            simp [← hv]
          | some w =>
            simp only [Option.none_or, reduceCtorEq, if_false, true_and, false_or, Option.some.injEq] at hv
            simp [hv]
      · rintro rfl
        refine ⟨n, dflt, hi, Or.inr ⟨by simp, ?_⟩⟩
        simp only
        rw [key]
        cases hp : pget (d.dict h) n with
        | some w => simp
        | none => cases dflt <;> simp
    · intro e he
      rcases fillShapes_keys D.sig (d.dict h) (List.mem_map.mpr ⟨e, he, rfl⟩) with h1 | h1
      · exact hk _ h1
      · exact List.mem_map.mpr ⟨_, h1, rfl⟩
  · rintro ⟨n, hn, hno⟩
    rw [if_neg]
    intro hall
    have h1 : n ∈ (fillShapes D.sig (d.dict h)).map Prod.fst := by
      rw [← pget_isSome_iff] at hn ⊢
      rw [fillShapes_pget]
      obtain ⟨w, hw⟩ := Option.isSome_iff_exists.mp hn
      simp [hw]
    obtain ⟨e, he, rfl⟩ := List.mem_map.mp h1
    exact hno (hall e he)

/-- **C83** Case, surrounding blanks and the short names do not matter. -/
theorem getMarginalClass_names (stats : List Char → Option Dist) (p : Option ℕ) :
    (∀ s t, pyStrip (pyLower s) = pyStrip (pyLower t) →
      getMarginalClass stats ⟨some (.str s), p⟩ = getMarginalClass stats ⟨some (.str t), p⟩) ∧
    (∀ s, pyStrip (pyLower s) ∈ ["normal".toList, "gaussian".toList, "norm".toList] →
      getMarginalClass stats ⟨some (.str s), p⟩ = (stats "norm".toList).elim (.error .typeError) .ok) ∧
    (∀ s, pyStrip (pyLower s) ∈ ["student".toList, "t".toList] →
      getMarginalClass stats ⟨some (.str s), p⟩ = (stats "t".toList).elim (.error .typeError) .ok) ∧
    (∀ s, pyStrip (pyLower s) ∈ ["exp".toList, "expon".toList] →
      getMarginalClass stats ⟨some (.str s), p⟩ = (stats "expon".toList).elim (.error .typeError) .ok) := by
  have gen : ∀ s, getMarginalClass stats ⟨some (.str s), p⟩ =
      (stats (distAlias (pyStrip (pyLower s)))).elim (.error .typeError) .ok := by
    intro s
    unfold getMarginalClass
    simp only
    cases stats (distAlias (pyStrip (pyLower s))) <;> rfl
  refine ⟨fun s t h => by rw [gen, gen, h], fun s h => ?_, fun s h => ?_, fun s h => ?_⟩ <;> rw [gen] <;>
    simp only [List.mem_cons, List.not_mem_nil, or_false] at h
  · rcases h with h | h | h <;> rw [h] <;> rfl
  · rcases h with h | h <;> rw [h] <;> rfl
  · rcases h with h | h <;> rw [h] <;> rfl

/-- **C83** The caller's dictionaries stay as they were when every shape parameter is given. -/
theorem createUnivariate_heap_partial {stats : List Char → Option Dist} {h : Heap} {d : Details}
    (hall : ∀ D, getMarginalClass stats d = .ok D → ∀ n, (n, none) ∈ D.sig → n ∈ (d.dict h).map Prod.fst) :
    (createUnivariate stats h d).1 = h := by
  unfold createUnivariate
  cases hD : getMarginalClass stats d with
  | error e => rfl
  | ok D =>
    have := hall D hD
    unfold Details.dict at this
    cases hp : d.parameters with
    | none => rfl
    | some r =>
      rw [hp] at this
      simp only
      rw [fillShapes_self this, Function.update_eq_self]

/-- **C83**, the violation: a shape parameter that was not given is written into the caller's dictionary. -/
theorem createUnivariate_mutates {stats : List Char → Option Dist} {h : Heap} {d : Details} {D : Dist} {r : ℕ}
    {n : String} (hD : getMarginalClass stats d = .ok D) (hr : d.parameters = some r) (hn : (n, none) ∈ D.sig)
    (hno : pget (h r) n = none) :
    pget ((createUnivariate stats h d).1 r) n = some (.fin (1 / 2)) := by
  unfold createUnivariate
  rw [hD]
  simp only [hr]
  rw [Function.update_self, fillShapes_pget, hno, if_pos hn]
  rfl

/-- Student's distribution and the normal distribution of SciPy. -/
def distT : Dist := ⟨"t", [("df", none), ("loc", some (.fin 0)), ("scale", some (.fin 1))]⟩
/-- The normal distribution. -/
def distNorm : Dist := ⟨"norm", [("loc", some (.fin 0)), ("scale", some (.fin 1))]⟩

/-- **C83**, the violation in use: one dictionary of parameters used for a Student and a normal margin. The
first margin adds `df` to it, which the second refuses; with two equal dictionaries, or in the other order,
the margins are created. -/
theorem processMargins_shared_fails (stats : List Char → Option Dist) (h : Heap) (h0 : h 0 = []) (h1 : h 1 = []) :
    (processMargins stats h 2 (.coll [.dict ⟨some (.dist distT), some 0⟩,
      .dict ⟨some (.dist distNorm), some 0⟩])).2 = .error .typeError ∧
    (∃ l, (processMargins stats h 2 (.coll [.dict ⟨some (.dist distT), some 0⟩,
      .dict ⟨some (.dist distNorm), some 1⟩])).2 = .ok l) ∧
    (∃ l, (processMargins stats h 2 (.coll [.dict ⟨some (.dist distNorm), some 0⟩,
      .dict ⟨some (.dist distT), some 0⟩])).2 = .ok l) := by
  have ft : fillShapes distT.sig [] = [("df", .fin (1 / 2))] := by
    simp [fillShapes, distT, pget]
  have fn : ∀ p, fillShapes distNorm.sig p = p := fun p => rfl
  have zt : ∃ f, freeze distT [("df", .fin (1 / 2))] = .ok f := by simp [freeze, distT]
  have zn : ∃ f, freeze distNorm [] = .ok f := by simp [freeze]
  have zb : freeze distNorm [("df", .fin (1 / 2))] = .error .typeError := by simp [freeze, distNorm]
  obtain ⟨f, zt⟩ := zt
  obtain ⟨g, zn⟩ := zn
  refine ⟨?_, ?_, ?_⟩
  · simp only [processMargins, createMargins, createMargin, createUnivariate, getMarginalClass, h0, ft, fn, zt,
      zb, Function.update_self, List.length_cons, List.length_nil, ne_eq, not_true_eq_false, if_false]
  · refine ⟨[f, g], ?_⟩
    simp only [processMargins, createMargins, createMargin, createUnivariate, getMarginalClass, h0, ft, fn, zt,
      Function.update_of_ne (one_ne_zero : (1 : ℕ) ≠ 0), h1, zn, List.length_cons, List.length_nil, ne_eq,
      not_true_eq_false, if_false]
  · refine ⟨[g, f], ?_⟩
    simp only [processMargins, createMargins, createMargin, createUnivariate, getMarginalClass, h0, ft, fn, zt,
      zn, Function.update_self, List.length_cons, List.length_nil, ne_eq, not_true_eq_false, if_false]

/-- **C83** The number of margins must be the dimension; a type, name or element that is no distribution
raises. -/
theorem processMargins_rejects (stats : List Char → Option Dist) (h : Heap) (dim : ℕ) :
    (∀ l : List MarginArg, l.length ≠ dim → processMargins stats h dim (.coll l) = (h, .error .assertionError)) ∧
    processMargins stats h dim .other = (h, .error .typeError) ∧
    (∀ p, getMarginalClass stats ⟨none, p⟩ = .error .assertionError) ∧
    (∀ p, getMarginalClass stats ⟨some .frozen, p⟩ = .error .typeError) ∧
    (∀ p, getMarginalClass stats ⟨some .other, p⟩ = .error .typeError) ∧
    (∀ p s, stats (distAlias (pyStrip (pyLower s))) = none →
      getMarginalClass stats ⟨some (.str s), p⟩ = .error .typeError) := by
  refine ⟨fun l hl => ?_, rfl, fun p => rfl, fun p => rfl, fun p => rfl, fun p s hs => ?_⟩
  · unfold processMargins
    simp only
    rw [if_pos hl]
  · unfold getMarginalClass
    simp only [hs]

/-- A collection that is accepted gives one margin per element. -/
theorem createMargins_length {stats : List Char → Option Dist} {h : Heap} {l : List MarginArg} {fs : List Frozen}
    (hok : (createMargins stats h l).2 = .ok fs) : fs.length = l.length := by
  induction l generalizing h fs with
  | nil =>
    simp only [createMargins, Except.ok.injEq] at hok
    simp [← hok]
  | cons a t ih =>
    simp only [createMargins] at hok
    rcases hc : createMargin stats h a with ⟨h', e | f⟩
    · rw [hc] at hok; cases hok
    · rw [hc] at hok
      simp only at hok
      rcases hc2 : createMargins stats h' t with ⟨h'', e | l'⟩
      · rw [hc2] at hok; cases hok
      · rw [hc2] at hok
        simp only [Except.ok.injEq] at hok
        rw [← hok, List.length_cons, List.length_cons, ih (h := h') (by rw [hc2])]

/-- **C83** There is one margin per dimension. -/
theorem processMargins_length {stats : List Char → Option Dist} {h : Heap} {dim : ℕ} {a : MarginsArg}
    {fs : List Frozen} (hok : (processMargins stats h dim a).2 = .ok fs) : fs.length = dim := by
  unfold processMargins at hok
  cases a with
  | str s => simpa using createMargins_length hok
  | dict d => simpa using createMargins_length hok
  | coll l =>
    simp only at hok
    by_cases hl : l.length ≠ dim
    · rw [if_pos hl] at hok; cases hok
    · rw [if_neg hl] at hok
      rw [createMargins_length hok]
      exact not_not.mp hl
  | other => cases hok

/-! ### C84 -/

/-- The reported parameters are those bound. -/
theorem detailParams_spec (sig : List (String × Option Fl)) (args : List Fl) (kw : ParamDict) :
    (detailParams sig args kw).map Prod.fst = sig.map Prod.fst ∧
    ∀ (i : ℕ) (n : String) (dflt : Option Fl), sig[i]? = some (n, dflt) →
      (detailParams sig args kw)[i]? = some (n, (args[i]?).or ((pget kw n).or dflt)) := by
  induction sig generalizing args with
  | nil => simp [detailParams]
  | cons e t ih =>
    obtain ⟨k, dk⟩ := e
    cases args with
    | nil =>
      refine ⟨by simp [detailParams, (ih []).1], fun i n dflt hi => ?_⟩
      cases i with
      | zero =>
        simp only [List.getElem?_cons_zero, Option.some.injEq, Prod.mk.injEq] at hi
        simp [detailParams, hi.1, hi.2]
      | succ i =>
        simp only [List.getElem?_cons_succ] at hi
        simpa [detailParams] using (ih []).2 i n dflt hi
    | cons a args =>
      refine ⟨by simp [detailParams, (ih args).1], fun i n dflt hi => ?_⟩
      cases i with
      | zero =>
        simp only [List.getElem?_cons_zero, Option.some.injEq, Prod.mk.injEq] at hi
        simp [detailParams, hi.1]
      | succ i =>
        simp only [List.getElem?_cons_succ] at hi
        simpa [detailParams] using (ih args).2 i n dflt hi

theorem isBound_iff {f : Frozen} {i : ℕ} {n : String} {dflt : Option Fl} (hi : f.dist.sig[i]? = some (n, dflt))
    {v : Fl} : IsBound f i v ↔ (f.args[i]?).or ((pget f.kwds n).or dflt) = some v := by
  constructor
  · rintro ⟨n', dflt', hi', hv⟩
    rw [hi] at hi'
    obtain ⟨rfl, rfl⟩ := Prod.mk.inj (Option.some.inj hi')
    rcases hv with h | ⟨h, h' | ⟨h', h''⟩⟩
    · simp [h]
    · simp [h, h']
    · simp [h, h', h'']
  · intro h
    refine ⟨n, dflt, hi, ?_⟩
    cases ha : f.args[i]? with
    | some w => rw [ha] at h; left; simpa using h
    | none =>
      rw [ha] at h
      right
      refine ⟨rfl, ?_⟩
      cases hk : pget f.kwds n with
      | some w => rw [hk] at h; left; simpa using h
      | none => rw [hk] at h; right; exact ⟨rfl, by simpa using h⟩

/-- **C84** The details of a margin list every parameter with the value it has, in the order of the
signature. -/
theorem getMarginalDetail_spec {f : Frozen} (h : f.args.length ≤ f.dist.sig.length) :
    ∃ ps, getMarginalDetail f = .ok (f.dist.name, ps) ∧ ps.map Prod.fst = f.dist.sig.map Prod.fst ∧
      ∀ (i : ℕ) (n : String) (v : Fl), ps[i]? = some (n, some v) ↔
        (f.dist.sig[i]?).map Prod.fst = some n ∧ IsBound f i v := by
  refine ⟨detailParams f.dist.sig f.args f.kwds, ?_, (detailParams_spec _ _ _).1, fun i n v => ?_⟩
  · unfold getMarginalDetail
    rw [if_neg (by omega)]
  · cases hs : f.dist.sig[i]? with
    | none =>
      have hlen : (detailParams f.dist.sig f.args f.kwds).length = f.dist.sig.length := by
        have := congrArg List.length (detailParams_spec f.dist.sig f.args f.kwds).1
        simpa using this
      rw [List.getElem?_eq_none_iff] at hs
      rw [List.getElem?_eq_none (by omega)]
      simp
    | some e =>
      obtain ⟨n', dflt⟩ := e
      rw [(detailParams_spec _ _ _).2 i n' dflt hs, isBound_iff hs]
      simp

/-- **C84** Round trip: creating a margin from reported details gives a margin with the same value for every
parameter, whether the parameters were given by position (after a fit), by name or by default. -/
theorem detail_roundtrip {f : Frozen} (hnd : (f.dist.sig.map Prod.fst).Nodup)
    (hlen : f.args.length ≤ f.dist.sig.length) (hfull : ∀ i < f.dist.sig.length, ∃ v, IsBound f i v)
    {stats : List Char → Option Dist} {h : Heap} {d : Details} (hD : getMarginalClass stats d = .ok f.dist)
    {ps : List (String × Option Fl)} (hps : getMarginalDetail f = .ok (f.dist.name, ps))
    (hd : (d.dict h).map (fun e => (e.1, some e.2)) = ps) :
    ∃ g, (createUnivariate stats h d).2 = .ok g ∧ g.dist = f.dist ∧ ∀ i v, IsBound g i v ↔ IsBound f i v := by
  obtain ⟨ps', h1, h2, h3⟩ := getMarginalDetail_spec hlen
  rw [hps] at h1
  obtain rfl : ps = ps' := by simpa using h1
  have hkeys : (d.dict h).map Prod.fst = f.dist.sig.map Prod.fst := by
    rw [← h2, ← hd, List.map_map]
    rfl
  obtain ⟨g, hg, hgd, hgb⟩ := (createUnivariate_spec (h := h) hD hnd).1 fun n hn => hkeys ▸ hn
  refine ⟨g, hg, hgd, fun i v => ?_⟩
  cases hs : f.dist.sig[i]? with
  | none =>
    constructor
    · rintro ⟨n, dflt, hi, -⟩
      rw [hgd, hs] at hi
      cases hi
    · rintro ⟨n, dflt, hi, -⟩
      rw [hs] at hi
      cases hi
  | some e =>
    obtain ⟨n, dflt⟩ := e
    rw [hgb i n dflt hs v]
    obtain ⟨w, hw⟩ := hfull i (by rw [List.getElem?_eq_some_iff] at hs; exact hs.1)
    have hpi := (h3 i n w).mpr ⟨by rw [hs]; rfl, hw⟩
    have hdi : (d.dict h)[i]? = some (n, w) := by
      rw [← hd, List.getElem?_map] at hpi
      cases he : (d.dict h)[i]? with
      | none => rw [he] at hpi; cases hpi
      | some e =>
        rw [he] at hpi
        simp only [Option.map_some, Option.some.injEq, Prod.mk.injEq] at hpi
        rw [← hpi.1, ← hpi.2]
    have hget : pget (d.dict h) n = some w := by
      have hnd' : ((d.dict h).map Prod.fst).Nodup := hkeys ▸ hnd
      unfold pget
      have hmem : (n, w) ∈ d.dict h := List.mem_of_getElem? hdi
      clear hdi hd hkeys hgb hg hfull hpi
      generalize d.dict h = q at hmem hnd'
      induction q with
      | nil => cases hmem
      | cons a t ih =>
        rw [List.map_cons, List.nodup_cons] at hnd'
        rcases List.mem_cons.mp hmem with rfl | hmem
        · simp
        · have : a.1 ≠ n := fun e => hnd'.1 (e ▸ List.mem_map.mpr ⟨_, hmem, rfl⟩)
          rw [List.find?_cons_of_neg (by simpa using this)]
          exact ih hmem hnd'.2
    rw [hget]
    simp only [Option.getD_some]
    rw [isBound_iff hs] at hw ⊢
    rw [hw]
    simp only [Option.some.injEq]
    exact eq_comm

/-- A fitted Student margin, its details and the dictionary that recreates it. -/
example : let f : Frozen := ⟨distT, [.fin 5, .fin 1, .fin 2], []⟩
    (f.dist.sig.map Prod.fst).Nodup ∧ f.args.length ≤ f.dist.sig.length ∧
    (∀ i < f.dist.sig.length, ∃ v, IsBound f i v) ∧
    getMarginalDetail f = .ok ("t", [("df", some (.fin 5)), ("loc", some (.fin 1)), ("scale", some (.fin 2))]) := by
  refine ⟨by simp [distT], by simp [distT], fun i hi => ?_, ?_⟩
  · have hi : i < 3 := hi
    interval_cases i
    · exact ⟨.fin 5, "df", none, rfl, Or.inl rfl⟩
    · exact ⟨.fin 1, "loc", some (.fin 0), rfl, Or.inl rfl⟩
    · exact ⟨.fin 2, "scale", some (.fin 1), rfl, Or.inl rfl⟩
  · simp [getMarginalDetail, distT, detailParams]

/-- A dictionary with the degrees of freedom of a t distribution. -/
example := createUnivariate_spec (stats := fun _ => none) (h := fun _ => [("df", .fin 5)])
  (d := ⟨some (.dist distT), some 0⟩) (D := distT) rfl (by simp [distT])

example := createUnivariate_heap_partial (stats := fun _ => none) (h := fun _ => [("df", .fin 5)])
  (d := ⟨some (.dist distT), some 0⟩) (by
    intro D hD n hn
    obtain rfl := Except.ok.inj hD
    simp_all [distT, Details.dict])

example := createUnivariate_mutates (stats := fun _ => none) (h := fun _ => [("loc", .fin 5)])
  (d := ⟨some (.dist distT), some 0⟩) (D := distT) (r := 0) (n := "df") rfl rfl (by simp [distT]) (by simp [pget])

example := processMargins_shared_fails (fun _ => none) (fun _ => []) rfl rfl

example : ∃ fs, (processMargins (fun _ => none) (fun _ => []) 2 (.coll [.dict ⟨some (.dist distT), some 0⟩,
    .dict ⟨some (.dist distNorm), some 1⟩])).2 = .ok fs ∧ fs.length = 2 := by
  obtain ⟨fs, h⟩ := (processMargins_shared_fails (fun _ => none) (fun _ => []) rfl rfl).2.1
  exact ⟨fs, h, processMargins_length h⟩

example := getMarginalDetail_spec (f := ⟨distT, [.fin 5], [("scale", .fin 2)]⟩) (by simp [distT])

end Copulae
