import Verif.Props.GmcEm

/-!
C49: what `expectation_maximization` returns.
-/

namespace Copulae

/-! ### `np.argmax` -/

theorem Fl.le_of_not_lt' {a b : Fl} (ha : a ≠ .nan) (hb : b ≠ .nan) (h : ¬ a < b) : b ≤ a := by
  cases a <;> cases b <;> first | exact absurd rfl ha | exact absurd rfl hb | trivial | exact absurd trivial h | skip
  exact Fl.fin_le_fin.mpr (not_lt.mp fun h' => h (Fl.fin_lt_fin.mpr h'))

theorem Fl.le_trans' {a b c : Fl} (h : a ≤ b) (h' : b ≤ c) : a ≤ c := by
  cases a <;> cases b <;> cases c <;> first | trivial | exact h.elim | exact h'.elim | skip
  exact Fl.fin_le_fin.mpr (le_trans (Fl.fin_le_fin.mp h) (Fl.fin_le_fin.mp h'))

theorem Fl.le_of_lt' {a b : Fl} (h : a < b) : a ≤ b := by
  cases a <;> cases b <;> first | trivial | exact h.elim | skip
  exact Fl.fin_le_fin.mpr (le_of_lt (Fl.fin_lt_fin.mp h))

theorem Fl.le_refl' {a : Fl} (h : a ≠ .nan) : a ≤ a := by
  cases a <;> first | exact absurd rfl h | trivial | skip
  exact Fl.fin_le_fin.mpr le_rfl

theorem argmaxGo_spec (l : List Fl) (i best : ℕ) (b : Fl) (hb : b ≠ .nan) (hl : ∀ x ∈ l, x ≠ .nan) :
    (argmaxGo l i best b = best ∧ ∀ x ∈ l, x ≤ b) ∨
    ∃ j, ∃ h : j < l.length, argmaxGo l i best b = i + j ∧ b ≤ l[j] ∧ ∀ x ∈ l, x ≤ l[j] := by
  induction l generalizing i best b with
  | nil => exact Or.inl ⟨rfl, by simp⟩
  | cons x l ih =>
    have hx := hl x List.mem_cons_self
    have hl' : ∀ y ∈ l, y ≠ .nan := fun y hy => hl y (List.mem_cons_of_mem _ hy)
    by_cases h : b < x
    · have e : argmaxGo (x :: l) i best b = argmaxGo l (i + 1) i x := by
        rw [argmaxGo, if_neg hb, if_pos (Or.inr h)]
      rw [e]
      rcases ih (i + 1) i x hx hl' with ⟨h1, h2⟩ | ⟨j, hj, h1, h2, h3⟩
      · right
        refine ⟨0, by simp, by simpa using h1, Fl.le_of_lt' h, ?_⟩
        intro y hy
        rcases List.mem_cons.mp hy with rfl | hy
        · exact Fl.le_refl' hx
        · exact h2 y hy
      · right
        refine ⟨j + 1, by simpa using hj, by rw [h1]; omega, ?_, ?_⟩
        · exact Fl.le_trans' (Fl.le_of_lt' h) (by simpa using h2)
        · intro y hy
          rcases List.mem_cons.mp hy with rfl | hy
          · simpa using h2
          · simpa using h3 y hy
    · have e : argmaxGo (x :: l) i best b = argmaxGo l (i + 1) best b := by
        rw [argmaxGo, if_neg hb, if_neg (by rintro (h' | h'); exacts [hx h', h h'])]
      rw [e]
      have hxb := Fl.le_of_not_lt' hb hx h
      rcases ih (i + 1) best b hb hl' with ⟨h1, h2⟩ | ⟨j, hj, h1, h2, h3⟩
      · left
        refine ⟨h1, fun y hy => ?_⟩
        rcases List.mem_cons.mp hy with rfl | hy
        · exact hxb
        · exact h2 y hy
      · right
        refine ⟨j + 1, by simpa using hj, by rw [h1]; omega, by simpa using h2, ?_⟩
        intro y hy
        rcases List.mem_cons.mp hy with rfl | hy
        · exact Fl.le_trans' hxb (by simpa using h2)
        · simpa using h3 y hy

theorem npArgmax_spec (l : List Fl) (h0 : l ≠ []) (hl : ∀ x ∈ l, x ≠ .nan) :
    ∃ k, ∃ h : k < l.length, npArgmax l = .ok k ∧ ∀ x ∈ l, x ≤ l[k] := by
  cases l with
  | nil => exact absurd rfl h0
  | cons x l =>
    have hx := hl x List.mem_cons_self
    rcases argmaxGo_spec l 1 0 x hx fun y hy => hl y (List.mem_cons_of_mem _ hy) with ⟨h1, h2⟩ | ⟨j, hj, h1, h2, h3⟩
    · refine ⟨0, by simp, by rw [npArgmax, h1], fun y hy => ?_⟩
      rcases List.mem_cons.mp hy with rfl | hy
      · exact Fl.le_refl' hx
      · exact h2 y hy
    · refine ⟨j + 1, by simpa using hj, by rw [npArgmax, h1, add_comm], fun y hy => ?_⟩
      rcases List.mem_cons.mp hy with rfl | hy
      · simpa using h2
      · simpa using h3 y hy

theorem argmaxGo_lt (l : List Fl) (i best : ℕ) (b : Fl) (hb : best < i) : argmaxGo l i best b < i + l.length := by
  induction l generalizing i best b with
  | nil => simpa [argmaxGo] using hb
  | cons x l ih =>
    rw [argmaxGo]
    split_ifs
    · simp; omega
    · have := ih (i + 1) i x (by omega); simp; omega
    · have := ih (i + 1) best b (by omega); simp; omega

theorem npArgmax_lt (l : List Fl) (h0 : l ≠ []) : ∃ k, k < l.length ∧ npArgmax l = .ok k := by
  cases l with
  | nil => exact absurd rfl h0
  | cons x l => exact ⟨_, by have := argmaxGo_lt l 1 0 x (by omega); simpa [add_comm] using this, rfl⟩

/-! ### The loop -/

variable {n m d : ℕ}

/-- One iteration: the quantiles under the old parameters, their responsibilities, the new parameters. -/
def EmStep (F : EmFns n m d) (p p' : GMCParam m d) : Prop :=
  ∃ q, F.ppf p = .ok q ∧ (∀ c, ∑ i, eStep p.prob (F.dens q p) i c ≠ Fl.fin 0) ∧
    mStep F.ext q (eStep p.prob (F.dens q p)) = .ok p'

/-- The later record `a` was made by one iteration from the record `b`. -/
def RecStep (F : EmFns n m d) (a b : EmRec m d) : Prop :=
  EmStep F b.param a.param ∧ ∃ q, F.ppf b.param = .ok q ∧ a.gmm = F.gmm q a.param

/-- The records `l` (latest first) of the iterates from `p0` on; `q` are the quantiles under the latest. -/
structure EmTrace (F : EmFns n m d) (p0 : GMCParam m d) (q : Fin n → Fin d → Fl) (p : GMCParam m d)
    (l : List (EmRec m d)) : Prop where
  quant : F.ppf p = .ok q
  head : l.head?.map EmRec.param = some p
  last : l.getLast?.map EmRec.param = some p0
  chain : l.IsChain (RecStep F)
  lik : ∀ r ∈ l, r.gmcm = F.gmcm r.param

theorem emBody_trace {F : EmFns n m d} {p0 : GMCParam m d} {s s' : (Fin n → Fin d → Fl) × GMCParam m d × List (EmRec m d)}
    (h : EmTrace F p0 s.1 s.2.1 s.2.2) (hs : emBody F s = .ok s') :
    EmTrace F p0 s'.1 s'.2.1 s'.2.2 ∧ ∃ r, s'.2.2 = r :: s.2.2 := by
  obtain ⟨q, p, l⟩ := s
  simp only at h
  rw [emBody] at hs
  by_cases hc : ∃ c, ∑ i, eStep p.prob (F.dens q p) i c = Fl.fin 0
  · simp only [if_pos hc, bind, Except.bind, throw, throwThe, MonadExceptOf.throw] at hs
    cases hs
  · simp only [if_neg hc, bind, Except.bind, pure, Except.pure] at hs
    push Not at hc
    cases hm : mStep F.ext q (eStep p.prob (F.dens q p)) with
    | error e => simp only [hm] at hs; cases hs
    | ok p' =>
      simp only [hm] at hs
      cases hq : F.ppf p' with
      | error e => simp only [hq] at hs; cases hs
      | ok q' =>
        simp only [hq] at hs
        cases hs
        cases l with
        | nil => have := h.head; simp at this
        | cons a t =>
          have ha : a.param = p := by have := h.head; simpa using this
          refine ⟨⟨hq, rfl, ?_, ?_, ?_⟩, _, rfl⟩
          · rw [List.getLast?_cons_cons]; exact h.last
          · refine List.isChain_cons_cons.mpr ⟨⟨?_, q, ?_, rfl⟩, h.chain⟩
            · rw [ha]; exact ⟨q, h.quant, hc, hm⟩
            · rw [ha]; exact h.quant
          · intro r hr
            rcases List.mem_cons.mp hr with rfl | hr
            · rfl
            · exact h.lik r hr

theorem emLoop_trace {F : EmFns n m d} {p0 : GMCParam m d} {c : Criterion} {eps : ℝ} (k : ℕ)
    {s s' : (Fin n → Fin d → Fl) × GMCParam m d × List (EmRec m d)}
    (h : EmTrace F p0 s.1 s.2.1 s.2.2) (hs : emLoop F c eps k s = .ok s') :
    EmTrace F p0 s'.1 s'.2.1 s'.2.2 ∧ s.2.2 <:+ s'.2.2 ∧ s'.2.2.length ≤ s.2.2.length + k ∧
      (s'.2.2.length = s.2.2.length + k ∨ hasConverged c eps s'.2.2 = .ok true) ∧
      ∀ t, t <:+ s'.2.2 → s.2.2.length < t.length → t.length < s'.2.2.length →
        hasConverged c eps t = .ok false := by
  induction k generalizing s with
  | zero =>
    cases hs
    exact ⟨h, List.suffix_rfl, le_rfl, Or.inl rfl, fun t _ h1 h2 => absurd h1 (by omega)⟩
  | succ k ih =>
    unfold emLoop at hs
    cases hb : emBody F s with
    | error e => simp only [hb, bind, Except.bind] at hs; cases hs
    | ok t =>
      obtain ⟨ht, r, hr⟩ := emBody_trace h hb
      have hlen : t.2.2.length = s.2.2.length + 1 := by rw [hr]; simp
      have hsuf : s.2.2 <:+ t.2.2 := by rw [hr]; exact List.suffix_cons _ _
      simp only [hb, bind, Except.bind] at hs
      cases hc : hasConverged c eps t.2.2 with
      | error e => simp only [hc] at hs; cases hs
      | ok b =>
        simp only [hc] at hs
        cases b with
        | true =>
          simp only [if_true, pure, Except.pure] at hs
          cases hs
          exact ⟨ht, hsuf, by omega, Or.inr hc, fun t _ h1 h2 => absurd h1 (by omega)⟩
        | false =>
          simp only [Bool.false_eq_true, if_false] at hs
          obtain ⟨h1, h2, h3, h4, h5⟩ := ih ht hs
          refine ⟨h1, hsuf.trans h2, by omega, ?_, ?_⟩
          · rcases h4 with h4 | h4
            · left; omega
            · exact Or.inr h4
          · intro u hu hu1 hu2
            by_cases e : u.length = t.2.2.length
            · rw [(List.suffix_of_suffix_length_le hu h2 e.le).eq_of_length e, hc]
            · exact h5 u hu (by omega) hu2

/-- The criterion compares the iterate `a` with the one before it, `b`. -/
def EmClose (F : EmFns n m d) (eps : ℝ) (a b : GMCParam m d) : Criterion → Prop
  | .gmcm => (F.gmcm a - F.gmcm b).abs < .fin eps
  | .li => ∃ q, F.ppf b = .ok q ∧ (F.gmm q a - F.gmcm b).abs < .fin eps
  | .gmm => True

/-- C49: a fit that succeeds returns one of the parameters visited by the iterations from the start on; under the
criteria `GMCM` and `Li` no visited parameter has a larger log-likelihood, under `GMM` it is the last. The loop does
all iterations or ends because the criterion holds, which the flag then says. What is missing: the log-likelihood
reported is that of the last parameter and not of the one returned (`em_reports_wrong`). -/
theorem em_best_partial {F : EmFns n m d} {p0 : GMCParam m d} {maxIter : ℕ} {criteria : String} {eps : ℝ}
    {s : EmSummary m d} (h : expectationMaximization F p0 maxIter criteria eps = .ok s) :
    ∃ c path, parseCriteria criteria = .ok c ∧ path.head? = some p0 ∧ path.IsChain (EmStep F) ∧
      2 ≤ path.length ∧ path.length ≤ maxIter + 1 ∧ s.param ∈ path ∧
      (c = .gmm → path.getLast? = some s.param) ∧
      (c ≠ .gmm → (∀ p ∈ path, F.gmcm p ≠ .nan) → ∀ p ∈ path, F.gmcm p ≤ F.gmcm s.param) ∧
      (∃ l, path.getLast? = some l ∧ s.logLik = F.gmcm l) ∧
      (path.length = maxIter + 1 ∨ s.converged = true) ∧
      (c ≠ .gmm → (s.converged = true ↔ ∃ init a b, path = init ++ [b, a] ∧ EmClose F eps a b c)) ∧
      (c ≠ .gmm → ∀ init a b rest, path = init ++ b :: a :: rest → rest ≠ [] → ¬ EmClose F eps a b c) := by
  unfold expectationMaximization at h
  cases hq : F.ppf p0 with
  | error e => simp only [hq, bind, Except.bind] at h; cases h
  | ok q =>
  cases hcr : parseCriteria criteria with
  | error e => simp only [hq, hcr, bind, Except.bind] at h; cases h
  | ok c =>
  cases hl : emLoop F c eps maxIter (q, p0, [⟨F.gmm q p0, F.gmcm p0, p0⟩]) with
  | error e => simp only [hq, hcr, hl, bind, Except.bind] at h; cases h
  | ok t =>
  cases hb : bestParam c t.2.2.reverse with
  | error e => simp only [hq, hcr, hl, hb, bind, Except.bind] at h; cases h
  | ok best =>
  cases hc : hasConverged c eps t.2.2 with
  | error e => simp only [hq, hcr, hl, hb, hc, bind, Except.bind] at h; cases h
  | ok conv =>
  cases hll : bestLogLik t.2.2.reverse with
  | error e => simp only [hq, hcr, hl, hb, hc, hll, bind, Except.bind] at h; cases h
  | ok ll =>
  simp only [hq, hcr, hl, hb, hc, hll, bind, Except.bind, pure, Except.pure] at h
  cases h
  have h0 : EmTrace F p0 q p0 [⟨F.gmm q p0, F.gmcm p0, p0⟩] :=
    ⟨hq, rfl, rfl, List.isChain_singleton _, by simp⟩
  obtain ⟨ht, -, hlen, hstop, hfirst⟩ := emLoop_trace (s := (q, p0, _)) maxIter h0 hl
  generalize hL : t.2.2 = L at *
  have hL2 : 2 ≤ L.length := by
    match L, hc with
    | [], hc => cases hc
    | [_], hc => cases hc
    | _ :: _ :: _, _ => simp
  have conv_iff : ∀ (a b : EmRec m d) (l : List (EmRec m d)), (a :: b :: l) <:+ L → c ≠ .gmm →
      (hasConverged c eps (a :: b :: l) = .ok true ↔ EmClose F eps a.param b.param c) := by
    intro a b l hs hne
    have hstep : RecStep F a b := (List.isChain_cons_cons.mp (ht.chain.suffix hs)).1
    have hga := ht.lik a (hs.subset List.mem_cons_self)
    have hgb := ht.lik b (hs.subset (List.mem_cons_of_mem _ List.mem_cons_self))
    cases c with
    | gmm => exact absurd rfl hne
    | gmcm => simp [hasConverged, EmClose, hga, hgb]
    | li =>
      obtain ⟨q', hq', hgm⟩ := hstep.2
      simp [hasConverged, EmClose, hgb, hgm, hq']
  have hbest : ∃ r ∈ L, r.param = best ∧ (c = .gmm → L.head? = some r) ∧
      (c ≠ .gmm → (∀ r ∈ L, r.gmcm ≠ .nan) → ∀ r' ∈ L, r'.gmcm ≤ r.gmcm) := by
    have hne : L.reverse.map EmRec.gmcm ≠ [] := by
      intro h'; simp at h'; rw [h'] at hL2; simp at hL2
    have key : ∀ c', c' ≠ .gmm → bestParam c' L.reverse = .ok best →
        ∃ r ∈ L, r.param = best ∧ ((∀ r ∈ L, r.gmcm ≠ .nan) → ∀ r' ∈ L, r'.gmcm ≤ r.gmcm) := by
      intro c' hc' hb'
      obtain ⟨k, hk, hka⟩ := npArgmax_lt _ hne
      have hk' : k < L.reverse.length := by simpa using hk
      have hb2 : L.reverse[k].param = best := by
        cases c' with
        | gmm => exact absurd rfl hc'
        | gmcm => simpa only [bestParam, hka, bind, Except.bind, List.getElem?_eq_getElem hk', Except.ok.injEq] using hb'
        | li => simpa only [bestParam, hka, bind, Except.bind, List.getElem?_eq_getElem hk', Except.ok.injEq] using hb'
      refine ⟨L.reverse[k], by rw [← List.mem_reverse]; exact List.getElem_mem _, hb2, ?_⟩
      intro hnn r' hr'
      obtain ⟨k2, hk2, hka2, hmax⟩ := npArgmax_spec (L.reverse.map EmRec.gmcm) hne (by
        intro x hx
        obtain ⟨r, hr, rfl⟩ := List.mem_map.mp hx
        exact hnn r (List.mem_reverse.mp hr))
      rw [hka] at hka2
      cases hka2
      have := hmax r'.gmcm (List.mem_map.mpr ⟨r', List.mem_reverse.mpr hr', rfl⟩)
      simpa using this
    cases c with
    | gmm =>
      cases L with
      | nil => simp at hL2
      | cons a l =>
        have : a.param = best := by simpa [bestParam] using hb
        exact ⟨a, by simp, this, fun _ => rfl, fun h' => absurd rfl h'⟩
    | gmcm =>
      obtain ⟨r, h1, h2, h3⟩ := key .gmcm (by simp) hb
      exact ⟨r, h1, h2, (by simp), fun _ => h3⟩
    | li =>
      obtain ⟨r, h1, h2, h3⟩ := key .li (by simp) hb
      exact ⟨r, h1, h2, (by simp), fun _ => h3⟩
  obtain ⟨r, hr, hrb, hgmm, hmax⟩ := hbest
  refine ⟨c, (L.map EmRec.param).reverse, rfl, ?_, ?_, by simpa using hL2, by simpa [add_comm] using hlen, ?_, ?_, ?_, ?_, ?_, ?_, ?_⟩
  · rw [List.head?_reverse, List.getLast?_map]; exact ht.last
  · rw [List.isChain_reverse, List.isChain_map]
    exact ht.chain.imp fun a b h => h.1
  · rw [List.mem_reverse]; exact List.mem_map.mpr ⟨r, hr, hrb⟩
  · intro hcg
    rw [List.getLast?_reverse, List.head?_map, hgmm hcg]; simp [hrb]
  · intro hcg hnn p hp
    rw [List.mem_reverse] at hp
    obtain ⟨r', hr', rfl⟩ := List.mem_map.mp hp
    have := hmax hcg (by
      intro x hx
      rw [ht.lik x hx]
      exact hnn _ (List.mem_reverse.mpr (List.mem_map.mpr ⟨x, hx, rfl⟩))) r' hr'
    rwa [ht.lik r' hr', ht.lik r hr, hrb] at this
  · cases L with
    | nil => simp at hL2
    | cons a l =>
      refine ⟨a.param, by simp, ?_⟩
      have : a.gmcm = ll := by simpa [bestLogLik] using hll
      rw [← this]; exact ht.lik a List.mem_cons_self
  · rcases hstop with h' | h'
    · left; simpa [add_comm] using h'
    · right; rw [hc] at h'; simpa using h'
  · intro hcg
    match L, hL2 with
    | a :: b :: l, _ =>
      have := conv_iff a b l List.suffix_rfl hcg
      rw [hc] at this
      have this' : conv = true ↔ EmClose F eps a.param b.param c := by simpa using this
      rw [this']
      constructor
      · intro hcl; exact ⟨(l.map EmRec.param).reverse, a.param, b.param, by simp, hcl⟩
      · rintro ⟨init, a', b', he, hcl⟩
        have : b' = b.param ∧ a' = a.param := by
          have := congrArg List.reverse he
          simp at this
          exact ⟨this.2.1.symm, this.1.symm⟩
        rw [← this.1, ← this.2]; exact hcl
  · intro hcg init a b rest he hrest hcl
    have he' : L.map EmRec.param = rest.reverse ++ a :: b :: init.reverse := by
      have := congrArg List.reverse he
      simpa using this
    obtain ⟨l1, l2, hLe, hl1, hl2⟩ := List.map_eq_append_iff.mp he'
    obtain ⟨ra, l3, hl2e, hra, hl3⟩ := List.map_eq_cons_iff.mp hl2
    obtain ⟨rb, l4, hl3e, hrb', hl4⟩ := List.map_eq_cons_iff.mp hl3
    subst hl2e hl3e
    have hsuf : (ra :: rb :: l4) <:+ L := ⟨l1, hLe.symm⟩
    have hl1pos : 0 < l1.length := by
      rw [List.length_pos_iff]; rintro rfl; simp at hl1; exact hrest hl1
    have hf := hfirst _ hsuf (by simp) (by rw [hLe]; simp; omega)
    have := (conv_iff ra rb l4 hsuf hcg).mpr (by rw [hra, hrb']; exact hcl)
    rw [hf] at this
    cases this

/-- C48: one iteration, for real parameters and quantiles and densities that are non-negative numbers, infinite or
NaN: it fails with `FitException` exactly when some component has no responsibility at all, and otherwise gives
probabilities that are positive with sum one, real means and positive semi-definite covariances. -/
theorem em_step_valid (ext : CovNearest) (hm : 1 ≤ m) (p : Fin m → ℝ) (h0 : ∀ c, 0 ≤ p c) (q : Fin n → Fin d → ℝ)
    (dens : Fin n → Fin m → Fl) (hd : ∀ i c, DensityVal (dens i c))
    (hc : ∀ c, ∑ i, eStep (fun c => .fin (p c)) dens i c ≠ Fl.fin 0) :
    ∃ (p' : Fin m → ℝ) (mu : Fin m → Fin d → ℝ) (S : Fin m → Matrix (Fin d) (Fin d) ℝ),
      mStep ext (fun i j => .fin (q i j)) (eStep (fun c => .fin (p c)) dens) = .ok (flParam p' mu S) ∧
      (∀ c, 0 < p' c) ∧ ∑ c, p' c = 1 ∧ ∀ c, (S c).PosSemidef := by
  have hw : ∀ i c, ∃ w : ℝ, 0 ≤ w ∧ eStep (fun c => .fin (p c)) dens i c = .fin w := by
    intro i c
    rcases eStep_rows p h0 dens hd i with h | ⟨f, -, -, h, h', -⟩
    · exact ⟨0, le_rfl, h c⟩
    · exact ⟨_, (h' c).1, h c⟩
  choose w hw0 hw using hw
  have he : eStep (fun c => .fin (p c)) dens = fun i c => .fin (w i c) := by funext i c; exact hw i c
  have hpos : ∀ c, 0 < ∑ i, w i c := by
    intro c
    refine lt_of_le_of_ne (Finset.sum_nonneg fun i _ => hw0 i c) fun h => hc c ?_
    simp only [hw, Fl.sum_fin, ← h]
  obtain ⟨h1, h2, h3, h4⟩ := mStep_valid q w ext hm hw0 hpos
  exact ⟨_, _, _, by rw [he]; exact h1, h2, h3, h4⟩

/-- Two clusters, two rows: the hypotheses of `em_step_valid` hold. -/
example : ∃ (p' : Fin 2 → ℝ) (mu : Fin 2 → Fin 1 → ℝ) (S : Fin 2 → Matrix (Fin 1) (Fin 1) ℝ),
      mStep (fun _ M => M) (fun i _ => .fin ((![1, 4] : Fin 2 → ℝ) i))
        (eStep (fun c => .fin ((![0.25, 0.75] : Fin 2 → ℝ) c)) fun i _ => .fin ((![1, 2] : Fin 2 → ℝ) i)) = .ok (flParam p' mu S) ∧
      (∀ c, 0 < p' c) ∧ ∑ c, p' c = 1 ∧ ∀ c, (S c).PosSemidef := by
  refine em_step_valid (n := 2) (d := 1) _ (by norm_num) (![0.25, 0.75] : Fin 2 → ℝ) ?_
    (fun i _ => (![1, 4] : Fin 2 → ℝ) i) _ ?_ ?_
  · intro c; fin_cases c <;> norm_num
  · intro i c; refine Or.inr (Or.inr ⟨_, ?_, rfl⟩); fin_cases i <;> norm_num
  · intro c
    have : ∀ i : Fin 2, eStep (fun c => .fin ((![0.25, 0.75] : Fin 2 → ℝ) c))
        (fun i (_ : Fin 2) => .fin ((![1, 2] : Fin 2 → ℝ) i)) i c = .fin ((![0.25, 0.75] : Fin 2 → ℝ) c) := by
      intro i
      rw [eStep, Fin.sum_univ_two]
      fin_cases i <;> fin_cases c <;> simp [Fl.fin_div_fin, nanToZero] <;> norm_num
    rw [Fin.sum_univ_two, this, this]
    fin_cases c <;> simp <;> norm_num

/-! ### Findings -/

/-- One observation, one component, one dimension. -/
noncomputable def oneFns (g : GMCParam 1 1 → Fl) : EmFns 1 1 1 where
  ppf _ := .ok fun _ _ => .fin 0
  dens _ _ _ _ := .fin 1
  gmm _ _ := .fin 0
  gmcm := g
  ext := fun _ M => M

noncomputable def oneParam (mu s : ℝ) : GMCParam 1 1 := flParam (fun _ => 1) (fun _ _ => mu) fun _ _ _ => s

theorem oneFns_body (g : GMCParam 1 1 → Fl) (mu s : ℝ) (l : List (EmRec 1 1)) :
    emBody (oneFns g) (fun _ _ => .fin 0, oneParam mu s, l) =
      .ok (fun _ _ => .fin 0, oneParam 0 0, ⟨.fin 0, g (oneParam 0 0), oneParam 0 0⟩ :: l) := by
  have he : eStep (oneParam mu s).prob ((oneFns g).dens (fun _ _ => .fin 0) (oneParam mu s)) =
      fun _ _ => .fin 1 := by
    funext i c
    simp [eStep, oneParam, oneFns, flParam, nanToZero, Fl.fin_div_fin]
  have hm := (mStep_valid (n := 1) (m := 1) (d := 1) (fun _ _ => 0) (fun _ _ => 1) (fun _ M => M) le_rfl
    (by simp) (by simp)).1
  have e1 : (flParam (fun c : Fin 1 => (∑ _i : Fin 1, (1 : ℝ)) / ∑ _c' : Fin 1, ∑ _i : Fin 1, (1 : ℝ))
      (wMean (fun (_ : Fin 1) (_ : Fin 1) => 0) fun (_ : Fin 1) (_ : Fin 1) => 1)
      (wCov (fun (_ : Fin 1) (_ : Fin 1) => 0) fun (_ : Fin 1) (_ : Fin 1) => 1)) = oneParam 0 0 := by
    unfold oneParam
    congr 1
    · funext c; simp
    · funext c j; simp [wMean]
    · funext c a b; simp [wCov, wMean]
  rw [e1] at hm
  rw [emBody]
  simp only [he]
  rw [if_neg (by rw [he]; simp)]
  simp only [bind, Except.bind, pure, Except.pure]
  have : mStep (oneFns g).ext (fun _ _ => .fin 0) (fun _ _ => .fin 1) = .ok (oneParam 0 0) := hm
  rw [this]
  rfl

theorem oneParam_ne : oneParam 0 0 ≠ oneParam 1 1 := by
  intro h
  have := congrFun (congrFun (congrArg GMCParam.means h) 0) 0
  simp [oneParam, flParam] at this

theorem oneFns_run {g : GMCParam 1 1 → Fl} {best : GMCParam 1 1}
    (hc : ¬ (g (oneParam 0 0) - g (oneParam 1 1)).abs < .fin 1e-4)
    (hb : bestParam .gmcm [⟨.fin 0, g (oneParam 1 1), oneParam 1 1⟩, ⟨.fin 0, g (oneParam 0 0), oneParam 0 0⟩] =
      .ok best) :
    expectationMaximization (oneFns g) (oneParam 1 1) 1 "GMCM" 1e-4 = .ok ⟨best, false, g (oneParam 0 0)⟩ := by
  have hp : parseCriteria "GMCM" = .ok .gmcm := by decide
  have hf : hasConverged (m := 1) (d := 1) .gmcm 1e-4
      [⟨.fin 0, g (oneParam 0 0), oneParam 0 0⟩, ⟨.fin 0, g (oneParam 1 1), oneParam 1 1⟩] = .ok false := by
    simp only [hasConverged, hc, decide_false]
  have hloop : emLoop (oneFns g) .gmcm 1e-4 1
      (fun _ _ => .fin 0, oneParam 1 1, [⟨.fin 0, g (oneParam 1 1), oneParam 1 1⟩]) =
      .ok (fun _ _ => .fin 0, oneParam 0 0,
        [⟨.fin 0, g (oneParam 0 0), oneParam 0 0⟩, ⟨.fin 0, g (oneParam 1 1), oneParam 1 1⟩]) := by
    unfold emLoop
    simp only [oneFns_body, bind, Except.bind, hf, Bool.false_eq_true, if_false]
    rfl
  have hq : (oneFns g).ppf (oneParam 1 1) = .ok fun _ _ => .fin 0 := rfl
  unfold expectationMaximization
  have e : emLoop (oneFns g) .gmcm 1e-4 1 (fun _ _ => .fin 0, oneParam 1 1,
      [⟨(oneFns g).gmm (fun _ _ => .fin 0) (oneParam 1 1), (oneFns g).gmcm (oneParam 1 1), oneParam 1 1⟩]) = _ := hloop
  simp only [hq, bind, Except.bind, hp, e, List.reverse_cons, List.reverse_nil, List.nil_append, List.cons_append,
    hb, hf, bestLogLik, List.getLast?_cons_cons, List.getLast?_singleton, pure, Except.pure]

/-- Finding: the log-likelihood reported is not that of the parameters returned. After one iteration that lowers the
log-likelihood from one to zero the start is returned, with log-likelihood zero. -/
theorem em_reports_wrong : ∃ (F : EmFns 1 1 1) (p0 : GMCParam 1 1) (s : EmSummary 1 1),
    expectationMaximization F p0 1 "GMCM" 1e-4 = .ok s ∧ s.param = p0 ∧ F.gmcm s.param = .fin 1 ∧
      s.logLik = .fin 0 := by
  classical
  let g : GMCParam 1 1 → Fl := fun p => if p = oneParam 1 1 then .fin 1 else .fin 0
  have g1 : g (oneParam 1 1) = .fin 1 := if_pos rfl
  have g0 : g (oneParam 0 0) = .fin 0 := if_neg oneParam_ne
  refine ⟨oneFns g, oneParam 1 1, _, oneFns_run (best := oneParam 1 1) ?_ ?_, rfl, g1, g0⟩
  · rw [g0, g1]; simp [Fl.abs]; norm_num
  · rw [g0, g1]
    simp [bestParam, npArgmax, argmaxGo, bind, Except.bind, show ¬ (1 : ℝ) < 0 by norm_num]

/-- Finding: parameters whose log-likelihood is NaN are taken for the best. -/
theorem em_nan_wins : ∃ (F : EmFns 1 1 1) (p0 : GMCParam 1 1) (s : EmSummary 1 1),
    expectationMaximization F p0 1 "GMCM" 1e-4 = .ok s ∧ F.gmcm p0 = .fin 1 ∧ F.gmcm s.param = .nan := by
  classical
  let g : GMCParam 1 1 → Fl := fun p => if p = oneParam 1 1 then .fin 1 else .nan
  have g1 : g (oneParam 1 1) = .fin 1 := if_pos rfl
  have g0 : g (oneParam 0 0) = .nan := if_neg oneParam_ne
  refine ⟨oneFns g, oneParam 1 1, _, oneFns_run (best := oneParam 0 0) ?_ ?_, g1, g0⟩
  · rw [g0, g1]; exact id
  · rw [g0, g1]
    simp [bestParam, npArgmax, argmaxGo, bind, Except.bind]

/-- Finding: without iterations the fit fails with an `IndexError`, whatever the start. -/
theorem em_no_iter (F : EmFns n m d) (p0 : GMCParam m d) (criteria : String) (eps : ℝ) (c : Criterion)
    (hc : parseCriteria criteria = .ok c) {q} (hq : F.ppf p0 = .ok q) :
    expectationMaximization F p0 0 criteria eps = .error .indexError := by
  unfold expectationMaximization
  have hb : bestParam c [⟨F.gmm q p0, F.gmcm p0, p0⟩] = .ok p0 := by
    cases c <;> simp [bestParam, npArgmax, argmaxGo, bind, Except.bind]
  simp only [hq, hc, bind, Except.bind, emLoop, List.reverse_cons, List.reverse_nil, List.nil_append, hb,
    hasConverged]

example (g : GMCParam 1 1 → Fl) := em_no_iter (oneFns g) (oneParam 1 1) "gmm" 1e-4 .gmm (by decide) rfl

/-- The criterion is read without regard to case; anything else is refused. -/
theorem em_bad_criteria (F : EmFns n m d) (p0 : GMCParam m d) (k : ℕ) (eps : ℝ) {q} (hq : F.ppf p0 = .ok q)
    (criteria : String)
    (h : ∀ s ∈ ["GMCM", "GMM", "LI"], criteria.toList.map Char.toUpper ≠ String.toList s) :
    expectationMaximization F p0 k criteria eps = .error .stoppingCriteria := by
  simp only [List.mem_cons, List.not_mem_nil, or_false, forall_eq_or_imp, forall_eq] at h
  unfold expectationMaximization
  simp only [hq, bind, Except.bind, parseCriteria, h.1, h.2.1, h.2.2, if_false]

example (g : GMCParam 1 1 → Fl) := em_bad_criteria (oneFns g) (oneParam 1 1) 5 1e-4 rfl "BIC" (by decide)

/-- Instance for `em_best_partial`: one iteration that lowers the log-likelihood from one to zero. -/
example : ∃ (F : EmFns 1 1 1) (s : EmSummary 1 1) (path : List (GMCParam 1 1)),
    expectationMaximization F (oneParam 1 1) 1 "GMCM" 1e-4 = .ok s ∧ path.head? = some (oneParam 1 1) ∧
      path.IsChain (EmStep F) ∧ ∀ p ∈ path, F.gmcm p ≤ F.gmcm s.param := by
  classical
  let g : GMCParam 1 1 → Fl := fun p => if p = oneParam 1 1 then .fin 1 else .fin 0
  have g1 : g (oneParam 1 1) = .fin 1 := if_pos rfl
  have g0 : g (oneParam 0 0) = .fin 0 := if_neg oneParam_ne
  have hrun := oneFns_run (g := g) (best := oneParam 1 1) (by rw [g0, g1]; simp [Fl.abs]; norm_num) (by
    rw [g0, g1]
    simp [bestParam, npArgmax, argmaxGo, bind, Except.bind, show ¬ (1 : ℝ) < 0 by norm_num])
  obtain ⟨c, path, hc, h1, h2, -, -, -, -, h3, -⟩ := em_best_partial hrun
  obtain rfl : Criterion.gmcm = c := Except.ok.inj ((by decide : parseCriteria "GMCM" = .ok .gmcm).symm.trans hc)
  refine ⟨oneFns g, _, path, hrun, h1, h2, h3 (by simp) fun p _ => ?_⟩
  show (if p = oneParam 1 1 then Fl.fin 1 else .fin 0) ≠ .nan
  split_ifs <;> simp

end Copulae
