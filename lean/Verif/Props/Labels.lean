import Verif.Model.Labels
import Verif.Props.Reshape

/-!
C149: samples carry the names of the columns.
-/

namespace Copulae

/-- The copula knows a name for each of its dimensions. -/
def Spec.Named (s : CopState) (c : List String) : Prop := s.columns = some c ∧ c.length = s.dim

/-- A frame with these names over these columns, in order. -/
def Spec.FrameOf {d : ℕ} (x : FirstArg) (c : List String) (n : ℕ) (M : Fin n → Fin d → Fl) : Prop :=
  ∃ cols : List (String × (Fin n → Fl)), x = .frame n cols ∧ cols.map Prod.fst = c ∧
    ∀ j : Fin d, ∃ h : j.val < cols.length, (cols[j.val]'h).2 = fun i => M i j

/-- Data that a fit accepts: a matrix with one column per dimension (base.py:125-128). -/
def Spec.Fits (d : ℕ) : FirstArg → Prop
  | .frame _ cols => cols.length = d
  | .mat _ p _ => p = d
  | _ => False

/-- The names of the last frame of a sequence of data, or those known before. -/
def Spec.lastNames (c : Option (List String)) : List FirstArg → Option (List String)
  | [] => c
  | .frame _ cols :: l => lastNames (some (cols.map Prod.fst)) l
  | _ :: l => lastNames c l

open Spec

theorem labelSample_frame {d : ℕ} {c : List String} (hd : c.length = d) (n : ℕ) (M : Fin n → Fin d → Fl) :
    ∃ x, labelSample (some c) (.mat n M) = .ok x ∧ FrameOf x c n M := by
  have hlen : c.length = ((List.finRange d).map fun j (i : Fin n) => M i j).length := by simp [hd]
  refine ⟨.frame n (c.zip ((List.finRange d).map fun j i => M i j)), ?_, _, rfl, List.map_fst_zip hlen.le, fun j => ⟨?_, ?_⟩⟩
  · simp only [labelSample, castOutput]
    rw [if_neg (not_not.mpr hd)]
  · simp [hd]
  · simp [List.getElem_zip]

/-- **C149** A copula that knows names returns its samples as frames with these names, the values of each dimension in its column. -/
theorem sample_named {s : CopState} {c : List String} (h : Named s c) (n : ℕ) (M : Fin n → Fin s.dim → Fl) :
    ∃ x, labelSample s.columns (.mat n M) = .ok x ∧ FrameOf x c n M := by
  rw [h.1]
  exact labelSample_frame h.2 n M

/-- **C149** A copula without names returns arrays. -/
theorem sample_unnamed {s : CopState} (h : s.columns = none) (n : ℕ) (M : Fin n → Fin s.dim → Fl) :
    labelSample s.columns (.mat n M) = .ok (.mat n s.dim M) := by
  rw [h]
  rfl

/-- **C149** After any sequence of fits the names are those of the last frame. -/
theorem fits_names (s : CopState) (l : List FirstArg) (hl : ∀ x ∈ l, Fits s.dim x)
    (h0 : ∀ c, s.columns = some c → c.length = s.dim) :
    (l.foldl (fitColumnsOf .base) s).dim = s.dim ∧ (l.foldl (fitColumnsOf .base) s).columns = lastNames s.columns l ∧
      ∀ c, (l.foldl (fitColumnsOf .base) s).columns = some c → Named (l.foldl (fitColumnsOf .base) s) c := by
  induction l generalizing s with
  | nil => exact ⟨rfl, rfl, fun c h => ⟨h, h0 c h⟩⟩
  | cons x l ih =>
    have hx := hl x (by simp)
    have hd : (fitColumns s x).dim = s.dim := by
      unfold fitColumns
      split <;> rfl
    have hc : ∀ c, (fitColumns s x).columns = some c → c.length = (fitColumns s x).dim := by
      intro c hc
      rw [hd]
      unfold fitColumns at hc
      split at hc
      · rename_i n cols
        simp only [Option.some.injEq] at hc
        rw [← hc, List.length_map]
        exact hx
      · exact h0 c hc
    obtain ⟨a1, a2, a3⟩ := ih (fitColumns s x) (fun y hy => by rw [hd]; exact hl y (by simp [hy])) hc
    refine ⟨a1.trans hd, a2.trans ?_, a3⟩
    cases x <;> simp only [fitColumns, lastNames]

/-- **C149** An independence copula with `fields` knows these names; a wrong number of them is refused. -/
theorem indepNew_named (dim : ℕ) (f : List String) :
    (∀ s, indepNew dim (some f) = .ok s → s.dim = dim ∧ Named s f) ∧
    ((∃ s, indepNew dim (some f) = .ok s) ↔ f.length = dim ∧ 2 ≤ dim) := by
  unfold indepNew baseNew Named
  by_cases h : f.length = dim
  · by_cases h2 : dim < 2
    · simp [h, h2]
    · simp only [h, ne_eq, not_true_eq_false, if_false, h2, true_and]
      refine ⟨fun s hs => ?_, by simp; omega⟩
      obtain rfl := Except.ok.inj hs
      exact ⟨rfl, rfl, rfl⟩
  · simp [h]

/-- **C149** An empirical copula of a frame knows its names. -/
theorem empiricalNew_named {n : ℕ} {cols : List (String × (Fin n → Fl))} {s : CopState}
    (h : empiricalNew (.frame n cols) = .ok s) : Named s (cols.map Prod.fst) ∧ s.dim = cols.length := by
  simp only [empiricalNew, baseNew] at h
  split at h
  · cases h
  · obtain rfl := Except.ok.inj h
    exact ⟨⟨rfl, by simp⟩, rfl⟩

/-- **C149**, marginal copulas (partial: the inner copula has no names): fitted to a frame, a marginal copula returns frames with
the names of the data and the quantiles of the margins. -/
theorem margSample_named_partial {s : MargState} (hi : s.inner.columns = none) {n0 : ℕ}
    {cols : List (String × (Fin n0 → Fl))} (hc : cols.length = s.inner.dim) (m : Fin s.inner.dim → Margin) (n : ℕ)
    (M : Fin n → Fin s.inner.dim → Fl) :
    ∃ x, margSample (margFitColumns s (.frame n0 cols)) m (.mat n M) = .ok x ∧
      FrameOf x (cols.map Prod.fst) n fun i j => (m j).ppf (M i j) := by
  obtain ⟨x, hx, hf⟩ := labelSample_frame (d := s.inner.dim) (c := cols.map Prod.fst) (by simpa using hc) n fun i j => (m j).ppf (M i j)
  refine ⟨x, ?_, hf⟩
  rw [← hx]
  show margSample (margFitColumns s (.frame n0 cols)) m (.mat n M) = _
  have e : labelSample s.inner.columns (RandOut.mat n M) = .ok (.mat n s.inner.dim M) := by
    rw [hi]
    rfl
  unfold margSample
  show (labelSample s.inner.columns (RandOut.mat n M) >>= _) = _
  rw [e]
  rfl

/-! ### Where the names get in the way -/

/-- Finding (**C149** is violated): a marginal copula around a copula that knows names, such as one that was fitted to a frame, cannot
be sampled at all. -/
theorem margSample_named_inner {s : MargState} {c : List String} (h : Named s.inner c) (h2 : 2 ≤ s.inner.dim)
    (m : Fin s.inner.dim → Margin) (u : RandOut s.inner.dim) : ∃ e, margSample s m u = .error e := by
  cases u with
  | mat n M =>
    obtain ⟨x, hx, cols, rfl, -⟩ := sample_named h n M
    refine ⟨.invalidIndex, ?_⟩
    unfold margSample
    rw [hx]
    rfl
  | vec v =>
    refine ⟨.valueError, ?_⟩
    have hc := h.2
    unfold margSample
    rw [h.1]
    match c, hc with
    | [], hc => simp at hc; omega
    | [a], hc => simp at hc; omega
    | a :: b :: l, _ => rfl

/-- Finding (**C149** is violated): a Gaussian or Student copula fitted to a frame cannot draw a single observation. -/
theorem elliptical_named_single {s : CopState} {c : List String} (h : Named s c) (h2 : 2 ≤ s.dim) (M : Fin 1 → Fin s.dim → Fl) :
    labelSample s.columns (rvsShape M) = .error .valueError := by
  have hc := h.2
  have e : rvsShape M = .vec (M 0) := rfl
  rw [e, h.1]
  match c, hc with
  | [], hc => simp at hc; omega
  | [a], hc => simp at hc; omega
  | a :: b :: l, _ => rfl

/-- Finding (**C149** is violated): a Gaussian mixture copula or an independence copula without names does not take the names of the
frames it is fitted to; its samples stay arrays. -/
theorem fit_without_names {k : FitKind} (hk : k ≠ .base) {s : CopState} (hs : s.columns = none) (l : List FirstArg) (n : ℕ)
    (M : Fin n → Fin s.dim → Fl) :
    l.foldl (fitColumnsOf k) s = s ∧ labelSample (l.foldl (fitColumnsOf k) s).columns (.mat n M) = .ok (.mat n s.dim M) := by
  have e : l.foldl (fitColumnsOf k) s = s := by
    induction l with
    | nil => rfl
    | cons x l ih =>
      cases k
      · exact absurd rfl hk
      · exact ih
      · exact ih
  exact ⟨e, by rw [e, hs]; rfl⟩

/-! ### The hypotheses can be met -/

private def twoCols' : List (String × (Fin 1 → Fl)) := [("a", fun _ => .fin 0), ("b", fun _ => .fin 1)]

example : Named (fitColumns ⟨2, none⟩ (.frame 1 twoCols')) ["a", "b"] := ⟨rfl, rfl⟩

example (M : Fin 5 → Fin 2 → Fl) := sample_named (s := fitColumns ⟨2, none⟩ (.frame 1 twoCols')) (c := ["a", "b"]) ⟨rfl, rfl⟩ 5 M

example := fits_names ⟨2, none⟩ [.frame 1 twoCols', .mat 3 2 fun _ _ => .fin 0] (by simp [Fits, twoCols']) (by simp)

example (M : Fin 5 → Fin 2 → Fl) :=
  fit_without_names (k := .mixture) (by decide) (s := ⟨2, none⟩) rfl [.frame 1 twoCols', .mat 3 2 fun _ _ => .fin 0] 5 M

example : ∃ s, indepNew 3 (some ["x", "y", "z"]) = .ok s := (indepNew_named 3 ["x", "y", "z"]).2.mpr ⟨rfl, by norm_num⟩

example := empiricalNew_named (n := 1) (cols := twoCols') (s := ⟨2, some ["a", "b"]⟩) rfl

example (m : Fin 2 → Margin) (M : Fin 4 → Fin 2 → Fl) :=
  margSample_named_partial (s := ⟨⟨2, none⟩, ⟨2, none⟩⟩) rfl (n0 := 1) (cols := twoCols') rfl m 4 M

example (m : Fin 2 → Margin) (u : RandOut 2) :=
  margSample_named_inner (s := ⟨⟨2, none⟩, fitColumns ⟨2, none⟩ (.frame 1 twoCols')⟩) (c := ["a", "b"]) ⟨rfl, rfl⟩ le_rfl m u

example (M : Fin 1 → Fin 2 → Fl) := elliptical_named_single (s := ⟨2, some ["a", "b"]⟩) ⟨rfl, rfl⟩ le_rfl M

end Copulae
