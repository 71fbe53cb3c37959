import Verif.Model.Archimedean

/-!
Property C24: parameters stay inside the bounds of the copula.
-/

namespace Copulae

open Classical

/-- A sequence of assignments `copula.params = v`, failed ones included. -/
noncomputable def runParams (F : Family) : ArchState → List Fl → ArchState
  | st, [] => st
  | st, v :: l => runParams F (F.setParams st v).1 l

/-- The parameter is unset or inside the interval reported by `bounds`. -/
def InBounds (st : ArchState) : Prop :=
  st.theta = .nan ∨ (st.lower ≤ st.theta ∧ st.theta ≤ st.upper)

/-- **C24** A rejected assignment leaves the object as it was; an accepted one stores the value and
changes nothing else. -/
theorem setParams_effect (F : Family) (st : ArchState) (v : Fl) :
    ((F.setParams st v).2 ≠ none → (F.setParams st v).1 = st) ∧
    ((F.setParams st v).2 = none → (F.setParams st v).1 = { st with theta := v }) := by
  cases F <;> simp only [Family.setParams] <;> split_ifs <;> simp

theorem fl_not_lt {v : Fl} {a : ℝ} (h : ¬ v < Fl.fin a) :
    v = .nan ∨ (Fl.fin a ≤ v ∧ v ≤ .pinf) := by
  cases v with
  | nan => exact Or.inl rfl
  | ninf => exact absurd trivial h
  | fin x =>
    right
    rw [Fl.fin_lt_fin, not_lt] at h
    exact ⟨h, trivial⟩
  | pinf => exact Or.inr ⟨trivial, trivial⟩

/-- The shape of a state that `Family.new` produces and assignments keep. -/
def GoodState (F : Family) (d : ℕ) (st : ArchState) : Prop :=
  st.dim = d ∧ 2 ≤ d ∧ st.upper = .pinf ∧
    st.lower = (match F with
      | .clayton => if d = 2 then Fl.fin (-1 + machEps) else .fin 0
      | .frank => if d = 2 then Fl.ninf else .fin 0
      | .gumbel => .fin 1)

theorem new_good {F : Family} {v : Fl} {d : ℕ} {st : ArchState} (h : F.new v d = .ok st) :
    GoodState F d st ∧ st.theta = v := by
  cases F <;> simp only [Family.new] at h <;> split_ifs at h <;> cases h <;>
    simp_all [GoodState]

theorem set_good {F : Family} {v : Fl} {d : ℕ} {st : ArchState} (h : GoodState F d st) :
    GoodState F d (F.setParams st v).1 := by
  have := setParams_effect F st v
  by_cases h2 : (F.setParams st v).2 = none
  · rw [this.2 h2]; exact h
  · rw [this.1 h2]; exact h

theorem set_inBounds {F : Family} {v : Fl} {d : ℕ} {st : ArchState} (hd : F = .clayton → d ≠ 2)
    (h : GoodState F d st) (hb : InBounds st) : InBounds (F.setParams st v).1 := by
  have he := setParams_effect F st v
  by_cases h2 : (F.setParams st v).2 = none
  · rw [he.2 h2]
    obtain ⟨hdim, hd2, hu, hl⟩ := h
    unfold InBounds
    simp only [hu, hl]
    cases F with
    | clayton =>
      simp only [if_neg (hd rfl)]
      simp only [Family.setParams, hdim] at h2
      have h3 : d > 2 := by have := hd rfl; omega
      rw [if_neg (by simp [hd rfl])] at h2
      have h4 : ¬ v < Fl.fin 0 := by
        intro h4
        rw [if_pos ⟨h3, h4⟩] at h2
        simp at h2
      exact fl_not_lt h4
    | frank =>
      simp only
      by_cases h3 : d = 2
      · rw [if_pos h3]
        cases v with
        | nan => exact Or.inl rfl
        | ninf => exact Or.inr ⟨trivial, trivial⟩
        | fin x => exact Or.inr ⟨trivial, trivial⟩
        | pinf => exact Or.inr ⟨trivial, trivial⟩
      · rw [if_neg h3]
        simp only [Family.setParams, hdim] at h2
        have h4 : ¬ v < Fl.fin 0 := by
          intro h4
          rw [if_pos ⟨by omega, h4⟩] at h2
          simp at h2
        exact fl_not_lt h4
    | gumbel =>
      simp only [Family.setParams] at h2
      have h4 : ¬ v < Fl.fin 1 := by
        intro h4
        rw [if_pos h4] at h2
        simp at h2
      exact fl_not_lt h4
  · rw [he.1 h2]; exact hb

theorem new_inBounds {F : Family} {v : Fl} {d : ℕ} {st : ArchState} (hd : F = .clayton → d ≠ 2)
    (h : F.new v d = .ok st) : InBounds st := by
  cases F with
  | clayton =>
    simp only [Family.new] at h
    split_ifs at h with h1 h2 h3
    · exact absurd h3 (hd rfl)
    · cases h
      have h4 : ¬ v < Fl.fin 0 := fun h4 => h2 ⟨hd rfl, h4⟩
      exact fl_not_lt h4
  | frank =>
    simp only [Family.new] at h
    split_ifs at h with h1 h2 h3
    · cases h
      cases v with
      | nan => exact Or.inl rfl
      | ninf => exact Or.inr ⟨trivial, trivial⟩
      | fin x => exact Or.inr ⟨trivial, trivial⟩
      | pinf => exact Or.inr ⟨trivial, trivial⟩
    · cases h
      have h4 : ¬ v < Fl.fin 0 := fun h4 => h1 ⟨by omega, h4⟩
      exact fl_not_lt h4
  | gumbel =>
    simp only [Family.new] at h
    split_ifs at h with h1 h2
    cases h
    rcases h1 with h3 | h3
    · right
      refine ⟨h3, ?_⟩
      cases v with
      | nan => exact absurd h3 Fl.not_le_nan
      | ninf => exact absurd h3 (by simp)
      | fin x => trivial
      | pinf => trivial
    · exact Or.inl h3

/-- **C24** (partial: the bivariate Clayton copula is excluded, see `clayton_ctor_out_of_bounds`,
`clayton_set_out_of_bounds` and `clayton_two_history`) Whatever is assigned after construction, the
parameter is NaN or inside the bounds. -/
theorem params_inBounds_partial {F : Family} {v : Fl} {d : ℕ} {st : ArchState}
    (hd : F = .clayton → d ≠ 2) (h : F.new v d = .ok st) (ops : List Fl) :
    InBounds (runParams F st ops) := by
  have key : ∀ ops st, GoodState F d st → InBounds st → InBounds (runParams F st ops) := by
    intro ops
    induction ops with
    | nil => intro st _ h; exact h
    | cons a l ih => intro st hg hb; exact ih _ (set_good hg) (set_inBounds hd hg hb)
  exact key ops st (new_good h).1 (new_inBounds hd h)

example := params_inBounds_partial (F := .gumbel) (v := .fin 2) (d := 3)
  (st := ⟨3, .fin 2, .fin 1, .pinf⟩) (by simp) (by simp [Family.new]) [.fin 5, .nan, .fin (-3)]

/-- **C24** The bivariate Clayton copula: from a start inside the bounds, assignments keep the
parameter NaN or at least -1 (one machine epsilon below the reported bound). -/
theorem clayton_two_history {v : Fl} {st : ArchState} (h : Family.clayton.new v 2 = .ok st)
    (hv : InBounds st) (ops : List Fl) :
    (runParams .clayton st ops).theta = .nan ∨
      (Fl.fin (-1) ≤ (runParams .clayton st ops).theta ∧ (runParams .clayton st ops).theta ≤ .pinf) := by
  have key : ∀ ops st, GoodState .clayton 2 st →
      (st.theta = .nan ∨ (Fl.fin (-1) ≤ st.theta ∧ st.theta ≤ .pinf)) →
      ((runParams .clayton st ops).theta = .nan ∨
      (Fl.fin (-1) ≤ (runParams .clayton st ops).theta ∧ (runParams .clayton st ops).theta ≤ .pinf)) := by
    intro ops
    induction ops with
    | nil => intro st _ h; exact h
    | cons a l ih =>
      intro st hg hb
      refine ih _ (set_good hg) ?_
      simp only [Family.setParams, hg.1]
      split_ifs with h1 h2
      · exact hb
      · exact hb
      · simp only [true_and] at h1
        exact fl_not_lt h1
  refine key ops st (new_good h).1 ?_
  obtain ⟨⟨_, _, hu, hl⟩, _⟩ := new_good h
  rcases hv with hv | ⟨h1, h2⟩
  · exact Or.inl hv
  · right
    rw [hl] at h1
    simp only [if_true] at h1
    rw [hu] at h2
    refine ⟨?_, h2⟩
    have he : (0 : ℝ) < machEps := by unfold machEps; positivity
    cases ht : st.theta with
    | nan => rw [ht] at h1; simp at h1
    | ninf => rw [ht] at h1; simp at h1
    | fin x => rw [ht, Fl.fin_le_fin] at h1; rw [Fl.fin_le_fin]; linarith
    | pinf => trivial

/-- Violation of **C24**: the constructor accepts `theta = -5` in dimension two, which is outside
the bounds of the resulting object. -/
theorem clayton_ctor_out_of_bounds :
    ∃ st, Family.clayton.new (.fin (-5)) 2 = .ok st ∧ ¬ InBounds st := by
  refine ⟨⟨2, .fin (-5), .fin (-1 + machEps), .pinf⟩, by simp [Family.new], ?_⟩
  rintro (h | ⟨h, -⟩)
  · simp at h
  · have he : (0 : ℝ) < machEps := by unfold machEps; positivity
    simp only [Fl.fin_le_fin] at h
    linarith

/-- Violation of **C24**: the setter accepts -1, below the reported bound `-1 + eps`. -/
theorem clayton_set_out_of_bounds :
    ∃ st, Family.clayton.new (.fin 1) 2 = .ok st ∧ InBounds st ∧
      ¬ InBounds (runParams .clayton st [.fin (-1)]) := by
  have he : (0 : ℝ) < machEps := by unfold machEps; positivity
  have he1 : machEps ≤ 1 := by
    unfold machEps
    rw [zpow_neg]
    apply inv_le_one_of_one_le₀
    norm_num
  refine ⟨⟨2, .fin 1, .fin (-1 + machEps), .pinf⟩, by simp [Family.new], ?_, ?_⟩
  · right
    constructor
    · simp only [Fl.fin_le_fin]; linarith
    · trivial
  · simp only [runParams, Family.setParams]
    rw [if_neg (by simp), if_neg (by simp)]
    rintro (h | ⟨h, -⟩)
    · simp at h
    · simp only [Fl.fin_le_fin] at h
      linarith

/-- A history that meets the hypotheses: Gumbel, with a rejected assignment in the middle. -/
example : ∃ st, Family.gumbel.new (.fin 2) 3 = .ok st ∧
    InBounds (runParams .gumbel st [.fin 5, .fin (1 / 2), .nan]) := by
  refine ⟨⟨3, .fin 2, .fin 1, .pinf⟩, ?_, ?_⟩
  · simp [Family.new]
  · exact params_inBounds_partial (v := .fin 2) (d := 3) (by simp) (by simp [Family.new]) _

end Copulae
