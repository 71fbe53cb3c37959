import Verif.Model.PickandsDeriv
import Mathlib.Analysis.SpecialFunctions.Pow.Deriv

/-!
C137: `GumbelCopula.dAdu` returns the first and second derivative of the Pickands function.
-/

namespace Copulae

/-- The Pickands function of the Gumbel copula. -/
noncomputable def Spec.pickands (θ w : ℝ) : ℝ := (w ^ θ + (1 - w) ^ θ) ^ (1 / θ)

/-- The columns of the result hold the derivatives at the elements of `w`. -/
def Spec.IsPickandsDerivs (θ : ℝ) (w : List ℝ) (r : NumVal × NumVal) : Prop :=
  ∃ g h : ℝ → ℝ, r = (.arr (w.map fun x => .fin (g x)), .arr (w.map fun x => .fin (h x))) ∧
    ∀ x ∈ w, HasDerivAt (Spec.pickands θ) (g x) x ∧ HasDerivAt g (h x) x

/-- C137, violation: `dAdu` raises `TypeError`, for every parameter and every array. -/
theorem gumbelDAdu_violation {θ : ℝ} (h : θ ≠ 0) (w : List Fl) : gumbelDAdu θ w = .error .typeError := by
  simp only [gumbelDAdu, if_neg h, NumVal.arith, NumVal.xor, bind, Except.bind]

example := gumbelDAdu_violation (θ := 2) (by norm_num) [.fin (1 / 2), .fin 1]

/-- The derivative of `w ^ θ + (1 - w) ^ θ`. -/
noncomputable def Spec.innerDeriv (θ w : ℝ) : ℝ := θ * w ^ (θ - 1) - θ * (1 - w) ^ (θ - 1)

theorem inner_hasDeriv {p w : ℝ} (h0 : 0 < w) (h1 : w < 1) :
    HasDerivAt (fun x : ℝ => x ^ p + (1 - x) ^ p) (Spec.innerDeriv p w) w := by
  have a1 : HasDerivAt (fun x : ℝ => x ^ p) (p * w ^ (p - 1)) w := Real.hasDerivAt_rpow_const (.inl h0.ne')
  have a2 : HasDerivAt (fun x : ℝ => (1 - x) ^ p) ((-1) * p * (1 - w) ^ (p - 1)) w :=
    ((hasDerivAt_id w).const_sub 1).rpow_const (.inl (by simp only [id]; linarith))
  refine (a1.add a2).congr_deriv ?_
  unfold Spec.innerDeriv
  ring

theorem inner_hasDeriv₂ {p w : ℝ} (h0 : 0 < w) (h1 : w < 1) :
    HasDerivAt (Spec.innerDeriv p) (p * (p - 1) * (w ^ (p - 1 - 1) + (1 - w) ^ (p - 1 - 1))) w := by
  have a1 : HasDerivAt (fun x : ℝ => x ^ (p - 1)) ((p - 1) * w ^ (p - 1 - 1)) w :=
    Real.hasDerivAt_rpow_const (.inl h0.ne')
  have a2 : HasDerivAt (fun x : ℝ => (1 - x) ^ (p - 1)) ((-1) * (p - 1) * (1 - w) ^ (p - 1 - 1)) w :=
    ((hasDerivAt_id w).const_sub 1).rpow_const (.inl (by simp only [id]; linarith))
  refine ((a1.const_mul p).sub (a2.const_mul p)).congr_deriv ?_
  ring

/-- C137, the part that holds: the other lines are right. If line 106 gave the derivative of `w ^ theta + (1 - w) ^ theta`,
`dAdu` would return the derivatives of the Pickands function. Missing, because violated: line 106 raises. -/
theorem dAduRest_partial (θ : ℝ) {w : List ℝ} (hw : ∀ x ∈ w, 0 < x ∧ x < 1) :
    Spec.IsPickandsDerivs θ w (dAduRest θ (.arr (w.map fun x => .fin x))
      (.arr (w.map fun x => .fin (Spec.innerDeriv θ x)))) := by
  have hS : ∀ x : ℝ, 0 < x → x < 1 → 0 < x ^ θ + (1 - x) ^ θ := fun x h0 h1 =>
    add_pos (Real.rpow_pos_of_pos h0 _) (Real.rpow_pos_of_pos (by linarith) _)
  refine ⟨fun x => (x ^ θ + (1 - x) ^ θ) ^ (1 / θ - 1) * (1 / θ * Spec.innerDeriv θ x),
    fun x => (1 / θ - 1) * Spec.innerDeriv θ x * (1 / θ * Spec.innerDeriv θ x) *
      (x ^ θ + (1 - x) ^ θ) ^ (1 / θ - 1 - 1) +
      θ * (1 / θ) * (x ^ θ + (1 - x) ^ θ) ^ (1 / θ - 1) * (θ - 1) * (x ^ (θ - 1 - 1) + (1 - x) ^ (θ - 1 - 1)),
    ?_, ?_⟩
  · simp only [dAduRest, NumVal.arith, NumVal.toFl, List.map_map, List.zipWith_map, List.zipWith_self, Function.comp_def,
      Prod.mk.injEq, NumVal.arr.injEq, List.map_inj_left]
    constructor <;> intro x hx <;> obtain ⟨h0, h1⟩ := hw x hx <;>
      simp [Fl.fin_sub_fin, Fl.pow_pos h0, Fl.pow_pos (show 0 < 1 - x by linarith), Fl.pow_pos (hS x h0 h1)]
  · intro x hx
    obtain ⟨h0, h1⟩ := hw x hx
    have hi := inner_hasDeriv (p := θ) h0 h1
    have hi₂ := inner_hasDeriv₂ (p := θ) h0 h1
    refine ⟨(hi.rpow_const (p := 1 / θ) (.inl (hS x h0 h1).ne')).congr_deriv (by ring), ?_⟩
    refine ((hi.rpow_const (p := 1 / θ - 1) (.inl (hS x h0 h1).ne')).mul (hi₂.const_mul (1 / θ))).congr_deriv ?_
    ring

/-- An array as in the theorem. -/
example : ∀ x ∈ [(1 / 4 : ℝ), 2 / 3], 0 < x ∧ x < 1 := by
  norm_num

end Copulae
