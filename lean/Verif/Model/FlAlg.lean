import Mathlib.Algebra.BigOperators.Group.Finset.Basic
import Verif.Model.Num

/-!
Addition and multiplication of the special values are associative and
commutative, so that `ndarray.sum` and `ndarray.prod` can be written as
unordered big operators (NumPy's pairwise summation order does not matter when
finite operations are exact).
-/

namespace Copulae

namespace Fl

theorem add_comm' (a b : Fl) : a + b = b + a := by
  cases a <;> cases b <;> first | rfl | (show Fl.fin _ = Fl.fin _; rw [add_comm])

theorem add_assoc' (a b c : Fl) : a + b + c = a + (b + c) := by
  cases a <;> cases b <;> cases c <;> first | rfl | (show Fl.fin _ = Fl.fin _; rw [add_assoc])

theorem zero_add' (a : Fl) : Fl.fin 0 + a = a := by
  cases a <;> first | rfl | (show Fl.fin _ = Fl.fin _; rw [zero_add])

noncomputable instance : AddCommMonoid Fl where
  add := (· + ·)
  add_assoc := add_assoc'
  zero := .fin 0
  zero_add := zero_add'
  add_zero a := by rw [add_comm']; exact zero_add' a
  add_comm := add_comm'
  nsmul := nsmulRec

theorem zero_def : (0 : Fl) = .fin 0 := rfl

theorem sum_fin {ι : Type*} (s : Finset ι) (f : ι → ℝ) :
    ∑ i ∈ s, Fl.fin (f i) = .fin (∑ i ∈ s, f i) := by
  classical
  induction s using Finset.induction_on with
  | empty => rfl
  | insert a s ha ih => rw [Finset.sum_insert ha, Finset.sum_insert ha, ih, fin_add_fin]

/-- A sum with a `+inf` term and otherwise finite or `+inf` terms is `+inf`. -/
theorem sum_pinf {ι : Type*} (s : Finset ι) (f : ι → Fl)
    (h : ∀ i ∈ s, f i ≠ .nan ∧ f i ≠ .ninf) (h' : ∃ i ∈ s, f i = .pinf) :
    ∑ i ∈ s, f i = .pinf := by
  classical
  have key : ∀ s : Finset ι, (∀ i ∈ s, f i ≠ .nan ∧ f i ≠ .ninf) →
      (∑ i ∈ s, f i ≠ .nan ∧ ∑ i ∈ s, f i ≠ .ninf) := by
    intro s
    induction s using Finset.induction_on with
    | empty => intro _; rw [Finset.sum_empty, zero_def]; exact ⟨by simp, by simp⟩
    | insert a s ha ih =>
      intro h
      have h1 := h a (Finset.mem_insert_self _ _)
      have h2 := ih fun i hi => h i (Finset.mem_insert_of_mem hi)
      rw [Finset.sum_insert ha]
      cases hx : f a <;> cases hy : ∑ i ∈ s, f i <;> simp_all
  obtain ⟨i, hi, hfi⟩ := h'
  rw [← Finset.add_sum_erase _ _ hi, hfi]
  have := key (s.erase i) fun j hj => h j (Finset.mem_of_mem_erase hj)
  cases hy : ∑ j ∈ s.erase i, f j <;> simp_all

/-- A sum with a NaN term is NaN. -/
theorem sum_nan {ι : Type*} (s : Finset ι) (f : ι → Fl) (h' : ∃ i ∈ s, f i = .nan) :
    ∑ i ∈ s, f i = .nan := by
  classical
  obtain ⟨i, hi, hfi⟩ := h'
  rw [← Finset.add_sum_erase _ _ hi, hfi, nan_add]

theorem mul_comm' (a b : Fl) : a * b = b * a := by
  cases a <;> cases b <;> first | rfl | (show Fl.fin _ = Fl.fin _; rw [mul_comm])

theorem infSign_mul (a b : ℝ) : Fl.fin a * infSign b = infSign (a * b) := by
  rcases lt_trichotomy a 0 with ha | ha | ha <;> rcases lt_trichotomy b 0 with hb | hb | hb <;>
    simp [infSign_pos, infSign_neg, ha, hb, fin_mul_pinf, fin_mul_ninf, mul_pos_of_neg_of_neg,
      mul_neg_of_neg_of_pos, mul_neg_of_pos_of_neg]

theorem infSign_cases (b : ℝ) :
    (0 < b ∧ infSign b = .pinf) ∨ (b < 0 ∧ infSign b = .ninf) ∨ (b = 0 ∧ infSign b = .nan) := by
  rcases lt_trichotomy b 0 with hb | hb | hb
  · exact Or.inr (Or.inl ⟨hb, infSign_neg hb⟩)
  · subst hb; simp
  · exact Or.inl ⟨hb, infSign_pos hb⟩

theorem one_mul' (a : Fl) : Fl.fin 1 * a = a := by
  cases a with
  | nan => rfl
  | fin x => simp
  | pinf => rw [fin_mul_pinf, infSign_pos one_pos]
  | ninf => rw [fin_mul_ninf, infSign_neg (by norm_num)]

@[simp] theorem pinf_mul_pinf : Fl.pinf * Fl.pinf = Fl.pinf := rfl
@[simp] theorem pinf_mul_ninf : Fl.pinf * Fl.ninf = Fl.ninf := rfl
@[simp] theorem ninf_mul_pinf : Fl.ninf * Fl.pinf = Fl.ninf := rfl
@[simp] theorem ninf_mul_ninf : Fl.ninf * Fl.ninf = Fl.pinf := rfl

theorem mul_assoc' (a b c : Fl) : a * b * c = a * (b * c) := by
  have hfi : ∀ a b : ℝ, Fl.fin a * infSign b = infSign (a * b) := infSign_mul
  have hif : ∀ a b : ℝ, infSign a * Fl.fin b = infSign (a * b) := by
    intro a b; rw [mul_comm', infSign_mul, mul_comm]
  have hpi : ∀ b : ℝ, Fl.pinf * infSign b = infSign b := by
    intro b; rcases infSign_cases b with ⟨_, h⟩ | ⟨_, h⟩ | ⟨_, h⟩ <;> rw [h] <;> rfl
  have hni : ∀ b : ℝ, Fl.ninf * infSign b = infSign (-b) := by
    intro b
    rcases infSign_cases b with ⟨h0, h⟩ | ⟨h0, h⟩ | ⟨h0, h⟩
    · rw [h, infSign_neg (by linarith)]; rfl
    · rw [h, infSign_pos (by linarith)]; rfl
    · rw [h, h0]; simp
  have hip : ∀ b : ℝ, infSign b * Fl.pinf = infSign b := fun b => by rw [mul_comm', hpi]
  have hin : ∀ b : ℝ, infSign b * Fl.ninf = infSign (-b) := fun b => by rw [mul_comm', hni]
  cases a <;> cases b <;> cases c <;>
    simp only [nan_mul, mul_nan, fin_mul_fin, fin_mul_pinf, pinf_mul_fin, fin_mul_ninf,
      ninf_mul_fin, pinf_mul_pinf, pinf_mul_ninf, ninf_mul_pinf, ninf_mul_ninf, hfi, hif, hpi,
      hni, hip, hin, mul_assoc, mul_neg, neg_mul, neg_neg]

noncomputable instance : CommMonoid Fl where
  mul := (· * ·)
  mul_assoc := mul_assoc'
  one := .fin 1
  one_mul := one_mul'
  mul_one a := by rw [mul_comm']; exact one_mul' a
  mul_comm := mul_comm'

theorem one_def : (1 : Fl) = .fin 1 := rfl

theorem prod_fin {ι : Type*} (s : Finset ι) (f : ι → ℝ) :
    ∏ i ∈ s, Fl.fin (f i) = .fin (∏ i ∈ s, f i) := by
  classical
  induction s using Finset.induction_on with
  | empty => rfl
  | insert a s ha ih => rw [Finset.prod_insert ha, Finset.prod_insert ha, ih, fin_mul_fin]

end Fl

end Copulae
