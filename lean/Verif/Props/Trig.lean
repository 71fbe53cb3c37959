import Verif.Model.Trig
import Verif.Model.FlAlg

/-!
C172: the trigonometric functions of multiples of pi.
-/

namespace Copulae

open Classical

namespace Spec

/-- The function `g` of real numbers on floats; infinite and missing values give NaN. -/
def onFl (g : ℝ → ℝ) : Fl → Fl
  | .fin x => .fin (g x)
  | _ => .nan

/-- A function returns the values of `g` in the shape of its argument, and the argument as it was; for a scalar (no dimensions) a scalar. -/
def Elementwise (call : SpecArg → SpecOut × List Fl) (g : ℝ → ℝ) (x : SpecArg) : Prop :=
  (x.shape = [] → ∃ v, x.data = [v] ∧ call x = (.scalar (onFl g v), x.data)) ∧
    (x.shape ≠ [] → call x = (.array x.shape (x.data.map (onFl g)), x.data))

end Spec

open Spec

/-- An argument has as many elements as its shape says. -/
def SpecArg.Valid (x : SpecArg) : Prop := x.data.length = x.shape.prod

theorem arrayIo_elementwise {f : Fl → Fl} {g : ℝ → ℝ} {x : SpecArg} (h : ∀ v ∈ x.data, f v = onFl g v) (hx : x.Valid)
    (h1 : x.shape = [] ∨ x.data.length ≠ 1) : Elementwise (arrayIo f) g x := by
  have hm : x.data.map f = x.data.map (onFl g) := List.map_congr_left h
  refine ⟨fun hs => ?_, fun hs => ?_⟩
  · have hl : x.data.length = 1 := by rw [hx, hs]; rfl
    obtain ⟨v, hv⟩ := List.length_eq_one_iff.mp hl
    refine ⟨v, hv, ?_⟩
    unfold arrayIo
    rw [hm, hv]
    rfl
  · have hl : (x.data.map (onFl g)).length ≠ 1 := by
      rw [List.length_map]
      exact h1.resolve_left hs
    unfold arrayIo
    rw [hm]
    simp only
    split
    · next v hv => rw [hv] at hl; exact absurd rfl hl
    · rfl

theorem fl_mul_pi (v : Fl) : v * .fin Real.pi = match v with
    | .fin x => .fin (x * Real.pi)
    | z => z := by
  cases v with
  | fin x => rfl
  | nan => rfl
  | ninf =>
    show Fl.infSign (-Real.pi) = _
    simp [Fl.infSign, Real.pi_pos, Real.pi_pos.le]
  | pinf =>
    show Fl.infSign Real.pi = _
    simp [Fl.infSign, Real.pi_pos]

theorem fl_half_pi (v : Fl) : v * .fin Real.pi / .fin 2 = match v with
    | .fin x => .fin (x * Real.pi / 2)
    | z => z := by
  rw [fl_mul_pi]
  cases v with
  | fin x =>
    show (if (2 : ℝ) = 0 then _ else _) = _
    simp
  | nan => rfl
  | ninf =>
    show (if (0 : ℝ) ≤ 2 then _ else _) = _
    simp
  | pinf =>
    show (if (0 : ℝ) ≤ 2 then _ else _) = _
    simp

/-- The cosines and sines of all scalars, and of all arrays that do not have exactly one element. Missing is the array with one element, see
`trig_single_violation`. -/
theorem trig_values_partial {x : SpecArg} (hx : x.Valid) (h1 : x.shape = [] ∨ x.data.length ≠ 1) :
    Elementwise cospiCall (fun r => Real.cos (Real.pi * r)) x ∧
    Elementwise cospi2Call (fun r => Real.cos (Real.pi / 2 * r)) x ∧
    Elementwise sinpiCall (fun r => Real.sin (Real.pi * r)) x ∧
    Elementwise sinpi2Call (fun r => Real.sin (Real.pi / 2 * r)) x := by
  refine ⟨arrayIo_elementwise (fun v _ => ?_) hx h1, arrayIo_elementwise (fun v _ => ?_) hx h1,
    arrayIo_elementwise (fun v _ => ?_) hx h1, arrayIo_elementwise (fun v _ => ?_) hx h1⟩
  · rw [fl_mul_pi]
    cases v <;> simp [Fl.cos, onFl, mul_comm]
  · rw [fl_half_pi]
    cases v with
    | fin r => simp only [Fl.cos, onFl]; congr 2; ring
    | _ => rfl
  · rw [fl_mul_pi]
    cases v <;> simp [npSin, onFl, mul_comm]
  · rw [fl_half_pi]
    cases v with
    | fin r => simp only [npSin, onFl]; congr 2; ring
    | _ => rfl

/-- The tangents where there are tangents: no element is half an odd integer for `tanpi`, or an odd integer for `tanpi2`. Missing is the array
with one element, see `trig_single_violation`. -/
theorem tan_values_partial {x : SpecArg} (hx : x.Valid) (h1 : x.shape = [] ∨ x.data.length ≠ 1) :
    ((∀ k : ℤ, Fl.fin ((2 * k + 1) / 2) ∉ x.data) → Elementwise tanpiCall (fun r => Real.tan (Real.pi * r)) x) ∧
    ((∀ k : ℤ, Fl.fin (2 * k + 1) ∉ x.data) → Elementwise tanpi2Call (fun r => Real.tan (Real.pi / 2 * r)) x) := by
  refine ⟨fun hk => arrayIo_elementwise (fun v hv => ?_) hx h1, fun hk => arrayIo_elementwise (fun v hv => ?_) hx h1⟩
  · rw [fl_mul_pi]
    cases v with
    | fin r =>
      have hc : Real.cos (r * Real.pi) ≠ 0 := by
        intro h0
        obtain ⟨k, h0⟩ := Real.cos_eq_zero_iff.mp h0
        apply hk k
        have hr : r = (2 * k + 1) / 2 := mul_right_cancel₀ Real.pi_ne_zero (by rw [h0]; ring)
        rwa [← hr]
      simp only [npTan, onFl, if_neg hc, mul_comm]
    | _ => rfl
  · rw [fl_half_pi]
    cases v with
    | fin r =>
      have hc : Real.cos (r * Real.pi / 2) ≠ 0 := by
        intro h0
        obtain ⟨k, h0⟩ := Real.cos_eq_zero_iff.mp h0
        apply hk k
        have hr : r = 2 * k + 1 := mul_right_cancel₀ Real.pi_ne_zero (by linarith)
        rwa [← hr]
      simp only [npTan, onFl, if_neg hc]
      congr 2
      ring
    | _ => rfl

/-- Violation: arrays with one element and at least one dimension come back as a number, from all six functions. -/
theorem trig_single_violation {x : SpecArg} {v : Fl} (hd : x.data = [v]) :
    (∃ w, (cospiCall x).1 = .scalar w) ∧ (∃ w, (cospi2Call x).1 = .scalar w) ∧ (∃ w, (sinpiCall x).1 = .scalar w) ∧
    (∃ w, (sinpi2Call x).1 = .scalar w) ∧ (∃ w, (tanpiCall x).1 = .scalar w) ∧ (∃ w, (tanpi2Call x).1 = .scalar w) := by
  simp [cospiCall, cospi2Call, sinpiCall, sinpi2Call, tanpiCall, tanpi2Call, arrayIo, hd]

/-- So the claim fails for `cospi(np.array([0.5]))`, for any function in place of the cosine. -/
theorem trig_shape_violation (g : ℝ → ℝ) : ¬ Elementwise cospiCall g ⟨[1], [.fin (1 / 2)], true, true⟩ := by
  intro h
  have h2 := h.2 (by simp)
  simp [cospiCall, arrayIo] at h2

/-- Case: two rows and two columns with a missing value. -/
example : Elementwise sinpiCall (fun r => Real.sin (Real.pi * r)) ⟨[2, 2], [.fin 0, .fin (1 / 2), .nan, .pinf], true, true⟩ :=
  (trig_values_partial (by simp [SpecArg.Valid]) (.inr (by simp))).2.2.1

/-- Case: the tangent of a scalar. -/
example : Elementwise tanpi2Call (fun r => Real.tan (Real.pi / 2 * r)) ⟨[], [.fin 2], true, true⟩ :=
  (tan_values_partial (by simp [SpecArg.Valid]) (.inl rfl)).2 fun k hk => by
    have h : (2 * k + 1 : ℝ) = 2 := by simpa using hk
    have h' : 2 * k + 1 = 2 := by exact_mod_cast h
    omega

end Copulae
