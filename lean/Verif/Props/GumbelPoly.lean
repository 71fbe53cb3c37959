import Mathlib.Analysis.Calculus.IteratedDeriv.Lemmas
import Verif.Lemmas.GumbelPoly

/-!
Property C57: `gumbel_poly` (`copulae/archimedean/gumbel.py`) is the polynomial in the derivatives of
the Gumbel generator, whichever algorithm computes it.
-/

namespace Copulae

open Finset

namespace Spec

/-- The polynomial of the Gumbel copula of dimension `d` at `x`, defined through the derivatives of
the generator: `ψ⁽ᵈ⁾(s) = (-1)ᵈ exp(-x) P(x) / sᵈ` with `x = s^α`. -/
noncomputable def gumbelPoly (d : ℕ) (α x : ℝ) : ℝ :=
  (-1) ^ d * (x ^ (1 / α)) ^ d * Real.exp x *
    iteratedDeriv d (fun s : ℝ => Real.exp (-s ^ α)) (x ^ (1 / α))

end Spec

theorem iteratedDeriv_gumbel (α : ℝ) (k : ℕ) {s : ℝ} (hs : 0 < s) :
    iteratedDeriv k (fun s : ℝ => Real.exp (-s ^ α)) s = gumbelPsiK α k s := by
  induction k generalizing s with
  | zero => rw [iteratedDeriv_zero, gumbelPsiK_zero]
  | succ k ih =>
    rw [iteratedDeriv_succ, ← (gumbelPsiK_hasDerivAt α k hs).deriv]
    apply Filter.EventuallyEq.deriv_eq
    filter_upwards [Ioi_mem_nhds hs] with t ht using ih ht

theorem spec_gumbelPoly {d : ℕ} {α x : ℝ} (h0 : 0 < α) (hx : 0 < x) :
    Spec.gumbelPoly d α x = gumbelP d α x := by
  have hs : 0 < x ^ (1 / α) := Real.rpow_pos_of_pos hx _
  have e : (x ^ (1 / α)) ^ α = x := by
    rw [← Real.rpow_mul hx.le, one_div_mul_cancel h0.ne', Real.rpow_one]
  rw [Spec.gumbelPoly, iteratedDeriv_gumbel α d hs, gumbelPsiK, e]
  have h1 : (x ^ (1 / α)) ^ d ≠ 0 := pow_ne_zero _ hs.ne'
  have h2 : Real.exp x * Real.exp (-x) = 1 := by rw [← Real.exp_add]; simp
  have h3 : ((-1 : ℝ) ^ d) * (-1) ^ d = 1 := by rw [← mul_pow]; simp
  calc _ = ((-1 : ℝ) ^ d * (-1) ^ d) * (Real.exp x * Real.exp (-x)) * gumbelP d α x *
        ((x ^ (1 / α)) ^ d / (x ^ (1 / α)) ^ d) := by ring
    _ = _ := by rw [h2, h3, div_self h1]; ring

/-- **C57** (partial: see `gumbelPoly_pois_one` for the failure of 'pois' in dimension one; 'log'
fails for dimension one and for `alpha = 1`, see `gumbelCoef_log_dim_one` and
`gumbelCoef_log_alpha_one`) Every method, and the automatic choice, returns the polynomial. -/
theorem gumbelPoly_methods_partial {d : ℕ} (hd : 2 ≤ d) {α : ℝ} (h0 : 0 < α) (h1 : α < 1)
    (l : List ℝ) (m : Option PolyAlg) (log : Bool) :
    gumbelPoly (l.map fun v : ℝ => Fl.fin v) α d m log =
      .ok (l.map fun v : ℝ => if log then .fin (Real.log (Spec.gumbelPoly d α (Real.exp v)))
        else .fin (Spec.gumbelPoly d α (Real.exp v))) := by
  unfold gumbelPoly
  rw [if_neg (not_not.mpr ⟨h0, h1.le⟩), if_neg (by omega)]
  rw [mapM_ok _ (fun v : Fl => match v with
    | .fin v => coefVal log (gumbelP d α (Real.exp v))
    | _ => .nan)]
  · rw [List.map_map]
    refine congrArg Except.ok (List.map_congr_left fun v _ => ?_)
    simp only [Function.comp]
    rw [spec_gumbelPoly h0 (Real.exp_pos v)]
    cases log with
    | true => simp only [coefVal, if_true]; rw [Fl.log_pos (gumbelP_pos h0 h1.le (Real.exp_pos v))]
    | false => simp [coefVal]
  · intro v hv
    rw [List.mem_map] at hv
    obtain ⟨v, -, rfl⟩ := hv
    simp only
    generalize m.getD (getPolyMethod (Fl.fin v) α d) = a
    by_cases ha : a = .pois
    · rw [ha]; exact calcGumbelPoly_pois hd h0 h1.le v log
    · exact calcGumbelPoly_coef (by omega) h0 h1.le v a ha (fun _ => ⟨h1.ne, hd⟩) log

/-- **C57** The remaining parameter: `alpha = 1` and dimension one, for the methods that support
them. -/
theorem gumbelPoly_boundary {d : ℕ} (hd : 1 ≤ d) {α : ℝ} (h0 : 0 < α) (h1 : α ≤ 1)
    (l : List ℝ) (m : PolyAlg) (hm : m = .direct ∨ m = .sort ∨ (m = .pois ∧ 2 ≤ d)) (log : Bool) :
    gumbelPoly (l.map fun v : ℝ => Fl.fin v) α d (some m) log =
      .ok (l.map fun v : ℝ => if log then .fin (Real.log (Spec.gumbelPoly d α (Real.exp v)))
        else .fin (Spec.gumbelPoly d α (Real.exp v))) := by
  unfold gumbelPoly
  rw [if_neg (not_not.mpr ⟨h0, h1⟩), if_neg (by omega)]
  rw [mapM_ok _ (fun v : Fl => match v with
    | .fin v => coefVal log (gumbelP d α (Real.exp v))
    | _ => .nan)]
  · rw [List.map_map]
    refine congrArg Except.ok (List.map_congr_left fun v _ => ?_)
    simp only [Function.comp]
    rw [spec_gumbelPoly h0 (Real.exp_pos v)]
    cases log with
    | true => simp only [coefVal, if_true]; rw [Fl.log_pos (gumbelP_pos h0 h1 (Real.exp_pos v))]
    | false => simp [coefVal]
  · intro v hv
    rw [List.mem_map] at hv
    obtain ⟨v, -, rfl⟩ := hv
    simp only [Option.getD_some]
    rcases hm with rfl | rfl | ⟨rfl, h2⟩
    · exact calcGumbelPoly_coef hd h0 h1 v _ (by decide) (fun h => absurd h (by decide)) log
    · exact calcGumbelPoly_coef hd h0 h1 v _ (by decide) (fun h => absurd h (by decide)) log
    · exact calcGumbelPoly_pois h2 h0 h1 v log

example := gumbelPoly_boundary (d := 3) (by norm_num) (α := 1) one_pos le_rfl [0, -1] .pois (by simp) true

/-- **C57**, violation: in dimension one the method 'pois' raises on every non-empty input. -/
theorem gumbelPoly_pois_one {α : ℝ} (h0 : 0 < α) (h1 : α ≤ 1) (v : Fl) (l : List Fl) (log : Bool) :
    gumbelPoly (v :: l) α 1 (some .pois) log = .error .typeError := by
  unfold gumbelPoly
  rw [if_neg (not_not.mpr ⟨h0, h1⟩), if_neg (by omega), List.mapM_cons]
  have hc : calcGumbelPoly v α 1 ((some PolyAlg.pois).getD (getPolyMethod v α 1)) log
      = .error .typeError := by
    simp only [Option.getD_some]
    unfold calcGumbelPoly
    rw [if_pos rfl]
    obtain ⟨r, hr, hl⟩ := signFF_scalar_d h0 h1 [1] 1 (by simp)
    have hr' : signFF α (.arr ((List.range 1).map fun (k : ℕ) => (k : ℤ) + 1)) (.scalar ((1 : ℕ) : ℤ))
        = .ok r := by rw [← hr]; rfl
    have hs : ∃ v, r = .scalar v := by
      unfold signFF at hr
      rw [if_neg (not_not.mpr ⟨h0, h1⟩), if_neg (by simp [IntArg.toList]),
        if_neg (by simp [IntArg.toList])] at hr
      simp only [List.map_cons, List.map_nil, List.length_cons, List.length_nil] at hr
      by_cases hα : α = 1
      · rw [if_pos hα] at hr
        simp [squeezeRes] at hr
        exact ⟨_, hr.symm⟩
      · rw [if_neg hα] at hr
        simp [squeezeRes] at hr
        exact ⟨_, hr.symm⟩
    obtain ⟨w, rfl⟩ := hs
    rw [hr']
    rfl
  rw [hc]
  rfl

example := gumbelPoly_pois_one (α := 1 / 2) (by norm_num) (by norm_num) (.fin 0) [.pinf] false

/-- Parameters outside (0, 1] and dimension zero are rejected. -/
theorem gumbelPoly_reject {α : ℝ} {d : ℕ} (h : ¬ (0 < α ∧ α ≤ 1) ∨ d = 0) (l : List Fl)
    (m : Option PolyAlg) (log : Bool) : gumbelPoly l α d m log = .error .assertionError := by
  unfold gumbelPoly
  by_cases h1 : ¬ (0 < α ∧ α ≤ 1)
  · rw [if_pos h1]
  · rw [if_neg h1, if_pos]
    rcases h with h | h
    · exact absurd h h1
    · omega

example := gumbelPoly_reject (α := 2) (d := 3) (by norm_num) [.fin 0] (some .direct) false

/-- Concretely, in dimension two: `P(x) = α² x² + α (1 - α) x`. -/
theorem spec_gumbelPoly_two {α x : ℝ} (h0 : 0 < α) (hx : 0 < x) :
    Spec.gumbelPoly 2 α x = α ^ 2 * x ^ 2 + α * (1 - α) * x := by
  rw [spec_gumbelPoly h0 hx, gumbelP_succ, gumbelP_succ]
  simp only [gumbelP, gumbelP', sum_range_succ, sum_range_zero, gumbelA_zero_zero]
  rw [gumbelA_zero_right α (by omega), gumbelA_succ, gumbelA_zero_zero, gumbelA_eq_zero α (by omega)]
  simp
  ring

/-- A concrete case: all algorithms at `x = e^2`, `α = 1/2`, dimension two. -/
example (m : Option PolyAlg) : gumbelPoly [.fin 2] (1 / 2) 2 m false =
    .ok [.fin ((1 / 4) * Real.exp 2 ^ 2 + (1 / 4) * Real.exp 2)] := by
  have h := gumbelPoly_methods_partial (d := 2) le_rfl (α := 1 / 2) (by norm_num) (by norm_num) [2] m false
  simp only [List.map_cons, List.map_nil] at h
  rw [h, spec_gumbelPoly_two (by norm_num) (Real.exp_pos 2)]
  norm_num

end Copulae
