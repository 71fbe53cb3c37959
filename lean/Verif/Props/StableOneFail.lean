import Mathlib.Analysis.SpecialFunctions.Trigonometric.Bounds
import Verif.Props.StablePdfOne

/-!
C130: with index one and a negative skewness `pdf` raises, far out in the heavy tail, because the search for the angle
starts from an interval at both ends of which the function is less than one; C124: so the density is not mirrored.
-/

namespace Copulae

open MeasureTheory Set Real Topology

theorem expanded_one (k : ℕ) :
    Spec.expanded (1 / 10 ^ 6) k (-1, 1) = (-(101 / 100 : ℝ) ^ k, (101 / 100 : ℝ) ^ k) := by
  unfold Spec.expanded
  induction k with
  | zero => simp
  | succ k ih =>
    rw [Function.iterate_succ_apply', ih]
    have h1 : (1 : ℝ) ≤ (101 / 100) ^ k := one_le_pow₀ (by norm_num)
    have h2 : max (|(101 / 100 : ℝ) ^ k| / 100) (1 / 10 ^ 6) = (101 / 100) ^ k / 100 := by
      rw [abs_of_pos (by positivity), max_eq_left]
      have : (1 : ℝ) / 10 ^ 6 ≤ 1 / 100 := by norm_num
      linarith
    simp only [abs_neg, h2]
    rw [pow_succ]
    refine Prod.ext ?_ ?_ <;> simp only [] <;> ring

/-- `g1` without the factor that depends on the argument. -/
noncomputable def oneFactor (β u : ℝ) : ℝ :=
  if |(|u + 1|) - 0| ≤ 1 / 10 ^ 10 + 1 / 10 ^ 5 * |(0 : ℝ)| then 0
  else (π * (1 / (2 * β)) + u * (π / 2)) / (π * (1 / (2 * β))) *
    exp ((π * (1 / (2 * β)) + u * (π / 2)) *
      (if cos (u * π / 2) = 0 then tanHalfPi else tan (u * π / 2))) / cospi2Rounded u

theorem oneG1_factor (β ea u : ℝ) : oneG1 β (.fin ea) u = .fin (oneFactor β u * exp ea) := by
  have hc : cospi2Rounded u ≠ 0 := by
    unfold cospi2Rounded
    split_ifs with h
    · unfold cosHalfPi
      norm_num
    · exact h
  unfold oneG1 oneFactor
  by_cases h : |(|u + 1|) - 0| ≤ 1 / 10 ^ 10 + 1 / 10 ^ 5 * |(0 : ℝ)|
  · rw [if_pos h, if_pos h, zero_mul]
  · rw [if_neg h, if_neg h]
    simp only [tanpi2, Fl.fin_mul_fin, Fl.fin_add_fin, Fl.exp]
    rw [Fl.fin_div_fin' _ hc, exp_add]
    congr 1
    ring

/-- If the function is below one at the ends of all the intervals the search fails. -/
theorem auxF2_fail {β x : ℝ} (brentq : PyFun → ℝ → ℝ → Except PyErr ℝ) (quad : (ℝ → Fl) → ℝ → ℝ → Fl)
    (h : ∀ k ≤ 1000, oneFactor β (-(101 / 100 : ℝ) ^ k) * exp (-(π * x / (2 * β))) ≤ 1 ∧
      oneFactor β ((101 / 100 : ℝ) ^ k) * exp (-(π * x / (2 * β))) ≤ 1) (log : Bool) :
    auxF2 brentq quad (.fin x) β log = some (.error .assertionError) := by
  unfold auxF2
  simp only []
  rw [one_ea, if_neg (by simp), findRoot_fail (fun u => ⟨_, rfl⟩)]
  · rfl
  · rintro k hk ⟨v, w, hv, hw, hlt⟩
    rw [min_eq_left (by norm_num), max_eq_right (by norm_num), expanded_one] at hv hw
    simp only [oneG1_factor] at hv hw
    have hv' := Except.ok.inj hv
    have hw' := Except.ok.inj hw
    rw [← hv', ← hw', Fl.fin_sub_fin, Fl.fin_sub_fin, Fl.fin_mul_fin, Fl.fin_lt_fin] at hlt
    obtain ⟨h1, h2⟩ := h k hk
    nlinarith [mul_nonneg (sub_nonneg.mpr h1) (sub_nonneg.mpr h2)]

theorem stablePdf_one_fail {β γ δ x : ℝ} (h0 : β ≠ 0) (hβ : |β| ≤ 1) (hγ : 0 < γ) {pm : ℤ} (hpm : pm = 0 ∨ pm = 1)
    (brentq : PyFun → ℝ → ℝ → Except PyErr ℝ) (quad : (ℝ → Fl) → ℝ → ℝ → Fl) (mode : ℝ → ℝ → Except PyErr Fl)
    (log : Bool)
    (h : auxF2 brentq quad (.fin ((x - Spec.stableLocOne β γ δ pm) / γ)) β log = some (.error .assertionError)) :
    stablePdf brentq quad (auxF2 brentq quad) mode [.fin x] 1 β (.fin γ) (.fin δ) pm log =
      some (.error .assertionError) := by
  unfold stablePdf
  rw [stableCheck_ok (by norm_num) (by norm_num) hβ (by simpa using hγ.le) (by omega), stableParam_one hγ hpm]
  simp only [bind, Except.bind, List.map_cons, List.map_nil, Fl.fin_sub_fin, Fl.fin_div_fin' _ hγ.ne']
  rw [stableStd, if_neg (by norm_num), if_neg fun h => h0 h.2, if_pos rfl, mapRun, h]

/-- C130: for every skewness other than zero `pdf` raises far out in the tail towards which the law is skewed. -/
theorem stable_pdf_one_raises {β : ℝ} (h0 : β ≠ 0) (hβ : |β| ≤ 1) :
    ∃ X : ℝ, ∀ x, X ≤ x / β → ∀ (brentq : PyFun → ℝ → ℝ → Except PyErr ℝ) (quad : (ℝ → Fl) → ℝ → ℝ → Fl)
      (mode : ℝ → ℝ → Except PyErr Fl) (log : Bool),
      stablePdf brentq quad (auxF2 brentq quad) mode [.fin x] 1 β (.fin 1) (.fin 0) 0 log =
        some (.error .assertionError) := by
  have hp := pi_gt_three
  obtain ⟨n, hn⟩ : ∃ n, n = 1001 := ⟨_, rfl⟩
  obtain ⟨S, hS⟩ : ∃ S, S = ∑ k ∈ Finset.range n,
      (|oneFactor β (-(101 / 100 : ℝ) ^ k)| + |oneFactor β ((101 / 100 : ℝ) ^ k)|) := ⟨_, rfl⟩
  have hS0 : 0 ≤ S := hS ▸ Finset.sum_nonneg fun k _ => by positivity
  have hk : ∀ k ≤ 1000, |oneFactor β (-(101 / 100 : ℝ) ^ k)| + |oneFactor β ((101 / 100 : ℝ) ^ k)| ≤ S :=
    fun k hk => hS ▸ Finset.single_le_sum
      (f := fun k => |oneFactor β (-(101 / 100 : ℝ) ^ k)| + |oneFactor β ((101 / 100 : ℝ) ^ k)|)
      (fun k _ => by positivity) (Finset.mem_range.mpr (by omega))
  refine ⟨S, fun x hx brentq quad mode log => ?_⟩
  refine stablePdf_one_fail h0 hβ one_pos (Or.inl rfl) brentq quad mode log ?_
  have hz : (x - Spec.stableLocOne β 1 0 0) / 1 = x := by simp [Spec.stableLocOne]
  rw [hz]
  refine auxF2_fail brentq quad (fun k hk' => ?_) log
  have he : S * exp (-(π * x / (2 * β))) ≤ 1 := by
    have h1 : S ≤ π * x / (2 * β) := by
      rw [show π * x / (2 * β) = π / 2 * (x / β) by field_simp]
      nlinarith
    rw [exp_neg, ← div_eq_mul_inv, div_le_one (exp_pos _)]
    linarith [add_one_le_exp (π * x / (2 * β))]
  have e0 := exp_pos (-(π * x / (2 * β)))
  have h2 := hk k hk'
  have a1 := abs_nonneg (oneFactor β (-(101 / 100 : ℝ) ^ k))
  have a2 := abs_nonneg (oneFactor β ((101 / 100 : ℝ) ^ k))
  constructor
  · refine le_trans (mul_le_mul_of_nonneg_right (?_ : _ ≤ S) e0.le) he
    linarith [le_abs_self (oneFactor β (-(101 / 100 : ℝ) ^ k))]
  · refine le_trans (mul_le_mul_of_nonneg_right (?_ : _ ≤ S) e0.le) he
    linarith [le_abs_self (oneFactor β ((101 / 100 : ℝ) ^ k))]

example := stable_pdf_one_raises (β := -1 / 2) (by norm_num) (by norm_num [abs_le])

/-! ## A concrete case -/

theorem expand_far : ∀ k < 1001, k = 0 ∨ 100 ^ k ≤
    2000 * (101 ^ k % (2 * 100 ^ k) - 100 ^ k) + 2000 * (100 ^ k - 101 ^ k % (2 * 100 ^ k)) := by
  decide +kernel

/-- No end of the intervals is close to an odd integer. -/
theorem expand_cos {k : ℕ} (h1 : k ≠ 0) (h2 : k ≤ 1000) : 1 / 2000 ≤ |cos ((101 / 100 : ℝ) ^ k * π / 2)| := by
  have hp := pi_pos
  obtain ⟨M, hM⟩ : ∃ M, M = 100 ^ k := ⟨_, rfl⟩
  obtain ⟨N, hN⟩ : ∃ N, N = 101 ^ k := ⟨_, rfl⟩
  obtain ⟨r, hr⟩ : ∃ r, r = N % (2 * M) := ⟨_, rfl⟩
  have hM0 : 0 < M := hM ▸ by positivity
  have hfar : M ≤ 2000 * (r - M) + 2000 * (M - r) := by
    have := (expand_far k (by omega)).resolve_left h1
    rw [hr, hN, hM]
    exact this
  have hr2 : r < 2 * M := hr ▸ Nat.mod_lt _ (by omega)
  have hMr : (0 : ℝ) < M := by exact_mod_cast hM0
  have hu : (101 / 100 : ℝ) ^ k = (r : ℝ) / M + 2 * (N / (2 * M) : ℕ) := by
    have hd : N = r + 2 * M * (N / (2 * M)) := by rw [hr]; exact (Nat.mod_add_div N (2 * M)).symm
    have hd' : (N : ℝ) = r + 2 * M * (N / (2 * M) : ℕ) := by exact_mod_cast hd
    have e : (101 / 100 : ℝ) ^ k = N / M := by rw [div_pow, hN, hM]; push_cast; rfl
    rw [e, hd', add_div]
    congr 1
    field_simp
  have hs : |1 - (r : ℝ) / M| ≥ 1 / 2000 := by
    rcases le_total r M with h | h
    · have h3 : M ≤ 2000 * (M - r) := by omega
      have h4 : (M : ℝ) ≤ 2000 * (M - r) := by
        have : ((M - r : ℕ) : ℝ) = M - r := Nat.cast_sub h
        rw [← this]
        exact_mod_cast h3
      have h5 : 1 - (r : ℝ) / M = (M - r) / M := by field_simp
      rw [h5, abs_of_nonneg (div_nonneg (by linarith) hMr.le), ge_iff_le, le_div_iff₀ hMr]
      linarith
    · have h3 : M ≤ 2000 * (r - M) := by omega
      have h4 : (M : ℝ) ≤ 2000 * (r - M) := by
        have : ((r - M : ℕ) : ℝ) = r - M := Nat.cast_sub h
        rw [← this]
        exact_mod_cast h3
      have h5 : 1 - (r : ℝ) / M = -((r - M) / M) := by field_simp; ring
      rw [h5, abs_neg, abs_of_nonneg (div_nonneg (by linarith) hMr.le), ge_iff_le, le_div_iff₀ hMr]
      linarith
  have hcos : |cos ((101 / 100 : ℝ) ^ k * π / 2)| = |sin (|1 - (r : ℝ) / M| * (π / 2))| := by
    rw [hu, show ((r : ℝ) / M + 2 * (N / (2 * M) : ℕ)) * π / 2 = (r : ℝ) / M * π / 2 + (N / (2 * M) : ℕ) * π by ring,
      cos_add_nat_mul_pi, abs_mul, abs_pow, abs_neg, abs_one, one_pow, one_mul]
    have e : cos ((r : ℝ) / M * π / 2) = sin ((1 - (r : ℝ) / M) * (π / 2)) := by
      rw [← sin_pi_div_two_sub]
      congr 1
      ring
    rw [e]
    rcases abs_cases (1 - (r : ℝ) / M) with ⟨h, -⟩ | ⟨h, -⟩ <;> rw [h]
    rw [neg_mul, sin_neg, abs_neg]
  have hle : |1 - (r : ℝ) / M| ≤ 1 := by
    rw [abs_le]
    have : (r : ℝ) < 2 * M := by exact_mod_cast hr2
    have h1 : (r : ℝ) / M < 2 := by rw [div_lt_iff₀ hMr]; exact this
    have h2 : 0 ≤ (r : ℝ) / M := by positivity
    exact ⟨by linarith, by linarith⟩
  have hj := mul_le_sin (x := |1 - (r : ℝ) / M| * (π / 2)) (by positivity) (by nlinarith)
  rw [show 2 / π * (|1 - (r : ℝ) / M| * (π / 2)) = |1 - (r : ℝ) / M| by field_simp] at hj
  rw [hcos]
  exact le_trans (le_trans hs hj) (le_abs_self _)

theorem expand_le {k : ℕ} (hk : k ≤ 1000) : (101 / 100 : ℝ) ^ k ≤ 59049 := by
  calc (101 / 100 : ℝ) ^ k ≤ (101 / 100) ^ 1000 := pow_le_pow_right₀ (by norm_num) hk
    _ = ((101 / 100) ^ 100) ^ 10 := by rw [← pow_mul]
    _ ≤ 3 ^ 10 := pow_le_pow_left₀ (by positivity) (by norm_num) 10
    _ = 59049 := by norm_num

/-- The factor away from the odd integers. -/
theorem oneFactor_le {u : ℝ} (hu : |u| ≤ 59049) (hc : 1 / 2000 ≤ |cos (u * π / 2)|) :
    oneFactor (-(1 / 2)) u ≤ 10 ^ 8 * exp (10 ^ 9) := by
  have hp := pi_pos
  have hp4 := pi_lt_d2
  norm_num at hp4
  have hc0 : cos (u * π / 2) ≠ 0 := fun h => by
    rw [h, abs_zero] at hc
    norm_num at hc
  have hcp := abs_pos.mpr hc0
  unfold oneFactor
  split_ifs with h1
  · positivity
  · rw [cospi2Rounded, if_neg hc0]
    have e1 : π * (1 / (2 * -(1 / 2))) = -π := by ring
    have e2 : (-π + u * (π / 2)) / -π = 1 - u / 2 := by field_simp; ring
    rw [e1, e2]
    have ht : |tan (u * π / 2)| ≤ 2000 := by
      rw [tan_eq_sin_div_cos, abs_div, div_le_iff₀ hcp]
      have := abs_sin_le_one (u * π / 2)
      linarith
    have hh : |-π + u * (π / 2)| ≤ 10 ^ 5 := by
      refine (abs_add_le _ _).trans ?_
      rw [abs_neg, abs_of_pos hp, abs_mul, abs_of_pos (show 0 < π / 2 by positivity)]
      nlinarith [abs_nonneg u]
    have hexp : (-π + u * (π / 2)) * tan (u * π / 2) ≤ 10 ^ 9 := by
      refine (le_abs_self _).trans ?_
      rw [abs_mul]
      calc _ ≤ 10 ^ 5 * 2000 := mul_le_mul hh ht (abs_nonneg _) (by positivity)
        _ ≤ _ := by norm_num
    have h3 : |1 - u / 2| ≤ 30000 := by
      have := abs_le.mp hu
      rw [abs_le]
      constructor <;> linarith
    refine (le_abs_self _).trans ?_
    rw [abs_div, abs_mul, abs_of_pos (exp_pos _), div_le_iff₀ hcp]
    calc _ ≤ 30000 * exp (10 ^ 9) := mul_le_mul h3 (exp_le_exp.mpr hexp) (exp_pos _).le (by norm_num)
      _ ≤ 10 ^ 8 * exp (10 ^ 9) * (1 / 2000) := by
          have h4 := exp_pos (10 ^ 9 : ℝ)
          generalize exp (10 ^ 9 : ℝ) = E at h4 ⊢
          norm_num
          linarith
      _ ≤ _ := mul_le_mul_of_nonneg_left hc (by positivity)

theorem auxF2_half_fail (brentq : PyFun → ℝ → ℝ → Except PyErr ℝ) (quad : (ℝ → Fl) → ℝ → ℝ → Fl) (log : Bool) :
    auxF2 brentq quad (.fin (-10 ^ 10)) (-(1 / 2)) log = some (.error .assertionError) := by
  have hp := pi_gt_three
  refine auxF2_fail brentq quad (fun k hk => ?_) log
  have e : -(π * -10 ^ 10 / (2 * -(1 / 2))) = -(π * 10 ^ 10) := by ring
  rw [e]
  have hx : exp (-(π * 10 ^ 10)) ≤ exp (-(10 ^ 9)) * (1 / 10 ^ 18) := by
    have h1 : exp (-(π * 10 ^ 10)) ≤ exp (-(10 ^ 9)) * exp (-(10 ^ 10)) := by
      rw [← exp_add]
      exact exp_le_exp.mpr (by norm_num; linarith)
    have h2 : exp (-(10 ^ 10 : ℝ)) ≤ 1 / 10 ^ 18 := by
      rw [exp_neg, ← one_div]
      refine one_div_le_one_div_of_le (by positivity) ?_
      have := quadratic_le_exp_of_nonneg (show (0 : ℝ) ≤ 10 ^ 10 by positivity)
      norm_num at this ⊢
      linarith
    exact h1.trans (mul_le_mul_of_nonneg_left h2 (exp_pos _).le)
  have hend : (10 : ℝ) ^ 8 * exp (10 ^ 9) * exp (-(π * 10 ^ 10)) ≤ 1 := by
    calc _ ≤ 10 ^ 8 * exp (10 ^ 9) * (exp (-(10 ^ 9)) * (1 / 10 ^ 18)) :=
          mul_le_mul_of_nonneg_left hx (by positivity)
      _ = 10 ^ 8 * (exp (10 ^ 9) * exp (-(10 ^ 9))) / 10 ^ 18 := by ring
      _ ≤ 1 := by rw [← exp_add, add_neg_cancel, exp_zero]; norm_num
  have hX := exp_pos (-(π * 10 ^ 10))
  by_cases hk0 : k = 0
  · subst hk0
    constructor
    · have : oneFactor (-(1 / 2)) (-(101 / 100 : ℝ) ^ 0) = 0 := by
        rw [oneFactor, if_pos (by norm_num)]
      rw [this, zero_mul]
      norm_num
    · rw [pow_zero, oneFactor, if_neg (by norm_num), cospi2Rounded, if_pos (by rw [one_mul, cos_pi_div_two]),
        if_pos (by rw [one_mul, cos_pi_div_two])]
      have e1 : π * (1 / (2 * -(1 / 2))) + 1 * (π / 2) = -(π / 2) := by ring
      have e2 : -(π / 2) / (π * (1 / (2 * -(1 / 2)))) = 1 / 2 := by field_simp
      rw [e1, e2]
      have h1 : exp (-(π / 2) * tanHalfPi) ≤ 1 := by
        rw [exp_le_one_iff]
        have : 0 < tanHalfPi := by unfold tanHalfPi; norm_num
        nlinarith
      have h2 : exp (-(π * 10 ^ 10)) ≤ 1 / 10 ^ 18 := by
        have : exp (-(10 ^ 9) : ℝ) ≤ 1 := by rw [exp_le_one_iff]; norm_num
        exact hx.trans (mul_le_of_le_one_left (by norm_num) this)
      have h3 : 0 < cosHalfPi := by unfold cosHalfPi; norm_num
      rw [div_mul_eq_mul_div, div_le_one h3]
      calc _ ≤ (1 / 2 * 1 * (1 / 10 ^ 18) : ℝ) :=
            mul_le_mul (mul_le_mul_of_nonneg_left h1 (by norm_num)) h2 hX.le (by norm_num)
        _ ≤ _ := by unfold cosHalfPi; norm_num
  · have hle := expand_le hk
    have hc := expand_cos hk0 hk
    have hpos : (0 : ℝ) ≤ (101 / 100) ^ k := by positivity
    constructor
    · refine (mul_le_mul_of_nonneg_right (oneFactor_le ?_ ?_) hX.le).trans hend
      · rw [abs_neg, abs_of_nonneg hpos]
        exact hle
      · rw [neg_mul, neg_div, cos_neg]
        exact hc
    · refine (mul_le_mul_of_nonneg_right (oneFactor_le ?_ hc) hX.le).trans hend
      rw [abs_of_nonneg hpos]
      exact hle

/-- **C130, C124 violated** With index one and skewness minus one half `pdf` raises AssertionError at a point where the
density with skewness one half, mirrored, is a positive number `pdf` does return. -/
theorem stable_pdf_one_violation {brentq : PyFun → ℝ → ℝ → Except PyErr ℝ} {quad : (ℝ → Fl) → ℝ → ℝ → Fl}
    (hB : IsBracketing brentq) (hQ : IsQuad quad) (mode : ℝ → ℝ → Except PyErr Fl) :
    stablePdf brentq quad (auxF2 brentq quad) mode [.fin (-10 ^ 10)] 1 (-(1 / 2)) (.fin 1) (.fin 0) 0 false =
        some (.error .assertionError) ∧
      ∃ g : ℝ, 0 < g ∧
        stablePdf brentq quad (auxF2 brentq quad) mode [.fin (10 ^ 10)] 1 (1 / 2) (.fin 1) (.fin 0) 0 false =
          some (.ok [.fin g]) := by
  constructor
  · refine stablePdf_one_fail (by norm_num) (by norm_num [abs_of_pos]) one_pos (Or.inl rfl) brentq quad mode false ?_
    have : ((-10 ^ 10 : ℝ) - Spec.stableLocOne (-(1 / 2)) 1 0 0) / 1 = -10 ^ 10 := by simp [Spec.stableLocOne]
    rw [this]
    exact auxF2_half_fail brentq quad false
  · obtain ⟨g, h1, h2, -⟩ := stable_pdf_one_partial (β := 1 / 2) (γ := 1) (δ := 0) (pm := 0) (xs := [10 ^ 10]) mode
      (by norm_num) (by norm_num) one_pos (Or.inl rfl) hB hQ (by
        intro x hx
        rw [List.mem_singleton] at hx
        subst hx
        simp [Spec.stableLocOne]
        norm_num)
    exact ⟨g (10 ^ 10), (h1 _ (List.mem_singleton_self _)).1, h2⟩

example (mode : ℝ → ℝ → Except PyErr Fl) := stable_pdf_one_violation exists_bracketing.choose_spec exists_quad.choose_spec mode

end Copulae
