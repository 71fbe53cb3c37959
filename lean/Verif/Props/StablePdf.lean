import Verif.Lemmas.StablePdfMain

/-!
C123: `skew_stable.pdf` is the density of the variates of `skew_stable.rvs`.
-/

namespace Copulae

open MeasureTheory Set Real Topology

section
variable {α t y : ℝ} (ok : AngleOk α t) (hy : 0 < y) (ht : |t| < pyPI2 - 1 / 10 ^ 8)

theorem halving_iterate (t : ℝ) (n : ℕ) :
    (fun ll => (ll + pyPI2) / 2)^[n] (-t) = pyPI2 - (pyPI2 + t) / 2 ^ n := by
  induction n with
  | zero => simp
  | succ n ih =>
    rw [Function.iterate_succ_apply', ih, pow_succ]
    field_simp
    ring

/-- The values of the function in the exponent at the angles of the bisection are not within about `1e-5` of one. -/
def NoWindow (α t y : ℝ) : Prop :=
  ∀ n : ℕ, 1 / 10 ^ 8 + 1 / 10 ^ 5 < |Spec.stableV α t y (pyPI2 - (pyPI2 + t) / 2 ^ (n + 1)) - 1|

include ok hy ht in
theorem stableBounds_ok (hu : UpperOk α t y) (hw : α < 1 → NoWindow α t y) :
    ∃ ll, stableBounds α (.fin y) t = some (ll, pyPI2) ∧ -t ≤ ll ∧ ll ≤ pyPI2 ∧
      if 1 < α then ll = -t else stableG1 α (.fin y) t ll < .fin 1 := by
  have hta := abs_lt.mp ht
  have hpi := pyPI2_lt
  by_cases ha : 1 < α
  · refine ⟨-t, ?_, le_rfl, by linarith, by rw [if_pos ha]⟩
    rw [stableBounds, if_neg (by linarith)]
    rfl
  have ha' : α < 1 := lt_of_le_of_ne (not_lt.mp ha) ok.ne
  rw [UpperOk, if_neg ha] at hu
  have hmid : ∀ n : ℕ, -t < pyPI2 - (pyPI2 + t) / 2 ^ (n + 1) ∧ pyPI2 - (pyPI2 + t) / 2 ^ (n + 1) ≤ pyPI2 := by
    intro n
    have h1 : 0 < pyPI2 + t := by linarith
    have h2 : (pyPI2 + t) / 2 ^ (n + 1) ≤ (pyPI2 + t) / 2 := by
      refine div_le_div_of_nonneg_left h1.le (by norm_num) ?_
      rw [pow_succ]
      nlinarith [one_le_pow₀ (show (1 : ℝ) ≤ 2 by norm_num) (n := n)]
    exact ⟨by linarith, by linarith [div_pos h1 (pow_pos (show (0 : ℝ) < 2 by norm_num) (n + 1))]⟩
  have hg : ∀ n : ℕ, stableG1 α (.fin y) t ((pyPI2 - (pyPI2 + t) / 2 ^ n + pyPI2) / 2) =
      .fin (Spec.stableV α t y (pyPI2 - (pyPI2 + t) / 2 ^ (n + 1))) := by
    intro n
    have e : (pyPI2 - (pyPI2 + t) / 2 ^ n + pyPI2) / 2 = pyPI2 - (pyPI2 + t) / 2 ^ (n + 1) := by
      rw [pow_succ]
      field_simp
      ring
    rw [e, stableG1_mid ok hy ht (hmid n).1 (hmid n).2, if_neg (fun h => ha h.1)]
  have hlim : ∃ n : ℕ, 1 < Spec.stableV α t y (pyPI2 - (pyPI2 + t) / 2 ^ (n + 1)) := by
    have hc := stableV_continuousAt ok hy (show -t < pyPI2 by linarith) hpi
    have hseq : Filter.Tendsto (fun n : ℕ => pyPI2 - (pyPI2 + t) / 2 ^ (n + 1)) Filter.atTop (𝓝 pyPI2) := by
      have h1 : Filter.Tendsto (fun n : ℕ => (pyPI2 + t) * (1 / 2 : ℝ) ^ (n + 1)) Filter.atTop (𝓝 ((pyPI2 + t) * 0)) :=
        ((tendsto_pow_atTop_nhds_zero_of_lt_one (by norm_num) (by norm_num)).comp
          (Filter.tendsto_add_atTop_nat 1)).const_mul _
      have h2 := h1.const_sub pyPI2
      rw [mul_zero, sub_zero] at h2
      refine h2.congr fun n => ?_
      rw [one_div, inv_pow, div_eq_mul_inv]
    exact ((hc.tendsto.comp hseq).eventually_const_lt hu).exists
  have hcond : ∀ n : ℕ, (stableG1 α (.fin y) t (((fun ll => (ll + pyPI2) / 2)^[n] (-t) + pyPI2) / 2)).isclose 0
      (1 / 10 ^ 5) (1 / 10 ^ 8) ↔ |Spec.stableV α t y (pyPI2 - (pyPI2 + t) / 2 ^ (n + 1)) - 0| ≤
        1 / 10 ^ 8 + 1 / 10 ^ 5 * |(0 : ℝ)| := fun n => by
    rw [halving_iterate, hg]
    rfl
  have hex : ∃ n, ¬ (stableG1 α (.fin y) t (((fun ll => (ll + pyPI2) / 2)^[n] (-t) + pyPI2) / 2)).isclose 0
      (1 / 10 ^ 5) (1 / 10 ^ 8) := by
    obtain ⟨n, hn⟩ := hlim
    refine ⟨n, fun h => ?_⟩
    have h := (hcond n).mp h
    rw [abs_zero, mul_zero, add_zero, sub_zero] at h
    have := le_abs_self (Spec.stableV α t y (pyPI2 - (pyPI2 + t) / 2 ^ (n + 1)))
    norm_num at *
    linarith
  classical
  obtain ⟨N, hN⟩ : ∃ N, N = Nat.find hex := ⟨_, rfl⟩
  refine ⟨pyPI2 - (pyPI2 + t) / 2 ^ N, ?_, ?_, ?_, ?_⟩
  · rw [stableBounds, if_pos ha', whileLoop, dif_pos hex]
    simp only [bind, Option.bind, pure]
    rw [halving_iterate, ← hN, if_neg]
    rw [hg]
    intro h
    have h : |Spec.stableV α t y (pyPI2 - (pyPI2 + t) / 2 ^ (N + 1)) - 1| ≤ 1 / 10 ^ 8 + 1 / 10 ^ 5 * |(1 : ℝ)| := h
    rw [abs_one, mul_one] at h
    exact absurd (hw ha' N) (not_lt.mpr h)
  · rcases N with _ | N
    · simp
    · exact (hmid N).1.le
  · rcases N with _ | N
    · norm_num
      linarith
    · exact (hmid N).2
  · rw [if_neg ha]
    rcases N with _ | N
    · rw [pow_zero, div_one, show pyPI2 - (pyPI2 + t) = -t by ring, stableG1_start' ok hy ht, if_neg ha]
      exact zero_lt_one (α := ℝ)
    · rw [stableG1_mid ok hy ht (hmid N).1 (hmid N).2, if_neg (fun h => ha h.1), Fl.fin_lt_fin]
      have h := not_not.mp (Nat.find_min hex (show N < Nat.find hex by omega))
      have h := (hcond N).mp h
      rw [abs_zero, mul_zero, add_zero, sub_zero] at h
      have := le_abs_self (Spec.stableV α t y (pyPI2 - (pyPI2 + t) / 2 ^ (N + 1)))
      norm_num at *
      linarith

include ok hy ht in
/-- The main part of `aux_f1` returns the integral. -/
theorem auxF1Main_eq {brentq : PyFun → ℝ → ℝ → Except PyErr ℝ} (hB : IsBracketing brentq)
    {quad : (ℝ → Fl) → ℝ → ℝ → Fl} (hQ : IsQuad quad) (hu : UpperOk α t y) (hw : α < 1 → NoWindow α t y)
    (he : 1 < α → |t| * (1 + 1 / 10 ^ 6) ≤ pyPI2) {x : ℝ} (hx : α < 1 → 1 / 100 ≤ y ∨ |x| / 100 ≤ y) (fz : Fl)
    (log : Bool) :
    0 < (∫ θ in (-t)..pyPI2, g2Fun α y t θ) ∧
    auxF1Main brentq quad α (.fin x) (.fin y) t fz log =
      some (.ok (.fin (if log then Real.log (α / (π * |α - 1| * y) * ∫ θ in (-t)..pyPI2, g2Fun α y t θ)
        else α / (π * |α - 1| * y) * ∫ θ in (-t)..pyPI2, g2Fun α y t θ))) := by
  have hta := abs_lt.mp ht
  have hp := pi_pos
  obtain ⟨ll, hb, h1, h2, h3⟩ := stableBounds_ok ok hy ht hu hw
  obtain ⟨θ, hθ, mid, hc, hg⟩ := stableCentre_ok hB (stable_crosses ok hy ht hu h1 h2 h3)
  have hθ' : θ ∈ Icc (-t) pyPI2 := ⟨h1.trans hθ.1, hθ.2⟩
  have hi := stableInt_ok hB hQ hθ' (fun θ hθ => stableG1_nonneg ok hy ht hθ) hg (g2Real_integrable ok hy ht) mid
  rw [g2Real_integral ok hy ht] at hi
  have hpos := g2Fun_pos ok hy ht hθ' hg
  refine ⟨hpos, ?_⟩
  have hup := stableG1_upper ok hy ht hu
  have hst := stableG1_start' ok hy ht
  have ha1 : 0 < |α - 1| := abs_pos.mpr (sub_ne_zero.mpr ok.ne)
  have c1 : ¬ ((1 ≤ α ∧ (.fin largeExpPow < stableG1 α (.fin y) t pyPI2 ∨
      (stableG1 α (.fin y) t (-t)).isclose 0 (1 / 10 ^ 5) (1 / 10 ^ 8))) ∨
      (α < 1 ∧ (.fin largeExpPow < stableG1 α (.fin y) t (-t) ∨
        (stableG1 α (.fin y) t pyPI2).isclose 0 (1 / 10 ^ 5) (1 / 10 ^ 8)))) := by
    rintro (⟨h, h'⟩ | ⟨h, h'⟩)
    · have ha : 1 < α := lt_of_le_of_ne h (Ne.symm ok.ne)
      rw [if_pos ha] at hup hst
      rw [hup, hst] at h'
      rcases h' with h' | h'
      · rw [Fl.fin_lt_fin, largeExpPow] at h'
        norm_num at h'
      · exact h'
    · rw [if_neg (by linarith)] at hup hst
      rw [hst] at h'
      rcases h' with h' | h'
      · rw [Fl.fin_lt_fin, largeExpPow] at h'
        norm_num at h'
      · cases hv : stableG1 α (.fin y) t pyPI2 with
        | fin v =>
          rw [hv] at h' hup
          have h' : |v - 0| ≤ 1 / 10 ^ 8 + 1 / 10 ^ 5 * |(0 : ℝ)| := h'
          have hup : 1 < v := hup
          rw [abs_zero, mul_zero, add_zero, sub_zero] at h'
          have := le_abs_self v
          norm_num at *
          linarith
        | nan => rw [hv] at h'; exact h'
        | pinf => rw [hv] at h'; exact h'
        | ninf => rw [hv] at h'; exact h'
  have c2 : ¬ ((if 1 ≤ α then stableG1 α (.fin y) t (eplus (-t)) else stableG1 α (.fin y) t pyPI2E).isNan ∧
      Fl.pyMax (.fin y) (.fin y / Fl.abs (.fin x)) < .fin (1 / 100)) := by
    rintro ⟨h, h'⟩
    by_cases ha : 1 ≤ α
    · rw [if_pos ha] at h
      have hm : eplus (-t) ∈ Icc (-t) pyPI2 := by
        have := he (lt_of_le_of_ne ha (Ne.symm ok.ne))
        rw [eplus, abs_neg]
        have h5 := abs_nonneg t
        have h6 := neg_abs_le t
        constructor <;> linarith
      rcases stableG1_nonneg ok hy ht hm with h7 | ⟨v, h7, -⟩
      · rw [h7] at h; exact h
      · rw [h7] at h; exact h
    · rw [Fl.abs_fin, Fl.fin_div_fin, Fl.pyMax] at h'
      by_cases hx0 : |x| = 0
      · rw [if_pos hx0, Fl.infSign_pos hy, if_pos Fl.fin_lt_pinf] at h'
        exact absurd h' Fl.not_pinf_lt_fin
      · rw [if_neg hx0, Fl.fin_lt_fin] at h'
        have hx1 : 0 < |x| := lt_of_le_of_ne (abs_nonneg x) (Ne.symm hx0)
        have h8 : y < 1 / 100 ∧ y / |x| < 1 / 100 := by
          by_cases hc : y < y / |x|
          · rw [if_pos hc, Fl.fin_lt_fin] at h'
            exact ⟨by linarith, h'⟩
          · rw [if_neg hc, Fl.fin_lt_fin] at h'
            exact ⟨h', by linarith⟩
        rcases hx (not_le.mp ha) with h9 | h9
        · linarith [h8.1]
        · have := (div_lt_iff₀ hx1).mp h8.2
          linarith
  have c3 : ¬ ((1 ≤ α ∧ .fin 1 < stableG1 α (.fin y) t pyPI2) ∨ (α < 1 ∧ stableG1 α (.fin y) t pyPI2 < .fin 1)) := by
    rintro (⟨h, h'⟩ | ⟨h, h'⟩)
    · rw [if_pos (lt_of_le_of_ne h (Ne.symm ok.ne))] at hup
      rw [hup, Fl.fin_lt_fin] at h'
      linarith
    · rw [if_neg (by linarith)] at hup
      exact Fl.not_lt_of_lt hup h'
  have c4 : ¬ ((1 ≤ α ∧ stableG1 α (.fin y) t (-t) < .fin 1) ∨ (α < 1 ∧ .fin 1 < stableG1 α (.fin y) t (-t))) := by
    rintro (⟨h, h'⟩ | ⟨h, h'⟩)
    · rw [if_pos (lt_of_le_of_ne h (Ne.symm ok.ne))] at hst
      rw [hst] at h'
      exact Fl.not_pinf_lt_fin h'
    · rw [if_neg (by linarith)] at hst
      rw [hst, Fl.fin_lt_fin] at h'
      linarith
  have c5 : ¬ (α < 1 ∧ |pyPI2 + ll - 0| ≤ 1 / 10 ^ 8 + 1 / 10 ^ 13 * |(0 : ℝ)|) := by
    rintro ⟨-, h⟩
    rw [abs_zero, mul_zero, add_zero, sub_zero] at h
    have := le_abs_self (pyPI2 + ll)
    linarith
  unfold auxF1Main
  simp only []
  rw [if_neg c1, if_neg c2, if_neg c3, if_neg c4, hb]
  simp only []
  rw [if_neg c5, hc]
  simp only [bind, Except.bind, pure, Except.pure]
  rw [hi]
  simp only []
  have hc0 : (0 : ℝ) < π * |α - 1| * y := by positivity
  have hca : 0 < α / (π * |α - 1| * y) := div_pos ok.pos hc0
  rw [stableScale]
  simp only [Fl.fin_mul_fin, Fl.fin_div_fin' _ hc0.ne']
  cases log
  · rfl
  · simp only [if_true]
    rw [Fl.log_pos hca, Fl.log_pos hpos, Fl.fin_add_fin, Real.log_mul hca.ne' hpos.ne']

end

/-- The angle on the side of `x`. -/
noncomputable def sideAngle (α β x : ℝ) : ℝ :=
  if x < Spec.stableZeta α β then -Spec.stableAngle α β else Spec.stableAngle α β

/-- The points at which the method of `aux_f1` is shown to work: not too close to `ζ`; the angle is not too close to a
right angle (for an index above one it never is); the function in the exponent crosses one between the end points of
the angles used; and, for an index below one, it takes no value close to one at the points of the bisection. -/
structure StablePoint (α β x : ℝ) : Prop where
  far : 5 / 10 ^ 5 * (5 / 10 ^ 5 + max |x| |Spec.stableZeta α β|) < |x - Spec.stableZeta α β|
  angle : α < 1 → |Spec.stableAngle α β| < pyPI2 - 1 / 10 ^ 8
  upper : UpperOk α (sideAngle α β x) |x - Spec.stableZeta α β|
  window : α < 1 → NoWindow α (sideAngle α β x) |x - Spec.stableZeta α β|
  near : α < 1 → 1 / 100 ≤ |x - Spec.stableZeta α β| ∨ |x| / 100 ≤ |x - Spec.stableZeta α β|

/-- The error bound. -/
noncomputable def stableErr (α β x : ℝ) : ℝ := α / (π * |α - 1| * |x - Spec.stableZeta α β|) * integralErr α

theorem stableDensity_side {α β x : ℝ} (hx : x ≠ Spec.stableZeta α β) :
    Spec.stableDensity α β x = Spec.stableHalf α (sideAngle α β x) |x - Spec.stableZeta α β| := by
  rw [Spec.stableDensity, sideAngle]
  rcases lt_or_gt_of_ne hx with h | h
  · rw [if_neg (not_lt.mpr h.le), if_pos h, if_pos h, abs_of_neg (sub_neg.mpr h), neg_sub]
  · rw [if_pos h, if_neg (not_lt.mpr h.le), abs_of_pos (sub_pos.mpr h)]

theorem zetaTol_le (α β b : ℝ) : 0 < zetaTol α β b ∧ zetaTol α β b ≤ 5 / 10 ^ 5 := by
  unfold zetaTol
  split_ifs <;> norm_num

theorem stable_angle_gt {α β : ℝ} (h1 : 1 + 1 / 10 ^ 5 ≤ α) (h2 : α ≤ 2) (hβ : |β| ≤ 1) :
    |Spec.stableAngle α β| < pyPI2 - 1 / 10 ^ 8 ∧ |Spec.stableAngle α β| * (1 + 1 / 10 ^ 6) ≤ pyPI2 := by
  have h := stable_arctan_gt (by linarith) h2 hβ
  have hp := pi_pos
  have hp3 := pi_gt_three
  have hpp := pi_lt_pyPI2
  have h0 : 0 < α := by linarith
  have hb : |Spec.stableAngle α β| ≤ (1 - 1 / 10 ^ 5) * (π / 2) := by
    rw [Spec.stableAngle, abs_div, abs_of_pos h0, div_le_iff₀ h0]
    refine h.trans ?_
    have h5 : 2 - α ≤ (1 - 1 / 10 ^ 5) * α := by linarith
    nlinarith [mul_le_mul_of_nonneg_right h5 (show (0 : ℝ) ≤ π / 2 by positivity)]
  norm_num at *
  constructor <;> nlinarith

/-- `aux_f1` returns a positive number close to the density, or its logarithm. -/
theorem auxF1_ok {α β x : ℝ} (h0 : 1 / 10 ^ 17 ≤ α) (h1 : α < 1 ∨ 1 + 1 / 10 ^ 5 ≤ α) (h2 : α ≤ 2) (hβ : |β| ≤ 1)
    {brentq : PyFun → ℝ → ℝ → Except PyErr ℝ} (hB : IsBracketing brentq)
    {quad : (ℝ → Fl) → ℝ → ℝ → Fl} (hQ : IsQuad quad) (hx : StablePoint α β x) :
    ∃ v, 0 < v ∧ |v - Spec.stableDensity α β x| ≤ stableErr α β x ∧
      ∀ log, auxF1 brentq quad (.fin x) α β log = some (.ok (.fin (if log then Real.log v else v))) := by
  have hp := pi_pos
  have hp0 : 0 < α := lt_of_lt_of_le (by norm_num) h0
  have hne : α ≠ 1 := by
    rintro rfl
    norm_num at h1
  have hang : |Spec.stableAngle α β| < pyPI2 - 1 / 10 ^ 8 := by
    rcases h1 with h | h
    · exact hx.angle h
    · exact (stable_angle_gt h h2 hβ).1
  have ok0 := stable_angleOk hp0 hne h2 hβ
  have ok : AngleOk α (sideAngle α β x) := by
    rw [sideAngle]
    split_ifs
    · exact ok0.neg
    · exact ok0
  have habs : |sideAngle α β x| = |Spec.stableAngle α β| := by
    rw [sideAngle]
    split_ifs
    · rw [abs_neg]
    · rfl
  have hm0 : 0 ≤ max |x| |Spec.stableZeta α β| := (abs_nonneg x).trans (le_max_left _ _)
  have hy : 0 < |x - Spec.stableZeta α β| := lt_of_le_of_lt (by positivity) hx.far
  have hxz : x ≠ Spec.stableZeta α β := by
    intro h
    rw [h, sub_self, abs_zero] at hy
    exact lt_irrefl _ hy
  have he : 1 < α → |sideAngle α β x| * (1 + 1 / 10 ^ 6) ≤ pyPI2 := fun h => by
    rw [habs]
    exact (stable_angle_gt (h1.resolve_left (not_lt.mpr h.le)) h2 hβ).2
  have ht : |sideAngle α β x| < pyPI2 - 1 / 10 ^ 8 := habs ▸ hang
  refine ⟨α / (π * |α - 1| * |x - Spec.stableZeta α β|) *
    ∫ θ in (-sideAngle α β x)..pyPI2, g2Fun α |x - Spec.stableZeta α β| (sideAngle α β x) θ, ?_, ?_, fun log => ?_⟩
  · have := (auxF1Main_eq ok hy ht hB hQ hx.upper hx.window he hx.near .nan false).1
    have := abs_pos.mpr (sub_ne_zero.mpr hne)
    positivity
  · rw [stableDensity_side hxz, Spec.stableHalf, ← mul_sub, abs_mul, stableErr, abs_of_nonneg (by positivity)]
    exact mul_le_mul_of_nonneg_left (g2Fun_close ok hy ht) (by positivity)
  · have hclamp : min (max (-pyPI2) (Real.arctan (β * Real.tan (α * π / 2)) / α)) pyPI2 = Spec.stableAngle α β := by
      have h := abs_lt.mp hang
      have e : Real.arctan (β * Real.tan (α * π / 2)) / α = Spec.stableAngle α β := rfl
      norm_num at h
      rw [e, max_eq_right (by linarith), min_eq_left (by linarith)]
    have hz : -(β * Real.tan (α * π / 2)) = Spec.stableZeta α β := rfl
    have hmax : Fl.maximum (Fl.abs (.fin x)) (.fin |Spec.stableZeta α β|) = .fin (max |x| |Spec.stableZeta α β|) := by
      rw [Fl.abs_fin, Fl.maximum_fin]
    unfold auxF1
    simp only []
    rw [hclamp, hz, Fl.fin_sub_fin, Fl.abs_fin (x - Spec.stableZeta α β), hmax]
    obtain ⟨t0, t1⟩ := zetaTol_le α β (β * Real.tan (α * π / 2))
    rw [if_neg, if_neg (not_lt.mpr h0)]
    · have := (auxF1Main_eq ok hy ht hB hQ hx.upper hx.window he hx.near
        (fZeta α (Spec.stableZeta α β) (Spec.stableAngle α β) log) log).2
      rw [← this, sideAngle]
      simp only [Fl.fin_lt_fin]
    · rintro ⟨-, h⟩
      rw [Fl.fin_add_fin, Fl.fin_mul_fin, Fl.fin_le_fin] at h
      have : zetaTol α β (β * Real.tan (α * π / 2)) * (zetaTol α β (β * Real.tan (α * π / 2)) +
          max |x| |Spec.stableZeta α β|) ≤ 5 / 10 ^ 5 * (5 / 10 ^ 5 + max |x| |Spec.stableZeta α β|) :=
        mul_le_mul t1 (by linarith) (by positivity) (by positivity)
      linarith [hx.far]

end Copulae
