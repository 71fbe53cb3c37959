import Verif.Props.FindRoot
import Verif.Lemmas.FrankTau

/-!
C59: calibration of the Frank copula by Kendall's tau, which goes through the root search of C35.
-/

namespace Copulae

open Set

/-- C59: tau is strictly increasing in the parameter and stays within (-1, 1), for parameters that are
not close to zero. -/
theorem frank_tau_increasing {d1 : ℝ → ℝ} (h1 : IsDebye1 d1) {a b : ℝ} (ha : 1 / 10 ^ 8 < |a|)
    (hb : 1 / 10 ^ 8 < |b|) (hab : a < b) :
    ∃ x y : ℝ, frankTau d1 a = .ok (.fin x) ∧ frankTau d1 b = .ok (.fin y) ∧ -1 < x ∧ x < y ∧ y < 1 := by
  have hne : ∀ {c : ℝ}, 1 / 10 ^ 8 < |c| → c ≠ 0 := by
    rintro c hc rfl
    rw [abs_zero] at hc
    norm_num at hc
  have hr : ∀ {c : ℝ}, c ≠ 0 → -1 < frankTauR c ∧ frankTauR c < 1 := by
    intro c hc
    rcases lt_or_gt_of_ne hc with h | h
    · have e : frankTauR c = -frankTauR (-c) := by rw [frankTauR_neg hc, neg_neg]
      obtain ⟨p, -, q⟩ := frankTauR_bounds (t := -c) (by linarith)
      exact ⟨by linarith, by linarith⟩
    · obtain ⟨p, -, q⟩ := frankTauR_bounds h
      exact ⟨by linarith, q⟩
  exact ⟨_, _, (frank_measures_value h1 (d2 := Spec.debye2) (fun _ _ => rfl) ha).1,
    (frank_measures_value h1 (d2 := Spec.debye2) (fun _ _ => rfl) hb).1, (hr (hne ha)).1,
    frankTauR_lt (hne ha) (hne hb) hab, (hr (hne hb)).2⟩

example := frank_tau_increasing (d1 := Spec.debye1) (fun _ _ => rfl) (a := -2) (b := 3) (by norm_num) (by norm_num) (by norm_num)

theorem frankTauOf_fin {d1 : ℝ → ℝ} (h1 : IsDebye1 d1) {x : ℝ} (hx : x ≠ 0) :
    frankTauOf d1 x = .ok (.fin (frankTauR x)) := by
  unfold frankTauOf
  rw [if_neg hx, (debye_wrappers h1 (d2 := Spec.debye2) (fun _ _ => rfl) hx).1, Fl.fin_sub_fin,
    Fl.fin_mul_fin, Fl.fin_div_fin' _ hx, Fl.fin_add_fin]
  rfl

theorem frankItau_aux {brentq : PyFun → ℝ → ℝ → Except PyErr ℝ} (hB : IsBrentq brentq) {d1 : ℝ → ℝ}
    (h1 : IsDebye1 d1) {t lo hi : ℝ} (hlh : lo ≤ hi) (h0 : ∀ x ∈ Icc lo hi, x ≠ 0)
    (hlo : frankTauR lo < t) (hhi : t < frankTauR hi) {delta : ℝ} {n : ℕ} :
    ∃ r ∈ Icc lo hi, findRoot brentq (fun x => (frankTauOf d1 x).map fun v => v - .fin t)
      (.fin lo) (.fin hi) delta n = .ok r ∧ frankTauR r = t := by
  have hf : ∀ x ∈ Icc lo hi, (fun x => (frankTauOf d1 x).map fun v => v - .fin t) x
      = .ok (.fin (frankTauR x - t)) := by
    intro x hx
    simp only [frankTauOf_fin h1 (h0 x hx), Except.map, Fl.fin_sub_fin]
  have hc : ContinuousOn (fun x => frankTauR x - t) (Icc lo hi) := fun x hx =>
    ((frankTauR_hasDerivAt (h0 x hx)).continuousAt.sub continuousAt_const).continuousWithinAt
  obtain ⟨r, hr, e, hz⟩ := hB _ (fun x => frankTauR x - t) lo hi hlh hf hc
    (mul_neg_of_neg_of_pos (by linarith) (by linarith))
  refine ⟨r, hr, ?_, by linarith⟩
  rw [findRoot_unchanged, min_eq_left hlh, max_eq_right hlh, e]
  rw [min_eq_left hlh, max_eq_right hlh]
  refine ⟨_, _, hf lo ⟨le_rfl, hlh⟩, hf hi ⟨hlh, le_rfl⟩, ?_⟩
  rw [Fl.fin_mul_fin, Fl.fin_lt_fin]
  exact mul_neg_of_neg_of_pos (by linarith) (by linarith)

/-- C59: `itau` returns the parameter whose Kendall's tau is `t`: it solves the calibration
equation exactly and its sign is that of `t`. -/
theorem frank_itau {brentq : PyFun → ℝ → ℝ → Except PyErr ℝ} (hB : IsBrentq brentq) {d1 : ℝ → ℝ}
    (h1 : IsDebye1 d1) {t : ℝ} (ht : 1 / 10 ^ 16 ≤ |t|) (ht1 : |t| ≤ 1 - 4 / 10 ^ 20) :
    ∃ θ : ℝ, frankItau brentq d1 t = .ok θ ∧ 0 < θ * t ∧ frankTauOf d1 θ = .ok (.fin t) := by
  have hlo : frankTauR (22 / 10 ^ 17) ≤ (22 / 10 ^ 17) / 9 :=
    frankTauR_le (by norm_num) (by norm_num)
  have hhi : 1 - 4 / (10 ^ 20 : ℝ) < frankTauR (10 ^ 20) := (frankTauR_bounds (by norm_num)).2.1
  rcases lt_trichotomy t 0 with h | h | h
  · rw [abs_of_neg h] at ht ht1
    obtain ⟨r, hr, e, hz⟩ := frankItau_aux hB h1 (t := t) (lo := -10 ^ 20) (hi := -(22 / 10 ^ 17))
      (by norm_num) (fun x hx => by have := hx.2; intro h0; rw [h0] at this; norm_num at this)
      (by rw [frankTauR_neg (by norm_num)]; generalize frankTauR (10 ^ 20) = y at *; linarith)
      (by rw [frankTauR_neg (by norm_num)]; norm_num at hlo ht ⊢; linarith) (delta := 1 / 10 ^ 6)
      (n := 1000)
    have hr0 : r < 0 := lt_of_le_of_lt hr.2 (by norm_num)
    refine ⟨r, ?_, mul_pos_of_neg_of_neg hr0 h, ?_⟩
    · unfold frankItau
      simp only [if_neg (not_lt.mpr h.le), gt_iff_lt, e, bind, Except.bind, pure, Except.pure,
        if_neg h.ne]
    · rw [frankTauOf_fin h1 hr0.ne, hz]
  · rw [h, abs_zero] at ht
    norm_num at ht
  · rw [abs_of_pos h] at ht ht1
    obtain ⟨r, hr, e, hz⟩ := frankItau_aux hB h1 (t := t) (lo := 22 / 10 ^ 17) (hi := 10 ^ 20)
      (by norm_num) (fun x hx => by have := hx.1; intro h0; rw [h0] at this; norm_num at this)
      (by norm_num at hlo ht ⊢; linarith) (by generalize frankTauR (10 ^ 20) = y at *; linarith) (delta := 1 / 10 ^ 6) (n := 1000)
    have hr0 : 0 < r := lt_of_lt_of_le (by norm_num) hr.1
    refine ⟨r, ?_, mul_pos hr0 h, ?_⟩
    · unfold frankItau
      simp only [if_pos h, gt_iff_lt, e, bind, Except.bind, pure, Except.pure, if_neg h.ne']
    · rw [frankTauOf_fin h1 hr0.ne', hz]

example := frank_itau exists_brentq.choose_spec (d1 := Spec.debye1) (fun _ _ => rfl) (t := 1 / 3) (by norm_num [abs_of_pos])
  (by norm_num [abs_of_pos])

/-- C59: `itau` undoes `tau` on every parameter between 1e-8 and 1e19 in absolute value. -/
theorem frank_itau_tau {brentq : PyFun → ℝ → ℝ → Except PyErr ℝ} (hB : IsBrentq brentq) {d1 : ℝ → ℝ}
    (h1 : IsDebye1 d1) {θ : ℝ} (hθ : 1 / 10 ^ 8 < |θ|) (hθ1 : |θ| ≤ 10 ^ 19) :
    ∃ t : ℝ, frankTau d1 θ = .ok (.fin t) ∧ frankItau brentq d1 t = .ok θ := by
  have h0 : θ ≠ 0 := by
    rintro rfl
    rw [abs_zero] at hθ
    norm_num at hθ
  have hp : 0 < |θ| := abs_pos.mpr h0
  have habs : |frankTauR θ| = frankTauR |θ| := by
    rcases lt_or_gt_of_ne h0 with h | h
    · rw [abs_of_neg h, frankTauR_neg h0, ← abs_neg, ← frankTauR_neg h0]
      exact abs_of_pos (frankTauR_bounds (by linarith)).1
    · rw [abs_of_pos h]
      exact abs_of_pos (frankTauR_bounds h).1
  have hr : 1 / 10 ^ 16 ≤ |frankTauR θ| := by
    rw [habs]
    have h2 : (1 / 10 ^ 8 : ℝ) / 18 ≤ frankTauR (1 / 10 ^ 8) :=
      frankTauR_ge (by norm_num) (by norm_num)
    have h3 := frankTauR_lt (by norm_num : (1 / 10 ^ 8 : ℝ) ≠ 0) hp.ne' hθ
    have h4 : (1 / 10 ^ 16 : ℝ) ≤ 1 / 10 ^ 8 / 18 := by norm_num
    linarith
  have hr1 : |frankTauR θ| ≤ 1 - 4 / 10 ^ 20 := by
    rw [habs]
    rcases le_total |θ| 1 with h | h
    · have := frankTauR_le hp h
      have h4 : (4 / 10 ^ 20 : ℝ) ≤ 1 / 2 := by norm_num
      linarith
    · have := frankTauR_gap h
      have h5 : (8 / 9 : ℝ) / 10 ^ 19 ≤ 8 / 9 / |θ| := by gcongr
      have h4 : (4 / 10 ^ 20 : ℝ) ≤ 8 / 9 / 10 ^ 19 := by norm_num
      linarith
  refine ⟨frankTauR θ, (frank_measures_value h1 (d2 := Spec.debye2) (fun _ _ => rfl) hθ).1, ?_⟩
  obtain ⟨r, e, hs, hz⟩ := frank_itau hB h1 hr hr1
  have hr0 : r ≠ 0 := by
    rintro rfl
    rw [zero_mul] at hs
    exact lt_irrefl _ hs
  rw [frankTauOf_fin h1 hr0] at hz
  have hz := Fl.fin.inj (Except.ok.inj hz)
  rw [e]
  congr 1
  rcases lt_trichotomy r θ with h | h | h
  · have := frankTauR_lt hr0 h0 h
    linarith
  · exact h
  · have := frankTauR_lt h0 hr0 h
    linarith

/-- The two contracts can be met, and the parameter 5 meets the hypotheses of `frank_itau_tau`. -/
example : ∃ brentq, IsBrentq brentq ∧ ∃ t : ℝ, frankTau Spec.debye1 5 = .ok (.fin t) ∧
    frankItau brentq Spec.debye1 t = .ok 5 := by
  obtain ⟨b, hb⟩ := exists_brentq
  exact ⟨b, hb, frank_itau_tau hb (fun _ _ => rfl) (by norm_num) (by norm_num)⟩

/-- Zero is outside the domain of the calibration equation: the search for it evaluates tau at the
ends of its bracket and only then is its result replaced. -/
theorem frank_tau_zero {d1 : ℝ → ℝ} : frankTauOf d1 0 = .error .zeroDivision ∧
    frankTau d1 0 = .ok (.fin 0) := by
  refine ⟨by simp [frankTauOf], ?_⟩
  unfold frankTau iscloseZero
  rw [if_pos (by norm_num)]
  norm_num

end Copulae
