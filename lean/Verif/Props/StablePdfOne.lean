import Verif.Lemmas.StablePdfOne
import Verif.Props.StablePdfLaw

/-!
C130: `skew_stable.pdf` with index one and a skewness is the density of the stable law.
-/

namespace Copulae

open MeasureTheory Set Real Topology

/-- The location of the law of index one. -/
noncomputable def Spec.stableLocOne (β γ δ : ℝ) (pm : ℤ) : ℝ :=
  if pm = 1 then δ + β * γ * (2 / π * log γ) else δ

theorem stableParam_one {β γ δ : ℝ} (hγ : 0 < γ) {pm : ℤ} (hpm : pm = 0 ∨ pm = 1)
    (mode : ℝ → ℝ → Except PyErr Fl) :
    stableParam mode 1 (.fin δ) (.fin γ) β pm = .ok (.fin (Spec.stableLocOne β γ δ pm), .fin γ) := by
  rcases hpm with rfl | rfl
  · simp [stableParam, Spec.stableLocOne]
  · rw [stableParam, if_pos rfl, stableOmega, if_neg (not_not.mpr ⟨1, by norm_num⟩), if_pos rfl, Fl.log_pos hγ]
    simp [Spec.stableLocOne]

theorem one_ea {β : ℝ} (x : ℝ) : Fl.fin (-(π * (1 / (2 * β)))) * .fin x = .fin (-(π * x / (2 * β))) := by
  rw [Fl.fin_mul_fin]
  congr 1
  ring

/-- The number `aux_f2` returns. -/
noncomputable def onePdf (β x : ℝ) : ℝ := π / 2 * (1 / (2 * |β|)) * ∫ u in (-1 : ℝ)..1, oneInt β x u

theorem onePdf_nonneg {β : ℝ} (h0 : β ≠ 0) (hβ : |β| ≤ 1) (x : ℝ) : 0 ≤ onePdf β x := by
  have hp := pi_pos
  have hb := abs_pos.mpr h0
  have := intervalIntegral.integral_nonneg (μ := volume) (show (-1 : ℝ) ≤ 1 by norm_num)
    fun u hu => (oneInt_bounds h0 hβ x hu).1
  unfold onePdf
  positivity

section
variable {brentq : PyFun → ℝ → ℝ → Except PyErr ℝ} {quad : (ℝ → Fl) → ℝ → ℝ → Fl}

/-- The value of `aux_f2` for a positive skewness. -/
theorem auxF2_ok {β x : ℝ} (h0 : 0 < β) (h1 : β ≤ 1) (hx : x ≤ 10 ^ 16) (hB : IsBracketing brentq) (hQ : IsQuad quad)
    (log : Bool) :
    auxF2 brentq quad (.fin x) β log = some (.ok (if log then Fl.log (.fin (onePdf β x)) else .fin (onePdf β x))) := by
  have hp := pi_pos
  have hβ : |β| ≤ 1 := by rw [abs_of_pos h0]; exact h1
  have hm1 : (-1 : ℝ) ∈ Icc (-1) (1 : ℝ) := by constructor <;> norm_num
  have hm2 : (1 : ℝ) ∈ Icc (-1) (1 : ℝ) := by constructor <;> norm_num
  have hg : ∀ u ∈ Icc (-1) (1 : ℝ), oneG1 β (.fin (-(π * x / (2 * β)))) u - .fin 1 = .fin (oneReal β x u - 1) :=
    fun u hu => by rw [(oneG1_eq h0.ne' hβ x hu).1, Fl.fin_sub_fin]
  have hlo : oneReal β x (-1) = 0 := by rw [oneReal, if_pos (by unfold oneCut; norm_num)]
  have hhi : 1 < oneReal β x 1 := by
    rw [oneReal, if_neg (by unfold oneCut; norm_num), if_pos rfl]
    have hc : cosHalfPi < 1 := by unfold cosHalfPi; norm_num
    have hc0 : 0 < cosHalfPi := by unfold cosHalfPi; norm_num
    rw [one_lt_div hc0]
    have he : 0 ≤ -(π * x / (2 * β)) + (π / (2 * β) + π / 2) * tanHalfPi := by
      have e : -(π * x / (2 * β)) + (π / (2 * β) + π / 2) * tanHalfPi =
          π / (2 * β) * (tanHalfPi * (1 + β) - x) := by
        field_simp
        ring
      rw [e]
      have : 10 ^ 16 ≤ tanHalfPi := by unfold tanHalfPi; norm_num
      have : 0 ≤ tanHalfPi * (1 + β) - x := by nlinarith
      positivity
    have := one_le_exp he
    nlinarith
  obtain ⟨r, hr, e, -⟩ := findRoot_bracketing hB (f := fun u => oneG1 β (.fin (-(π * x / (2 * β)))) u - .fin 1)
    (show (-1 : ℝ) ≤ 1 by norm_num) (fun u hu => by simp only [hg u hu]; simp)
    (Or.inl (by
      simp only [hg _ hm1, hg _ hm2, Fl.fin_lt_fin]
      exact ⟨by rw [hlo]; norm_num, by linarith⟩)) (1 / 10 ^ 6) 1000
  have hq : ∀ a ∈ Icc (-1) (1 : ℝ), ∀ b ∈ Icc (-1) (1 : ℝ),
      quad (oneG2 β (.fin (-(π * x / (2 * β))))) a b = .fin (∫ u in a..b, oneInt β x u) := fun a ha b hb =>
    hQ _ _ a b (fun u hu => oneG2_eq h0.ne' hβ x (uIcc_subset_Icc ha hb hu)) (oneInt_integrable h0.ne' hβ x ha hb)
  have hi : |1 / (2 * β)| = 1 / (2 * |β|) := by rw [abs_of_pos h0, abs_of_pos (by positivity)]
  have hpos := onePdf_nonneg h0.ne' hβ x
  unfold auxF2
  simp only []
  rw [one_ea, if_neg (by simp), e]
  simp only [bind, Except.bind, pure, Except.pure]
  have hsum : Fl.fin (∫ u in (-1 : ℝ)..r, oneInt β x u) + .fin (∫ u in r..1, oneInt β x u) =
      .fin (∫ u in (-1 : ℝ)..1, oneInt β x u) := by
    rw [Fl.fin_add_fin, intervalIntegral.integral_add_adjacent_intervals
      (oneInt_integrable h0.ne' hβ x hm1 hr) (oneInt_integrable h0.ne' hβ x hr hm2)]
  rw [hq _ hm1 r hr, hq r hr _ hm2, hsum, hi]
  cases log
  · simp only [Bool.false_eq_true, if_false]
    rw [Fl.fin_mul_fin, onePdf]
  · simp only [if_true]
    have hI : 0 ≤ ∫ u in (-1 : ℝ)..1, oneInt β x u := intervalIntegral.integral_nonneg (show (-1 : ℝ) ≤ 1 by norm_num)
      fun u hu => (oneInt_bounds h0.ne' hβ x hu).1
    have hb := abs_pos.mpr h0.ne'
    rcases eq_or_lt_of_le hI with hI | hI
    · rw [onePdf, ← hI, mul_zero, Fl.log_zero]
      rfl
    · have hI' : 0 < onePdf β x := by unfold onePdf; positivity
      rw [Fl.log_pos hI, Fl.log_pos hI', Fl.fin_add_fin, Fl.fin_add_fin, onePdf, Real.log_mul (by positivity) hI.ne',
        Real.log_mul (by positivity) (by positivity)]

/-- Where the value is positive. -/
theorem onePdf_pos {β x : ℝ} (h0 : 0 < β) (h1 : β ≤ 1) (hx : -(4 * β) ≤ x) : 0 < onePdf β x := by
  have hp := pi_pos
  have hβ : |β| ≤ 1 := by rw [abs_of_pos h0]; exact h1
  have hV0 : Spec.stableVOne β x (0 * (π / 2)) < largeExpPow := by
    have e : Spec.stableVOne β x (0 * (π / 2)) = exp (-(π * x / (2 * β))) := by
      unfold Spec.stableVOne
      simp
    have h2 : -(π * x / (2 * β)) ≤ 63 / 10 := by
      rw [← neg_div, div_le_iff₀ (by positivity)]
      have := pi_lt_d4
      norm_num at this
      nlinarith
    rw [e]
    refine lt_of_le_of_lt (exp_le_exp.mpr h2) ?_
    have h3 : exp (63 / 10) = exp 1 ^ 6 * exp (3 / 10) := by
      rw [← exp_nat_mul, ← exp_add]
      norm_num
    have h4 := exp_one_lt_d9
    have h5 : exp 1 ^ 6 < 404 := by
      calc exp 1 ^ 6 < 2.7182818286 ^ 6 := pow_lt_pow_left₀ h4 (exp_pos 1).le (by norm_num)
        _ < 404 := by norm_num
    have h6 : exp (3 / 10 : ℝ) ≤ 1.43 := by
      have := exp_bound_div_one_sub_of_interval (x := 3 / 10) (by norm_num) (by norm_num)
      norm_num at this ⊢
      linarith
    rw [h3]
    unfold largeExpPow
    have := exp_pos (3 / 10 : ℝ)
    calc exp 1 ^ 6 * exp (3 / 10) ≤ 404 * 1.43 := mul_le_mul h5.le h6 this.le (by norm_num)
      _ < _ := by norm_num
  have hcont : ContinuousAt (fun u => Spec.stableVOne β x (u * (π / 2))) 0 := by
    unfold Spec.stableVOne
    have hc : cos ((0 : ℝ) * (π / 2)) ≠ 0 := by simp
    have ht : ContinuousAt (fun u => tan (u * (π / 2))) 0 :=
      ContinuousAt.comp (f := fun u : ℝ => u * (π / 2)) (continuousAt_tan.mpr hc) (by fun_prop)
    have hd : ContinuousAt (fun u : ℝ => (π / 2 + β * (u * (π / 2))) / cos (u * (π / 2))) 0 :=
      ContinuousAt.div (by fun_prop) (by fun_prop) hc
    have he : ContinuousAt (fun u => (π / 2 + β * (u * (π / 2))) / β * tan (u * (π / 2)) - π * x / (2 * β)) 0 :=
      (ContinuousAt.mul (by fun_prop) ht).sub continuousAt_const
    exact (continuousAt_const.mul hd).mul (continuous_exp.continuousAt.comp he)
  obtain ⟨ε, hε, hh⟩ := Metric.eventually_nhds_iff.mp (hcont.eventually_lt continuousAt_const hV0)
  set d := min ε (1 / 2) with hd
  have hd0 : 0 < d := lt_min hε (by norm_num)
  have hd1 : d ≤ 1 / 2 := min_le_right _ _
  have m0 : (-1 : ℝ) ∈ Icc (-1) (1 : ℝ) := by constructor <;> norm_num
  have m1 : (0 : ℝ) ∈ Icc (-1) (1 : ℝ) := by constructor <;> norm_num
  have m2 : d ∈ Icc (-1) (1 : ℝ) := ⟨by linarith, by linarith⟩
  have m3 : (1 : ℝ) ∈ Icc (-1) (1 : ℝ) := by constructor <;> norm_num
  have hi := fun (a : ℝ) ha (b : ℝ) hb => oneInt_integrable h0.ne' hβ x (a := a) (b := b) ha hb
  have p1 : 0 ≤ ∫ u in (-1 : ℝ)..0, oneInt β x u := intervalIntegral.integral_nonneg (by norm_num)
    fun u hu => (oneInt_bounds h0.ne' hβ x ⟨hu.1, hu.2.trans (by norm_num)⟩).1
  have p3 : 0 ≤ ∫ u in d..(1 : ℝ), oneInt β x u := intervalIntegral.integral_nonneg (by linarith)
    fun u hu => (oneInt_bounds h0.ne' hβ x ⟨by linarith [hu.1], hu.2⟩).1
  have p2 : 0 < ∫ u in (0 : ℝ)..d, oneInt β x u := by
    refine intervalIntegral.intervalIntegral_pos_of_pos_on (hi 0 m1 d m2) (fun u hu => ?_) hd0
    have hlt := hh (show dist u 0 < ε by
      rw [Real.dist_eq, sub_zero, abs_of_pos hu.1]
      exact lt_of_lt_of_le hu.2 (min_le_left _ _))
    have e : oneReal β x u = Spec.stableVOne β x (u * (π / 2)) := by
      have hu0 : 0 < u := hu.1
      rw [oneReal, if_neg (not_le.mpr (lt_trans (by unfold oneCut; norm_num) hu0)),
        if_neg (by have := hu.2; intro h; linarith)]
    have hv := stableVOne_pos hβ (one_angle (lt_trans (by norm_num) hu.1) (by have := hu.2; linarith)) x
    rw [oneInt, e, if_neg (not_lt.mpr hlt.le)]
    positivity
  have hs : ∫ u in (-1 : ℝ)..1, oneInt β x u = (∫ u in (-1 : ℝ)..0, oneInt β x u) +
      ((∫ u in (0 : ℝ)..d, oneInt β x u) + ∫ u in d..(1 : ℝ), oneInt β x u) := by
    rw [intervalIntegral.integral_add_adjacent_intervals (hi 0 m1 d m2) (hi d m2 1 m3),
      intervalIntegral.integral_add_adjacent_intervals (hi _ m0 0 m1) (hi 0 m1 1 m3)]
  have hb := abs_pos.mpr h0.ne'
  have : 0 < ∫ u in (-1 : ℝ)..1, oneInt β x u := by rw [hs]; linarith
  unfold onePdf
  positivity

variable (mode : ℝ → ℝ → Except PyErr Fl)

/-- **C130** With index one and a positive skewness, `pdf` of any array returns the density of the stable law up to
`1e-10`, divided by twice the skewness and by the scale. Missing: the arguments with a standardised value below minus
four times the skewness (`stable_pdf_one_single` for one at a time) or above `1e16`; negative skewnesses, for which the code
raises (`stable_pdf_one_violation`). -/
theorem stable_pdf_one_partial {β γ δ : ℝ} (h0 : 0 < β) (h1 : β ≤ 1) (hγ : 0 < γ) {pm : ℤ} (hpm : pm = 0 ∨ pm = 1)
    (hB : IsBracketing brentq) (hQ : IsQuad quad) {xs : List ℝ}
    (hx : ∀ x ∈ xs, (x - Spec.stableLocOne β γ δ pm) / γ ∈ Icc (-(4 * β)) (10 ^ 16)) :
    ∃ g : ℝ → ℝ,
      (∀ x ∈ xs, 0 < g x ∧ |g x - Spec.stableDensityOne β ((x - Spec.stableLocOne β γ δ pm) / γ) / γ| ≤
        1 / (2 * β * γ) / 10 ^ 10) ∧
      stablePdf brentq quad (auxF2 brentq quad) mode (xs.map .fin) 1 β (.fin γ) (.fin δ) pm false =
        some (.ok (xs.map fun x => .fin (g x))) ∧
      ((∀ x ∈ xs, g x * γ ≠ 1) →
        stablePdf brentq quad (auxF2 brentq quad) mode (xs.map .fin) 1 β (.fin γ) (.fin δ) pm true =
          some (.ok (xs.map fun x => .fin (Real.log (g x))))) := by
  have hβ : |β| ≤ 1 := by rw [abs_of_pos h0]; exact h1
  set d := Spec.stableLocOne β γ δ pm with hd
  have hmap : (xs.map Fl.fin).map (fun e => (e - .fin d) / .fin γ) = (xs.map fun x => (x - d) / γ).map Fl.fin := by
    rw [List.map_map, List.map_map]
    refine List.map_congr_left fun x _ => ?_
    simp [Fl.fin_div_fin' _ hγ.ne']
  have hpos : ∀ z ∈ xs.map (fun x => (x - d) / γ), 0 < onePdf β z := fun z hz => by
    obtain ⟨x, hx', rfl⟩ := List.mem_map.mp hz
    exact onePdf_pos h0 h1 (hx x hx').1
  have hrun : ∀ log, stablePdf brentq quad (auxF2 brentq quad) mode (xs.map .fin) 1 β (.fin γ) (.fin δ) pm log =
      some (.ok (stableFinish 1 β (.fin γ) log ((xs.map fun x => (x - d) / γ).map Fl.fin)
        ((xs.map fun x => (x - d) / γ).map fun z =>
          .fin (if log then Real.log (onePdf β z) else onePdf β z)))) := fun log => by
    unfold stablePdf
    rw [stableCheck_ok (by norm_num) (by norm_num) hβ (by simpa using hγ.le) (by omega), stableParam_one hγ hpm]
    simp only [bind, Except.bind]
    rw [← hd, hmap, stableStd, if_neg (by norm_num), if_neg fun h => h0.ne' h.2, if_pos rfl]
    rw [mapRun_ok (g := fun e => match e with
      | .fin z => .fin (if log then Real.log (onePdf β z) else onePdf β z) | _ => .nan)]
    · simp only [List.map_map, Function.comp_def]
    · intro e he
      obtain ⟨z, hz, rfl⟩ := List.mem_map.mp he
      have hz0 := hpos z hz
      obtain ⟨x, hx', rfl⟩ := List.mem_map.mp hz
      rw [auxF2_ok h0 h1 (hx x hx').2 hB hQ log]
      cases log
      · rfl
      · simp only [if_true]
        rw [Fl.log_pos hz0]
  refine ⟨fun x => onePdf β ((x - d) / γ) / γ, fun x hx' => ⟨div_pos (hpos _ (List.mem_map_of_mem hx')) hγ, ?_⟩, ?_,
    fun h => ?_⟩
  · rw [← sub_div, abs_div, abs_of_pos hγ]
    have := one_close h0.ne' hβ ((x - d) / γ)
    rw [abs_of_pos h0] at this
    calc _ ≤ 1 / (2 * β) / 10 ^ 10 / γ := div_le_div_of_nonneg_right (by
          rw [onePdf, abs_of_pos h0]; exact this) hγ.le
      _ = _ := by field_simp
  · rw [hrun false]
    have := stableFinish_pos (α := 1) (β := β) hγ hpos
    simp only [Bool.false_eq_true, if_false]
    rw [this, List.map_map]
    rfl
  · rw [hrun true]
    have := stableFinish_log (α := 1) (β := β) hγ (g := onePdf β) (zs := xs.map fun x => (x - d) / γ) (by
      intro z hz
      refine ⟨hpos z hz, ?_⟩
      obtain ⟨x, hx', rfl⟩ := List.mem_map.mp hz
      have := h x hx'
      rwa [div_mul_cancel₀ _ hγ.ne'] at this)
    simp only [if_true]
    rw [this, List.map_map]
    rfl

/-- **C130** The same for one argument, with any standardised value up to `1e16`; the number returned may be zero. -/
theorem stable_pdf_one_single {β γ δ x : ℝ} (h0 : 0 < β) (h1 : β ≤ 1) (hγ : 0 < γ) {pm : ℤ} (hpm : pm = 0 ∨ pm = 1)
    (hB : IsBracketing brentq) (hQ : IsQuad quad) (hx : (x - Spec.stableLocOne β γ δ pm) / γ ≤ 10 ^ 16) :
    ∃ g : ℝ, 0 ≤ g ∧ |g - Spec.stableDensityOne β ((x - Spec.stableLocOne β γ δ pm) / γ) / γ| ≤
        1 / (2 * β * γ) / 10 ^ 10 ∧
      stablePdf brentq quad (auxF2 brentq quad) mode [.fin x] 1 β (.fin γ) (.fin δ) pm false =
        some (.ok [.fin g]) := by
  have hβ : |β| ≤ 1 := by rw [abs_of_pos h0]; exact h1
  set z := (x - Spec.stableLocOne β γ δ pm) / γ with hz
  have hn := onePdf_nonneg h0.ne' hβ z
  refine ⟨onePdf β z / γ, by positivity, ?_, ?_⟩
  · rw [← sub_div, abs_div, abs_of_pos hγ]
    have := one_close h0.ne' hβ z
    rw [abs_of_pos h0] at this
    calc _ ≤ 1 / (2 * β) / 10 ^ 10 / γ := div_le_div_of_nonneg_right (by
          rw [onePdf, abs_of_pos h0]; exact this) hγ.le
      _ = _ := by field_simp
  · unfold stablePdf
    rw [stableCheck_ok (by norm_num) (by norm_num) hβ (by simpa using hγ.le) (by omega), stableParam_one hγ hpm]
    simp only [bind, Except.bind, List.map_cons, List.map_nil, Fl.fin_sub_fin, Fl.fin_div_fin' _ hγ.ne']
    rw [← hz, stableStd, if_neg (by norm_num), if_neg fun h => h0.ne' h.2, if_pos rfl, mapRun,
      auxF2_ok h0 h1 hx hB hQ false]
    simp only [mapRun, Bool.false_eq_true, if_false, stableFinish, List.zipWith_cons_cons, List.zipWith_nil_left]
    by_cases hc : onePdf β z = 0
    · rw [if_pos (by rw [hc]), if_neg (by simp [hc]), hc, zero_div]
    · rw [if_neg (by simpa using hc), Fl.fin_div_fin' _ hγ.ne']

example (mode : ℝ → ℝ → Except PyErr Fl) := stable_pdf_one_single mode (β := 1 / 2) (γ := 1) (δ := 0) (x := 3) (by norm_num) (by norm_num) one_pos
  (pm := 0) (.inl rfl) exists_bracketing.choose_spec exists_quad.choose_spec (by norm_num [Spec.stableLocOne])

omit mode in
/-- C130: the density at infinity is zero. -/
theorem auxF2_inf {β : ℝ} (h0 : β ≠ 0) {x : Fl} (hx : x = .pinf ∨ x = .ninf) (log : Bool) :
    auxF2 brentq quad x β log = some (.ok (zeroDensity log)) := by
  have hp := pi_pos
  have h : Fl.fin (-(π * (1 / (2 * β)))) * x = .pinf ∨ Fl.fin (-(π * (1 / (2 * β)))) * x = .ninf := by
    rcases lt_or_gt_of_ne h0 with h | h
    · have hn : 0 < -(π * (1 / (2 * β))) := by
        rw [neg_pos]
        exact mul_neg_of_pos_of_neg hp (one_div_neg.mpr (by linarith))
      rcases hx with rfl | rfl
      · left; rw [Fl.fin_mul_pinf, Fl.infSign_pos hn]
      · right; rw [Fl.fin_mul_ninf, Fl.infSign_neg (by linarith)]
    · have hn : -(π * (1 / (2 * β))) < 0 := by
        rw [neg_lt_zero]
        positivity
      rcases hx with rfl | rfl
      · right; rw [Fl.fin_mul_pinf, Fl.infSign_neg hn]
      · left; rw [Fl.fin_mul_ninf, Fl.infSign_pos (by linarith)]
  unfold auxF2
  simp only []
  rw [if_pos h]

example (brentq : PyFun → ℝ → ℝ → Except PyErr ℝ) (quad : (ℝ → Fl) → ℝ → ℝ → Fl) :=
  auxF2_inf (brentq := brentq) (quad := quad) (β := -1) (by norm_num) (.inr rfl) true

omit mode in
/-- C130: NaN is not passed on, it makes `pdf` raise. -/
theorem auxF2_nan (β : ℝ) (log : Bool) : auxF2 brentq quad .nan β log = some (.error .assertionError) := by
  unfold auxF2
  simp only []
  rw [Fl.mul_nan, if_neg (by simp), findRoot_fail (fun u => ⟨_, rfl⟩)]
  · rfl
  · rintro k - ⟨v, w, hv, hw, hlt⟩
    have hv' := Except.ok.inj hv
    have hw' := Except.ok.inj hw
    have hg : ∀ u, oneG1 β .nan u = .fin 0 ∨ oneG1 β .nan u = .nan := fun u => by
      unfold oneG1
      split_ifs
      · exact Or.inl rfl
      · right
        simp only [tanpi2, Fl.fin_mul_fin, Fl.nan_add, Fl.exp, Fl.mul_nan, Fl.nan_div]
    rw [← hv', ← hw'] at hlt
    rcases hg (Spec.expanded (1 / 10 ^ 6) k (min (-1) 1, max (-1) 1)).1 with h1 | h1 <;>
      rcases hg (Spec.expanded (1 / 10 ^ 6) k (min (-1) 1, max (-1) 1)).2 with h2 | h2 <;> rw [h1, h2] at hlt
    · norm_num at hlt
    · exact absurd hlt (by simp [Fl.not_nan_lt])
    · exact absurd hlt (by simp [Fl.not_nan_lt])
    · exact absurd hlt (by simp [Fl.not_nan_lt])

/-- A concrete case: skewness one half. -/
example (hB : IsBracketing brentq) (hQ : IsQuad quad) : ∃ g : ℝ → ℝ,
    (∀ x ∈ [(-1 : ℝ), 0, 100], 0 < g x ∧
      |g x - Spec.stableDensityOne (1 / 2) ((x - Spec.stableLocOne (1 / 2) 1 0 0) / 1) / 1| ≤
        1 / (2 * (1 / 2) * 1) / 10 ^ 10) ∧
    stablePdf brentq quad (auxF2 brentq quad) mode ([(-1 : ℝ), 0, 100].map .fin) 1 (1 / 2) (.fin 1) (.fin 0) 0 false =
      some (.ok ([(-1 : ℝ), 0, 100].map fun x => .fin (g x))) := by
  obtain ⟨g, h1, h2, -⟩ := stable_pdf_one_partial (β := 1 / 2) (γ := 1) (δ := 0) (pm := 0) (xs := [-1, 0, 100]) mode
    (by norm_num) (by norm_num) one_pos (Or.inl rfl) hB hQ (by
      intro x hx
      simp only [List.mem_cons, List.not_mem_nil, or_false] at hx
      rcases hx with rfl | rfl | rfl <;> simp [Spec.stableLocOne] <;> norm_num)
  exact ⟨g, h1, h2⟩

end

end Copulae
