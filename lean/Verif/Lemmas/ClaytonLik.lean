import Verif.Lemmas.Contrast
import Verif.Props.LikelihoodChoice
import Mathlib.Algebra.Order.Chebyshev
import Mathlib.MeasureTheory.Measure.Lebesgue.EqHaar

/-!
The logarithm of the density of a Clayton copula as a function of its parameter.
-/

namespace Copulae

open MeasureTheory ProbabilityTheory Spec CopulaMeasure Filter Finset

variable {d : ℕ}

/-! ### The function `log (1 + ∑ (exp (θ x j) - 1))` -/

/-- `1 + ∑ (exp (θ x j) - 1)`. -/
noncomputable def expSum (θ : ℝ) (x : Fin d → ℝ) : ℝ := 1 + ∑ j, (Real.exp (θ * x j) - 1)

theorem sum_exp_sub_one_le {ι : Type} (s : Finset ι) {a : ι → ℝ} (ha : ∀ j ∈ s, 0 ≤ a j) :
    ∑ j ∈ s, (Real.exp (a j) - 1) ≤ Real.exp (∑ j ∈ s, a j) - 1 := by
  classical
  induction s using Finset.induction_on with
  | empty => simp
  | insert j s hj ih =>
    rw [sum_insert hj, sum_insert hj, Real.exp_add]
    have h1 := ih fun i hi => ha i (mem_insert_of_mem hi)
    have h2 : 1 ≤ Real.exp (a j) := Real.one_le_exp (ha j (mem_insert_self _ _))
    have h3 : 1 ≤ Real.exp (∑ i ∈ s, a i) := Real.one_le_exp (sum_nonneg fun i hi => ha i (mem_insert_of_mem hi))
    nlinarith

variable {θ : ℝ} {x y : Fin d → ℝ}

theorem exp_le_expSum (hθ : 0 ≤ θ) (hx : ∀ j, 0 ≤ x j) (j : Fin d) : Real.exp (θ * x j) ≤ expSum θ x := by
  have h := single_le_sum (f := fun j => Real.exp (θ * x j) - 1) (s := univ)
    (fun i _ => sub_nonneg.mpr (Real.one_le_exp (mul_nonneg hθ (hx i)))) (mem_univ j)
  unfold expSum
  linarith

theorem one_le_expSum (hθ : 0 ≤ θ) (hx : ∀ j, 0 ≤ x j) : 1 ≤ expSum θ x := by
  have h : 0 ≤ ∑ j, (Real.exp (θ * x j) - 1) := sum_nonneg fun i _ => sub_nonneg.mpr (Real.one_le_exp (mul_nonneg hθ (hx i)))
  unfold expSum
  linarith

theorem expSum_pos (hθ : 0 ≤ θ) (hx : ∀ j, 0 ≤ x j) : 0 < expSum θ x := one_pos.trans_le (one_le_expSum hθ hx)

theorem expSum_ratio (hθ : 0 ≤ θ) (hx : ∀ j, 0 ≤ x j) (hy : ∀ j, 0 ≤ y j) :
    Real.log (expSum θ x) - Real.log (expSum θ y) ≤ θ * ∑ j, |x j - y j| := by
  have hp := expSum_pos hθ hy
  have h1 : expSum θ x ≤ expSum θ y * Real.exp (θ * ∑ j, |x j - y j|) := by
    have h2 : ∀ j, Real.exp (θ * x j) - Real.exp (θ * y j) ≤ expSum θ y * (Real.exp (θ * |x j - y j|) - 1) := fun j => by
      have h3 : Real.exp (θ * x j) ≤ Real.exp (θ * y j) * Real.exp (θ * |x j - y j|) := by
        rw [← Real.exp_add]
        refine Real.exp_le_exp.mpr ?_
        have := mul_le_mul_of_nonneg_left (le_abs_self (x j - y j)) hθ
        linarith
      have h4 := exp_le_expSum hθ hy j
      have h5 : 0 ≤ Real.exp (θ * |x j - y j|) - 1 := sub_nonneg.mpr (Real.one_le_exp (mul_nonneg hθ (abs_nonneg _)))
      nlinarith
    have h6 := sum_le_sum fun j (_ : j ∈ (univ : Finset (Fin d))) => h2 j
    rw [← mul_sum] at h6
    have h7 := sum_exp_sub_one_le (univ : Finset (Fin d)) (a := fun j => θ * |x j - y j|) fun j _ => mul_nonneg hθ (abs_nonneg _)
    rw [← mul_sum] at h7
    have h8 := mul_le_mul_of_nonneg_left h7 hp.le
    have h9 : expSum θ x - expSum θ y = ∑ j, (Real.exp (θ * x j) - Real.exp (θ * y j)) := by
      unfold expSum
      rw [add_sub_add_left_eq_sub, ← sum_sub_distrib]
      exact sum_congr rfl fun j _ => by ring
    nlinarith
  have h2 := Real.log_le_log (expSum_pos hθ hx) h1
  rw [Real.log_mul hp.ne' (Real.exp_pos _).ne', Real.log_exp] at h2
  linarith

theorem expSum_lip (hθ : 0 ≤ θ) (hx : ∀ j, 0 ≤ x j) (hy : ∀ j, 0 ≤ y j) :
    |Real.log (expSum θ x) - Real.log (expSum θ y)| ≤ θ * ∑ j, |x j - y j| := by
  rw [abs_le]
  have h1 := expSum_ratio hθ hx hy
  have h2 := expSum_ratio hθ hy hx
  simp only [abs_sub_comm (y _) (x _)] at h2
  exact ⟨by linarith, h1⟩

/-- The derivative in the parameter. -/
noncomputable def expSum' (θ : ℝ) (x : Fin d → ℝ) : ℝ := (∑ j, x j * Real.exp (θ * x j)) / expSum θ x

theorem hasDerivAt_expSum (θ : ℝ) (x : Fin d → ℝ) : HasDerivAt (fun t => expSum t x) (∑ j, x j * Real.exp (θ * x j)) θ := by
  unfold expSum
  have h : ∀ j ∈ (univ : Finset (Fin d)), HasDerivAt (fun t => Real.exp (t * x j) - 1) (x j * Real.exp (θ * x j)) θ := fun j _ => by
    have := (((hasDerivAt_id θ).mul_const (x j)).exp).sub_const 1
    simp only [id, one_mul] at this
    rwa [mul_comm] at this
  have h2 := (HasDerivAt.fun_sum h).const_add 1
  exact h2

theorem hasDerivAt_logExpSum (hθ : 0 ≤ θ) (hx : ∀ j, 0 ≤ x j) : HasDerivAt (fun t => Real.log (expSum t x)) (expSum' θ x) θ :=
  (hasDerivAt_expSum θ x).log (expSum_pos hθ hx).ne'

theorem weighted_le (hθ : 0 ≤ θ) (hx : ∀ j, 0 ≤ x j) {w : Fin d → ℝ} (hw : ∀ j, 0 ≤ w j) :
    0 ≤ (∑ j, w j * Real.exp (θ * x j)) / expSum θ x ∧ (∑ j, w j * Real.exp (θ * x j)) / expSum θ x ≤ ∑ j, w j := by
  have hp := expSum_pos hθ hx
  refine ⟨div_nonneg (sum_nonneg fun j _ => mul_nonneg (hw j) (Real.exp_pos _).le) hp.le, ?_⟩
  rw [div_le_iff₀ hp, sum_mul]
  exact sum_le_sum fun j _ => mul_le_mul_of_nonneg_left (exp_le_expSum hθ hx j) (hw j)

theorem expSum'_mem (hθ : 0 ≤ θ) (hx : ∀ j, 0 ≤ x j) : 0 ≤ expSum' θ x ∧ expSum' θ x ≤ ∑ j, x j := weighted_le hθ hx hx

theorem sum_sq_le_sq_sum (hx : ∀ j, 0 ≤ x j) : ∑ j, x j ^ 2 ≤ (∑ j, x j) ^ 2 := by
  rw [sq, sum_mul]
  refine sum_le_sum fun j _ => ?_
  rw [sq]
  exact mul_le_mul_of_nonneg_left (single_le_sum (fun i _ => hx i) (mem_univ j)) (hx j)

theorem hasDerivAt_expSum' (hθ : 0 ≤ θ) (hx : ∀ j, 0 ≤ x j) :
    ∃ D, HasDerivAt (fun t => expSum' t x) D θ ∧ |D| ≤ (∑ j, x j) ^ 2 := by
  have hp := expSum_pos hθ hx
  have h1 : HasDerivAt (fun t => ∑ j, x j * Real.exp (t * x j)) (∑ j, x j ^ 2 * Real.exp (θ * x j)) θ := by
    refine HasDerivAt.fun_sum fun j _ => ?_
    have := ((((hasDerivAt_id θ).mul_const (x j)).exp).const_mul (x j))
    simp only [id, one_mul] at this
    rwa [show x j * (Real.exp (θ * x j) * x j) = x j ^ 2 * Real.exp (θ * x j) by ring] at this
  have h2 := h1.div (hasDerivAt_expSum θ x) hp.ne'
  refine ⟨_, h2, ?_⟩
  have e : ((∑ j, x j ^ 2 * Real.exp (θ * x j)) * expSum θ x - (∑ j, x j * Real.exp (θ * x j)) * ∑ j, x j * Real.exp (θ * x j)) /
      expSum θ x ^ 2 = (∑ j, x j ^ 2 * Real.exp (θ * x j)) / expSum θ x - expSum' θ x ^ 2 := by
    unfold expSum'
    generalize ∑ j, x j ^ 2 * Real.exp (θ * x j) = A
    generalize ∑ j, x j * Real.exp (θ * x j) = B
    field_simp
  rw [e]
  obtain ⟨a1, a2⟩ := weighted_le hθ hx (w := fun j => x j ^ 2) fun j => sq_nonneg _
  obtain ⟨b1, b2⟩ := expSum'_mem hθ hx
  have h3 := sum_sq_le_sq_sum hx
  rw [abs_le]
  constructor <;> nlinarith

theorem expSum'_lip (hx : ∀ j, 0 ≤ x j) {s t : ℝ} (hs : 0 ≤ s) (ht : 0 ≤ t) :
    |expSum' s x - expSum' t x| ≤ (∑ j, x j) ^ 2 * |s - t| := by
  choose! D h1 h2 using fun (r : ℝ) (hr : r ∈ Set.Ici (0 : ℝ)) => hasDerivAt_expSum' hr hx
  have := (convex_Ici (0 : ℝ)).norm_image_sub_le_of_norm_hasDerivWithin_le (f := fun t => expSum' t x) (f' := D)
    (C := (∑ j, x j) ^ 2) (fun r hr => (h1 r hr).hasDerivWithinAt) (fun r hr => h2 r hr) ht hs
  simpa [Real.norm_eq_abs] using this

theorem logExpSum_lip (hx : ∀ j, 0 ≤ x j) {s t : ℝ} (hs : 0 ≤ s) (ht : 0 ≤ t) :
    |Real.log (expSum s x) - Real.log (expSum t x)| ≤ (∑ j, x j) * |s - t| := by
  have := (convex_Ici (0 : ℝ)).norm_image_sub_le_of_norm_hasDerivWithin_le (f := fun t => Real.log (expSum t x))
    (f' := fun t => expSum' t x) (C := ∑ j, x j) (fun r hr => (hasDerivAt_logExpSum hr hx).hasDerivWithinAt)
    (fun r hr => by
      have := expSum'_mem (θ := r) hr hx
      rw [Real.norm_eq_abs, abs_of_nonneg this.1]
      exact this.2) ht hs
  simpa [Real.norm_eq_abs] using this

theorem logExpSum_zero (x : Fin d → ℝ) : Real.log (expSum 0 x) = 0 := by simp [expSum]

theorem expSum'_zero (x : Fin d → ℝ) : expSum' 0 x = ∑ j, x j := by simp [expSum', expSum]

/-- `log (expSum θ x) / θ`, continued to zero. -/
noncomputable def meanExp (θ : ℝ) (x : Fin d → ℝ) : ℝ := if θ = 0 then ∑ j, x j else Real.log (expSum θ x) / θ

/-- It is a value of the derivative below `θ`. -/
theorem meanExp_mvt (hθ : 0 < θ) (hx : ∀ j, 0 ≤ x j) : ∃ ξ ∈ Set.Ioo 0 θ, meanExp θ x = expSum' ξ x := by
  obtain ⟨ξ, hξ, e⟩ := exists_hasDerivAt_eq_slope (fun t => Real.log (expSum t x)) (fun t => expSum' t x) hθ
    (fun t ht => (hasDerivAt_logExpSum ht.1 hx).continuousAt.continuousWithinAt)
    (fun t ht => hasDerivAt_logExpSum ht.1.le hx)
  refine ⟨ξ, hξ, ?_⟩
  rw [e, logExpSum_zero, meanExp, if_neg hθ.ne']
  simp

theorem meanExp_near (hθ : 0 ≤ θ) (hx : ∀ j, 0 ≤ x j) : |expSum' θ x - meanExp θ x| ≤ (∑ j, x j) ^ 2 * θ := by
  rcases hθ.eq_or_lt with rfl | h
  · simp [meanExp, expSum'_zero]
  · obtain ⟨ξ, hξ, e⟩ := meanExp_mvt h hx
    rw [e]
    refine (expSum'_lip hx hθ hξ.1.le).trans (mul_le_mul_of_nonneg_left ?_ (sq_nonneg _))
    rw [abs_of_pos (by linarith [hξ.2])]
    linarith [hξ.1]

theorem meanExp_lip_zero (hθ : 0 ≤ θ) (hx : ∀ j, 0 ≤ x j) : |meanExp θ x - meanExp 0 x| ≤ (∑ j, x j) ^ 2 * θ := by
  rcases hθ.eq_or_lt with rfl | h
  · simp
  · obtain ⟨ξ, hξ, e⟩ := meanExp_mvt h hx
    rw [e, show meanExp 0 x = expSum' 0 x by rw [meanExp, if_pos rfl, expSum'_zero]]
    refine (expSum'_lip hx hξ.1.le le_rfl).trans (mul_le_mul_of_nonneg_left ?_ (sq_nonneg _))
    rw [sub_zero, abs_of_pos hξ.1]
    exact hξ.2.le

theorem meanExp_lip (hx : ∀ j, 0 ≤ x j) {s t : ℝ} (hs : 0 ≤ s) (ht : 0 ≤ t) :
    |meanExp s x - meanExp t x| ≤ (∑ j, x j) ^ 2 * |s - t| := by
  rcases hs.eq_or_lt with rfl | hs'
  · rw [abs_sub_comm, zero_sub, abs_neg, abs_of_nonneg ht]
    exact meanExp_lip_zero ht hx
  rcases ht.eq_or_lt with rfl | ht'
  · rw [sub_zero, abs_of_pos hs']
    exact meanExp_lip_zero hs hx
  have hder : ∀ r ∈ Set.Ioi (0 : ℝ), HasDerivWithinAt (fun t => meanExp t x)
      ((expSum' r x * r - Real.log (expSum r x)) / r ^ 2) (Set.Ioi 0) r := fun r hr => by
    have h := (hasDerivAt_logExpSum (x := x) (le_of_lt hr) hx).div (hasDerivAt_id r) (ne_of_gt hr)
    simp only [id, mul_one] at h
    refine (h.hasDerivWithinAt (s := Set.Ioi 0)).congr (fun t ht => ?_) ?_
    · rw [meanExp, if_neg (ne_of_gt ht)]
      rfl
    · rw [meanExp, if_neg (ne_of_gt hr)]
      rfl
  have := (convex_Ioi (0 : ℝ)).norm_image_sub_le_of_norm_hasDerivWithin_le (C := (∑ j, x j) ^ 2) hder
    (fun r (hr : 0 < r) => by
      have h := meanExp_near hr.le hx
      rw [meanExp, if_neg hr.ne'] at h
      have e : (expSum' r x * r - Real.log (expSum r x)) / r ^ 2 = (expSum' r x - Real.log (expSum r x) / r) / r := by
        field_simp
      rw [e, Real.norm_eq_abs, abs_div, abs_of_pos hr, div_le_iff₀ hr]
      exact h) ht' hs'
  simpa [Real.norm_eq_abs] using this

/-! ### The density -/

/-- The negative logarithms. -/
noncomputable def negLog (u : Fin d → ℝ) (j : Fin d) : ℝ := -Real.log (u j)

theorem negLog_nonneg {u : Fin d → ℝ} (hu : u ∈ cube d) (j : Fin d) : 0 ≤ negLog u j :=
  neg_nonneg.mpr (Real.log_nonpos (hu j).1.le (hu j).2.le)

/-- The logarithm of the density of the Clayton copula; zero, that is independence, for the parameter zero. -/
noncomputable def claytonLL (θ : ℝ) (u : Fin d → ℝ) : ℝ :=
  ∑ j ∈ range (d - 1), Real.log (1 + θ * ((j : ℝ) + 1)) + (1 + θ) * ∑ j, negLog u j - d * Real.log (expSum θ (negLog u)) -
    meanExp θ (negLog u)

theorem claytonLL_eq {θ : ℝ} (hθ : 0 < θ) {u : Fin d → ℝ} (hu : u ∈ cube d) :
    claytonLL θ u = ∑ j ∈ range (d - 1), Real.log (1 + θ * ((j : ℝ) + 1)) -
      (1 + θ) * ∑ j, Real.log (u j) - (d + 1 / θ) * Real.log (1 + ∑ j, (u j ^ (-θ) - 1)) := by
  have h : expSum θ (negLog u) = 1 + ∑ j, (u j ^ (-θ) - 1) := by
    unfold expSum negLog
    congr 1
    refine sum_congr rfl fun j _ => ?_
    rw [Real.rpow_def_of_pos (hu j).1]
    congr 2
    ring
  rw [claytonLL, meanExp, if_neg hθ.ne', h]
  simp only [negLog, sum_neg_distrib]
  ring

theorem claytonLL_zero (u : Fin d → ℝ) : claytonLL 0 u = 0 := by
  simp [claytonLL, meanExp, logExpSum_zero]

theorem measurable_negLog (j : Fin d) : Measurable fun u : Fin d → ℝ => negLog u j :=
  (Real.measurable_log.comp (measurable_pi_apply j)).neg

theorem measurable_expSum (θ : ℝ) : Measurable fun u : Fin d → ℝ => expSum θ (negLog u) := by
  unfold expSum
  refine measurable_const.add (Finset.measurable_fun_sum _ fun j _ => ?_)
  exact (Real.measurable_exp.comp ((measurable_negLog j).const_mul θ)).sub_const 1

theorem measurable_claytonLL (θ : ℝ) : Measurable (claytonLL (d := d) θ) := by
  have h1 : Measurable fun u : Fin d → ℝ => ∑ j, negLog u j := Finset.measurable_fun_sum _ fun j _ => measurable_negLog j
  have h2 := Real.measurable_log.comp (measurable_expSum (d := d) θ)
  have h3 : Measurable fun u : Fin d → ℝ => meanExp θ (negLog u) := by
    unfold meanExp
    by_cases h : θ = 0
    · simpa only [if_pos h] using h1
    · simp only [if_neg h]
      exact h2.div_const θ
  exact (((measurable_const.add (h1.const_mul _)).sub (h2.const_mul _)).sub h3)

theorem negLog_sum_le (u : Fin d → ℝ) : ∑ j, negLog u j ≤ (d + 1) * logEnv u := by
  have h : ∀ j, negLog u j ≤ 1 + Real.log (u j) ^ 2 := fun j => (le_abs_self _).trans (by
    rw [negLog, abs_neg]; exact abs_le_sq_half _)
  refine (sum_le_sum fun j _ => h j).trans ?_
  rw [sum_add_distrib]
  simp only [sum_const, card_univ, Fintype.card_fin, nsmul_eq_mul, mul_one, logEnv]
  have : 0 ≤ ∑ j, Real.log (u j) ^ 2 := sum_nonneg fun j _ => sq_nonneg _
  have hd : (0 : ℝ) ≤ d := Nat.cast_nonneg d
  nlinarith

theorem negLog_sq_le (u : Fin d → ℝ) : (∑ j, negLog u j) ^ 2 ≤ d * logEnv u := by
  have h := sq_sum_le_card_mul_sum_sq (s := (univ : Finset (Fin d))) (f := negLog u)
  simp only [card_univ, Fintype.card_fin, negLog, neg_sq] at h
  refine h.trans (mul_le_mul_of_nonneg_left ?_ (Nat.cast_nonneg d))
  rw [logEnv]
  linarith

theorem negLog_abs (u v : Fin d → ℝ) (j : Fin d) : |negLog u j - negLog v j| = |Real.log (u j) - Real.log (v j)| := by
  rw [negLog, negLog, show -Real.log (u j) - -Real.log (v j) = -(Real.log (u j) - Real.log (v j)) by ring, abs_neg]

theorem sum_negLog_lip (u v : Fin d → ℝ) : |∑ j, negLog u j - ∑ j, negLog v j| ≤ ∑ j, |Real.log (u j) - Real.log (v j)| := by
  rw [← sum_sub_distrib]
  refine (abs_sum_le_sum_abs _ _).trans (le_of_eq (sum_congr rfl fun j _ => negLog_abs u v j))

theorem claytonLL_logLip {θ : ℝ} (hθ : 0 ≤ θ) : LogLip (1 + θ + d * θ + 1) (claytonLL (d := d) θ) := by
  intro u hu v hv
  have h1 := sum_negLog_lip u v
  have h2 := expSum_lip hθ (negLog_nonneg hu) (negLog_nonneg hv)
  simp only [negLog_abs] at h2
  have h3 : |meanExp θ (negLog u) - meanExp θ (negLog v)| ≤ ∑ j, |Real.log (u j) - Real.log (v j)| := by
    rcases hθ.eq_or_lt with rfl | h
    · simpa [meanExp] using h1
    · rw [meanExp, meanExp, if_neg h.ne', if_neg h.ne', ← sub_div, abs_div, abs_of_pos h, div_le_iff₀ h, mul_comm]
      exact h2
  have e : claytonLL θ u - claytonLL θ v = (1 + θ) * (∑ j, negLog u j - ∑ j, negLog v j) -
      d * (Real.log (expSum θ (negLog u)) - Real.log (expSum θ (negLog v))) - (meanExp θ (negLog u) - meanExp θ (negLog v)) := by
    unfold claytonLL
    ring
  rw [e]
  have hd : (0 : ℝ) ≤ d := Nat.cast_nonneg d
  have a1 := mul_le_mul_of_nonneg_left h1 (by linarith : (0 : ℝ) ≤ 1 + θ)
  have a2 := mul_le_mul_of_nonneg_left h2 hd
  refine (abs_sub _ _).trans ((add_le_add (abs_sub _ _) le_rfl).trans ?_)
  rw [abs_mul, abs_mul, abs_of_nonneg (by linarith : (0 : ℝ) ≤ 1 + θ), abs_of_nonneg hd]
  nlinarith

theorem log_one_add_lip {s t c : ℝ} (hs : 0 ≤ s) (ht : 0 ≤ t) (hc : 0 ≤ c) : |Real.log (1 + s * c) - Real.log (1 + t * c)| ≤ c * |s - t| := by
  have key : ∀ {s t : ℝ}, 0 ≤ s → 0 ≤ t → Real.log (1 + s * c) - Real.log (1 + t * c) ≤ c * |s - t| := fun {s t} hs ht => by
    have h1 : 0 < 1 + s * c := by positivity
    have h2 : 0 < 1 + t * c := by positivity
    have h2' : 1 ≤ 1 + t * c := by have := mul_nonneg ht hc; linarith
    rw [← Real.log_div h1.ne' h2.ne']
    refine (Real.log_le_sub_one_of_pos (div_pos h1 h2)).trans ?_
    rw [div_sub_one h2.ne', div_le_iff₀ h2]
    have h3 : s - t ≤ |s - t| := le_abs_self _
    have h4 : 0 ≤ c * |s - t| := by positivity
    nlinarith
  rw [abs_le]
  have := key ht hs
  rw [abs_sub_comm] at this
  exact ⟨by linarith, key hs ht⟩

theorem claytonLL_par {s t : ℝ} (hs : 0 ≤ s) (ht : 0 ≤ t) {u : Fin d → ℝ} (hu : u ∈ cube d) :
    |claytonLL s u - claytonLL t u| ≤ ((d : ℝ) * d + (d + 1) + d * (d + 1) + d) * |s - t| * logEnv u := by
  have hx := negLog_nonneg hu
  have h0 : |∑ j ∈ range (d - 1), Real.log (1 + s * ((j : ℝ) + 1)) - ∑ j ∈ range (d - 1), Real.log (1 + t * ((j : ℝ) + 1))| ≤
      d * d * |s - t| := by
    rw [← sum_sub_distrib]
    refine (abs_sum_le_sum_abs _ _).trans ?_
    have : ∀ j ∈ range (d - 1), |Real.log (1 + s * ((j : ℝ) + 1)) - Real.log (1 + t * ((j : ℝ) + 1))| ≤ d * |s - t| := fun j hj => by
      refine (log_one_add_lip hs ht (by positivity)).trans (mul_le_mul_of_nonneg_right ?_ (abs_nonneg _))
      have : j + 1 ≤ d := by have := mem_range.mp hj; omega
      exact_mod_cast this
    refine (sum_le_sum this).trans ?_
    rw [sum_const, card_range, nsmul_eq_mul, mul_assoc]
    refine mul_le_mul_of_nonneg_right ?_ (by positivity)
    exact_mod_cast Nat.sub_le d 1
  have h1 := logExpSum_lip hx hs ht
  have h2 := meanExp_lip hx hs ht
  have e : claytonLL s u - claytonLL t u =
      (∑ j ∈ range (d - 1), Real.log (1 + s * ((j : ℝ) + 1)) - ∑ j ∈ range (d - 1), Real.log (1 + t * ((j : ℝ) + 1))) +
      (s - t) * ∑ j, negLog u j - d * (Real.log (expSum s (negLog u)) - Real.log (expSum t (negLog u))) -
      (meanExp s (negLog u) - meanExp t (negLog u)) := by
    unfold claytonLL
    ring
  rw [e]
  have hd : (0 : ℝ) ≤ d := Nat.cast_nonneg d
  have hS : 0 ≤ ∑ j, negLog u j := sum_nonneg fun j _ => hx j
  have k1 := negLog_sum_le u
  have k2 := negLog_sq_le u
  have kE : 1 ≤ logEnv u := by
    have : 0 ≤ ∑ j, Real.log (u j) ^ 2 := sum_nonneg fun j _ => sq_nonneg _
    unfold logEnv
    linarith
  have ha : 0 ≤ |s - t| := abs_nonneg _
  refine (abs_sub _ _).trans ((add_le_add ((abs_sub _ _).trans (add_le_add (abs_add_le _ _) le_rfl)) le_rfl).trans ?_)
  rw [abs_mul, abs_mul, abs_of_nonneg hd, abs_of_nonneg hS]
  have m0 : (d : ℝ) * d * |s - t| ≤ d * d * |s - t| * logEnv u := le_mul_of_one_le_right (by positivity) kE
  have m1 := mul_le_mul_of_nonneg_left k1 ha
  have m2 := mul_le_mul_of_nonneg_left (h1.trans (mul_le_mul_of_nonneg_right k1 ha)) hd
  have m3 := h2.trans (mul_le_mul_of_nonneg_right k2 ha)
  calc _ ≤ d * d * |s - t| * logEnv u + |s - t| * ((d + 1) * logEnv u) + d * ((d + 1) * logEnv u * |s - t|) + d * logEnv u * |s - t| := by
        linarith
    _ = _ := by ring

/-- Large parameters. -/
theorem claytonLL_tail (h2 : 2 ≤ d) {θ : ℝ} (hθ : 1 ≤ θ) {u : Fin d → ℝ} (hu : u ∈ cube d) :
    claytonLL θ u ≤ d * Real.log (1 + d * θ) + (d + 1) * logEnv u -
      θ * |Real.log (u ⟨0, by omega⟩) - Real.log (u ⟨1, by omega⟩)| := by
  have hx := negLog_nonneg hu
  have hθ0 : 0 ≤ θ := by linarith
  obtain ⟨a, ha⟩ : ∃ a : Fin d, a = ⟨0, by omega⟩ := ⟨_, rfl⟩
  obtain ⟨b, hb⟩ : ∃ b : Fin d, b = ⟨1, by omega⟩ := ⟨_, rfl⟩
  have hab : a ≠ b := by rw [ha, hb]; simp
  rw [← ha, ← hb]
  have hg : ∀ j, θ * negLog u j ≤ Real.log (expSum θ (negLog u)) := fun j => by
    have := Real.log_le_log (Real.exp_pos _) (exp_le_expSum hθ0 hx j)
    rwa [Real.log_exp] at this
  have h0 : ∑ j ∈ range (d - 1), Real.log (1 + θ * ((j : ℝ) + 1)) ≤ d * Real.log (1 + d * θ) := by
    have : ∀ j ∈ range (d - 1), Real.log (1 + θ * ((j : ℝ) + 1)) ≤ Real.log (1 + d * θ) := fun j hj => by
      have h : j + 1 ≤ d := by have := mem_range.mp hj; omega
      have h' : (j : ℝ) + 1 ≤ d := by exact_mod_cast h
      refine Real.log_le_log (by positivity) ?_
      have := mul_le_mul_of_nonneg_left h' hθ0
      linarith
    refine (sum_le_sum this).trans ?_
    rw [sum_const, card_range, nsmul_eq_mul]
    refine mul_le_mul_of_nonneg_right ?_ (Real.log_nonneg (by have : 0 ≤ (d : ℝ) * θ := by positivity
                                                              linarith))
    exact_mod_cast Nat.sub_le d 1
  have h1 : θ * (∑ j, negLog u j + |negLog u a - negLog u b|) ≤ d * Real.log (expSum θ (negLog u)) := by
    have hsum : ∀ f : Fin d → ℝ, ∑ j, f j = ∑ j ∈ (univ.erase a).erase b, f j + f a + f b := fun f => by
      rw [← sum_erase_add _ _ (mem_univ a), ← sum_erase_add (univ.erase a) _ (mem_erase.mpr ⟨hab.symm, mem_univ b⟩)]
      ring
    have e : (d : ℝ) * Real.log (expSum θ (negLog u)) = ∑ _j : Fin d, Real.log (expSum θ (negLog u)) := by simp
    rw [e, hsum (fun _ => Real.log (expSum θ (negLog u))), hsum (negLog u)]
    have h3 : θ * ∑ j ∈ (univ.erase a).erase b, negLog u j ≤ ∑ j ∈ (univ.erase a).erase b, Real.log (expSum θ (negLog u)) := by
      rw [mul_sum]
      exact sum_le_sum fun j _ => hg j
    have ga := hg a
    have gb := hg b
    rcases abs_cases (negLog u a - negLog u b) with ⟨h, _⟩ | ⟨h, _⟩ <;> rw [h] <;> nlinarith
  have h4 : 0 ≤ meanExp θ (negLog u) := by
    rw [meanExp, if_neg (by linarith)]
    exact div_nonneg (Real.log_nonneg (one_le_expSum hθ0 hx)) hθ0
  rw [show |negLog u a - negLog u b| = |Real.log (u a) - Real.log (u b)| by
    rw [negLog, negLog, neg_sub_neg, abs_sub_comm]] at h1
  have k1 := negLog_sum_le u
  unfold claytonLL
  nlinarith

theorem log_small {c κ : ℝ} (hc : 0 < c) (hκ : 0 < κ) : ∃ b', ∀ θ, b' ≤ θ → c * Real.log (1 + c * θ) ≤ κ * θ := by
  obtain ⟨K, hK⟩ : ∃ K : ℝ, K = 2 * c * c / κ := ⟨_, rfl⟩
  have hK0 : 0 < K := by rw [hK]; positivity
  refine ⟨max 0 (2 * (c / K + c * Real.log K) / κ), fun θ hθ => ?_⟩
  have h0 : 0 ≤ θ := (le_max_left _ _).trans hθ
  have h1 := (le_max_right _ _).trans hθ
  rw [div_le_iff₀ hκ] at h1
  have hp : 0 < 1 + c * θ := by positivity
  have h2 := Real.log_le_sub_one_of_pos (div_pos hp hK0)
  rw [Real.log_div hp.ne' hK0.ne'] at h2
  have h3 : c * (c * θ / K) = κ * θ / 2 := by
    rw [hK]
    field_simp
  have h4 : (1 + c * θ) / K = 1 / K + c * θ / K := add_div _ _ _
  have h5 : c * (1 / K) = c / K := by ring
  rw [h4] at h2
  have h6 := mul_le_mul_of_nonneg_left h2 hc.le
  nlinarith

/-- Different densities: the mean logarithm is larger for the density of the law. -/
theorem log_mean_lt {X : Type} [MeasurableSpace X] {ν P P' : Measure X} {g g' f f' : X → ℝ} (h : DensityOf ν P g) (h' : DensityOf ν P' g')
    [IsProbabilityMeasure P] [IsProbabilityMeasure P'] (hne : P ≠ P') (hf : Integrable f P) (hf' : Integrable f' P)
    (hg : ∀ᵐ x ∂P, g x = Real.exp (f x)) (hg' : ∀ᵐ x ∂P, g' x = Real.exp (f' x)) : ∫ x, f' x ∂P < ∫ x, f x ∂P := by
  have ha := affinity_lt_one h h' hne
  have hi : Integrable (rootRatio g g') P := (rootRatio_memLp h h').integrable one_le_two
  have hle : ∫ x, (f' x - f x) ∂P ≤ ∫ x, (2 * (rootRatio g g' x - 1)) ∂P := by
    refine integral_mono_ae (hf'.sub hf) ((hi.sub (integrable_const 1)).const_mul 2) ?_
    filter_upwards [hg, hg'] with x h1 h2
    have e : rootRatio g g' x = Real.exp ((f' x - f x) / 2) := by
      rw [rootRatio, h1, h2, ← Real.exp_sub, Real.exp_half]
    have := Real.add_one_le_exp ((f' x - f x) / 2)
    rw [e]
    linarith
  rw [integral_sub hf' hf, integral_const_mul, integral_sub hi (integrable_const 1)] at hle
  simp only [integral_const, probReal_univ, smul_eq_mul, mul_one] at hle
  linarith

/-- Coordinates of a law with a density differ almost surely. -/
theorem coords_ne {P : Measure (Fin d → ℝ)} {g : (Fin d → ℝ) → ℝ}
    (h : DensityOf (MeasureTheory.volume.restrict {u : Fin d → ℝ | ∀ j, 0 < u j ∧ u j < 1}) P g) {a b : Fin d} (hab : a ≠ b) :
    ∀ᵐ u ∂P, u a ≠ u b := by
  have hv : ∀ᵐ u : Fin d → ℝ ∂MeasureTheory.volume, u a ≠ u b := by
    let V : Submodule ℝ (Fin d → ℝ) := LinearMap.ker (LinearMap.proj (R := ℝ) (φ := fun _ : Fin d => ℝ) a - LinearMap.proj b)
    have hV : V ≠ ⊤ := fun htop => by
      have : (Pi.single a 1 : Fin d → ℝ) ∈ V := htop ▸ Submodule.mem_top
      simp [V, LinearMap.mem_ker, hab.symm] at this
    have h0 := Measure.addHaar_submodule (MeasureTheory.volume : Measure (Fin d → ℝ)) V hV
    rw [ae_iff]
    refine measure_mono_null (fun u hu => ?_) h0
    have hu' : u a = u b := not_not.mp hu
    simp [V, LinearMap.mem_ker, hu']
  exact h.ac.ae_le (ae_restrict_of_ae hv)

theorem indep_densityOf : DensityOf (MeasureTheory.volume.restrict {u : Fin d → ℝ | ∀ j, 0 < u j ∧ u j < 1}) (iid d unif) fun _ => 1 := by
  refine ⟨aemeasurable_const, ae_of_all _ fun _ => zero_le_one, ?_⟩
  rw [iid_unif]
  simp only [ENNReal.ofReal_one]
  exact withDensity_one.symm

theorem clayton_densityOf {θ : ℝ} (hθ : 0 < θ) (h2 : 2 ≤ d) {P : Measure (Fin d → ℝ)} [IsProbabilityMeasure P]
    (hP : IsLawOf P (Family.copula .clayton θ)) :
    ∃ g, DensityOf (MeasureTheory.volume.restrict {u : Fin d → ℝ | ∀ j, 0 < u j ∧ u j < 1}) P g ∧
      ∀ u ∈ cube d, g u = Real.exp (claytonLL θ u) := by
  obtain ⟨g, hg, hden⟩ := clayton_pdf_density hθ h2
  refine ⟨g, densityOf_cube (hden P hP), fun u hu => ?_⟩
  have h1 := (hg 1 (fun _ => u) fun _ => hu).1
  have h3 := (clayton_pdfComputes hθ (d := d) 1 (fun _ => u) fun _ => hu).1
  have h4 := congrFun (Except.ok.inj (h1.symm.trans h3)) 0
  rw [claytonLL_eq hθ hu]
  exact Fl.fin.inj h4

/-- The log-density of the Clayton copula as a criterion for data from a Clayton copula. -/
theorem clayton_contrast {θ₀ : ℝ} (hθ : 0 < θ₀) (h2 : 2 ≤ d) {P : Measure (Fin d → ℝ)} [IsProbabilityMeasure P]
    (hP : IsLawOf P (Family.copula .clayton θ₀)) (hU : Uniform P) : Contrast P (claytonLL (d := d)) 0 θ₀ := by
  have hd0 : (0 : ℝ) ≤ d := Nat.cast_nonneg d
  have hd1 : (0 : ℝ) < d := by exact_mod_cast (by omega : 0 < d)
  have hae := uniform_ae' hU
  obtain ⟨g, hg, hgl⟩ := clayton_densityOf hθ h2 hP
  have hint : ∀ θ, 0 ≤ θ → Integrable (claytonLL (d := d) θ) P := fun θ h =>
    ((claytonLL_logLip h).memLp hU (measurable_claytonLL θ)).integrable one_le_two
  have hadm : ∀ {θ : ℝ}, 0 < θ → Copulae.Admissible .clayton θ d := fun {θ} h => ⟨h2, h.ne', by linarith, fun _ => h⟩
  refine ⟨hθ.le, fun θ _ => measurable_claytonLL θ, fun θ h => ⟨_, claytonLL_logLip h⟩, fun b => ?_, fun θ h hne => ?_, ?_⟩
  · exact ⟨(d : ℝ) * d + (d + 1) + d * (d + 1) + d, by positivity, fun s t hs _ ht _ u hu => claytonLL_par hs ht hu⟩
  · rcases h.eq_or_lt with rfl | h
    · refine log_mean_lt hg indep_densityOf ?_ (hint _ hθ.le) (hint 0 le_rfl) (hae.mono fun u hu => hgl u hu) (ae_of_all _ fun u => ?_)
      · have hg1 : Copulae.Admissible .gumbel 1 d := ⟨h2, le_refl (1 : ℝ)⟩
        exact arch_laws_differ (hadm hθ) hg1 hP (indep_gumbel indep_isLaw) (by simp)
      · rw [claytonLL_zero, Real.exp_zero]
    · obtain ⟨P', hP'⟩ := arch_law_exists (hadm h)
      have := hP'.prob
      obtain ⟨g', hg', hgl'⟩ := clayton_densityOf h h2 hP'
      exact log_mean_lt hg hg' (arch_laws_differ (hadm hθ) (hadm h) hP hP' fun e => hne e.2.symm) (hint _ hθ.le) (hint _ h.le)
        (hae.mono fun u hu => hgl u hu) (hae.mono fun u hu => hgl' u hu)
  · have hDL : LogLip 1 fun u : Fin d → ℝ => |Real.log (u ⟨0, by omega⟩) - Real.log (u ⟨1, by omega⟩)| := by
      intro u _ v _
      have hab : (⟨0, by omega⟩ : Fin d) ≠ ⟨1, by omega⟩ := by simp
      generalize (⟨0, _⟩ : Fin d) = a at hab ⊢
      generalize (⟨1, _⟩ : Fin d) = b at hab ⊢
      have h3 : |Real.log (u a) - Real.log (v a)| + |Real.log (u b) - Real.log (v b)| ≤ ∑ j, |Real.log (u j) - Real.log (v j)| := by
        rw [← sum_pair hab (f := fun j => |Real.log (u j) - Real.log (v j)|)]
        exact sum_le_sum_of_subset_of_nonneg (subset_univ _) fun j _ _ => abs_nonneg _
      have h4 := abs_abs_sub_abs_le (Real.log (u a) - Real.log (u b)) (Real.log (v a) - Real.log (v b))
      have h5 : |Real.log (u a) - Real.log (u b) - (Real.log (v a) - Real.log (v b))| ≤
          |Real.log (u a) - Real.log (v a)| + |Real.log (u b) - Real.log (v b)| := by
        rw [show Real.log (u a) - Real.log (u b) - (Real.log (v a) - Real.log (v b)) =
          (Real.log (u a) - Real.log (v a)) - (Real.log (u b) - Real.log (v b)) by ring]
        exact abs_sub _ _
      linarith
    have hDm : Measurable fun u : Fin d → ℝ => |Real.log (u ⟨0, by omega⟩) - Real.log (u ⟨1, by omega⟩)| :=
      measurable_abs.comp ((Real.measurable_log.comp (measurable_pi_apply _)).sub (Real.measurable_log.comp (measurable_pi_apply _)))
    refine ⟨fun u => |Real.log (u ⟨0, by omega⟩) - Real.log (u ⟨1, by omega⟩)|, fun θ => d * Real.log (1 + d * θ), d + 1, 1, by positivity,
      zero_le_one, hDm, ⟨1, hDL⟩, ?_, fun κ hκ => log_small hd1 hκ, fun θ h u hu => claytonLL_tail h2 h hu⟩
    have hDi := (hDL.memLp hU hDm).integrable one_le_two
    rw [integral_pos_iff_support_of_nonneg (fun u => abs_nonneg _) hDi]
    refine (lt_of_lt_of_eq one_pos ?_)
    symm
    rw [← prob_compl_eq_zero_iff (measurableSet_support hDm)]
    have hne := coords_ne hg (a := (⟨0, by omega⟩ : Fin d)) (b := ⟨1, by omega⟩) (by simp)
    rw [ae_iff] at hne
    have hae' := ae_iff.mp hae
    refine measure_mono_null (t := {u | ¬ ∀ j, 0 < u j ∧ u j < 1} ∪ {u | ¬ u ⟨0, by omega⟩ ≠ u ⟨1, by omega⟩}) (fun u hu => ?_)
      (measure_union_null hae' hne)
    by_contra hcon
    simp only [Set.mem_union, not_or] at hcon
    obtain ⟨c1, c2⟩ := hcon
    have c1' : ∀ j, 0 < u j ∧ u j < 1 := not_not.mp c1
    have c2' : u ⟨0, by omega⟩ ≠ u ⟨1, by omega⟩ := not_not.mp c2
    refine hu ?_
    rw [Function.mem_support]
    refine abs_ne_zero.mpr (sub_ne_zero.mpr fun e => c2' ?_)
    exact Real.log_injOn_pos (c1' _).1 (c1' _).1 e

end Copulae
