import Verif.Lemmas.EllFns
import Verif.Lemmas.ListPolyPos
import Mathlib.MeasureTheory.Integral.IntervalIntegral.FundThmCalculus
import Mathlib.Analysis.SpecialFunctions.ExpDeriv
import Mathlib.Analysis.Real.Pi.Bounds

/-!
The approximation 7.1.25 of Abramowitz and Stegun for the normal distribution function: monotonicity and error.
-/

namespace Copulae

open MeasureTheory ProbabilityTheory Set

/-! ### The normal distribution function -/

theorem normCdf_eq_integral (x : ℝ) : normCdf x = ∫ t in Iic x, gaussianPDFReal 0 1 t := by
  rw [normCdf, measureReal_def, gaussianReal_apply_eq_integral _ one_ne_zero, ENNReal.toReal_ofReal]
  exact setIntegral_nonneg measurableSet_Iic fun t _ => gaussianPDFReal_nonneg _ _ _

theorem continuous_gaussianPDFReal' : Continuous (gaussianPDFReal 0 1) := by
  rw [gaussianPDFReal_def]
  fun_prop

theorem normCdf_hasDerivAt (x : ℝ) : HasDerivAt normCdf (gaussianPDFReal 0 1 x) x := by
  have hi := integrable_gaussianPDFReal 0 1
  have e : normCdf = fun x => normCdf 0 + ∫ t in (0 : ℝ)..x, gaussianPDFReal 0 1 t := by
    funext y
    rw [normCdf_eq_integral, normCdf_eq_integral,
      ← intervalIntegral.integral_Iic_sub_Iic hi.integrableOn hi.integrableOn]
    ring
  rw [e]
  refine HasDerivAt.const_add _ ?_
  exact intervalIntegral.integral_hasDerivAt_right (continuous_gaussianPDFReal'.intervalIntegrable _ _)
    (continuous_gaussianPDFReal'.stronglyMeasurableAtFilter _ _) continuous_gaussianPDFReal'.continuousAt

theorem gaussianPDFReal_std (x : ℝ) : gaussianPDFReal 0 1 x = (√(2 * Real.pi))⁻¹ * Real.exp (-x ^ 2 / 2) := by
  rw [gaussianPDFReal_def]
  simp

theorem normCdf_neg (x : ℝ) : normCdf (-x) = 1 - normCdf x := by
  have hatom : NullSingletonClass (gaussianReal 0 1) := nullSingletonClass_gaussianReal one_ne_zero
  have hsym : (gaussianReal 0 1).map (fun x => -x) = gaussianReal 0 1 := by
    rw [gaussianReal_map_neg, neg_zero]
  have h2 : (gaussianReal 0 1).real (Iic (-x)) = (gaussianReal 0 1).real (Ici x) := by
    conv_lhs => rw [← hsym]
    rw [map_measureReal_apply measurable_neg measurableSet_Iic]
    congr 1
    ext y
    simp
  have h3 : (gaussianReal 0 1).real (Ici x) = 1 - (gaussianReal 0 1).real (Iio x) := by
    rw [← compl_Iio, measureReal_compl measurableSet_Iio]
    simp
  have h4 : (gaussianReal 0 1).real (Iio x) = (gaussianReal 0 1).real (Iic x) :=
    measureReal_congr Iio_ae_eq_Iic
  rw [normCdf, h2, h3, h4, normCdf]

theorem normCdf_zero : normCdf 0 = 1 / 2 := by
  have := normCdf_neg 0
  rw [neg_zero] at this
  linarith

/-! ### The approximation -/

/-- `a1 t + a2 t² + a3 t³`. -/
noncomputable def asPoly (t : ℝ) : ℝ := 0.3480242 * t + (-0.0958798) * t ^ 2 + 0.7478556 * t ^ 3

/-- `1 / (1 + rho |z|)`. -/
noncomputable def asT (z : ℝ) : ℝ := 1 / (1 + 0.47047 * |z|)

/-- Approximation of half the complementary error function at `|z|`. -/
noncomputable def asErf (z : ℝ) : ℝ := 0.5 * asPoly (asT z) * Real.exp (-|z| ^ 2)

/-- Approximation of the normal distribution function at `√2 z`. -/
noncomputable def asNdtr (z : ℝ) : ℝ := if z < 0 then asErf z else 1 - asErf z

theorem asT_mem (z : ℝ) : 0 < asT z ∧ asT z ≤ 1 := by
  have h : 0 ≤ 0.47047 * |z| := by positivity
  constructor
  · unfold asT; positivity
  · unfold asT
    rw [div_le_one (by linarith)]
    linarith

theorem asPoly_mono {s t : ℝ} (h : s < t) : asPoly s < asPoly t := by
  unfold asPoly
  have h2 : 0 < 0.3480242 + (-0.0958798) * (t + s) + 0.7478556 * (t ^ 2 + t * s + s ^ 2) := by
    nlinarith [sq_nonneg (t - s), sq_nonneg (t + s - 0.1)]
  nlinarith [mul_pos (sub_pos.mpr h) h2]

theorem asPoly_pos {t : ℝ} (h : 0 < t) : 0 < asPoly t := by
  have := asPoly_mono h
  simpa [asPoly] using this

theorem asErf_pos (z : ℝ) : 0 < asErf z :=
  mul_pos (mul_pos (by norm_num) (asPoly_pos (asT_mem z).1)) (Real.exp_pos _)

theorem asErf_zero : asErf 0 = 1 / 2 := by
  simp only [asErf, asT, asPoly, abs_zero]
  norm_num

theorem asErf_anti {y z : ℝ} (h0 : 0 ≤ y) (h : y < z) : asErf z < asErf y := by
  have hz : |z| = z := abs_of_nonneg (h0.trans h.le)
  have hy : |y| = y := abs_of_nonneg h0
  have ht : asT z < asT y := by
    unfold asT
    rw [hz, hy]
    exact one_div_lt_one_div_of_lt (by linarith) (by linarith)
  unfold asErf
  have h1 : 0.5 * asPoly (asT z) < 0.5 * asPoly (asT y) := by linarith [asPoly_mono ht]
  have h2 : Real.exp (-|z| ^ 2) ≤ Real.exp (-|y| ^ 2) := by
    rw [Real.exp_le_exp, hz, hy]
    nlinarith
  exact mul_lt_mul h1 h2 (Real.exp_pos _) (mul_pos (by norm_num) (asPoly_pos (asT_mem y).1)).le

theorem asErf_le (z : ℝ) : asErf z ≤ 1 / 2 := by
  have e : asErf z = asErf |z| := by simp [asErf, asT]
  rcases (abs_nonneg z).eq_or_lt with h | h
  · rw [e, ← h, asErf_zero]
  · rw [e, ← asErf_zero]
    exact (asErf_anti le_rfl h).le

theorem asNdtr_neg (z : ℝ) (hz : z ≠ 0) : asNdtr (-z) = 1 - asNdtr z := by
  have e : asErf (-z) = asErf z := by simp [asErf, asT]
  rcases lt_or_gt_of_ne hz with h | h
  · rw [asNdtr, asNdtr, if_neg (by linarith), if_pos h, e]
  · rw [asNdtr, asNdtr, if_pos (by linarith), if_neg (by linarith), e]
    ring

theorem asNdtr_neg' (z : ℝ) : asNdtr (-z) = 1 - asNdtr z := by
  by_cases h : z = 0
  · subst h
    simp [asNdtr, asErf_zero]
    norm_num
  · exact asNdtr_neg z h

theorem asNdtr_mem (z : ℝ) : 0 < asNdtr z ∧ asNdtr z < 1 := by
  have h1 := asErf_pos z
  have h2 := asErf_le z
  unfold asNdtr
  split_ifs <;> constructor <;> linarith

theorem asNdtr_strictMono : StrictMono asNdtr := by
  have hpos : ∀ y z : ℝ, 0 ≤ y → y < z → asNdtr y < asNdtr z := by
    intro y z h0 h
    rw [asNdtr, asNdtr, if_neg (by linarith), if_neg (by linarith)]
    linarith [asErf_anti h0 h]
  intro y z h
  rcases le_or_gt 0 y with h0 | h0
  · exact hpos y z h0 h
  · rcases le_or_gt z 0 with h1 | h1
    · have := hpos (-z) (-y) (by linarith) (by linarith)
      rw [asNdtr_neg', asNdtr_neg'] at this
      linarith
    · have h2 := hpos 0 z le_rfl h1
      have h3 := hpos 0 (-y) le_rfl (by linarith)
      rw [asNdtr_neg'] at h3
      have : asNdtr 0 = 1 / 2 := by rw [asNdtr, if_neg (lt_irrefl _), asErf_zero]; norm_num
      linarith

theorem asErf_continuous : Continuous asErf := by
  have ht : Continuous asT := by
    unfold asT
    refine continuous_const.div (by fun_prop) fun z => ?_
    have : 0 ≤ 0.47047 * |z| := by positivity
    linarith
  unfold asErf asPoly
  fun_prop

theorem asNdtr_continuous : Continuous asNdtr := by
  unfold asNdtr
  refine Continuous.if ?_ asErf_continuous (continuous_const.sub asErf_continuous)
  intro a ha
  have h : frontier {z : ℝ | z < 0} = {0} := frontier_Iio
  rw [h, mem_singleton_iff] at ha
  subst ha
  rw [asErf_zero]
  norm_num

/-! ### Its error -/

open LP

/-- A polynomial for which the error is much smaller. -/
def finePoly : List ℚ := [0.26543389, 0.26549864, 0.23432441, 0.19491099, 0.01164571, 0.2538727, -0.37070708,
  0.1723391, -0.02731841]

/-- The polynomial of the formula. -/
def asPolyQ : List ℚ := [0, 0.3480242, -0.0958798, 0.7478556]

theorem asPolyQ_eval (t : ℝ) : eval asPolyQ t = asPoly t := by
  simp only [asPolyQ, eval_cons, eval_nil, asPoly]
  push_cast
  ring

/-- Twice the derivative of the error, without the factor `exp (-z²)`, up to the constant `2 / √π`. -/
def fineDefect : List ℚ :=
  add (mul [2 / 0.47047, -2 / 0.47047] finePoly) (mul [0, 0, 0.47047] (derivL (0 :: finePoly)))

theorem fineDefect_upper : posOn 12 (add [1.1283791671 + 0.0000018] (smul (-1) fineDefect)) (1 / 2) (1 / 2) = true := by
  decide +kernel

theorem fineDefect_lower : posOn 12 (add [-1.1283791671 + 0.0000018] fineDefect) (1 / 2) (1 / 2) = true := by
  decide +kernel

/-- Powers of a polynomial. -/
def powL (p : List ℚ) : ℕ → List ℚ
  | 0 => [1]
  | k + 1 => mul p (powL p k)

theorem eval_powL (p : List ℚ) (k : ℕ) (t : ℝ) : eval (powL p k) t = eval p t ^ k := by
  induction k with
  | zero => simp [powL]
  | succ k ih => rw [powL, eval_mul, ih, pow_succ']

/-- `t^(2k) Σ_{i ≤ k} z^(2i) / i!` for `t = 1 / (1 + rho z)`. -/
def expT : ℕ → List ℚ
  | 0 => [1]
  | k + 1 => add (mul [0, 0, 1] (expT k))
    (smul (1 / (Nat.factorial (k + 1) : ℚ)) (powL [1 / 0.47047, -1 / 0.47047] (2 * (k + 1))))

theorem eval_expT {z : ℝ} (h0 : 0 ≤ z) (k : ℕ) :
    eval (expT k) (asT z) = asT z ^ (2 * k) * ∑ i ∈ Finset.range (k + 1), (z ^ 2) ^ i / (Nat.factorial i : ℝ) := by
  have ht := asT_mem z
  have hz : (1 - asT z) / 0.47047 = asT z * z := by
    unfold asT
    rw [abs_of_nonneg h0]
    have : (1 : ℝ) + 0.47047 * z ≠ 0 := by positivity
    field_simp
    ring
  induction k with
  | zero => simp [expT]
  | succ k ih =>
    rw [expT, eval_add, eval_mul, ih, eval_smul, eval_powL, Finset.sum_range_succ _ (k + 1)]
    have e : eval [1 / 0.47047, -1 / 0.47047] (asT z) = asT z * z := by
      rw [← hz]
      simp only [eval_cons, eval_nil]
      push_cast
      ring
    rw [e]
    simp only [eval_cons, eval_nil]
    push_cast
    rw [mul_pow, pow_mul z 2 (k + 1), show 2 * (k + 1) = 2 * k + 2 by ring, pow_add]
    ring

/-- The difference of the two polynomials times `t¹²`. -/
def diffT : List ℚ := mul (powL [0, 1] 12) (add asPolyQ (smul (-1) (0 :: finePoly)))

theorem diffT_upper : posOn 9 (add (smul 0.0000225 (expT 6)) (smul (-1) diffT)) (1 / 2) (1 / 2) = true := by
  decide +kernel

theorem diffT_lower : posOn 9 (add (smul 0.0000225 (expT 6)) diffT) (1 / 2) (1 / 2) = true := by
  decide +kernel

/-- The formula with the finer polynomial. -/
noncomputable def fineErf (z : ℝ) : ℝ := 0.5 * eval (0 :: finePoly) (asT z) * Real.exp (-|z| ^ 2)

theorem asErf_fineErf {z : ℝ} (h0 : 0 ≤ z) : |asErf z - fineErf z| ≤ 0.00001125 := by
  have ht := asT_mem z
  have hu := posOn_unit 9 diffT_upper ht.1.le ht.2
  have hl := posOn_unit 9 diffT_lower ht.1.le ht.2
  have e : eval diffT (asT z) = asT z ^ 12 * (asPoly (asT z) - eval (0 :: finePoly) (asT z)) := by
    rw [diffT, eval_mul, eval_powL, eval_add, eval_smul, asPolyQ_eval]
    simp only [eval_cons, eval_nil]
    push_cast
    ring
  rw [eval_add, eval_smul, eval_smul, eval_expT h0, e] at hu
  rw [eval_add, eval_smul, eval_expT h0, e] at hl
  have h12 : 0 < asT z ^ 12 := pow_pos ht.1 12
  have hexp : ∑ i ∈ Finset.range (6 + 1), (z ^ 2) ^ i / (Nat.factorial i : ℝ) ≤ Real.exp (z ^ 2) :=
    Real.sum_le_exp_of_nonneg (sq_nonneg z) _
  set E := ∑ i ∈ Finset.range (6 + 1), (z ^ 2) ^ i / (Nat.factorial i : ℝ)
  set A := asPoly (asT z) - eval (0 :: finePoly) (asT z) with hA
  have h1 : A ≤ 0.0000225 * E := by
    push_cast at hu
    have : 0 ≤ asT z ^ 12 * (0.0000225 * E - A) := by
      refine hu.trans_eq ?_
      norm_num
      ring
    linarith [nonneg_of_mul_nonneg_right this h12]
  have h2 : -(0.0000225 * E) ≤ A := by
    push_cast at hl
    have : 0 ≤ asT z ^ 12 * (0.0000225 * E + A) := by
      refine hl.trans_eq ?_
      norm_num
      ring
    linarith [nonneg_of_mul_nonneg_right this h12]
  have h3 : |A| ≤ 0.0000225 * Real.exp (z ^ 2) := by
    rw [abs_le]
    constructor <;> linarith
  have e2 : asErf z - fineErf z = 0.5 * A * Real.exp (-z ^ 2) := by
    rw [asErf, fineErf, hA, abs_of_nonneg h0]
    ring
  rw [e2, abs_mul, abs_mul, abs_of_pos (Real.exp_pos _), abs_of_pos (by norm_num : (0 : ℝ) < 0.5)]
  calc 0.5 * |A| * Real.exp (-z ^ 2) ≤ 0.5 * (0.0000225 * Real.exp (z ^ 2)) * Real.exp (-z ^ 2) := by gcongr
    _ = 0.00001125 * (Real.exp (z ^ 2) * Real.exp (-z ^ 2)) := by ring
    _ = 0.00001125 := by rw [← Real.exp_add]; simp

theorem two_div_sqrt_pi : |2 / √Real.pi - 1.1283791671| ≤ 1 / 10 ^ 8 := by
  have h1 := Real.pi_gt_d20
  have h2 := Real.pi_lt_d20
  have ha : √Real.pi < 1.77245386 := by
    rw [Real.sqrt_lt' (by norm_num)]
    linarith
  have hb : 1.772453849 < √Real.pi := by
    rw [Real.lt_sqrt (by norm_num)]
    linarith
  have hp : 0 < √Real.pi := by linarith
  rw [abs_le]
  constructor
  · rw [le_sub_iff_add_le, le_div_iff₀ hp]
    nlinarith
  · rw [sub_le_iff_le_add, div_le_iff₀ hp]
    nlinarith

/-- Error of the formula with the finer polynomial. -/
noncomputable def fineErr (z : ℝ) : ℝ := 1 - fineErf z - normCdf (√2 * z)

theorem exp_half_sq (z : ℝ) : gaussianPDFReal 0 1 (√2 * z) * √2 = (√Real.pi)⁻¹ * Real.exp (-z ^ 2) := by
  rw [gaussianPDFReal_std, Real.sqrt_mul (by norm_num), mul_pow, Real.sq_sqrt (by norm_num)]
  have : √(2 : ℝ) ≠ 0 := by positivity
  have e : -(2 * z ^ 2) / 2 = -z ^ 2 := by ring
  rw [e]
  field_simp

theorem fineErr_hasDerivAt {z : ℝ} (h0 : 0 < z) :
    HasDerivAt fineErr (0.5 * Real.exp (-z ^ 2) * (eval fineDefect (asT z) - 2 / √Real.pi)) z := by
  have habs : ∀ᶠ y in nhds z, |y| = y := by
    filter_upwards [lt_mem_nhds h0] with y hy
    exact abs_of_pos hy
  have hne : (1 : ℝ) + 0.47047 * z ≠ 0 := by positivity
  have ht : HasDerivAt (fun y : ℝ => 1 / (1 + 0.47047 * y)) (-0.47047 * (1 / (1 + 0.47047 * z)) ^ 2) z := by
    have h1 : HasDerivAt (fun y : ℝ => 1 + 0.47047 * y) (0.47047 * 1) z :=
      ((hasDerivAt_id z).const_mul 0.47047).const_add 1
    have := h1.inv hne
    simp only [one_div]
    refine this.congr_deriv ?_
    field_simp
  have hexp : HasDerivAt (fun y : ℝ => Real.exp (-y ^ 2)) (Real.exp (-z ^ 2) * (-(2 * z))) z := by
    have := ((hasDerivAt_pow 2 z).neg).exp
    refine this.congr_deriv ?_
    simp
  have hpoly := (eval_hasDerivAt (0 :: finePoly) (1 / (1 + 0.47047 * z))).comp z ht
  have hfine := (hpoly.const_mul 0.5).mul hexp
  have hn : HasDerivAt (fun y : ℝ => normCdf (√2 * y)) (gaussianPDFReal 0 1 (√2 * z) * (√2 * 1)) z :=
    (normCdf_hasDerivAt (√2 * z)).comp z ((hasDerivAt_id z).const_mul √2)
  have hall := (hfine.const_sub 1).sub hn
  have heq : fineErr =ᶠ[nhds z] fun y : ℝ =>
      1 - 0.5 * eval (0 :: finePoly) (1 / (1 + 0.47047 * y)) * Real.exp (-y ^ 2) - normCdf (√2 * y) := by
    filter_upwards [habs] with y hy
    rw [fineErr, fineErf, asT, hy]
  have htz : 1 / (1 + 0.47047 * z) = asT z := by rw [asT, abs_of_pos h0]
  refine (HasDerivAt.congr_of_eventuallyEq hall heq).congr_deriv ?_
  have hz : asT z * z = (1 - asT z) / 0.47047 := by
    rw [← htz]
    field_simp
    ring
  rw [mul_one, exp_half_sq, htz]
  simp only [Function.comp_apply, htz, fineDefect, eval_add, eval_mul, eval_cons, eval_nil, Rat.cast_zero, zero_add,
    mul_zero, add_zero]
  push_cast
  set t := asT z
  set S := eval finePoly t
  set S' := eval (derivL (0 :: finePoly)) t
  set G := Real.exp (-z ^ 2)
  linear_combination S * G * hz

theorem fineErr_bound {z : ℝ} (h0 : 0 ≤ z) : |fineErr z - fineErr 0| ≤ 0.00000091 := by
  have hπ := two_div_sqrt_pi
  have hπ2 : (1 : ℝ) / 2 ≤ (√Real.pi)⁻¹ := by
    rw [abs_le] at hπ
    have : 2 / √Real.pi = 2 * (√Real.pi)⁻¹ := by ring
    linarith [hπ.1]
  have hR : ∀ y, 0 < y → |eval fineDefect (asT y) - 2 / √Real.pi| ≤ 0.00000182 := by
    intro y hy
    have ht := asT_mem y
    have hu := posOn_unit 12 fineDefect_upper ht.1.le ht.2
    have hl := posOn_unit 12 fineDefect_lower ht.1.le ht.2
    rw [eval_add, eval_smul] at hu
    rw [eval_add] at hl
    simp only [eval_cons, eval_nil, mul_zero, add_zero] at hu hl
    push_cast at hu hl
    rw [abs_le] at hπ ⊢
    constructor <;> linarith [hπ.1, hπ.2]
  have hn : ∀ y, HasDerivAt (fun y : ℝ => normCdf (√2 * y)) ((√Real.pi)⁻¹ * Real.exp (-y ^ 2)) y := fun y => by
    refine ((normCdf_hasDerivAt (√2 * y)).comp y ((hasDerivAt_id y).const_mul √2)).congr_deriv ?_
    rw [mul_one, exp_half_sq]
  have hcont : Continuous fineErr := by
    have h1 : Continuous fun y : ℝ => normCdf (√2 * y) :=
      continuous_iff_continuousAt.mpr fun y => (hn y).continuousAt
    have ht : Continuous asT := by
      unfold asT
      refine continuous_const.div (by fun_prop) fun z => ?_
      have : 0 ≤ 0.47047 * |z| := by positivity
      linarith
    have h2 : Continuous fineErf := by
      unfold fineErf
      exact (continuous_const.mul ((continuous_eval _).comp ht)).mul (by fun_prop)
    exact (continuous_const.sub h2).sub h1
  have hncont : Continuous fun y : ℝ => normCdf (√2 * y) :=
    continuous_iff_continuousAt.mpr fun y => (hn y).continuousAt
  have hmono : ∀ s : ℝ, s = 1 ∨ s = -1 →
      MonotoneOn (fun y => s * fineErr y + 0.00000182 * normCdf (√2 * y)) (Ici 0) := by
    intro s hs
    have hd : ∀ y, 0 < y → HasDerivAt (fun y => s * fineErr y + 0.00000182 * normCdf (√2 * y))
        (s * (0.5 * Real.exp (-y ^ 2) * (eval fineDefect (asT y) - 2 / √Real.pi)) +
          0.00000182 * ((√Real.pi)⁻¹ * Real.exp (-y ^ 2))) y := fun y hy =>
      ((fineErr_hasDerivAt hy).const_mul s).add ((hn y).const_mul 0.00000182)
    refine monotoneOn_of_deriv_nonneg (convex_Ici 0)
      ((continuous_const.mul hcont).add (continuous_const.mul hncont)).continuousOn ?_ ?_
    · intro y hy
      rw [interior_Ici] at hy
      exact (hd y hy).differentiableAt.differentiableWithinAt
    · intro y hy
      rw [interior_Ici] at hy
      rw [(hd y hy).deriv]
      have h1 := hR y hy
      rw [abs_le] at h1
      have h2 := Real.exp_pos (-y ^ 2)
      have h3 : 0 ≤ s * (0.5 * (eval fineDefect (asT y) - 2 / √Real.pi)) + 0.00000182 * (√Real.pi)⁻¹ := by
        rcases hs with rfl | rfl <;> linarith [h1.1, h1.2]
      nlinarith [mul_nonneg h2.le h3]
  have hle : normCdf (√2 * z) - normCdf (√2 * 0) ≤ 1 / 2 := by
    rw [mul_zero, normCdf_zero]
    linarith [(normMargin.mem (√2 * z)).2]
  have hA := hmono 1 (Or.inl rfl) (mem_Ici.mpr le_rfl) (mem_Ici.mpr h0) h0
  have hB := hmono (-1) (Or.inr rfl) (mem_Ici.mpr le_rfl) (mem_Ici.mpr h0) h0
  simp only at hA hB
  rw [abs_le]
  constructor <;> linarith

theorem fineErr_zero : |fineErr 0| ≤ 0.0000001 := by
  rw [fineErr, mul_zero, normCdf_zero, fineErf, asT, abs_zero]
  simp only [finePoly, eval_cons, eval_nil]
  push_cast
  norm_num [abs_le]

/-- The error of the approximation, for all arguments. -/
theorem asNdtr_accurate (z : ℝ) : |asNdtr z - normCdf (√2 * z)| ≤ 0.0000123 := by
  have hpos : ∀ z : ℝ, 0 ≤ z → |asNdtr z - normCdf (√2 * z)| ≤ 0.0000123 := by
    intro z h0
    have h1 := asErf_fineErf h0
    have h2 := fineErr_bound h0
    have h3 := fineErr_zero
    have e : asNdtr z - normCdf (√2 * z) = fineErr z - (asErf z - fineErf z) := by
      rw [asNdtr, if_neg (not_lt.mpr h0), fineErr]
      ring
    rw [e]
    rw [abs_le] at h1 h2 h3 ⊢
    constructor <;> linarith [h1.1, h1.2, h2.1, h2.2, h3.1, h3.2]
  rcases le_total 0 z with h | h
  · exact hpos z h
  · have := hpos (-z) (by linarith)
    rw [asNdtr_neg', mul_neg, normCdf_neg] at this
    rw [← abs_neg]
    convert this using 2
    ring

/-- The factor 1.4142136 instead of the root of two. -/
theorem normCdf_scale (y : ℝ) : |normCdf (√2 * (y / 1.4142136)) - normCdf y| ≤ 0.0000001 := by
  have hs1 : √2 < 1.4142136 := by
    rw [Real.sqrt_lt' (by norm_num)]; norm_num
  have hs2 : (1.4142135 : ℝ) < √2 := by
    rw [Real.lt_sqrt (by norm_num)]; norm_num
  have hpos : ∀ y : ℝ, 0 ≤ y → |normCdf (√2 * (y / 1.4142136)) - normCdf y| ≤ 0.0000001 := by
    intro y hy
    rcases hy.eq_or_lt with rfl | hy
    · norm_num
    set k := √2 / 1.4142136 with hk
    have hk1 : k < 1 := by rw [hk, div_lt_one (by norm_num)]; exact hs1
    have hk2 : 0.9999999 < k := by
      rw [hk, lt_div_iff₀ (by norm_num)]
      linarith
    have e : √2 * (y / 1.4142136) = k * y := by rw [hk]; ring
    rw [e]
    have hlt : k * y < y := by nlinarith
    obtain ⟨c, hc, hc'⟩ := exists_hasDerivAt_eq_slope normCdf (gaussianPDFReal 0 1) hlt
      (continuous_iff_continuousAt.mpr fun y => (normCdf_hasDerivAt y).continuousAt).continuousOn
      fun x _ => normCdf_hasDerivAt x
    have hc0 : 0 < c := lt_trans (by nlinarith) hc.1
    have hpdf : gaussianPDFReal 0 1 c * c ≤ 1 / 2 := by
      rw [gaussianPDFReal_std]
      have h1 : Real.exp (-c ^ 2 / 2) * c ≤ 1 := by
        have h2 : c ≤ Real.exp (c ^ 2 / 2) := by
          have := Real.add_one_le_exp (c ^ 2 / 2)
          nlinarith [sq_nonneg (c - 1)]
        have h3 : Real.exp (-c ^ 2 / 2) * Real.exp (c ^ 2 / 2) = 1 := by
          rw [← Real.exp_add]; simp [neg_div]
        calc _ ≤ Real.exp (-c ^ 2 / 2) * Real.exp (c ^ 2 / 2) := by gcongr
          _ = 1 := h3
      have h4 : (√(2 * Real.pi))⁻¹ ≤ 1 / 2 := by
        have : (2 : ℝ) ≤ √(2 * Real.pi) := by
          have := Real.pi_gt_three
          exact Real.le_sqrt_of_sq_le (by linarith)
        rw [one_div]
        exact inv_anti₀ (by norm_num) this
      have h5 : 0 ≤ (√(2 * Real.pi))⁻¹ := by positivity
      rw [mul_assoc]
      nlinarith [Real.exp_pos (-c ^ 2 / 2)]
    have hd : normCdf y - normCdf (k * y) = gaussianPDFReal 0 1 c * (y - k * y) := by
      rw [hc', div_mul_cancel₀ _ (sub_pos.mpr hlt).ne']
    have hf := gaussianPDFReal_nonneg 0 1 c
    have hyc : y - k * y ≤ 0.0000002 * c := by nlinarith [hc.1]
    have h0 : 0 ≤ normCdf y - normCdf (k * y) := by
      rw [hd]; exact mul_nonneg hf (by linarith)
    rw [abs_sub_comm, abs_of_nonneg h0, hd]
    calc _ ≤ gaussianPDFReal 0 1 c * (0.0000002 * c) := by gcongr
      _ = 0.0000002 * (gaussianPDFReal 0 1 c * c) := by ring
      _ ≤ _ := by linarith
  rcases le_total 0 y with h | h
  · exact hpos y h
  · have := hpos (-y) (by linarith)
    rw [neg_div, mul_neg, normCdf_neg, normCdf_neg] at this
    rw [← abs_neg]
    convert this using 2
    ring

/-- The approximation of `Φ(y)` computed by the code. -/
theorem asNdtr_normCdf (y : ℝ) : |asNdtr (y / 1.4142136) - normCdf y| ≤ 0.0000125 := by
  have h1 := asNdtr_accurate (y / 1.4142136)
  have h2 := normCdf_scale y
  rw [abs_le] at h1 h2 ⊢
  constructor <;> linarith [h1.1, h1.2, h2.1, h2.2]

end Copulae
