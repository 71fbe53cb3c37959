import Verif.Lemmas.Exclude
import Verif.Props.FrankMl

/-!
The log-density of the Frank copula in every dimension, as a criterion for its parameter.
-/

namespace Copulae

open MeasureTheory ProbabilityTheory Spec CopulaMeasure Finset

variable {d : ℕ} {θ s t : ℝ}

noncomputable def frankTl (θ x : ℝ) : ℝ := ∫ t in x..1, Real.exp (-θ * t)

noncomputable def frankR (θ x : ℝ) : ℝ := 1 - frankTl θ x / frankM θ

/-- The argument of the polylogarithm. -/
noncomputable def frankZ (θ : ℝ) (u : Fin d → ℝ) : ℝ := (1 - Real.exp (-θ)) * ∏ j, frankR θ (u j)

/-- The Eulerian polynomial. -/
noncomputable def eulerA (n : ℕ) (z : ℝ) : ℝ := ∑ k ∈ range n, (eulerianSpec n k : ℝ) * z ^ k

/-- The logarithm of the density, for a parameter from zero upwards. -/
noncomputable def frankDD (θ : ℝ) (u : Fin d → ℝ) : ℝ :=
  -(((d - 1 : ℕ) : ℝ) * Real.log (frankM θ)) + Real.log (eulerA (d - 1) (frankZ θ u)) - d * Real.log (1 - frankZ θ u) - θ * ∑ j, u j

/-! ### The polynomial -/

theorem eulerA_one_le {n : ℕ} (hn : 1 ≤ n) {z : ℝ} (hz : 0 ≤ z) : 1 ≤ eulerA n z := by
  have h := single_le_sum (f := fun k => (eulerianSpec n k : ℝ) * z ^ k) (s := range n)
    (fun k _ => mul_nonneg (by exact_mod_cast eulerianSpec_nonneg n k) (pow_nonneg hz k)) (mem_range.mpr (by omega : 0 < n))
  simpa [eulerianSpec_zero, eulerA] using h

theorem eulerA_zero {n : ℕ} (hn : 1 ≤ n) : eulerA n 0 = 1 := by
  rw [eulerA, sum_eq_single 0 (fun k _ hk => by rw [zero_pow hk, mul_zero]) (fun h => absurd (mem_range.mpr (by omega)) h)]
  simp [eulerianSpec_zero]

theorem eulerA_mono (n : ℕ) {z z' : ℝ} (hz : 0 ≤ z) (h : z ≤ z') : eulerA n z ≤ eulerA n z' :=
  sum_le_sum fun k _ => mul_le_mul_of_nonneg_left (pow_le_pow_left₀ hz h k) (by exact_mod_cast eulerianSpec_nonneg n k)

theorem pow_diff_le {z z' : ℝ} (hz : 0 ≤ z) (h : z ≤ z') (h1 : z' ≤ 1) (k : ℕ) : z' ^ k - z ^ k ≤ k * (z' - z) := by
  induction k with
  | zero => simp
  | succ k ih =>
    have h2 := pow_le_one₀ hz (h.trans h1) (n := k)
    have h3 : 0 ≤ z' ^ k - z ^ k := sub_nonneg.mpr (pow_le_pow_left₀ hz h k)
    push_cast
    calc z' ^ (k + 1) - z ^ (k + 1) = z' * (z' ^ k - z ^ k) + z ^ k * (z' - z) := by ring
      _ ≤ 1 * (z' ^ k - z ^ k) + 1 * (z' - z) := add_le_add (mul_le_mul_of_nonneg_right h1 h3) (mul_le_mul_of_nonneg_right h2 (by linarith))
      _ ≤ (k + 1) * (z' - z) := by linarith

theorem eulerA_diff (n : ℕ) {z z' : ℝ} (hz : 0 ≤ z) (h : z ≤ z') (h1 : z' ≤ 1) : eulerA n z' - eulerA n z ≤ n * eulerA n 1 * (z' - z) := by
  rw [eulerA, eulerA, eulerA, ← sum_sub_distrib, mul_sum, sum_mul]
  refine sum_le_sum fun k hk => ?_
  have h0 : (0 : ℝ) ≤ eulerianSpec n k := by exact_mod_cast eulerianSpec_nonneg n k
  have h2 := pow_diff_le hz h h1 k
  have h3 : (k : ℝ) ≤ n := by exact_mod_cast (mem_range.mp hk).le
  have h4 : (k : ℝ) * (z' - z) ≤ n * (z' - z) := mul_le_mul_of_nonneg_right h3 (by linarith)
  rw [one_pow, mul_one, ← mul_sub]
  calc (eulerianSpec n k : ℝ) * (z' ^ k - z ^ k) ≤ eulerianSpec n k * (n * (z' - z)) := mul_le_mul_of_nonneg_left (h2.trans h4) h0
    _ = n * eulerianSpec n k * (z' - z) := by ring

/-- The part of the log-density that depends on the argument of the polylogarithm. -/
noncomputable def frankG (d : ℕ) (z : ℝ) : ℝ := Real.log (eulerA (d - 1) z) - d * Real.log (1 - z)

noncomputable def frankK (d : ℕ) : ℝ := ((d - 1 : ℕ) : ℝ) * eulerA (d - 1) 1 + d

theorem frankK_nonneg (h2 : 2 ≤ d) : 0 ≤ frankK d := by
  have := eulerA_one_le (n := d - 1) (by omega) zero_le_one
  unfold frankK
  positivity

theorem frankG_le (h2 : 2 ≤ d) {z z' : ℝ} (hz : 0 ≤ z) (h : z ≤ z') (h1 : z' < 1) :
    |frankG d z - frankG d z'| ≤ frankK d * (Real.log (1 - z) - Real.log (1 - z')) := by
  have a0 := eulerA_one_le (n := d - 1) (by omega) hz
  have a1 := eulerA_mono (d - 1) hz h
  have a2 := eulerA_diff (d - 1) hz h h1.le
  have aK := eulerA_one_le (n := d - 1) (by omega) zero_le_one
  have l1 : 0 ≤ Real.log (eulerA (d - 1) z') - Real.log (eulerA (d - 1) z) := sub_nonneg.mpr (Real.log_le_log (by linarith) a1)
  have l2 : Real.log (eulerA (d - 1) z') - Real.log (eulerA (d - 1) z) ≤ eulerA (d - 1) z' - eulerA (d - 1) z := by
    have := Real.log_le_sub_one_of_pos (div_pos (by linarith : 0 < eulerA (d - 1) z') (by linarith : 0 < eulerA (d - 1) z))
    rw [Real.log_div (by linarith) (by linarith)] at this
    refine this.trans ?_
    rw [div_sub_one (by linarith), div_le_iff₀ (by linarith)]
    nlinarith
  have l3 : z' - z ≤ Real.log (1 - z) - Real.log (1 - z') := by
    have := Real.log_le_sub_one_of_pos (div_pos (by linarith : 0 < 1 - z') (by linarith : 0 < 1 - z))
    rw [Real.log_div (by linarith) (by linarith), div_sub_one (by linarith)] at this
    have h4 : (1 - z' - (1 - z)) / (1 - z) ≤ z - z' := by
      rw [div_le_iff₀ (by linarith)]
      nlinarith
    linarith
  have l4 : 0 ≤ (((d - 1 : ℕ) : ℝ) * eulerA (d - 1) 1) := by positivity
  have l5 := mul_le_mul_of_nonneg_left l3 l4
  have l6 : (0 : ℝ) ≤ (d : ℝ) * (Real.log (1 - z) - Real.log (1 - z')) := mul_nonneg (by positivity) (by linarith)
  unfold frankG frankK
  rw [abs_le]
  constructor <;> nlinarith

theorem frankG_lip (h2 : 2 ≤ d) {z z' c : ℝ} (hz : 0 ≤ z) (h1 : z < 1) (hz' : 0 ≤ z') (h1' : z' < 1)
    (ha : Real.exp (-c) * (1 - z) ≤ 1 - z') (hb : Real.exp (-c) * (1 - z') ≤ 1 - z) : |frankG d z - frankG d z'| ≤ frankK d * c := by
  have key : ∀ {x y : ℝ}, 0 < x → 0 < y → Real.exp (-c) * x ≤ y → Real.log x - Real.log y ≤ c := fun {x y} hx hy h => by
    have := Real.log_le_log (by positivity) h
    rw [Real.log_mul (Real.exp_ne_zero _) hx.ne', Real.log_exp] at this
    linarith
  have k1 := key (by linarith) (by linarith) ha
  have k2 := key (by linarith) (by linarith) hb
  rcases le_total z z' with h | h
  · exact (frankG_le h2 hz h h1').trans (mul_le_mul_of_nonneg_left k1 (frankK_nonneg h2))
  · rw [abs_sub_comm]
    exact (frankG_le h2 hz' h h1).trans (mul_le_mul_of_nonneg_left k2 (frankK_nonneg h2))

/-! ### Products -/

theorem one_sub_mul {w X Y a x : ℝ} (hx : 0 ≤ x) (hx1 : x ≤ 1) (ha : 0 ≤ a) (h : Real.exp (-a) * (1 - w * X) ≤ 1 - w * Y) :
    Real.exp (-a) * (1 - w * (X * x)) ≤ 1 - w * (Y * x) := by
  have h1 : Real.exp (-a) ≤ 1 := Real.exp_le_one_iff.mpr (by linarith)
  have h2 := mul_le_mul_of_nonneg_left h hx
  have h3 := mul_le_mul_of_nonneg_right h1 (by linarith : 0 ≤ 1 - x)
  nlinarith

theorem one_sub_prod {ι : Type*} (S : Finset ι) {w : ℝ} {x y a : ι → ℝ} (hx : ∀ i, 0 ≤ x i ∧ x i ≤ 1)
    (hy : ∀ i, 0 ≤ y i ∧ y i ≤ 1) (ha : ∀ i, 0 ≤ a i) (h : ∀ i, Real.exp (-a i) * (1 - w * x i) ≤ 1 - w * y i) :
    Real.exp (-∑ i ∈ S, a i) * (1 - w * ∏ i ∈ S, x i) ≤ 1 - w * ∏ i ∈ S, y i := by
  classical
  induction S using Finset.induction_on with
  | empty => simp
  | insert i S hi ih =>
    rw [sum_insert hi, prod_insert hi, prod_insert hi, neg_add, Real.exp_add]
    have k1 := one_sub_mul (hx i).1 (hx i).2 (sum_nonneg fun i _ => ha i) ih
    have k2 := one_sub_mul (prod_nonneg fun j (_ : j ∈ S) => (hy j).1) (prod_le_one (fun j (_ : j ∈ S) => (hy j).1) fun j _ => (hy j).2)
      (ha i) (h i)
    rw [mul_comm _ (x i)] at k1
    calc Real.exp (-a i) * Real.exp (-∑ i ∈ S, a i) * (1 - w * (x i * ∏ i ∈ S, x i))
        = Real.exp (-a i) * (Real.exp (-∑ i ∈ S, a i) * (1 - w * (x i * ∏ i ∈ S, x i))) := by ring
      _ ≤ Real.exp (-a i) * (1 - w * ((∏ i ∈ S, y i) * x i)) := mul_le_mul_of_nonneg_left k1 (Real.exp_pos _).le
      _ = Real.exp (-a i) * (1 - w * (x i * ∏ i ∈ S, y i)) := by ring
      _ ≤ _ := k2

/-! ### The argument -/

theorem frankTl_mono {c x : ℝ} (hx : x ≤ 1) (hx0 : 0 ≤ x) (h : ∀ r, 0 ≤ r → r ≤ 1 → c * Real.exp (-s * r) ≤ Real.exp (-t * r)) :
    c * frankTl s x ≤ frankTl t x := by
  unfold frankTl
  rw [← intervalIntegral.integral_const_mul]
  exact intervalIntegral.integral_mono_on hx ((expLin_integrable s x 1).const_mul c) (expLin_integrable t x 1)
    fun r hr => h r (hx0.trans hr.1) hr.2

theorem frankTl_nonneg {x : ℝ} (hx : x ≤ 1) : 0 ≤ frankTl θ x :=
  intervalIntegral.integral_nonneg hx fun _ _ => (Real.exp_pos _).le

theorem frankTl_le {x : ℝ} (hx0 : 0 ≤ x) : frankTl θ x ≤ frankM θ := by
  have := intervalIntegral.integral_add_adjacent_intervals (expLin_integrable θ 0 x) (expLin_integrable θ x 1)
  have h0 : 0 ≤ ∫ t in (0 : ℝ)..x, Real.exp (-θ * t) := intervalIntegral.integral_nonneg hx0 fun r _ => (Real.exp_pos _).le
  unfold frankTl frankM
  linarith

theorem frankR_mem (h : 0 ≤ θ) {x : ℝ} (hx0 : 0 ≤ x) (hx : x ≤ 1) : 0 ≤ frankR θ x ∧ frankR θ x ≤ 1 := by
  have hM := frankM_pos h
  have h1 : frankTl θ x / frankM θ ≤ 1 := (div_le_one hM).mpr (frankTl_le hx0)
  have h2 := div_nonneg (frankTl_nonneg (θ := θ) hx) hM.le
  unfold frankR
  constructor <;> linarith

theorem frankR_eq (h : θ ≠ 0) (x : ℝ) : frankR θ x = (Real.exp (-θ * x) - 1) / (Real.exp (-θ) - 1) := by
  have h1 := integral_expShift h 0 x 1
  simp only [add_zero, mul_one] at h1
  have hq : Real.exp (-θ) - 1 ≠ 0 := by
    rw [sub_ne_zero]
    simpa using h
  have hq' : 1 - Real.exp (-θ) ≠ 0 := by
    rw [← neg_ne_zero, neg_sub]
    exact hq
  rw [frankR, frankTl, h1, frankM_eq h]
  field_simp
  ring

theorem frankR_w (θ x : ℝ) : (1 - Real.exp (-θ)) * frankR θ x = 1 - Real.exp (-θ * x) := by
  by_cases h : θ = 0
  · simp [h]
  · have hq : Real.exp (-θ) - 1 ≠ 0 := by
      rw [sub_ne_zero]
      simpa using h
    rw [frankR_eq h]
    field_simp
    ring

theorem frankZ_zero (u : Fin d → ℝ) : frankZ 0 u = 0 := by simp [frankZ]

theorem frankZ_nonneg (h : 0 ≤ θ) {u : Fin d → ℝ} (hu : u ∈ cube d) : 0 ≤ frankZ θ u :=
  mul_nonneg (by linarith [Real.exp_le_one_iff.mpr (by linarith : -θ ≤ 0)])
    (prod_nonneg fun j _ => (frankR_mem h (hu j).1.le (hu j).2.le).1)

theorem frankZ_le (h : 0 ≤ θ) {u : Fin d → ℝ} (hu : u ∈ cube d) (j : Fin d) : Real.exp (-θ * u j) ≤ 1 - frankZ θ u := by
  have hw : 0 ≤ 1 - Real.exp (-θ) := by linarith [Real.exp_le_one_iff.mpr (by linarith : -θ ≤ 0)]
  have h1 : ∏ j, frankR θ (u j) ≤ frankR θ (u j) := by
    rw [← mul_prod_erase univ (fun j => frankR θ (u j)) (mem_univ j)]
    exact mul_le_of_le_one_right (frankR_mem h (hu j).1.le (hu j).2.le).1
      (prod_le_one (fun j _ => (frankR_mem h (hu j).1.le (hu j).2.le).1) fun j _ => (frankR_mem h (hu j).1.le (hu j).2.le).2)
  have h2 := mul_le_mul_of_nonneg_left h1 hw
  rw [frankR_w] at h2
  unfold frankZ
  linarith

theorem frankZ_lt (h2 : 2 ≤ d) (h : 0 ≤ θ) {u : Fin d → ℝ} (hu : u ∈ cube d) : frankZ θ u < 1 := by
  have := frankZ_le h hu ⟨0, by omega⟩
  have := Real.exp_pos (-θ * u ⟨0, by omega⟩)
  linarith

theorem frankZ_coords (h : 0 ≤ θ) {u v : Fin d → ℝ} (hu : u ∈ cube d) (hv : v ∈ cube d) :
    Real.exp (-∑ j, θ * |u j - v j|) * (1 - frankZ θ u) ≤ 1 - frankZ θ v := by
  refine one_sub_prod univ (fun j => frankR_mem h (hu j).1.le (hu j).2.le)
    (fun j => frankR_mem h (hv j).1.le (hv j).2.le) (fun j => by positivity) fun j => ?_
  rw [frankR_w, frankR_w, sub_sub_cancel, sub_sub_cancel, ← Real.exp_add]
  refine Real.exp_le_exp.mpr ?_
  have := mul_le_mul_of_nonneg_left (neg_abs_le (u j - v j)) h
  nlinarith

theorem frankR_par (hs : 0 ≤ s) (ht : 0 ≤ t) {x : ℝ} (hx0 : 0 ≤ x) (hx : x ≤ 1) :
    Real.exp (-|s - t|) * (1 - 1 * frankR s x) ≤ 1 - 1 * frankR t x := by
  have hMs := frankM_pos hs
  have hMt := frankM_pos ht
  have h1 : Real.exp (-|s - t|) * (frankTl s x * frankM t) ≤ frankTl t x * frankM s := by
    rcases le_total s t with hl | hl
    · have a1 := frankTl_mono (s := s) (t := t) (c := Real.exp (-|s - t|)) hx hx0 fun r h0 h1 => exp_mul_le (by
        rw [abs_sub_comm, abs_of_nonneg (by linarith)]
        nlinarith)
      have a2 := (frankM_par hl).2
      calc _ = Real.exp (-|s - t|) * frankTl s x * frankM t := by ring
        _ ≤ frankTl t x * frankM s := mul_le_mul a1 a2 hMt.le (frankTl_nonneg hx)
    · have a1 := frankTl_mono (s := s) (t := t) (c := 1) hx hx0 fun r h0 h1 => by
        rw [one_mul]
        exact Real.exp_le_exp.mpr (by nlinarith)
      have a2 := (frankM_par hl).1
      rw [abs_of_nonneg (by linarith)]
      rw [one_mul] at a1
      calc _ = frankTl s x * (Real.exp (-(s - t)) * frankM t) := by ring
        _ ≤ frankTl t x * frankM s := mul_le_mul a1 a2 (by positivity) (frankTl_nonneg hx)
  unfold frankR
  rw [one_mul, one_mul, sub_sub_cancel, sub_sub_cancel, mul_div_assoc', div_le_div_iff₀ hMs hMt]
  linarith

theorem frankZ_par (hs : 0 ≤ s) (ht : 0 ≤ t) {u : Fin d → ℝ} (hu : u ∈ cube d) :
    Real.exp (-((d + 1) * |s - t|)) * (1 - frankZ s u) ≤ 1 - frankZ t u := by
  have h1 := one_sub_prod univ (w := 1) (x := fun j => frankR s (u j)) (y := fun j => frankR t (u j)) (a := fun _ => |s - t|)
    (fun j => frankR_mem hs (hu j).1.le (hu j).2.le) (fun j => frankR_mem ht (hu j).1.le (hu j).2.le) (fun j => abs_nonneg _)
    fun j => frankR_par hs ht (hu j).1.le (hu j).2.le
  have ws : 0 ≤ 1 - Real.exp (-s) ∧ 1 - Real.exp (-s) ≤ 1 :=
    ⟨by linarith [Real.exp_le_one_iff.mpr (by linarith : -s ≤ 0)], by linarith [Real.exp_pos (-s)]⟩
  have ht1 : 0 ≤ ∏ j, frankR t (u j) := prod_nonneg fun j _ => (frankR_mem ht (hu j).1.le (hu j).2.le).1
  have ht2 : ∏ j, frankR t (u j) ≤ 1 := prod_le_one (fun j _ => (frankR_mem ht (hu j).1.le (hu j).2.le).1)
    fun j _ => (frankR_mem ht (hu j).1.le (hu j).2.le).2
  have h2 := one_sub_mul ws.1 ws.2 (sum_nonneg fun (j : Fin d) _ => abs_nonneg (s - t)) h1
  have h3 : Real.exp (-|s - t|) * (1 - 1 * (1 - Real.exp (-s))) ≤ 1 - 1 * (1 - Real.exp (-t)) := by
    rw [one_mul, one_mul, sub_sub_cancel, sub_sub_cancel, ← Real.exp_add]
    exact Real.exp_le_exp.mpr (by linarith [neg_abs_le (s - t)])
  have h4 := one_sub_mul ht1 ht2 (abs_nonneg _) h3
  rw [sum_const, card_univ, Fintype.card_fin, nsmul_eq_mul] at h2
  rw [show -((d + 1 : ℝ) * |s - t|) = -|s - t| + -(d * |s - t|) by ring, Real.exp_add]
  unfold frankZ
  calc _ = Real.exp (-|s - t|) * (Real.exp (-(d * |s - t|)) * (1 - 1 * ((∏ j, frankR s (u j)) * (1 - Real.exp (-s))))) := by ring
    _ ≤ Real.exp (-|s - t|) * (1 - 1 * ((∏ j, frankR t (u j)) * (1 - Real.exp (-s)))) := mul_le_mul_of_nonneg_left h2 (Real.exp_pos _).le
    _ = Real.exp (-|s - t|) * (1 - 1 * ((1 - Real.exp (-s)) * ∏ j, frankR t (u j))) := by ring
    _ ≤ _ := h4
    _ = _ := by ring

/-! ### The log-density -/

theorem frankDD_eq (θ : ℝ) (u : Fin d → ℝ) :
    frankDD θ u = -(((d - 1 : ℕ) : ℝ) * Real.log (frankM θ)) + frankG d (frankZ θ u) - θ * ∑ j, u j := by
  unfold frankDD frankG
  ring

theorem frankDD_zero (h2 : 2 ≤ d) (u : Fin d → ℝ) : frankDD 0 u = 0 := by
  simp [frankDD, frankM_zero, frankZ_zero, eulerA_zero (show 1 ≤ d - 1 by omega)]

theorem measurable_frankDD (h2 : 2 ≤ d) (θ : ℝ) : Measurable (frankDD (d := d) θ) := by
  by_cases h : θ = 0
  · rw [h, show frankDD (d := d) 0 = fun _ => 0 from funext (frankDD_zero h2)]
    exact measurable_const
  · unfold frankDD frankZ eulerA
    simp only [frankR_eq h]
    fun_prop

theorem frankDD_logLip (h2 : 2 ≤ d) (h : 0 ≤ θ) : LogLip (frankK d * θ + θ) (frankDD (d := d) θ) := by
  intro u hu v hv
  have h0 : ∀ j, |u j - v j| ≤ |Real.log (u j) - Real.log (v j)| := fun j => abs_sub_le_log (hu j).1 (hu j).2 (hv j).1 (hv j).2
  have hS : ∑ j, |u j - v j| ≤ ∑ j, |Real.log (u j) - Real.log (v j)| := sum_le_sum fun j _ => h0 j
  have k1 := frankZ_coords h hu hv
  have k2 := frankZ_coords h hv hu
  rw [show ∑ j, θ * |v j - u j| = ∑ j, θ * |u j - v j| from sum_congr rfl fun j _ => by rw [abs_sub_comm]] at k2
  have k3 := frankG_lip h2 (frankZ_nonneg h hu) (frankZ_lt h2 h hu) (frankZ_nonneg h hv) (frankZ_lt h2 h hv) k1 k2
  rw [← mul_sum] at k3
  have k4 : |θ * (∑ j, u j - ∑ j, v j)| ≤ θ * ∑ j, |u j - v j| := by
    rw [abs_mul, abs_of_nonneg h, ← sum_sub_distrib]
    exact mul_le_mul_of_nonneg_left (abs_sum_le_sum_abs _ _) h
  have k5 : |frankDD θ u - frankDD θ v| ≤ (frankK d * θ + θ) * ∑ j, |u j - v j| := by
    rw [frankDD_eq, frankDD_eq]
    have b1 := abs_le.mp k3
    have b2 := abs_le.mp k4
    rw [abs_le]
    constructor <;> nlinarith
  exact k5.trans (mul_le_mul_of_nonneg_left hS (add_nonneg (mul_nonneg (frankK_nonneg h2) h) h))

theorem frankM_lip (hs : 0 ≤ s) (ht : 0 ≤ t) : |Real.log (frankM s) - Real.log (frankM t)| ≤ |s - t| := by
  rcases le_total s t with hl | hl
  · rw [abs_sub_comm s, abs_of_nonneg (by linarith : 0 ≤ t - s)]
    exact abs_log_le (frankM_pos hs) (frankM_par hl).1 (frankM_par hl).2
  · rw [abs_of_nonneg (by linarith : 0 ≤ s - t), abs_sub_comm]
    exact abs_log_le (frankM_pos ht) (frankM_par hl).1 (frankM_par hl).2

theorem frankDD_par (h2 : 2 ≤ d) (hs : 0 ≤ s) (ht : 0 ≤ t) {u : Fin d → ℝ} (hu : u ∈ cube d) :
    |frankDD s u - frankDD t u| ≤ (d + frankK d * (d + 1) + d) * |s - t| := by
  have k1 := frankZ_par hs ht hu
  have k2 := frankZ_par ht hs hu
  rw [abs_sub_comm] at k2
  have k3 := abs_le.mp (frankG_lip h2 (frankZ_nonneg hs hu) (frankZ_lt h2 hs hu) (frankZ_nonneg ht hu) (frankZ_lt h2 ht hu) k1 k2)
  have k4 : |((d - 1 : ℕ) : ℝ) * (Real.log (frankM s) - Real.log (frankM t))| ≤ d * |s - t| := by
    rw [abs_mul, abs_of_nonneg (Nat.cast_nonneg _)]
    exact mul_le_mul (by exact_mod_cast Nat.sub_le d 1) (frankM_lip hs ht) (abs_nonneg _) (Nat.cast_nonneg _)
  have k5 : |(s - t) * ∑ j, u j| ≤ d * |s - t| := by
    rw [abs_mul, mul_comm (d : ℝ)]
    refine mul_le_mul_of_nonneg_left ?_ (abs_nonneg _)
    rw [abs_of_nonneg (sum_nonneg fun j _ => (hu j).1.le)]
    refine (sum_le_sum fun j _ => (hu j).2.le).trans ?_
    simp
  have b1 := abs_le.mp k4
  have b2 := abs_le.mp k5
  rw [frankDD_eq, frankDD_eq, abs_le]
  constructor <;> nlinarith

theorem frankDD_tail (h2 : 2 ≤ d) (h : 0 < θ) {u : Fin d → ℝ} (hu : u ∈ cube d) (a b : Fin d) :
    frankDD θ u ≤ d * Real.log (1 + d * θ) + Real.log (eulerA (d - 1) 1) - θ * |u a - u b| := by
  have hz := frankZ_nonneg h.le hu
  have hz1 := frankZ_lt h2 h.le hu
  have hd1 : (1 : ℝ) ≤ d := by exact_mod_cast (by omega : 1 ≤ d)
  have hl : ∀ j, -Real.log (1 - frankZ θ u) ≤ θ * u j := fun j => by
    have := Real.log_le_log (Real.exp_pos _) (frankZ_le h.le hu j)
    rw [Real.log_exp] at this
    linarith
  have key : ∀ p q : Fin d, θ * (u p - u q) ≤ θ * ∑ j, u j + d * Real.log (1 - frankZ θ u) := fun p q => by
    have h1 := single_le_sum (f := fun j => θ * u j + Real.log (1 - frankZ θ u)) (s := univ) (fun j _ => by linarith [hl j]) (mem_univ p)
    have h3 := hl q
    simp only [sum_add_distrib, sum_const, card_univ, Fintype.card_fin, nsmul_eq_mul, ← mul_sum] at h1
    linarith
  have k1 : θ * |u a - u b| ≤ θ * ∑ j, u j + d * Real.log (1 - frankZ θ u) := by
    rcases abs_cases (u a - u b) with ⟨e, _⟩ | ⟨e, _⟩ <;> rw [e]
    · exact key a b
    · rw [neg_sub]
      exact key b a
  have k2 : Real.log (eulerA (d - 1) (frankZ θ u)) ≤ Real.log (eulerA (d - 1) 1) :=
    Real.log_le_log (by linarith [eulerA_one_le (n := d - 1) (by omega) hz]) (eulerA_mono _ hz hz1.le)
  have k3 := frankM_lower h
  have k4 : Real.log (1 + θ) ≤ Real.log (1 + d * θ) := Real.log_le_log (by linarith) (by nlinarith)
  have k5 : 0 ≤ Real.log (1 + d * θ) := Real.log_nonneg (by nlinarith)
  have k6 : ((d - 1 : ℕ) : ℝ) * -Real.log (frankM θ) ≤ d * Real.log (1 + d * θ) :=
    (mul_le_mul_of_nonneg_left (k3.trans k4) (Nat.cast_nonneg _)).trans
      (mul_le_mul_of_nonneg_right (by exact_mod_cast Nat.sub_le d 1) k5)
  unfold frankDD
  linarith

/-- The density that the code computes. -/
theorem frankDensity_DD (h2 : 2 ≤ d) (h : 0 < θ) {u : Fin d → ℝ} (hu : u ∈ cube d) : frankDensity θ u = Real.exp (frankDD θ u) := by
  obtain ⟨n, rfl⟩ : ∃ n, d = n + 1 := ⟨d - 1, by omega⟩
  have hz := frankZ_nonneg h.le hu
  have hz1 := frankZ_lt h2 h.le hu
  have hA := eulerA_one_le (n := n) (by omega) hz
  have hM := frankM_pos h.le
  have hw : 0 < 1 - Real.exp (-θ) := by linarith [Real.exp_lt_one_iff.mpr (by linarith : -θ < 0)]
  have e1 : Real.exp (frankDD θ u) = (frankM θ ^ n)⁻¹ * eulerA n (frankZ θ u) / (1 - frankZ θ u) ^ (n + 1) * ∏ j, Real.exp (-(θ * u j)) := by
    have : frankDD θ u = Real.log ((frankM θ ^ n)⁻¹ * eulerA n (frankZ θ u) / (1 - frankZ θ u) ^ (n + 1)) + ∑ j, -(θ * u j) := by
      rw [Real.log_div (by positivity) (pow_ne_zero _ (by linarith)), Real.log_mul (by positivity) (by linarith), Real.log_inv, Real.log_pow,
        Real.log_pow, frankDD, sum_neg_distrib, mul_sum]
      simp only [Nat.add_sub_cancel]
      ring
    rw [this, Real.exp_add, Real.exp_log (div_pos (by positivity) (pow_pos (by linarith) _)), Real.exp_sum]
  have hZ : (1 - Real.exp (-θ)) * ∏ j, ((Real.exp (-θ * u j) - 1) / (Real.exp (-θ) - 1)) = frankZ θ u := by
    unfold frankZ
    simp only [frankR_eq h.ne']
  have habs : |frankZ θ u| < 1 := by rwa [abs_of_nonneg hz]
  have hL : frankL n (frankZ θ u) = frankZ θ u * eulerA n (frankZ θ u) / (1 - frankZ θ u) ^ (n + 1) :=
    (polylog_stirling n habs).unique (polylog_eulerian (by omega) habs)
  have hP : frankZ θ u * ∏ j, (1 / (Real.exp (θ * u j) - 1)) = ((1 - Real.exp (-θ)) ^ n)⁻¹ * ∏ j, Real.exp (-(θ * u j)) := by
    have e : ∀ j, frankR θ (u j) * (1 / (Real.exp (θ * u j) - 1)) = Real.exp (-(θ * u j)) / (1 - Real.exp (-θ)) := fun j => by
      have h3 := frankR_w θ (u j)
      have h4 : 1 < Real.exp (θ * u j) := Real.one_lt_exp_iff.mpr (mul_pos h (hu j).1)
      rw [eq_div_iff hw.ne', mul_right_comm, mul_comm _ (1 - _), h3, neg_mul, Real.exp_neg]
      have h5 : Real.exp (θ * u j) - 1 ≠ 0 := by linarith
      field_simp
    rw [frankZ, mul_assoc, ← prod_mul_distrib, prod_congr rfl fun j _ => e j, prod_div_distrib, prod_const, card_univ, Fintype.card_fin, pow_succ]
    field_simp
  rw [e1, frankDensity_eq h.ne' fun j => (hu j).1, hZ, hL, frankM_eq h.ne']
  calc _ = θ ^ n * eulerA n (frankZ θ u) / (1 - frankZ θ u) ^ (n + 1) * (frankZ θ u * ∏ j, (1 / (Real.exp (θ * u j) - 1))) := by ring
    _ = _ := by
      rw [hP, div_pow, inv_div]
      ring

theorem frankDD_densityOf (h2 : 2 ≤ d) (h : 0 < θ) {P : Measure (Fin d → ℝ)} [IsProbabilityMeasure P] (hP : IsLawOf P (Family.copula .frank θ)) :
    ∃ g, DensityOf (MeasureTheory.volume.restrict {u : Fin d → ℝ | ∀ j, 0 < u j ∧ u j < 1}) P g ∧
      ∀ u ∈ cube d, g u = Real.exp (frankDD θ u) := by
  obtain ⟨g, hg, hden⟩ := frank_pdf_density_partial h h2
  refine ⟨g, densityOf_cube (hden P hP), fun u hu => ?_⟩
  have h1 := (hg 1 (fun _ => u) fun _ => hu).1
  have h3 := (frank_pdfComputes h h2 1 (fun _ => u) fun _ => hu).1
  have h4 := congrFun (Except.ok.inj (h1.symm.trans h3)) 0
  rw [← frankDensity_DD h2 h hu]
  exact Fl.fin.inj h4

theorem frankDD_far (h2 : 2 ≤ d) {P : Measure (Fin d → ℝ)} [IsProbabilityMeasure P] {f₀ : (Fin d → ℝ) → ℝ} (h : CubeLog P f₀) :
    ∃ (D : (Fin d → ℝ) → ℝ) (a : ℝ → ℝ) (C b : ℝ), 0 ≤ C ∧ 0 ≤ b ∧ Measurable D ∧ (∃ L, LogLip L D) ∧ 0 < ∫ u, D u ∂P ∧
      (∀ κ, 0 < κ → ∃ b', ∀ θ, b' ≤ θ → a θ ≤ κ * θ) ∧ ∀ θ, b ≤ θ → ∀ u ∈ cube d, frankDD θ u ≤ a θ + C * logEnv u - θ * D u := by
  have hd1 : (0 : ℝ) < d := by exact_mod_cast (by omega : 0 < d)
  have hab : (⟨0, by omega⟩ : Fin d) ≠ ⟨1, by omega⟩ := by simp
  generalize (⟨0, _⟩ : Fin d) = a at hab
  generalize (⟨1, _⟩ : Fin d) = b at hab
  have hDL : LogLip 1 fun u : Fin d → ℝ => |u a - u b| := by
    intro u hu v hv
    have h3 : |Real.log (u a) - Real.log (v a)| + |Real.log (u b) - Real.log (v b)| ≤ ∑ j, |Real.log (u j) - Real.log (v j)| := by
      rw [← sum_pair hab (f := fun j => |Real.log (u j) - Real.log (v j)|)]
      exact sum_le_sum_of_subset_of_nonneg (subset_univ _) fun j _ _ => abs_nonneg _
    have g0 := abs_sub_le_log (hu a).1 (hu a).2 (hv a).1 (hv a).2
    have g1 := abs_sub_le_log (hu b).1 (hu b).2 (hv b).1 (hv b).2
    have h4 := abs_abs_sub_abs_le (u a - u b) (v a - v b)
    have h5 : |u a - u b - (v a - v b)| ≤ |u a - v a| + |u b - v b| := by
      rw [show u a - u b - (v a - v b) = (u a - v a) - (u b - v b) by ring]
      exact abs_sub _ _
    linarith
  have hDm : Measurable fun u : Fin d → ℝ => |u a - u b| :=
    measurable_abs.comp ((measurable_pi_apply _).sub (measurable_pi_apply _))
  refine ⟨fun u => |u a - u b|, fun θ => d * Real.log (1 + d * θ) + Real.log (eulerA (d - 1) 1), 0, 1, le_rfl, zero_le_one, hDm, ⟨1, hDL⟩,
    diff_mean_pos h (ρ := id) (fun s t _ _ e => e) hab hDm ((hDL.memLp h.margins hDm).integrable one_le_two),
    fun κ hκ => ?_, fun θ h u hu => by simpa using frankDD_tail h2 (by linarith : 0 < θ) hu a b⟩
  obtain ⟨b', hb'⟩ := log_small hd1 (half_pos hκ)
  refine ⟨max b' (2 * Real.log (eulerA (d - 1) 1) / κ), fun θ hθ => ?_⟩
  have h6 := hb' θ ((le_max_left _ _).trans hθ)
  have h7 := (le_max_right _ _).trans hθ
  rw [div_le_iff₀ hκ] at h7
  linarith

theorem frankDD_worse (h2 : 2 ≤ d) {P : Measure (Fin d → ℝ)} [IsProbabilityMeasure P] {f₀ : (Fin d → ℝ) → ℝ} (h : LogDensity P f₀)
    (hne : ∀ θ, 0 < θ → ∀ P', IsLawOf P' (Family.copula (d := d) .frank θ) → P ≠ P') : Worse P f₀ frankDD := by
  have hK := frankK_nonneg h2
  refine ⟨frankDD_zero h2, fun θ _ => measurable_frankDD h2 θ, fun θ h => ⟨_, frankDD_logLip h2 h⟩,
    ⟨d + frankK d * (d + 1) + d, by positivity, fun s t hs ht u hu => (frankDD_par h2 hs ht hu).trans ?_⟩, fun θ h' => ?_, frankDD_far h2 h.toCubeLog⟩
  · have : 1 ≤ logEnv u := by
      rw [logEnv]
      linarith [sum_nonneg fun (j : Fin d) (_ : j ∈ univ) => sq_nonneg (Real.log (u j))]
    exact le_mul_of_one_le_right (by positivity) this
  · obtain ⟨P', hP'⟩ := arch_law_exists (show Copulae.Admissible .frank θ d from ⟨h2, h'.ne', by linarith, fun _ => h'⟩)
    have := hP'.prob
    obtain ⟨g', hg', hgl'⟩ := frankDD_densityOf h2 h' hP'
    exact h.mean_lt (hne θ h' P' hP') (((frankDD_logLip h2 h'.le).memLp h.margins (measurable_frankDD h2 θ)).integrable one_le_two) hg' hgl'

/-! ### `pdf` -/

variable {n : ℕ}

theorem archPdf_frankDD_sum (h2 : 2 ≤ d) (h : 0 < θ) (hn : 2 ≤ n) {r : Fin n → Fin d → ℝ} (hr : ∀ i, r i ∈ cube d) :
    (do let w ← archPdf .frank θ d (fun i j => .fin (r i j)) true; sumLog w) = .ok (.fin (∑ i, frankDD θ (r i))) := by
  rw [(frank_pdfComputes h h2 n r hr).2]
  simp only [bind, Except.bind]
  have : (fun i => Fl.log (Fl.fin (frankDensity θ (r i)))) = fun i => .fin (frankDD θ (r i)) := by
    funext i
    rw [frankDensity_DD h2 h (hr i), Fl.log_pos (Real.exp_pos _), Real.log_exp]
  rw [this, sumLog_ok (by omega)]

theorem sum_all_ninf {m : ℕ} (hm : 1 ≤ m) : ∑ _j : Fin m, Fl.ninf = .ninf := by
  induction m, hm using Nat.le_induction with
  | base => simp
  | succ m _ ih => rw [Fin.sum_univ_succ, ih, Fl.ninf_add_ninf]

theorem sum_fin_zero (u : Fin d → ℝ) : ∃ c : ℝ, ∑ j, Fl.fin (u j) = .fin c :=
  Finset.sum_induction (fun j => Fl.fin (u j)) (fun x => ∃ c : ℝ, x = .fin c)
    (by rintro _ _ ⟨a, rfl⟩ ⟨b, rfl⟩; exact ⟨a + b, Fl.fin_add_fin _ _⟩) ⟨0, rfl⟩ fun j _ => ⟨u j, rfl⟩

theorem frankLogRow_zero' (h2 : 2 ≤ d) (u : Fin d → ℝ) : frankLogRow 0 (fun j => Fl.fin (u j)) = .ok .nan := by
  have hl : log1mexp (.fin 0) = .ninf := by simp [log1mexp]
  obtain ⟨v, hv⟩ := polyLog_ok (Fl.exp (log1mexp (.fin 0) + ∑ j, (log1mexp (.fin 0 * Fl.fin (u j)) - log1mexp (.fin 0)))) (d - 1) true
  unfold frankLogRow
  rw [show (1 : ℤ) - ((d : ℕ) : ℤ) = -((d - 1 : ℕ) : ℤ) by omega]
  simp only [hv, bind, Except.bind, pure, Except.pure]
  obtain ⟨c, hc⟩ := sum_fin_zero u
  simp only [hc, Fl.fin_mul_fin, zero_mul, Fl.log_zero, hl, sum_all_ninf (by omega : 1 ≤ d)]
  have hd : (0 : ℝ) < (d : ℝ) - 1 := sub_pos.mpr (by exact_mod_cast (by omega : 1 < d))
  rw [Fl.fin_mul_ninf, Fl.infSign_neg (by linarith)]
  cases v <;> rfl

/-- Parameters up to zero: the log-densities are NaN. -/
theorem archPdf_frankDD_nan (h2 : 2 ≤ d) (h : θ ≤ 0) (hn : 2 ≤ n) (r : Fin n → Fin d → ℝ) :
    (do let w ← archPdf .frank θ d (fun i j => .fin (r i j)) true; sumLog w) = .ok .nan := by
  have hrow : ∀ i : Fin n, frankRow θ (fun j => Fl.fin (r i j)) = .ok .nan := fun i => by
    unfold frankRow
    split_ifs
    · rcases h.eq_or_lt with rfl | h
      · exact frankLogRow_zero' h2 (r i)
      · obtain ⟨v, h1, h2⟩ := frankLogRow_ok θ (by omega : 1 ≤ d) fun j => Fl.fin (r i j)
        rw [h1, h2 h]
    · rfl
  simp only [archPdf]
  rw [frankPdf_ok hrow]
  simp only [bind, Except.bind, if_true, sumLog]
  rw [if_neg (by omega)]
  obtain ⟨m, rfl⟩ : ∃ m, n = m + 1 := ⟨n - 1, by omega⟩
  rw [Fin.sum_univ_succ, Fl.nan_add]

end Copulae
