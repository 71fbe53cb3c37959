import Mathlib.Analysis.SpecialFunctions.Integrals.Basic
import Mathlib.Analysis.SpecialFunctions.Pow.NNReal
import Mathlib.Probability.Moments.Variance
import Verif.Lemmas.ScoreMoments

/-!
Logarithms of pseudo-observations: their squares have bounded means, and they are close to the logarithms of the observations.
-/

namespace Copulae

open MeasureTheory ProbabilityTheory Spec CopulaMeasure

variable {d n : ℕ}

theorem log_sq_le {t : ℝ} (h0 : 0 < t) (h1 : t ≤ 1) : Real.log t ^ 2 ≤ 16 * t ^ (-(1 / 2) : ℝ) := by
  have h := Real.abs_log_mul_self_rpow_lt t (1 / 4) h0 h1 (by norm_num)
  have h2 : (Real.log t * t ^ (1 / 4 : ℝ)) ^ 2 ≤ 16 := by
    rw [← sq_abs]
    calc |Real.log t * t ^ (1 / 4 : ℝ)| ^ 2 ≤ (1 / (1 / 4)) ^ 2 := pow_le_pow_left₀ (abs_nonneg _) h.le 2
      _ = 16 := by norm_num
  have e : (t ^ (1 / 4 : ℝ)) ^ 2 = t ^ (1 / 2 : ℝ) := by
    rw [← Real.rpow_natCast, ← Real.rpow_mul h0.le]
    norm_num
  have hp : 0 < t ^ (1 / 2 : ℝ) := Real.rpow_pos_of_pos h0 _
  rw [mul_pow, e] at h2
  rw [Real.rpow_neg h0.le, ← div_eq_mul_inv, le_div_iff₀ hp]
  exact h2

theorem sum_inv_sqrt (n : ℕ) : ∑ k : Fin n, 1 / √((k : ℕ) + 1 : ℝ) ≤ 2 * √n := by
  induction n with
  | zero => simp
  | succ n ih =>
    rw [Fin.sum_univ_castSucc]
    simp only [Fin.val_castSucc, Fin.val_last]
    have h1 : 0 < √((n : ℝ) + 1) := Real.sqrt_pos.mpr (by positivity)
    have h2 : √((n : ℝ) + 1) ^ 2 = n + 1 := Real.sq_sqrt (by positivity)
    have h3 : √(n : ℝ) ^ 2 = n := Real.sq_sqrt (Nat.cast_nonneg n)
    have h4 : 1 / √((n : ℝ) + 1) ≤ 2 * (√((n : ℝ) + 1) - √n) := by
      rw [div_le_iff₀ h1]
      nlinarith [sq_nonneg (√((n : ℝ) + 1) - √n)]
    push_cast
    linarith

/-- The squares of the logarithms of the ranks have a bounded mean. -/
theorem sum_log_sq (n : ℕ) : ∑ k : Fin n, Real.log (((k : ℕ) + 1 : ℝ) / (n + 1)) ^ 2 ≤ 32 * (n + 1) := by
  have hn : (0 : ℝ) < n + 1 := by positivity
  have row : ∀ k : Fin n, Real.log (((k : ℕ) + 1 : ℝ) / (n + 1)) ^ 2 ≤ 16 * √((n : ℝ) + 1) * (1 / √((k : ℕ) + 1 : ℝ)) := fun k => by
    have hk : ((k : ℕ) : ℝ) + 1 ≤ n := by exact_mod_cast k.isLt
    have h0 : 0 < ((k : ℕ) + 1 : ℝ) / (n + 1) := by positivity
    refine (log_sq_le h0 (by rw [div_le_one hn]; linarith)).trans (le_of_eq ?_)
    rw [Real.rpow_neg h0.le, ← Real.sqrt_eq_rpow, Real.sqrt_div (by positivity), inv_div, mul_assoc, mul_one_div]
  refine (Finset.sum_le_sum fun k _ => row k).trans ?_
  rw [← Finset.mul_sum]
  have h1 := sum_inv_sqrt n
  have h2 : √(n : ℝ) ≤ √((n : ℝ) + 1) := Real.sqrt_le_sqrt (by linarith)
  have h3 : √((n : ℝ) + 1) ^ 2 = n + 1 := Real.sq_sqrt hn.le
  have h4 := mul_le_mul_of_nonneg_left (h1.trans (mul_le_mul_of_nonneg_left h2 zero_le_two)) (Real.sqrt_nonneg ((n : ℝ) + 1))
  nlinarith

theorem integral_log_sq : IntegrableOn (fun t : ℝ => Real.log t ^ 2) (Set.Ioc 0 1) ∧ ∫ t in Set.Ioc (0 : ℝ) 1, Real.log t ^ 2 ≤ 32 := by
  have hi : IntegrableOn (fun t : ℝ => 16 * t ^ (-(1 / 2) : ℝ)) (Set.Ioc 0 1) := by
    have := (intervalIntegral.intervalIntegrable_rpow' (a := 0) (b := 1) (r := -(1 / 2)) (by norm_num)).const_mul 16
    exact (intervalIntegrable_iff_integrableOn_Ioc_of_le zero_le_one).mp this
  have hle : ∀ t ∈ Set.Ioc (0 : ℝ) 1, Real.log t ^ 2 ≤ 16 * t ^ (-(1 / 2) : ℝ) := fun t ht => log_sq_le ht.1 ht.2
  have hl : IntegrableOn (fun t : ℝ => Real.log t ^ 2) (Set.Ioc 0 1) := by
    refine hi.mono' (Real.measurable_log.pow_const 2).aestronglyMeasurable ?_
    filter_upwards [ae_restrict_mem measurableSet_Ioc] with t ht
    rw [Real.norm_of_nonneg (sq_nonneg _)]
    exact hle t ht
  refine ⟨hl, (setIntegral_mono_on hl hi measurableSet_Ioc hle).trans (le_of_eq ?_)⟩
  rw [← intervalIntegral.integral_of_le zero_le_one, intervalIntegral.integral_const_mul, integral_rpow (Or.inl (by norm_num))]
  norm_num

section law
variable {P : Measure (Fin d → ℝ)}

theorem log_sq_mean (hP : Uniform P) (j : Fin d) :
    Integrable (fun u => Real.log (u j) ^ 2) P ∧ ∫ u, Real.log (u j) ^ 2 ∂P ≤ 32 := by
  have hm : Measurable fun u : Fin d → ℝ => u j := measurable_pi_apply j
  have h := integral_log_sq
  have e := integral_map (μ := P) hm.aemeasurable (f := fun t : ℝ => Real.log t ^ 2) (Real.measurable_log.pow_const 2).aestronglyMeasurable
  rw [hP j] at e
  refine ⟨?_, by rw [← e]; exact h.2⟩
  have h1 := h.1
  rw [IntegrableOn, ← hP j] at h1
  exact h1.comp_measurable hm

/-- The logarithms of two numbers are close if the numbers are, up to a share of their squares. -/
theorem abs_log_sub {a b η : ℝ} (ha : 0 < a) (ha1 : a ≤ 1) (hb : 0 < b) (hb1 : b ≤ 1) (hη : 0 < η) (hη1 : η < 1) :
    |Real.log a - Real.log b| ≤ |a - b| / η + (Real.log a ^ 2 + Real.log b ^ 2) / -Real.log η := by
  have hl : 0 < -Real.log η := by linarith [Real.log_neg hη hη1]
  have key : ∀ {a b : ℝ}, 0 < a → a ≤ b → b ≤ 1 → Real.log b - Real.log a ≤ (b - a) / η + (Real.log a ^ 2 + Real.log b ^ 2) / -Real.log η := by
    intro a b ha hab hb1
    have hb : 0 < b := lt_of_lt_of_le ha hab
    have la : Real.log a ≤ 0 := Real.log_nonpos ha.le (hab.trans hb1)
    have lb : Real.log b ≤ 0 := Real.log_nonpos hb.le hb1
    rcases le_or_gt η a with h | h
    · have h1 : Real.log b - Real.log a ≤ (b - a) / η := by
        rw [← Real.log_div hb.ne' ha.ne']
        refine (Real.log_le_sub_one_of_pos (div_pos hb ha)).trans ?_
        rw [div_sub_one ha.ne']
        exact div_le_div_of_nonneg_left (by linarith) hη h
      have : 0 ≤ (Real.log a ^ 2 + Real.log b ^ 2) / -Real.log η := by positivity
      linarith
    · have h1 : Real.log a < Real.log η := Real.log_lt_log ha h
      have h2 : Real.log b - Real.log a ≤ (Real.log a ^ 2 + Real.log b ^ 2) / -Real.log η := by
        rw [le_div_iff₀ hl]
        nlinarith [sq_nonneg (Real.log b)]
      have : 0 ≤ (b - a) / η := div_nonneg (by linarith) hη.le
      linarith
  rcases le_total a b with h | h
  · rw [abs_sub_comm, abs_of_nonneg (by linarith [Real.log_le_log ha h]), abs_sub_comm a b, abs_of_nonneg (by linarith : 0 ≤ b - a)]
    exact key ha h hb1
  · rw [abs_of_nonneg (by linarith [Real.log_le_log hb h]), abs_of_nonneg (by linarith : 0 ≤ a - b), add_comm (Real.log a ^ 2)]
    exact key hb h ha1

/-- Means of functions with second moments converge. -/
theorem mean_close_sq {X : Type} [MeasurableSpace X] {P : Measure X} [IsProbabilityMeasure P] {h : X → ℝ} (hm : MemLp h 2 P) {ε δ : ℝ}
    (hε : 0 < ε) (hδ : 0 < δ) : ∃ N : ℕ, ∀ n, N ≤ n → iid n P {x | ε ≤ |(∑ i, h (x i)) / n - ∫ x, h x ∂P|} ≤ ENNReal.ofReal δ := by
  obtain ⟨N, hN⟩ := exists_nat_gt (variance h P / (ε ^ 2 * δ))
  refine ⟨N + 1, fun n hn => ?_⟩
  have hn1 : (N : ℝ) + 1 ≤ n := by exact_mod_cast hn
  have hn0 : (0 : ℝ) < n := by
    have : (0 : ℝ) ≤ N := Nat.cast_nonneg N
    linarith
  have : IsProbabilityMeasure (iid n P) := by unfold iid; infer_instance
  have hp : ∀ i : Fin n, MemLp (fun x : Fin n → X => h (x i)) 2 (iid n P) := fun i =>
    hm.comp_measurePreserving (measurePreserving_eval (fun _ : Fin n => P) i)
  have hs : MemLp (fun x : Fin n → X => ∑ i, h (x i)) 2 (iid n P) := memLp_finsetSum _ fun i _ => hp i
  have he : ∫ x, ∑ i, h (x i) ∂(iid n P) = n * ∫ x, h x ∂P := by
    rw [integral_finsetSum _ fun i _ => (hp i).integrable one_le_two]
    have : ∀ i : Fin n, ∫ x, h (x i) ∂(iid n P) = ∫ x, h x ∂P := fun i => by
      have e := (measurePreserving_eval (fun _ : Fin n => P) i).map_eq
      conv_rhs => rw [← e]
      rw [integral_map (measurable_pi_apply i).aemeasurable (by rw [e]; exact hm.1)]
      rfl
    simp [this]
  have hv : variance (fun x : Fin n → X => ∑ i, h (x i)) (iid n P) = n * variance h P := by
    have := variance_sum_pi (μ := fun _ : Fin n => P) (X := fun _ => h) fun _ => hm
    simp only [Finset.sum_const, Finset.card_univ, Fintype.card_fin, nsmul_eq_mul] at this
    rw [← this]
    congr 1
    funext x
    simp
  have hc := meas_ge_le_variance_div_sq hs (show 0 < n * ε by positivity)
  rw [he, hv] at hc
  refine (measure_mono fun x hx => ?_).trans (hc.trans (ENNReal.ofReal_le_ofReal ?_))
  · have hx' : ε ≤ |(∑ i, h (x i)) / n - ∫ x, h x ∂P| := hx
    show n * ε ≤ |∑ i, h (x i) - n * ∫ x, h x ∂P|
    have e : ∑ i, h (x i) - n * ∫ x, h x ∂P = n * ((∑ i, h (x i)) / n - ∫ x, h x ∂P) := by
      rw [mul_sub, mul_div_cancel₀ _ hn0.ne']
    rw [e, abs_mul, abs_of_pos hn0]
    exact mul_le_mul_of_nonneg_left hx' hn0.le
  · rw [div_lt_iff₀ (by positivity)] at hN
    rw [div_le_iff₀ (by positivity)]
    nlinarith [variance_nonneg h P, mul_pos hn0 (show 0 < ε ^ 2 * δ by positivity)]

/-- The logarithms of the pseudo-observations are close to those of the observations, in the mean. -/
theorem log_ranks_likely [IsProbabilityMeasure P] (hP : Uniform P) {ε δ : ℝ} (hε : 0 < ε) (hδ : 0 < δ) :
    ∃ N : ℕ, ∀ n, N ≤ n → iid n P {y | ¬ (NoTies y ∧ (∀ i j, 0 < y i j ∧ y i j < 1) ∧
      ∑ i, ∑ j, |Real.log (unitRanks y i j) - Real.log (y i j)| ≤ ε * n)} ≤ ENNReal.ofReal δ := by
  obtain ⟨T, hT⟩ : ∃ T : ℝ, T = 64 * (d + 1) / δ := ⟨_, rfl⟩
  have hT0 : 0 < T := by rw [hT]; positivity
  obtain ⟨A, hA⟩ : ∃ A : ℝ, A = 2 * (64 * d + T) / ε + 1 := ⟨_, rfl⟩
  have hA0 : 0 < A := by rw [hA]; positivity
  obtain ⟨η, hη⟩ : ∃ η : ℝ, η = Real.exp (-A) := ⟨_, rfl⟩
  have hη0 : 0 < η := hη ▸ Real.exp_pos _
  have hη1 : η < 1 := by rw [hη, Real.exp_lt_one_iff]; linarith
  have hlog : -Real.log η = A := by rw [hη, Real.log_exp, neg_neg]
  obtain ⟨ε', hε'⟩ : ∃ ε' : ℝ, ε' = ε * η / (6 * (d + 1)) := ⟨_, rfl⟩
  have hε0 : 0 < ε' := by rw [hε']; positivity
  obtain ⟨N1, hN1⟩ := close_likely hP hε0 (half_pos hδ)
  obtain ⟨N2, hN2⟩ := exists_nat_gt (1 / ε')
  refine ⟨N1 + N2 + 1, fun n hn => ?_⟩
  have hn0 : (0 : ℝ) < n := by exact_mod_cast (by omega : 0 < n)
  have hn1 : (1 : ℝ) ≤ n := by exact_mod_cast (by omega : 1 ≤ n)
  have : IsProbabilityMeasure (iid n P) := by unfold iid; infer_instance
  have hnε : 1 / ((n : ℝ) + 1) ≤ ε' := by
    have : (N2 : ℝ) ≤ n := by exact_mod_cast (by omega : N2 ≤ n)
    rw [div_lt_iff₀ hε0] at hN2
    rw [div_le_iff₀ (by positivity)]
    nlinarith
  have hsub : {y : Fin n → Fin d → ℝ | ¬ (NoTies y ∧ (∀ i j, 0 < y i j ∧ y i j < 1) ∧
      ∑ i, ∑ j, |Real.log (unitRanks y i j) - Real.log (y i j)| ≤ ε * n)} ⊆
      {y | ¬ NoTies y} ∪ ({y | ¬ CloseTo P ε' y} ∪ {y | T * n ≤ ∑ i, ∑ j, Real.log (y i j) ^ 2}) := by
    intro y hy
    by_contra hcon
    simp only [Set.mem_union, not_or] at hcon
    obtain ⟨a1, a2, a3⟩ := hcon
    have t1 : NoTies y := not_not.mp a1
    have t2 : CloseTo P ε' y := not_not.mp a2
    have t3 : ∑ i, ∑ j, Real.log (y i j) ^ 2 < T * n := not_le.mp a3
    refine hy ⟨t1, t2.1, ?_⟩
    have row : ∀ i j, |Real.log (unitRanks y i j) - Real.log (y i j)| ≤
        3 * ε' / η + (Real.log (unitRanks y i j) ^ 2 + Real.log (y i j) ^ 2) / A := fun i j => by
      have h1 := unitRanks_mem t1 i j
      have h2 := abs_log_sub h1.1 h1.2.le (t2.1 i j).1 (t2.1 i j).2.le hη0 hη1
      rw [hlog] at h2
      have h3 := div_le_div_of_nonneg_right (unitRanks_near hP (by omega) hε0 hnε t2 i j) hη0.le
      linarith
    refine (Finset.sum_le_sum fun i _ => Finset.sum_le_sum fun j _ => row i j).trans ?_
    have s1 : ∑ i, ∑ j, Real.log (unitRanks y i j) ^ 2 ≤ d * (32 * (n + 1)) := by
      rw [Finset.sum_comm]
      have : ∀ j : Fin d, ∑ i, Real.log (unitRanks y i j) ^ 2 ≤ 32 * (n + 1) := fun j => by
        rw [sum_scores t1 j fun t => Real.log t ^ 2]
        exact sum_log_sq n
      refine (Finset.sum_le_sum fun j _ => this j).trans (le_of_eq ?_)
      simp
    simp only [Finset.sum_add_distrib, ← Finset.sum_div, Finset.sum_const, Finset.card_univ, Fintype.card_fin, nsmul_eq_mul]
    have s2 : (d : ℝ) * (3 * ε' / η) ≤ ε / 2 := by
      rw [hε']
      have : (d : ℝ) * (3 * (ε * η / (6 * (d + 1))) / η) = ε / 2 * (d / (d + 1)) := by
        field_simp
        ring
      rw [this]
      have hd1 : (d : ℝ) / (d + 1) ≤ 1 := by rw [div_le_one (by positivity)]; linarith
      nlinarith
    have s3 : (∑ i, ∑ j, Real.log (unitRanks y i j) ^ 2 + ∑ i, ∑ j, Real.log (y i j) ^ 2) / A ≤ ε / 2 * n := by
      rw [div_le_iff₀ hA0]
      have h1 : ε / 2 * n * A = n * (64 * d + T) + ε / 2 * n := by
        rw [hA]
        field_simp
      rw [h1]
      have hd0 : (0 : ℝ) ≤ d := Nat.cast_nonneg d
      nlinarith [mul_pos hε hn0]
    have s4 := mul_le_mul_of_nonneg_left s2 hn0.le
    have s5 : (n : ℝ) * (d * (3 * ε')) / η = n * (d * (3 * ε' / η)) := by ring
    rw [s5]
    linarith
  have b0 : iid n P {y | ¬ NoTies y} = 0 := ae_iff.mp (noTies_ae (n := n) (atomless_of_uniform hP))
  have b1 := hN1 n (by omega)
  have b2 : iid n P {y | T * n ≤ ∑ i, ∑ j, Real.log (y i j) ^ 2} ≤ ENNReal.ofReal (δ / 2) := by
    have hint : ∀ (i : Fin n) (j : Fin d), Integrable (fun y : Fin n → Fin d → ℝ => Real.log (y i j) ^ 2) (iid n P) ∧
        ∫ y, Real.log (y i j) ^ 2 ∂(iid n P) ≤ 32 := fun i j => by
      have hmp := measurePreserving_eval (fun _ : Fin n => P) i
      have hq := log_sq_mean hP j
      refine ⟨hmp.integrable_comp_of_integrable hq.1, ?_⟩
      have e := integral_map (μ := Measure.pi fun _ : Fin n => P) (measurable_pi_apply i).aemeasurable
        (f := fun u : Fin d → ℝ => Real.log (u j) ^ 2) (by rw [hmp.map_eq]; exact hq.1.1)
      rw [hmp.map_eq] at e
      exact (show ∫ y, Real.log (y i j) ^ 2 ∂(iid n P) = _ from e.symm).le.trans hq.2
    have hsi : ∀ i : Fin n, Integrable (fun y : Fin n → Fin d → ℝ => ∑ j, Real.log (y i j) ^ 2) (iid n P) := fun i =>
      integrable_finsetSum _ fun j _ => (hint i j).1
    have hs : Integrable (fun y : Fin n → Fin d → ℝ => ∑ i, ∑ j, Real.log (y i j) ^ 2) (iid n P) :=
      integrable_finsetSum _ fun i _ => hsi i
    have hm := mul_meas_ge_le_integral_of_nonneg (μ := iid n P) (ae_of_all _ fun y => Finset.sum_nonneg fun i _ =>
      Finset.sum_nonneg fun j _ => sq_nonneg _) hs (T * n)
    have hI : ∫ y, ∑ i, ∑ j, Real.log (y i j) ^ 2 ∂(iid n P) ≤ n * (d * 32) := by
      rw [integral_finsetSum _ fun i _ => hsi i]
      calc ∑ i : Fin n, ∫ y, ∑ j, Real.log (y i j) ^ 2 ∂(iid n P) ≤ ∑ _i : Fin n, (d : ℝ) * 32 := by
            refine Finset.sum_le_sum fun i _ => ?_
            rw [integral_finsetSum _ fun j _ => (hint i j).1]
            refine (Finset.sum_le_sum fun j _ => (hint i j).2).trans (le_of_eq ?_)
            simp
        _ = n * (d * 32) := by simp
    rw [← ofReal_measureReal]
    refine ENNReal.ofReal_le_ofReal ?_
    have h1 : T * n * (iid n P).real {y | T * n ≤ ∑ i, ∑ j, Real.log (y i j) ^ 2} ≤ n * (d * 32) := hm.trans hI
    have h2 : T * (iid n P).real {y | T * n ≤ ∑ i, ∑ j, Real.log (y i j) ^ 2} ≤ d * 32 := by
      refine le_of_mul_le_mul_left ?_ hn0
      calc _ = T * n * (iid n P).real {y | T * n ≤ ∑ i, ∑ j, Real.log (y i j) ^ 2} := by ring
        _ ≤ _ := h1
    have h3 : (d : ℝ) * 32 ≤ T * (δ / 2) := by
      rw [hT]
      have : 64 * ((d : ℝ) + 1) / δ * (δ / 2) = 32 * (d + 1) := by
        field_simp
        ring
      rw [this]
      linarith
    exact le_of_mul_le_mul_left (h2.trans h3) hT0
  refine (measure_mono hsub).trans ((measure_union_le _ _).trans ?_)
  rw [b0, zero_add]
  refine (measure_union_le _ _).trans ((add_le_add b1 b2).trans (le_of_eq ?_))
  rw [← ENNReal.ofReal_add (by positivity) (by positivity), add_halves]

end law

end Copulae
