import Verif.Lemmas.ItauFit
import Verif.Lemmas.ScoreMoments
import Verif.Props.GofReplicates

/-!
The statistic of the goodness-of-fit test on large samples, for fits that depend on the sample through Kendall's tau.
-/

namespace Copulae

open MeasureTheory ProbabilityTheory Finset Spec CopulaMeasure

variable {d n : ℕ}

/-- The difference between the distribution functions of two laws. -/
noncomputable def Spec.gap (P H : Measure (Fin d → ℝ)) (w : Fin d → ℝ) : ℝ := distFn P w - distFn H w

/-- The mean squared difference between the distribution function of an observation and another one. -/
noncomputable def Spec.misfit (P H : Measure (Fin d → ℝ)) : ℝ := ∫ w, gap P H w ^ 2 ∂P

theorem gap_le (P H : Measure (Fin d → ℝ)) [IsProbabilityMeasure P] [IsProbabilityMeasure H] (w : Fin d → ℝ) : |gap P H w| ≤ 1 := by
  have a1 : distFn P w ≤ 1 := measureReal_le_one
  have a2 : 0 ≤ distFn P w := measureReal_nonneg
  have b1 : distFn H w ≤ 1 := measureReal_le_one
  have b2 : 0 ≤ distFn H w := measureReal_nonneg
  unfold gap
  rw [abs_le]
  constructor <;> linarith

theorem gap_continuous {P H : Measure (Fin d → ℝ)} [IsProbabilityMeasure P] [IsProbabilityMeasure H] (hP : Uniform P) (hH : Uniform H) :
    Continuous (gap P H) :=
  (distFn_continuous hP).sub (distFn_continuous hH)

theorem misfit_self (P : Measure (Fin d → ℝ)) : misfit P P = 0 := by
  simp [misfit, gap]

theorem misfit_pos {P H : Measure (Fin d → ℝ)} [IsProbabilityMeasure P] [IsProbabilityMeasure H] (hP : Uniform P) (hH : Uniform H)
    (hne : P {w | gap P H w ≠ 0} ≠ 0) : 0 < misfit P H := by
  have hi : Integrable (fun w => gap P H w ^ 2) P := by
    refine Integrable.of_bound ((gap_continuous hP hH).pow 2).aestronglyMeasurable 1 (ae_of_all _ fun w => ?_)
    rw [Real.norm_eq_abs, abs_pow]
    exact pow_le_one₀ (abs_nonneg _) (gap_le P H w)
  unfold misfit
  rw [integral_pos_iff_support_of_nonneg (fun w => sq_nonneg _) hi, pos_iff_ne_zero]
  have e : Function.support (fun w => gap P H w ^ 2) = {w | gap P H w ≠ 0} := by
    ext w
    simp [Function.mem_support]
  rwa [e]

/-! ### One sample -/

theorem gofStat_frac (hn : 0 < n) (u : Fin n → Fin d → ℝ) (v : Fin d → ℝ) :
    empDist (n := n) empCop u 0 (fun j => .fin (v j)) = .fin (fracLe u v) := by
  rw [gofStat_emp hn, fracLe, Nat.card_eq_fintype_card, Fintype.card_subtype]

theorem sq_near {a b η : ℝ} (hb : |b| ≤ 1) (h : |a - b| ≤ η) : |a * a - b ^ 2| ≤ η * (2 + η) := by
  have e : a * a - b ^ 2 = (a - b) * (a - b + 2 * b) := by ring
  have h0 := abs_nonneg (a - b)
  rw [e, abs_mul]
  have h1 : |a - b + 2 * b| ≤ η + 2 := by
    refine (abs_add_le _ _).trans ?_
    rw [abs_mul, abs_two]
    linarith
  calc |a - b| * |a - b + 2 * b| ≤ η * (η + 2) := mul_le_mul h h1 (abs_nonneg _) (h0.trans h)
    _ = η * (2 + η) := by ring

section
variable {P H : Measure (Fin d → ℝ)} [IsProbabilityMeasure P] [IsProbabilityMeasure H]

/-- The statistic of a sample close to its law, for a fitted copula close to `H`. -/
theorem gofTStat_near (hP : Uniform P) (hH : Uniform H) (hn : 0 < n) {ε ε' : ℝ} (hε : 0 < ε) (hnε : 1 / ((n : ℝ) + 1) ≤ ε)
    {y : Fin n → Fin d → ℝ} (hy : CloseTo P ε y) {cdf : (Fin n → Fin d → ℝ) → Fin n → Fl} {C : Fin n → ℝ}
    (hC : ∀ i, cdf (unitRanks y) i = .fin (C i)) (hCH : ∀ i, |C i - distFn H (unitRanks y i)| ≤ ε') :
    ∃ t, gofTStat cdf (unitRanks y) = .fin t ∧ 0 ≤ t ∧
      |t - ∑ i, gap P H (y i) ^ 2| ≤ n * ((ε + 9 * d * ε + ε') * (2 + (ε + 9 * d * ε + ε'))) := by
  have hr := unitRanks_near hP hn hε hnε hy
  set D : Fin n → ℝ := fun i => fracLe (unitRanks y) (unitRanks y i) - C i with hD
  refine ⟨∑ i, D i * D i, ?_, sum_nonneg fun i _ => mul_self_nonneg _, ?_⟩
  · unfold gofTStat
    simp only [gofStat_frac hn, hC, Fl.fin_sub_fin, Fl.fin_mul_fin, Fl.sum_fin]
    rfl
  · rw [← sum_sub_distrib]
    refine (abs_sum_le_sum_abs _ _).trans ((sum_le_sum (g := fun _ => (ε + 9 * d * ε + ε') * (2 + (ε + 9 * d * ε + ε'))) fun i _ =>
      sq_near (gap_le P H (y i)) ?_).trans (le_of_eq ?_))
    · have h1 := abs_le.mp (fracLe_near hP (by positivity : (0 : ℝ) ≤ 3 * ε) hy hr (unitRanks y i))
      have h2 := abs_le.mp (distFn_near hP (by positivity : (0 : ℝ) ≤ 3 * ε) (hr i))
      have h3 := abs_le.mp (distFn_near hH (by positivity : (0 : ℝ) ≤ 3 * ε) (hr i))
      have h4 := abs_le.mp (hCH i)
      simp only [hD, gap]
      rw [abs_le]
      constructor <;> linarith [h1.1, h1.2, h2.1, h2.2, h3.1, h3.2, h4.1, h4.2]
    · rw [sum_const, card_univ, Fintype.card_fin, nsmul_eq_mul]

end

theorem gofData_noTies {x y : Fin n → Fin d → ℝ} (hx : NoTies x) (hy : NoTies y) (h : ∀ i k j, x i j < x k j → y i j ≤ y k j)
    {ties fitTies : String} {t t' : TieMethod} (ht : parseTies ties = .ok t) (ht' : parseTies fitTies = .ok t') :
    gofData x ties fitTies = .ok (unitRanks y, unitRanks y) := by
  rw [gofData_ok x ht ht']
  congr 2 <;>
  · funext i j
    rw [ranks_eq hx hy h _ i j]
    rfl

theorem unitRanks_lt {y : Fin n → Fin d → ℝ} (hy : NoTies y) (j : Fin d) (i k : Fin n) :
    unitRanks y i j < unitRanks y k j ↔ y i j < y k j := by
  have hinj : Function.Injective fun k => y k j := fun a b hab => by_contra fun hne => hy j a b hne hab
  unfold unitRanks
  rw [div_lt_div_iff_of_pos_right (by positivity), Rat.cast_lt]
  exact rankdata_lt_iff_of_injective .average hinj i k

theorem noTies_unitRanks {y : Fin n → Fin d → ℝ} (hy : NoTies y) : NoTies (unitRanks y) := by
  intro j i k hik he
  rcases lt_or_gt_of_ne (hy j i k hik) with h | h
  · exact absurd ((unitRanks_lt hy j i k).mpr h) (by rw [he]; exact lt_irrefl _)
  · exact absurd ((unitRanks_lt hy j k i).mpr h) (by rw [he]; exact lt_irrefl _)

theorem sampleTau_unitRanks {y : Fin n → Fin d → ℝ} (hy : NoTies y) (a b : Fin d) :
    sampleTau (fun i => unitRanks y i a) (fun i => unitRanks y i b) = sampleTau (fun i => y i a) fun i => y i b :=
  sampleTau_congr (unitRanks_lt hy a) (unitRanks_lt hy b)

/-- Kendall's taus of a sample are close to those of a law. -/
def TausNear (τ : Fin d → Fin d → ℝ) (η : ℝ) (y : Fin n → Fin d → ℝ) : Prop :=
  NoTies y ∧ ∀ a b, a < b → |sampleTau (fun i => y i a) (fun i => y i b) - τ a b| < η

/-- Samples close to the law, with taus close to those of the law, from a size that is the same for all copulas. -/
theorem sample_likely {ε η δ : ℝ} (hε : 0 < ε) (hη : 0 < η) (hδ : 0 < δ) : ∃ N : ℕ, ∀ (P : Measure (Fin d → ℝ))
    [IsProbabilityMeasure P], Uniform P → ∀ n, N ≤ n →
    iid n P {y | ¬ (CloseTo P ε y ∧ TausNear (kendallTau P) η y)} ≤ ENNReal.ofReal δ := by
  obtain ⟨N1, h1⟩ := close_likely_all (d := d) hε (half_pos hδ)
  obtain ⟨N2, h2⟩ := exists_nat_gt (2 * d * (d - 1) / (δ / 2 * η ^ 2))
  refine ⟨N1 + N2 + 2, fun P _ hP n hn => ?_⟩
  have hsub : {y : Fin n → Fin d → ℝ | ¬ (CloseTo P ε y ∧ TausNear (kendallTau P) η y)} ⊆
      {y | ¬ CloseTo P ε y} ∪ {y | ¬ TausNear (kendallTau P) η y} := by
    intro y hy
    by_contra hcon
    rw [Set.mem_union, not_or] at hcon
    exact hy ⟨not_not.mp hcon.1, not_not.mp hcon.2⟩
  refine (measure_mono hsub).trans ((measure_union_le _ _).trans ?_)
  have hb : iid n P {y | ¬ TausNear (kendallTau P) η y} ≤ ENNReal.ofReal (δ / 2) := by
    refine (sampleTau_close (atomless_of_uniform hP) (by omega) hη).trans (ENNReal.ofReal_le_ofReal ?_)
    have hn1 : (N2 : ℝ) + 1 ≤ n - 1 := by
      have : (N2 : ℝ) + 2 ≤ n := by exact_mod_cast (by omega : N2 + 2 ≤ n)
      linarith
    have hN0 : (0 : ℝ) ≤ N2 := Nat.cast_nonneg N2
    rw [div_lt_iff₀ (by positivity)] at h2
    rw [div_le_iff₀ (mul_pos (by linarith) (by positivity))]
    have : (N2 : ℝ) * (δ / 2 * η ^ 2) ≤ (n - 1) * (δ / 2 * η ^ 2) := mul_le_mul_of_nonneg_right (by linarith) (by positivity)
    linarith
  refine (add_le_add (h1 P hP n (by omega)) hb).trans ?_
  rw [← ENNReal.ofReal_add (by positivity) (by positivity), add_halves]

end Copulae
