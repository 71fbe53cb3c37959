import Mathlib.Probability.Independence.Integration
import Mathlib.Probability.Independence.Basic
import Mathlib.MeasureTheory.Constructions.Pi
import Mathlib.MeasureTheory.Integral.Bochner.Basic
import Mathlib.MeasureTheory.Integral.Pi
import Mathlib.Tactic.Positivity
import Mathlib.Tactic.FieldSimp

/-!
The mean of a bounded function of two independent observations over all pairs of a sample: its variance is at most `4 / (n - 1)`.
-/

namespace Copulae

open MeasureTheory ProbabilityTheory Finset

variable {X : Type*} [MeasurableSpace X] {P : Measure X} [IsProbabilityMeasure P] {n : ℕ}

theorem pi_indep (n : ℕ) : iIndepFun (fun (i : Fin n) (x : Fin n → X) => x i) (Measure.pi fun _ => P) :=
  iIndepFun_pi (X := fun _ : Fin n => (id : X → X)) (μ := fun _ => P) fun _ => aemeasurable_id

theorem pi_pair_map {i j : Fin n} (hij : i ≠ j) :
    (Measure.pi fun _ : Fin n => P).map (fun x => (x i, x j)) = P.prod P := by
  have h := ((pi_indep (P := P) n).indepFun hij).map_prod_eq_prod_map_map (measurable_pi_apply i).aemeasurable
    (measurable_pi_apply j).aemeasurable
  rw [show (fun x : Fin n → X => x i) = Function.eval i from rfl, show (fun x : Fin n → X => x j) = Function.eval j from rfl,
    (measurePreserving_eval (fun _ : Fin n => P) i).map_eq, (measurePreserving_eval (fun _ : Fin n => P) j).map_eq] at h
  exact h

theorem pi_pair_integral {i j : Fin n} (hij : i ≠ j) {g : X × X → ℝ} (hg : Measurable g) :
    ∫ x, g (x i, x j) ∂(Measure.pi fun _ : Fin n => P) = ∫ p, g p ∂(P.prod P) := by
  rw [← pi_pair_map (P := P) hij, integral_map (by fun_prop) hg.aestronglyMeasurable]

/-- The pairs of different positions. -/
def pairsOf (n : ℕ) : Finset (Fin n × Fin n) := univ.filter fun p => p.1 ≠ p.2

theorem card_pairsOf (n : ℕ) : ((pairsOf n).card : ℝ) = n * (n - 1) := by
  have : pairsOf n = (univ : Finset (Fin n)).offDiag := by
    ext p; simp [pairsOf]
  rw [this, offDiag_card, card_univ, Fintype.card_fin, Nat.cast_sub (Nat.le_mul_self n)]
  push_cast
  ring

/-- The mean of a function of two observations over all pairs of different observations. -/
noncomputable def pairMean (h : X × X → ℝ) (x : Fin n → X) : ℝ := (∑ p ∈ pairsOf n, h (x p.1, x p.2)) / (n * (n - 1))

theorem pairMean_sq_le {h : X × X → ℝ} (hm : Measurable h) (hb : ∀ p, |h p| ≤ 1) (hn : 2 ≤ n) :
    Integrable (fun x => (pairMean h x - ∫ p, h p ∂(P.prod P)) ^ 2) (Measure.pi fun _ : Fin n => P) ∧
    ∫ x, (pairMean h x - ∫ p, h p ∂(P.prod P)) ^ 2 ∂(Measure.pi fun _ : Fin n => P) ≤ 4 / (n - 1) := by
  have hn1 : (2 : ℝ) ≤ n := by exact_mod_cast hn
  set θ := ∫ p, h p ∂(P.prod P) with hθ
  set μ := Measure.pi fun _ : Fin n => P with hμ
  have hint : Integrable h (P.prod P) := Integrable.of_bound hm.aestronglyMeasurable 1 (ae_of_all _ hb)
  have hθ1 : |θ| ≤ 1 := by
    have := norm_integral_le_of_norm_le_const (μ := P.prod P) (f := h) (C := 1) (ae_of_all _ hb)
    simpa using this
  set g : X × X → ℝ := fun p => h p - θ with hg
  have hgm : Measurable g := hm.sub_const _
  have hgb : ∀ p, |g p| ≤ 2 := fun p => (abs_sub _ _).trans (by linarith [hb p])
  have hg0 : ∫ p, g p ∂(P.prod P) = 0 := by
    rw [hg, integral_sub hint (integrable_const _), integral_const]
    simp [hθ]
  have hg2i : Integrable (fun p => g p ^ 2) (P.prod P) :=
    Integrable.of_bound (hgm.pow_const 2).aestronglyMeasurable 4 (ae_of_all _ fun p => by
      rw [Real.norm_eq_abs, abs_pow]
      have := hgb p
      have h0 := abs_nonneg (g p)
      nlinarith)
  have hg2 : ∫ p, g p ^ 2 ∂(P.prod P) ≤ 1 := by
    have h2i : Integrable (fun p => h p ^ 2) (P.prod P) :=
      Integrable.of_bound (hm.pow_const 2).aestronglyMeasurable 1 (ae_of_all _ fun p => by
        rw [Real.norm_eq_abs, abs_pow]
        have := hb p
        have h0 := abs_nonneg (h p)
        nlinarith)
    have e : (fun p => g p ^ 2) = fun p => h p ^ 2 - 2 * θ * h p + θ ^ 2 := by funext p; simp only [hg]; ring
    have hi1 : Integrable (fun p => h p ^ 2 - 2 * θ * h p) (P.prod P) := h2i.sub (hint.const_mul _)
    rw [e, integral_add hi1 (integrable_const _), integral_sub h2i (hint.const_mul _), integral_const_mul, integral_const]
    have : ∫ p, h p ^ 2 ∂(P.prod P) ≤ ∫ _, (1 : ℝ) ∂(P.prod P) := integral_mono h2i (integrable_const _) fun p => by
      have := hb p
      rw [← sq_abs]
      have h0 := abs_nonneg (h p)
      show |h p| ^ 2 ≤ 1
      nlinarith
    simp only [integral_const, probReal_univ, smul_eq_mul, mul_one, one_mul] at this ⊢
    rw [← hθ]
    nlinarith [sq_nonneg θ]
  have hf : ∀ p : Fin n × Fin n, Measurable fun x : Fin n → X => g (x p.1, x p.2) := fun p =>
    hgm.comp ((measurable_pi_apply p.1).prodMk (measurable_pi_apply p.2))
  have hcov_int : ∀ p q : Fin n × Fin n, Integrable (fun x : Fin n → X => g (x p.1, x p.2) * g (x q.1, x q.2)) μ :=
    fun p q => Integrable.of_bound ((hf p).mul (hf q)).aestronglyMeasurable 4 (ae_of_all _ fun x => by
      rw [Real.norm_eq_abs, abs_mul]
      have h1 := hgb (x p.1, x p.2)
      have h2 := hgb (x q.1, x q.2)
      have h3 := abs_nonneg (g (x p.1, x p.2))
      have h4 := abs_nonneg (g (x q.1, x q.2))
      nlinarith)
  have hsq_int : ∀ p : Fin n × Fin n, Integrable (fun x : Fin n → X => g (x p.1, x p.2) ^ 2) μ := fun p => by
    simpa only [sq] using hcov_int p p
  have hsq : ∀ p ∈ pairsOf n, ∫ x, g (x p.1, x p.2) ^ 2 ∂μ ≤ 1 := fun p hp => by
    have hp' : p.1 ≠ p.2 := (mem_filter.mp hp).2
    rw [hμ, pi_pair_integral (P := P) hp' (g := fun p => g p ^ 2) (hgm.pow_const 2)]
    exact hg2
  have hcov : ∀ p ∈ pairsOf n, ∀ q ∈ pairsOf n, ∫ x, g (x p.1, x p.2) * g (x q.1, x q.2) ∂μ ≤
      (if p.1 = q.1 then 1 else 0) + (if p.1 = q.2 then 1 else 0) + (if p.2 = q.1 then 1 else 0) +
        (if p.2 = q.2 then (1 : ℝ) else 0) := by
    intro p hp q hq
    have hp' : p.1 ≠ p.2 := (mem_filter.mp hp).2
    have hq' : q.1 ≠ q.2 := (mem_filter.mp hq).2
    by_cases hd : p.1 = q.1 ∨ p.1 = q.2 ∨ p.2 = q.1 ∨ p.2 = q.2
    · have h1 : ∫ x, g (x p.1, x p.2) * g (x q.1, x q.2) ∂μ ≤ 1 := by
        have : ∫ x, g (x p.1, x p.2) * g (x q.1, x q.2) ∂μ ≤
            ∫ x, (g (x p.1, x p.2) ^ 2 / 2 + g (x q.1, x q.2) ^ 2 / 2) ∂μ :=
          integral_mono (hcov_int p q) (((hsq_int p).div_const 2).add ((hsq_int q).div_const 2)) fun x => by
            have := sq_nonneg (g (x p.1, x p.2) - g (x q.1, x q.2))
            show g (x p.1, x p.2) * g (x q.1, x q.2) ≤ g (x p.1, x p.2) ^ 2 / 2 + g (x q.1, x q.2) ^ 2 / 2
            nlinarith
        rw [integral_add ((hsq_int p).div_const 2) ((hsq_int q).div_const 2), integral_div, integral_div] at this
        linarith [hsq p hp, hsq q hq]
      refine h1.trans ?_
      have e1 : (0 : ℝ) ≤ if p.1 = q.1 then 1 else 0 := by split_ifs <;> norm_num
      have e2 : (0 : ℝ) ≤ if p.1 = q.2 then 1 else 0 := by split_ifs <;> norm_num
      have e3 : (0 : ℝ) ≤ if p.2 = q.1 then 1 else 0 := by split_ifs <;> norm_num
      have e4 : (0 : ℝ) ≤ if p.2 = q.2 then 1 else 0 := by split_ifs <;> norm_num
      rcases hd with h | h | h | h
      · rw [if_pos h] at e1 ⊢; linarith
      · rw [if_pos h] at e2 ⊢; linarith
      · rw [if_pos h] at e3 ⊢; linarith
      · rw [if_pos h] at e4 ⊢; linarith
    · push Not at hd
      rw [if_neg hd.1, if_neg hd.2.1, if_neg hd.2.2.1, if_neg hd.2.2.2]
      have hI := (pi_indep (P := P) n).indepFun_prodMk_prodMk (fun i => measurable_pi_apply i) p.1 p.2 q.1 q.2 hd.1 hd.2.1
        hd.2.2.1 hd.2.2.2
      have hI' := hI.comp hgm hgm
      have e := hI'.integral_mul_eq_mul_integral (hf p).aestronglyMeasurable (hf q).aestronglyMeasurable
      have e' : ∫ x, g (x p.1, x p.2) * g (x q.1, x q.2) ∂μ =
          (∫ x, g (x p.1, x p.2) ∂μ) * ∫ x, g (x q.1, x q.2) ∂μ := e
      rw [e', hμ, pi_pair_integral (P := P) hp' hgm, hg0]
      simp
  have hcard : ((pairsOf n).card : ℝ) = n * (n - 1) := card_pairsOf n
  have hpos : (0 : ℝ) < n * (n - 1) := by nlinarith
  have hrew : ∀ x : Fin n → X, (pairMean h x - θ) ^ 2 =
      (∑ p ∈ pairsOf n, ∑ q ∈ pairsOf n, g (x p.1, x p.2) * g (x q.1, x q.2)) / (n * (n - 1)) ^ 2 := by
    intro x
    have : pairMean h x - θ = (∑ p ∈ pairsOf n, g (x p.1, x p.2)) / (n * (n - 1)) := by
      simp only [hg]
      rw [sum_sub_distrib, sum_const, nsmul_eq_mul, hcard, pairMean, sub_div, mul_div_assoc,
        mul_div_cancel₀ _ hpos.ne']
    rw [this, div_pow, sq (∑ p ∈ pairsOf n, _), sum_mul_sum]
  have hI : Integrable (fun x => ∑ p ∈ pairsOf n, ∑ q ∈ pairsOf n, g (x p.1, x p.2) * g (x q.1, x q.2)) μ :=
    integrable_finsetSum _ fun p _ => integrable_finsetSum _ fun q _ => hcov_int p q
  refine ⟨?_, ?_⟩
  · simp only [hrew]
    exact hI.div_const _
  · simp only [hrew]
    rw [integral_div, div_le_div_iff₀ (by positivity) (by linarith)]
    have hs : ∫ x, (∑ p ∈ pairsOf n, ∑ q ∈ pairsOf n, g (x p.1, x p.2) * g (x q.1, x q.2)) ∂μ ≤ n * (n - 1) * (4 * n) := by
      rw [integral_finsetSum _ fun p _ => integrable_finsetSum _ fun q _ => hcov_int p q, ← hcard, ← nsmul_eq_mul]
      refine sum_le_card_nsmul _ _ _ fun p hp => ?_
      rw [integral_finsetSum _ fun q _ => hcov_int p q]
      refine (sum_le_sum fun q hq => hcov p hp q hq).trans ?_
      refine (sum_le_sum_of_subset_of_nonneg (filter_subset _ _) fun q _ _ => ?_).trans ?_
      · positivity
      · have e : ∀ a : Fin n, ∑ q : Fin n × Fin n, (if a = q.1 then (1 : ℝ) else 0) = n := fun a => by
          rw [Fintype.sum_prod_type_right]
          simp
        have e' : ∀ a : Fin n, ∑ q : Fin n × Fin n, (if a = q.2 then (1 : ℝ) else 0) = n := fun a => by
          rw [Fintype.sum_prod_type]
          simp
        simp only [sum_add_distrib, e, e']
        linarith
    nlinarith

/-- **Chebyshev's inequality for pairs.** -/
theorem pairMean_close {h : X × X → ℝ} (hm : Measurable h) (hb : ∀ p, |h p| ≤ 1) (hn : 2 ≤ n) {ε : ℝ} (hε : 0 < ε) :
    (Measure.pi fun _ : Fin n => P) {x | ε ≤ |pairMean h x - ∫ p, h p ∂(P.prod P)|} ≤
      ENNReal.ofReal (4 / ((n - 1) * ε ^ 2)) := by
  have hn1 : (2 : ℝ) ≤ n := by exact_mod_cast hn
  obtain ⟨hi, hle⟩ := pairMean_sq_le (P := P) hm hb hn
  have := mul_meas_ge_le_integral_of_nonneg (ae_of_all _ fun x => sq_nonneg _) hi (ε ^ 2)
  have e : {x : Fin n → X | ε ≤ |pairMean h x - ∫ p, h p ∂(P.prod P)|} =
      {x | ε ^ 2 ≤ (pairMean h x - ∫ p, h p ∂(P.prod P)) ^ 2} := by
    ext x
    show ε ≤ _ ↔ ε ^ 2 ≤ _
    rw [← sq_abs (pairMean h x - _)]
    exact (pow_le_pow_iff_left₀ hε.le (abs_nonneg _) two_ne_zero).symm
  rw [e, ← ENNReal.ofReal_toReal (measure_ne_top (Measure.pi fun _ : Fin n => P) _)]
  refine ENNReal.ofReal_le_ofReal ?_
  rw [← measureReal_def, show (4 : ℝ) / ((n - 1) * ε ^ 2) = 4 / (n - 1) / ε ^ 2 by rw [div_div], le_div_iff₀ (by positivity)]
  rw [mul_comm]
  exact this.trans hle

end Copulae
