import Verif.Lemmas.Affinity
import Verif.Model.LogLik
import Verif.Props.ItauConsistency

/-!
**C156** The log-likelihood tells the copula the data were drawn from from every other.
-/

namespace Copulae

open MeasureTheory ProbabilityTheory Set Spec CopulaMeasure

variable {d : ℕ} {G : Gen} [MeasurableSpace G.S] {R : Measure G.S}

/-- The logarithms that `pdf(u, log=True)` returns on the open cube are those of a density of the law. -/
def Spec.Scores (pdf : {n : ℕ} → (Fin n → Fin d → Fl) → Bool → Except PyErr (Fin n → Fl)) (P : Measure (Fin d → ℝ)) : Prop :=
  ∃ g : (Fin d → ℝ) → ℝ, HasCubeDensity P g ∧ ∀ (n : ℕ) (x : Fin n → Fin d → ℝ), (∀ i j, 0 < x i j ∧ x i j < 1) →
    pdf (matFl x) true = .ok fun i => Fl.log (.fin (g (x i)))

/-- `x = c.random(n)`: the probability that `log_lik(x, to_pobs=False)` with the first density does not exceed the one with the second by
`κ n` is at most `r ^ n`, for some `κ > 0` and `r < 1`. -/
def Spec.Prefers (R : Measure G.S) (c : Sampler G d)
    (pdf pdf' : {n : ℕ} → (Fin n → Fin d → Fl) → Bool → Except PyErr (Fin n → Fl)) : Prop :=
  ∃ r κ : ℝ, 0 < r ∧ r < 1 ∧ 0 < κ ∧ ∀ n, n ≠ 1 → Likely R (c.random n none) (r ^ n) fun x =>
    ∃ (L : ℝ) (v : Fl), arrayLogLik pdf x = .ok (.fin L) ∧ arrayLogLik pdf' x = .ok v ∧ v < .fin (L - κ * n)

theorem densityOf_cube {P : Measure (Fin d → ℝ)} [IsProbabilityMeasure P] {g : (Fin d → ℝ) → ℝ} (h : HasCubeDensity P g) :
    DensityOf (MeasureTheory.volume.restrict {u : Fin d → ℝ | ∀ j, 0 < u j ∧ u j < 1}) P g := by
  have hint : Integrable g (MeasureTheory.volume.restrict {u : Fin d → ℝ | ∀ j, 0 < u j ∧ u j < 1}) := by
    have := (h univ MeasurableSet.univ).1
    rwa [univ_inter] at this
  have hs : ∀ s : Set (Fin d → ℝ), MeasurableSet s →
      ∫ x in s, g x ∂(MeasureTheory.volume.restrict {u : Fin d → ℝ | ∀ j, 0 < u j ∧ u j < 1}) = P.real s := by
    intro s hs
    rw [Measure.restrict_restrict hs, (h s hs).2]
  have hnn : 0 ≤ᵐ[MeasureTheory.volume.restrict {u : Fin d → ℝ | ∀ j, 0 < u j ∧ u j < 1}] g :=
    ae_nonneg_of_forall_setIntegral_nonneg hint fun s hm _ => by rw [hs s hm]; exact measureReal_nonneg
  refine ⟨hint.aemeasurable, hnn, Measure.ext fun s hm => ?_⟩
  rw [withDensity_apply _ hm, ← ofReal_integral_eq_lintegral_ofReal hint.integrableOn (ae_restrict_of_ae hnn), hs s hm, ofReal_measureReal]

theorem sum_ninf {n : ℕ} {v : Fin n → Fl} (h : ∀ i, v i = .ninf ∨ ∃ r, v i = .fin r) (hi : ∃ i, v i = .ninf) : ∑ i, v i = .ninf := by
  have key : ∀ s : Finset (Fin n), (∃ r, ∑ i ∈ s, v i = .fin r) ∧ (∀ i ∈ s, v i ≠ .ninf) ∨ ∑ i ∈ s, v i = .ninf := by
    intro s
    induction s using Finset.induction_on with
    | empty => exact .inl ⟨⟨0, rfl⟩, by simp⟩
    | insert a s ha ih =>
      rw [Finset.sum_insert ha]
      rcases h a with h1 | ⟨r, h1⟩
      · right
        rcases ih with ⟨⟨q, hq⟩, -⟩ | hq <;> rw [h1, hq] <;> rfl
      · rcases ih with ⟨⟨q, hq⟩, hne⟩ | hq
        · left
          refine ⟨⟨r + q, by rw [h1, hq]; rfl⟩, fun i hi => ?_⟩
          rcases Finset.mem_insert.mp hi with rfl | hi
          · rw [h1]; simp
          · exact hne i hi
        · right; rw [h1, hq]; rfl
  rcases key Finset.univ with ⟨-, hne⟩ | h1
  · obtain ⟨i, hi⟩ := hi
    exact absurd hi (hne i (Finset.mem_univ i))
  · exact h1

theorem prod_rootRatio {n : ℕ} {a b : Fin n → ℝ} (ha : ∀ i, 0 < a i) (hb : ∀ i, 0 < b i) :
    ∏ i, √(b i / a i) = Real.exp ((∑ i, Real.log (b i) - ∑ i, Real.log (a i)) / 2) := by
  rw [← Finset.sum_sub_distrib, Finset.sum_div, Real.exp_sum]
  refine Finset.prod_congr rfl fun i _ => ?_
  rw [Real.sqrt_eq_rpow, Real.rpow_def_of_pos (div_pos (hb i) (ha i)), Real.log_div (hb i).ne' (ha i).ne']
  congr 1
  ring

/-- **C156** Data drawn from a copula, and two copulas that report the densities of their laws: the log-likelihood of the copula the data
come from is the greater one, by a multiple of the number of observations, except with a probability that vanishes exponentially fast. -/
theorem likelihood_prefers {P P' : Measure (Fin d → ℝ)} [IsProbabilityMeasure P] [IsProbabilityMeasure P'] (hne : P ≠ P')
    {pdf pdf' : {n : ℕ} → (Fin n → Fin d → Fl) → Bool → Except PyErr (Fin n → Fl)} (h : Scores pdf P) (h' : Scores pdf' P')
    (hR : IsIdeal G R) {c : Sampler G d} (hc : ∀ n, Draws R (c.random n none) matFl (iid n P)) : Prefers R c pdf pdf' := by
  have := hR.prob
  obtain ⟨g, hg, hpdf⟩ := h
  obtain ⟨g', hg', hpdf'⟩ := h'
  have hD := densityOf_cube hg
  have hD' := densityOf_cube hg'
  obtain ⟨r, κ, hr0, hr1, hκ, hb⟩ := likelihood_ratio hD hD' hne
  refine ⟨r, κ, hr0, hr1, hκ, fun n hn => ?_⟩
  have : IsProbabilityMeasure (iid n P) := by unfold iid; infer_instance
  have hgood : ∀ᵐ u ∂P, (∀ j, 0 < u j ∧ u j < 1) ∧ 0 < g u ∧ 0 ≤ g' u := by
    have hcube : ∀ᵐ u ∂P, u ∈ {u : Fin d → ℝ | ∀ j, 0 < u j ∧ u j < 1} :=
      hD.ac.ae_le (ae_restrict_mem (isOpen_cube d).measurableSet)
    filter_upwards [hcube, hD.pos, hD.ac.ae_le hD'.nonneg] with u h1 h2 h3
    exact ⟨h1, h2, h3⟩
  have hall : ∀ᵐ x ∂(iid n P), ∀ i, (∀ j, 0 < x i j ∧ x i j < 1) ∧ 0 < g (x i) ∧ 0 ≤ g' (x i) := iid_ae hgood
  refine likely_of_draws (hc n) (le_trans (measure_mono_ae ?_) (hb n))
  filter_upwards [hall] with x hx hbad
  by_contra hlt
  apply hbad
  have hlt' : ∏ i, rootRatio g g' (x i) < Real.exp (-(κ * n / 2)) := not_le.mp hlt
  have hcube : ∀ i j, 0 < x i j ∧ x i j < 1 := fun i => (hx i).1
  have hpos : ∀ i, 0 < g (x i) := fun i => (hx i).2.1
  have h1 : arrayLogLik pdf (matFl x) = .ok (.fin (∑ i, Real.log (g (x i)))) := by
    simp only [arrayLogLik, hpdf n x hcube, bind, Except.bind, sumLog, if_neg hn]
    rw [← Fl.sum_fin]
    exact congrArg Except.ok (Finset.sum_congr rfl fun i _ => Fl.log_pos (hpos i))
  have h2 : arrayLogLik pdf' (matFl x) = .ok (∑ i, Fl.log (.fin (g' (x i)))) := by
    simp only [arrayLogLik, hpdf' n x hcube, bind, Except.bind, sumLog, if_neg hn]
  refine ⟨_, _, h1, h2, ?_⟩
  by_cases hz : ∃ i, g' (x i) = 0
  · obtain ⟨i, hi⟩ := hz
    rw [sum_ninf (fun k => ?_) ⟨i, by rw [hi]; exact Fl.log_zero⟩]
    · exact Fl.ninf_lt_fin
    · rcases (hx k).2.2.eq_or_lt with h0 | h0
      · rw [← h0]; exact .inl Fl.log_zero
      · exact .inr ⟨_, Fl.log_pos h0⟩
  · have hpos' : ∀ i, 0 < g' (x i) := fun i => lt_of_le_of_ne (hx i).2.2 fun h0 => hz ⟨i, h0.symm⟩
    have e : ∑ i, Fl.log (.fin (g' (x i))) = .fin (∑ i, Real.log (g' (x i))) := by
      rw [← Fl.sum_fin]
      exact Finset.sum_congr rfl fun i _ => Fl.log_pos (hpos' i)
    rw [e, Fl.fin_lt_fin]
    simp only [rootRatio] at hlt'
    rw [prod_rootRatio hpos hpos', Real.exp_lt_exp] at hlt'
    linarith

end Copulae
