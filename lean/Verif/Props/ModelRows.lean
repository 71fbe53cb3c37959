import Verif.Props.ModelChoice

/-!
# C162, C163 for any source of independent rows

`family_likelihood` and `model_choice` speak about data drawn by the samplers of the library. Here the data are independent rows from
anywhere, whose law has continuous margins and the copula in question. This covers Frank copulas of more than two dimensions.
-/

namespace Copulae

open MeasureTheory Spec CopulaMeasure Family

variable {n d : ℕ} {P Q : Measure (Fin d → ℝ)}

/-- The pseudo-observations of independent rows with continuous margins are those of the rows of the copula. -/
theorem pobs_ranks_rows [IsProbabilityMeasure P] [IsProbabilityMeasure Q] (hQ : Atomless Q) (hc : HasCopula Q P) {δ : ℝ}
    {E : (Fin n → Fin d → ℝ) → Prop} (hN : iid n P {y | ¬ (NoTies y ∧ E (unitRanks y))} ≤ ENNReal.ofReal δ) :
    iid n Q {x | ¬ ∃ r : Fin n → Fin d → ℝ, (∀ i j, 0 < r i j ∧ r i j < 1) ∧ E r ∧
      ∀ (ties : String) (t : TieMethod), parseTies ties = .ok t →
        ∃ u, pobsMat x ties = .ok u ∧ ∀ i j, ((u i j : ℚ) : ℝ) = r i j} ≤ ENNReal.ofReal δ := by
  obtain ⟨F, hF, hFQ⟩ := hc
  have hFm : Measurable fun (x : Fin d → ℝ) j => F j (x j) :=
    measurable_pi_lambda _ fun j => (hF j).measurable.comp (measurable_pi_apply j)
  set φ : (Fin n → Fin d → ℝ) → Fin n → Fin d → ℝ := fun x i j => F j (x i j) with hφ
  have hφm : Measurable φ := measurable_pi_lambda _ fun i => hFm.comp (measurable_pi_apply i)
  have hφQ : (iid n Q).map φ = iid n P := by
    have h := Measure.pi_map_pi (μ := fun _ : Fin n => Q) (f := fun _ (x : Fin d → ℝ) j => F j (x j)) fun _ => hFm.aemeasurable
    rw [hFQ] at h
    exact h
  have evY : ∀ E : Set (Fin n → Fin d → ℝ), iid n Q {x | φ x ∈ E} ≤ iid n P E := fun E => by
    rw [← hφQ]
    exact Measure.le_map_apply hφm.aemeasurable E
  refine (measure_mono (t := {x | ¬ NoTies x} ∪ {x | φ x ∈ {y | ¬ (NoTies y ∧ E (unitRanks y))}}) fun x hx => ?_).trans ?_
  · by_contra hcon
    simp only [Set.mem_union, not_or] at hcon
    obtain ⟨a1, a2⟩ := hcon
    have b1 : NoTies x := not_not.mp a1
    obtain ⟨b2, b3⟩ : NoTies (φ x) ∧ E (unitRanks (φ x)) := not_not.mp a2
    refine hx ⟨unitRanks (φ x), unitRanks_mem b2, b3, fun ties t ht => ⟨_, by
      simp only [pobsMat, ht, bind, Except.bind, pure, Except.pure]; rfl, fun i j => ?_⟩⟩
    rw [ranks_eq b1 b2 (fun i k j h => hF j h.le) t i j, unitRanks]
    push_cast
    rfl
  · refine (measure_union_le _ _).trans ?_
    rw [ae_iff.mp (noTies_ae (n := n) hQ), zero_add]
    exact (evY _).trans hN

/-- **C163** Independent rows whose law `Q` has continuous margins and the copula of `F₀` with parameter `θ₀`, in every dimension and from
any source: with a probability that tends to one, maximum likelihood over the three classes finds the class and the parameter. -/
theorem model_choice_rows {env : FitEnv} (he : ArchLogPdf env) {F₀ : Family} {θ₀ : ℝ} (h2 : 2 ≤ d) (hp : PosParam F₀ θ₀)
    [IsProbabilityMeasure Q] (hP : IsLawOf P (F₀.copula θ₀)) (hQ : Atomless Q) (hc : HasCopula Q P) {st₀ : ArchState} (hd₀ : st₀.dim = d)
    (ht₀ : st₀.theta = .fin θ₀) {ε δ : ℝ} (hε : 0 < ε) (hδ : 0 < δ) :
    ∃ N : ℕ, ∀ n, N ≤ n → iid n Q {x | ¬ PicksModel env F₀ θ₀ ε st₀ x} ≤ ENNReal.ofReal δ := by
  have := hP.prob
  obtain ⟨-, hs⟩ := logDensity_of_family h2 hp hP
  obtain ⟨N, hN⟩ := chosen_likely h2 hp hP hε hδ
  refine ⟨N + 2, fun n hn => (measure_mono fun x hx => ?_).trans
    (pobs_ranks_rows hQ hc (E := Chosen F₀ θ₀ ε) (hN n (by omega)))⟩
  rintro ⟨r, hr, hg, hu⟩
  exact hx (picksModel_of_chosen he (by omega) hd₀ ht₀ (hs n (by omega) r hr) hg hu)

/-- **C162** If maximum likelihood finds the class and the parameter, it tells the class. -/
theorem familyWins_of_picksModel {env : FitEnv} {F₀ : Family} {θ₀ ε : ℝ} {st₀ : ArchState} {x : Fin n → Fin d → ℝ}
    (h : PicksModel env F₀ θ₀ ε st₀ x) : FamilyWins env F₀ st₀ x := by
  intro ties t ht
  obtain ⟨L, hL, h1, h2⟩ := h ties t ht
  refine ⟨L, hL, fun F hF => ⟨fun st v ha hv hle => hF (h1 F st v ha hv hle).1, ?_⟩⟩
  intro opt o o' st x0 method k sm ho hst hopt hml hk hfit hsm hsucc hle
  exact hF (h2 F opt o o' st x0 method k sm ho hst hopt hml hk hfit hsm hsucc hle).1

/-- **C162** for independent rows from any source, in every dimension. -/
theorem family_likelihood_rows {env : FitEnv} (he : ArchLogPdf env) {F₀ : Family} {θ₀ : ℝ} (h2 : 2 ≤ d) (hp : PosParam F₀ θ₀)
    [IsProbabilityMeasure Q] (hP : IsLawOf P (F₀.copula θ₀)) (hQ : Atomless Q) (hc : HasCopula Q P) {st₀ : ArchState} (hd₀ : st₀.dim = d)
    (ht₀ : st₀.theta = .fin θ₀) {δ : ℝ} (hδ : 0 < δ) :
    ∃ N : ℕ, ∀ n, N ≤ n → iid n Q {x | ¬ FamilyWins env F₀ st₀ x} ≤ ENNReal.ofReal δ := by
  obtain ⟨N, hN⟩ := model_choice_rows he h2 hp hP hQ hc hd₀ ht₀ one_pos hδ
  refine ⟨N, fun n hn => (measure_mono fun x hx => ?_).trans (hN n hn)⟩
  exact fun hg => hx (familyWins_of_picksModel hg)

/-! ### The hypotheses can be met -/

/-- Frank data in five dimensions. -/
example : ∃ P : Measure (Fin 5 → ℝ), IsLawOf P (Family.copula .frank 3) ∧ ∃ N : ℕ, ∀ n, N ≤ n →
    iid n P {x | ¬ PicksModel archMlEnv .frank 3 (1 / 100) ⟨5, .fin 3, .ninf, .pinf⟩ x} ≤ ENNReal.ofReal (1 / 1000) := by
  have hp : PosParam .frank 3 := show (0 : ℝ) < 3 by norm_num
  have ha := posParam_admissible (d := 5) (by norm_num) hp
  obtain ⟨P, hP⟩ := arch_law_exists ha
  have := hP.prob
  exact ⟨P, hP, model_choice_rows archMlEnv_ok (by norm_num) hp hP (atomless_of_uniform (arch_uniform ha hP)) (hasCopula_self P) rfl rfl
    (by norm_num) (by norm_num)⟩

end Copulae
