import Verif.Lemmas.ArchLaw
import Verif.Lemmas.ClaytonNeg
import Verif.Props.ArchRandom
import Verif.Props.FrankAccuracy

/-!
C106-C109: the Archimedean copulas as laws of random vectors. Which law a copula has is fixed by its distribution
function (`Spec.IsLawOf.unique`), so the statements are about any law on the open unit cube whose distribution function
is the Clayton, Gumbel or Frank copula: `tau` is its Kendall's tau, `rho` its Spearman's rho, `pdf` its density. The
laws exist (`archimedean_law_exists`), and the samplers draw from them.
-/

namespace Copulae

open MeasureTheory Set Filter Topology ProbabilityTheory

/-! ### Two coordinates of a vector of any length -/

theorem pairPoint_sum {d : ℕ} {i j : Fin d} (hij : i ≠ j) (a b : ℝ) (f : ℝ → ℝ) :
    ∑ k, f (pairPoint i j a b k) = f a + f b + (d - 2) * f 1 := by
  have e : ∀ k, f (pairPoint i j a b k) = ((if k = i then f a - f 1 else 0) + if k = j then f b - f 1 else 0) + f 1 := by
    intro k
    unfold pairPoint
    by_cases h1 : k = i
    · subst h1
      rw [if_pos rfl, if_pos rfl, if_neg hij]
      ring
    · rw [if_neg h1, if_neg h1]
      by_cases h2 : k = j
      · rw [if_pos h2, if_pos h2]
        ring
      · rw [if_neg h2, if_neg h2]
        ring
  rw [Finset.sum_congr rfl fun k _ => e k, Finset.sum_add_distrib, Finset.sum_add_distrib, Finset.sum_ite_eq',
    Finset.sum_ite_eq', if_pos (Finset.mem_univ _), if_pos (Finset.mem_univ _), Finset.sum_const, Finset.card_univ,
    Fintype.card_fin, nsmul_eq_mul]
  ring

theorem clayton_pairPoint (θ : ℝ) {d : ℕ} {i j : Fin d} (hij : i ≠ j) (a b : ℝ) :
    Spec.clayton θ (pairPoint i j a b) = claytonC2 θ a b := by
  rw [Spec.clayton, claytonC2, pairPoint_sum hij a b fun x => x ^ (-θ), Real.one_rpow]
  congr 2
  ring

theorem gumbel_pairPoint {θ : ℝ} (h : 0 < θ) {d : ℕ} {i j : Fin d} (hij : i ≠ j) (a b : ℝ) :
    Spec.gumbel θ (pairPoint i j a b) = gumbelC2 θ a b := by
  rw [Spec.gumbel, gumbelC2, gumbelPsiR, pairPoint_sum hij a b fun x => (-Real.log x) ^ θ, Real.log_one, neg_zero,
    Real.zero_rpow h.ne', mul_zero, add_zero, gumbelPhi, gumbelPhi]

theorem frank_pairPoint {θ : ℝ} (h : θ ≠ 0) {d : ℕ} {i j : Fin d} (hij : i ≠ j) {a b : ℝ} (ha : 0 < a) (hb : 0 < b) :
    Spec.frank θ (pairPoint i j a b) = frankC2 θ a b := by
  have hd : 1 ≤ d := by have := i.2; omega
  have hx : ∀ k, 0 < pairPoint i j a b k := by
    intro k
    unfold pairPoint
    split_ifs <;> first | assumption | exact one_pos
  have h2 : ∀ k : Fin 2, 0 < (![a, b] : Fin 2 → ℝ) k := by
    intro k
    fin_cases k <;> assumption
  have h1 : frankPhi θ 1 = 0 := by rw [frankPhi, mul_one, div_self (exp_neg_ne h), Real.log_one, neg_zero]
  have e : frankC2 θ a b = Spec.frank θ ![a, b] := by simp [Spec.frank, Fin.prod_univ_two, frankC2]
  rw [e, ← frank_closed_aux h hd _ hx, ← frank_closed_aux h (by norm_num) _ h2, pairPoint_sum hij a b, h1, mul_zero,
    add_zero, Fin.sum_univ_two]
  rfl

/-! ### The lower bound `W`, which is the Clayton copula with parameter -1 -/

theorem pairLaw_counter : PairLaw ((volume.restrict (Ioo (0 : ℝ) 1)).map fun u => (u, 1 - u)) (claytonC2 (-1)) := by
  have hm : Measurable fun u : ℝ => (u, 1 - u) := by fun_prop
  refine ⟨Measure.isProbabilityMeasure_map hm.aemeasurable, ?_, fun a b ha ha1 hb hb1 => ?_⟩
  · have hms : MeasurableSet {p : ℝ × ℝ | p.1 ∈ Ioo (0 : ℝ) 1 ∧ p.2 ∈ Ioo (0 : ℝ) 1} :=
      measurableSet_Ioo.prod measurableSet_Ioo
    rw [ae_map_iff hm.aemeasurable hms]
    filter_upwards [ae_restrict_mem measurableSet_Ioo] with u hu
    exact ⟨hu, by linarith [hu.2], by linarith [hu.1]⟩
  · have hr : MeasurableSet (Iic a ×ˢ Iic b) := measurableSet_Iic.prod measurableSet_Iic
    rw [measureReal_def, Measure.map_apply hm hr, Measure.restrict_apply (hm hr)]
    have e : (fun u : ℝ => (u, 1 - u)) ⁻¹' (Iic a ×ˢ Iic b) ∩ Ioo (0 : ℝ) 1 = Icc (1 - b) a ∩ Ioo (0 : ℝ) 1 := by
      ext u
      simp only [mem_inter_iff, mem_preimage, mem_prod, mem_Iic, mem_Icc, mem_Ioo]
      constructor
      · rintro ⟨⟨h1, h2⟩, h3⟩
        exact ⟨⟨by linarith, h1⟩, h3⟩
      · rintro ⟨⟨h1, h2⟩, h3⟩
        exact ⟨⟨h2, by linarith⟩, h3⟩
    have e2 : volume (Icc (1 - b) a ∩ Ioo (0 : ℝ) 1) = volume (Icc (1 - b) a) := by
      refine le_antisymm (measure_mono inter_subset_left) ?_
      have : Ioo (1 - b) a ⊆ Icc (1 - b) a ∩ Ioo (0 : ℝ) 1 := fun u hu =>
        ⟨⟨hu.1.le, hu.2.le⟩, by linarith [hu.1], by linarith [hu.2]⟩
      calc volume (Icc (1 - b) a) = volume (Ioo (1 - b) a) := by rw [Real.volume_Icc, Real.volume_Ioo]
        _ ≤ _ := measure_mono this
    rw [e, e2, Real.volume_Icc, ENNReal.toReal_ofReal', claytonC2, neg_neg, Real.rpow_one, Real.rpow_one,
      show (-1 : ℝ) / -1 = 1 by norm_num, Real.rpow_one]
    congr 1
    ring

theorem clayton_pair_tau_neg_one {Q : Measure (ℝ × ℝ)} (hQ : PairLaw Q (claytonC2 (-1))) : pairTau Q = -1 := by
  have hm : Measurable fun u : ℝ => (u, 1 - u) := by fun_prop
  have hC : Measurable fun p : ℝ × ℝ => claytonC2 (-1) p.1 p.2 := by
    unfold claytonC2
    fun_prop
  rw [hQ.tau (fun a ha _ => (claytonC2_margin (by norm_num) ha).1) (fun a ha _ => (claytonC2_margin (by norm_num) ha).2),
    hQ.ext pairLaw_counter, integral_map hm.aemeasurable hC.aestronglyMeasurable]
  have e : ∀ u : ℝ, claytonC2 (-1) u (1 - u) = 0 := by
    intro u
    rw [claytonC2, neg_neg, Real.rpow_one, Real.rpow_one, show u + (1 - u) - 1 = 0 by ring, max_self,
      show (-1 : ℝ) / -1 = 1 by norm_num, Real.rpow_one]
  simp only [e, integral_zero]
  norm_num

/-! ### C106 -/

/-- **C106** Clayton: for every parameter from -1 on, other than 0, and every law whose distribution function is the
Clayton copula, in any dimension, `tau` is Kendall's tau of every pair of coordinates. -/
theorem clayton_tau_kendall {θ : ℝ} (h1 : -1 ≤ θ) (h0 : θ ≠ 0) {d : ℕ} {P : Measure (Fin d → ℝ)}
    (hP : Spec.IsLawOf P (Spec.clayton θ)) {i j : Fin d} (hij : i ≠ j) :
    claytonTau θ = .ok (Spec.kendallTau P i j) := by
  have := hP.prob
  have hpair := (pairLaw_of_law hP hij).congr (C' := claytonC2 θ) fun a b _ _ _ _ => clayton_pairPoint θ hij a b
  rw [claytonTau, if_neg (by linarith), kendallTau_pair]
  rcases h1.eq_or_lt with rfl | hlt
  · rw [clayton_pair_tau_neg_one hpair]
    norm_num
  · rw [clayton_pair_tau hlt h0 hpair]

/-- **C106** Gumbel: likewise for every parameter from 1 on. -/
theorem gumbel_tau_kendall {θ : ℝ} (h1 : 1 ≤ θ) {d : ℕ} {P : Measure (Fin d → ℝ)}
    (hP : Spec.IsLawOf P (Spec.gumbel θ)) {i j : Fin d} (hij : i ≠ j) :
    gumbelTau θ = .ok (Spec.kendallTau P i j) := by
  have := hP.prob
  have hpair := (pairLaw_of_law hP hij).congr (C' := gumbelC2 θ) fun a b _ _ _ _ =>
    gumbel_pairPoint (by linarith) hij a b
  rw [gumbelTau, if_neg (by linarith), kendallTau_pair, gumbel_pair_tau h1 hpair]

/-- **C106** Frank: likewise for every parameter other than 0, up to 1e-9, which covers the branch for parameters
near 0 and the compiled Debye function. -/
theorem frank_tau_kendall {θ : ℝ} (h0 : θ ≠ 0) {d : ℕ} {P : Measure (Fin d → ℝ)}
    (hP : Spec.IsLawOf P (Spec.frank θ)) {i j : Fin d} (hij : i ≠ j) :
    ∃ v : ℝ, frankTau compiledD1 θ = .ok (.fin v) ∧ |v - Spec.kendallTau P i j| ≤ 1 / 10 ^ 9 := by
  have := hP.prob
  have hpair := (pairLaw_of_law hP hij).congr (C' := frankC2 θ) fun a b ha _ hb _ => frank_pairPoint h0 hij ha hb
  rw [kendallTau_pair, frank_pair_tau h0 hpair]
  exact frank_tau_accurate h0

/-! ### C107 -/

/-- **C107** Frank: `rho` is Spearman's rho of every pair of coordinates, up to 1e-8. -/
theorem frank_rho_spearman {θ : ℝ} (h0 : θ ≠ 0) {d : ℕ} {P : Measure (Fin d → ℝ)}
    (hP : Spec.IsLawOf P (Spec.frank θ)) {i j : Fin d} (hij : i ≠ j) :
    ∃ v : ℝ, frankRho compiledD1 compiledD2 θ = .fin v ∧ |v - Spec.spearmanRho P i j| ≤ 1 / 10 ^ 8 := by
  have hpair := (pairLaw_of_law hP hij).congr (C' := frankC2 θ) fun a b ha _ hb _ => frank_pairPoint h0 hij ha hb
  rw [spearmanRho_pair, frank_pair_rho h0 hpair]
  exact frank_rho_accurate h0

/-! ### C108 -/

/-- **C108** Clayton: `pdf` is the density of the law whose distribution function is the Clayton copula, in every
dimension, for a positive parameter. -/
theorem clayton_pdf_density {θ : ℝ} (h : 0 < θ) {d : ℕ} (hd : 2 ≤ d) :
    ∃ g, PdfComputes .clayton θ d (cube d) g ∧
      ∀ P : Measure (Fin d → ℝ), Spec.IsLawOf P (Spec.clayton θ) → Spec.HasCubeDensity P g := by
  refine ⟨fun x => Real.exp (∑ j ∈ Finset.range (d - 1), Real.log (1 + θ * ((j : ℝ) + 1)) -
      (1 + θ) * ∑ j, Real.log (x j) - (d + 1 / θ) * Real.log (1 + ∑ j, (x j ^ (-θ) - 1))), ?_, fun P hP => ?_⟩
  · exact clayton_pdfComputes h
  · obtain ⟨a, b⟩ := clayton_mixture h (d := d) (by omega)
    have hm := genDensity_aemeasurable (d := d) (by omega) (ψ := claytonPsiK θ)
      (fun k s hs => claytonPsiK_hasDerivAt θ k hs) (isInvGen_clayton h)
    refine density_of_law hP b hm a fun x hx => ?_
    rw [claytonPsiK]
    exact (clayton_density_pos h (by omega) hx).symm

/-- **C108** Clayton, two dimensions, a negative parameter above -1: likewise, with the density zero where the copula
vanishes. With the parameter -1 the law is on the antidiagonal and has no density. -/
theorem clayton_pdf_density_neg {θ : ℝ} (h1 : -1 < θ) (h : θ < 0) :
    ∃ g, PdfComputes .clayton θ 2 (cube 2) g ∧
      ∀ P : Measure (Fin 2 → ℝ), Spec.IsLawOf P (Spec.clayton θ) → Spec.HasCubeDensity P g := by
  have hsum : ∀ x : Fin 2 → ℝ, ∑ j, (1 - x j ^ (-θ)) = 2 - (x 0 ^ (-θ) + x 1 ^ (-θ)) := by
    intro x
    rw [Fin.sum_univ_two]
    ring
  have hval : ∀ x ∈ cube 2, ∑ j, (1 - x j ^ (-θ)) < 1 →
      claytonNegG θ (x 0, x 1) = Real.exp (Real.log (1 + θ) - (1 + θ) * ∑ j, Real.log (x j)
        - (2 + 1 / θ) * Real.log (1 - ∑ j, (1 - x j ^ (-θ)))) := by
    intro x hx hlt
    rw [clayton_density_neg h1 h hx hlt, claytonNegG, if_pos (by rw [hsum] at hlt; linarith)]
    simp only [Finset.prod_range_succ, Finset.prod_range_zero, Fin.prod_univ_two, hsum]
    push_cast
    rw [show 1 + -1 * (2 - (x 0 ^ (-θ) + x 1 ^ (-θ))) = x 0 ^ (-θ) + x 1 ^ (-θ) - 1 by ring]
    generalize (x 0 ^ (-θ) + x 1 ^ (-θ) - 1) ^ (-1 / θ - 2) = B
    generalize x 0 ^ (-θ - 1) = p
    generalize x 1 ^ (-θ - 1) = q
    have := h.ne
    field_simp
    ring
  refine ⟨fun x => claytonNegG θ (x 0, x 1), ?_, fun P hP => ?_⟩
  · intro n x hx
    simp only [archPdf]
    rw [claytonPdf_neg h x hx, claytonPdf_neg h x hx]
    refine ⟨congrArg Except.ok (funext fun i => ?_), congrArg Except.ok (funext fun i => ?_)⟩
    · simp only [Bool.false_eq_true, if_false]
      by_cases hlt : ∑ j, (1 - x i j ^ (-θ)) < 1
      · rw [if_neg (not_not.mpr hlt), claytonLogNeg_fin h1 h (hx i) hlt, Fl.exp_fin, hval _ (hx i) hlt]
      · rw [if_pos hlt, Fl.exp_ninf, claytonNegG, if_neg (by rw [hsum] at hlt; linarith)]
    · simp only [if_true]
      by_cases hlt : ∑ j, (1 - x i j ^ (-θ)) < 1
      · rw [if_neg (not_not.mpr hlt), claytonLogNeg_fin h1 h (hx i) hlt, hval _ (hx i) hlt,
          Fl.log_pos (Real.exp_pos _), Real.log_exp]
      · rw [if_pos hlt, claytonNegG, if_neg (by rw [hsum] at hlt; linarith), Fl.log_zero]
  · have hm : Measurable fun x : Fin 2 → ℝ => claytonNegG θ (x 0, x 1) := by
      have h2 : Measurable fun x : Fin 2 → ℝ => (x 0, x 1) := by fun_prop
      exact (claytonNegG_measurable θ).comp h2
    exact density_of_law hP (claytonNeg_law h1 h) hm.aemeasurable
      (fun x hx => claytonNegG_nonneg h1 h (hx 0).1 (hx 1).1) fun x hx => rfl

/-- **C108** Gumbel: likewise for every parameter from 1 on. -/
theorem gumbel_pdf_density {θ : ℝ} (h : 1 ≤ θ) {d : ℕ} (hd : 2 ≤ d) :
    ∃ g, PdfComputes .gumbel θ d (cube d) g ∧
      ∀ P : Measure (Fin d → ℝ), Spec.IsLawOf P (Spec.gumbel θ) → Spec.HasCubeDensity P g := by
  refine ⟨gumbelDensity θ, gumbel_pdfComputes h hd, fun P hP => ?_⟩
  obtain ⟨a, b⟩ := gumbel_mixture h (d := d) (by omega)
  exact density_of_law hP b (genDensity_aemeasurable (by omega) (fun k s hs => gumbelPsiK_hasDerivAt (1 / θ) k hs)
    (isInvGen_gumbel h)) a fun x hx => rfl

/-- **C108** Frank (partial: a positive parameter; for negative ones see `frank_pdf_negative`). -/
theorem frank_pdf_density_partial {θ : ℝ} (h : 0 < θ) {d : ℕ} (hd : 2 ≤ d) :
    ∃ g, PdfComputes .frank θ d (cube d) g ∧
      ∀ P : Measure (Fin d → ℝ), Spec.IsLawOf P (Spec.frank θ) → Spec.HasCubeDensity P g := by
  refine ⟨frankDensity θ, frank_pdfComputes h hd, fun P hP => ?_⟩
  obtain ⟨a, b⟩ := frank_mixture h (d := d) (by omega)
  exact density_of_law hP b (genDensity_aemeasurable (by omega)
    (fun k s hs => frankPsiK_hasDerivAt θ k (le_of_lt hs)) (isInvGen_frank h)) a fun x hx => rfl

/-! ### The laws exist -/

/-- Laws meeting the hypotheses above: in every dimension for positive dependence, in two dimensions also for negative
dependence. -/
theorem archimedean_law_exists {θ : ℝ} {d : ℕ} (hd : 1 ≤ d) :
    (0 < θ → ∃ P : Measure (Fin d → ℝ), Spec.IsLawOf P (Spec.clayton θ)) ∧
    (1 ≤ θ → ∃ P : Measure (Fin d → ℝ), Spec.IsLawOf P (Spec.gumbel θ)) ∧
    (0 < θ → ∃ P : Measure (Fin d → ℝ), Spec.IsLawOf P (Spec.frank θ)) ∧
    (-1 ≤ θ → θ ≠ 0 → ∃ P : Measure (Fin 2 → ℝ), Spec.IsLawOf P (Spec.clayton θ)) ∧
    (θ ≠ 0 → ∃ P : Measure (Fin 2 → ℝ), Spec.IsLawOf P (Spec.frank θ)) := by
  refine ⟨fun h => ⟨_, (clayton_mixture h hd).2⟩, fun h => ⟨_, (gumbel_mixture h hd).2⟩,
    fun h => ⟨_, (frank_mixture h hd).2⟩, fun h1 h0 => ?_, fun h0 => ?_⟩
  · have hC : ∀ a b, claytonC2 θ a b = Spec.clayton θ ![a, b] := by
      intro a b
      simp only [Spec.clayton, Fin.sum_univ_two, Matrix.cons_val_zero, Matrix.cons_val_one, claytonC2]
      congr 2
      push_cast
      ring
    rcases h1.eq_or_lt with rfl | hlt
    · exact ⟨_, law_of_pairLaw (pairLaw_counter.congr fun a b _ _ _ _ => hC a b)⟩
    · exact ⟨_, law_of_pairLaw ((clayton_pairLaw hlt h0).congr fun a b _ _ _ _ => hC a b)⟩
  · exact ⟨_, law_of_pairLaw ((frank_pairLaw h0).congr fun a b _ _ _ _ => by
      simp [Spec.frank, Fin.prod_univ_two, frankC2])⟩

/-- The Clayton copula with parameter 2 in dimension 5 has a law, with Kendall's tau 1/2. -/
example : ∃ P : Measure (Fin 5 → ℝ), Spec.IsLawOf P (Spec.clayton 2) ∧ Spec.kendallTau P 1 3 = 1 / 2 := by
  obtain ⟨P, hP⟩ := (archimedean_law_exists (θ := 2) (d := 5) (by norm_num)).1 (by norm_num)
  refine ⟨P, hP, ?_⟩
  have h := clayton_tau_kendall (by norm_num) (by norm_num) hP (i := 1) (j := 3) (by decide)
  rw [claytonTau, if_neg (by norm_num)] at h
  exact (Except.ok.inj h).symm.trans (by norm_num)

/-- The Gumbel copula with parameter 4 in dimension 3 has a law, with Kendall's tau 3/4. -/
example : ∃ P : Measure (Fin 3 → ℝ), Spec.IsLawOf P (Spec.gumbel 4) ∧ Spec.kendallTau P 0 2 = 3 / 4 := by
  obtain ⟨P, hP⟩ := (archimedean_law_exists (θ := 4) (d := 3) (by norm_num)).2.1 (by norm_num)
  refine ⟨P, hP, ?_⟩
  have h := gumbel_tau_kendall (by norm_num) hP (i := 0) (j := 2) (by decide)
  rw [gumbelTau, if_neg (by norm_num)] at h
  exact (Except.ok.inj h).symm.trans (by norm_num)

/-! ### C109 -/

/-- The law of the row built from independent uniforms and a frailty. -/
noncomputable def frailtyLaw {Ω : Type*} [MeasurableSpace Ω] (μ : Measure Ω) (d : ℕ) (U : ℝ → Ω → ℝ) :
    Measure (Fin d → ℝ) :=
  ((μ.prod (volume : Measure (Fin d → ℝ))).restrict {p | ∀ j, p.2 j ∈ Ioo (0 : ℝ) 1}).map fun p j => U (p.2 j) p.1

theorem frailtyLaw_isLaw {Ω : Type*} [MeasurableSpace Ω] (μ : Measure Ω) {d : ℕ} {U : ℝ → Ω → ℝ}
    [SFinite μ] (hU : Measurable fun p : ℝ × Ω => U p.1 p.2) {C : (Fin d → ℝ) → ℝ}
    (hmem : ∀ᵐ w ∂μ, ∀ r ∈ Ioo (0 : ℝ) 1, U r w ∈ Ioo (0 : ℝ) 1) (hC1 : C (fun _ => 1) = 1)
    (hC : ∀ b : Fin d → ℝ, (∀ j, 0 < b j ∧ b j ≤ 1) → 0 ≤ C b)
    (hdist : ∀ b : Fin d → ℝ, (∀ j, 0 < b j ∧ b j ≤ 1) →
      (μ.prod (volume : Measure (Fin d → ℝ)))
        {p | (∀ j, p.2 j ∈ Ioo (0 : ℝ) 1) ∧ ∀ j, U (p.2 j) p.1 ≤ b j} = ENNReal.ofReal (C b)) :
    Spec.IsLawOf (frailtyLaw μ d U) C := by
  have hE : MeasurableSet {p : Ω × (Fin d → ℝ) | ∀ j, p.2 j ∈ Ioo (0 : ℝ) 1} :=
    measurable_snd (isOpen_cube d).measurableSet
  have hT : Measurable fun (p : Ω × (Fin d → ℝ)) (j : Fin d) => U (p.2 j) p.1 := by
    rw [measurable_pi_iff]
    intro j
    have h2 : Measurable fun p : Ω × (Fin d → ℝ) => (p.2 j, p.1) := by fun_prop
    exact hU.comp h2
  refine isLawOf_map _ hE hT ?_ hC1 hC hdist
  have a1 : ∀ᵐ p ∂(μ.prod (volume : Measure (Fin d → ℝ))), ∀ r ∈ Ioo (0 : ℝ) 1, U r p.1 ∈ Ioo (0 : ℝ) 1 :=
    Measure.quasiMeasurePreserving_fst.ae hmem
  filter_upwards [a1] with p hp hr j
  exact hp _ (hr j)

theorem clayton_ones (θ : ℝ) (d : ℕ) : Spec.clayton θ (fun _ : Fin d => 1) = 1 := by
  simp [Spec.clayton]

theorem frank_ones {θ : ℝ} (h : θ ≠ 0) {d : ℕ} (hd : 1 ≤ d) : Spec.frank θ (fun _ : Fin d => 1) = 1 := by
  have hem := exp_neg_ne h
  rw [Spec.frank]
  simp only [mul_one, Finset.prod_const, Finset.card_univ, Fintype.card_fin]
  have : (Real.exp (-θ) - 1) ^ d / (Real.exp (-θ) - 1) ^ (d - 1) = Real.exp (-θ) - 1 := by
    obtain ⟨m, rfl⟩ : ∃ m, d = m + 1 := ⟨d - 1, by omega⟩
    rw [Nat.add_sub_cancel, pow_succ]
    field_simp
  rw [this, add_sub_cancel, Real.log_exp]
  field_simp

theorem gumbel_ones {θ : ℝ} (h : 0 < θ) (d : ℕ) : Spec.gumbel θ (fun _ : Fin d => 1) = 1 := by
  simp [Spec.gumbel, Real.zero_rpow h.ne', Real.zero_rpow (inv_ne_zero h.ne')]

/-- **C109** Clayton, three or more dimensions: the rows drawn by `random` from independent uniforms and gamma
frailties have the Kendall's tau reported by `tau` and the density computed by `pdf`. -/
theorem clayton_sample_agrees {θ : ℝ} (hθ : 1 / 10 ^ 7 ≤ θ) {d : ℕ} (hd : 2 < d) :
    ∃ U : ℝ → ℝ → ℝ,
      (∀ (n : ℕ) (r : Fin n → Fin d → ℝ) (g : Fin n → ℝ), (∀ i j, r i j ∈ Ioo (0 : ℝ) 1) → (∀ i, 0 < g i) →
        claytonRandom θ (fun i j => .fin (r i j)) (fun i => .fin (g i)) = .ok fun i j => .fin (U (r i j) (g i))) ∧
      (∀ i j, i ≠ j →
        claytonTau θ = .ok (Spec.kendallTau (frailtyLaw (gammaMeasure (1 / θ) 1) d U) i j)) ∧
      ∃ g, PdfComputes .clayton θ d (cube d) g ∧
        Spec.HasCubeDensity (frailtyLaw (gammaMeasure (1 / θ) 1) d U) g := by
  have h0 : 0 < θ := lt_of_lt_of_le (by norm_num) hθ
  have : IsProbabilityMeasure (gammaMeasure (1 / θ) 1) := isProbabilityMeasure_gammaMeasure (by positivity) one_pos
  obtain ⟨U, hU, hrun⟩ := clayton_random_frailty hθ (d := d) (by omega)
  have hL : Spec.IsLawOf (frailtyLaw (gammaMeasure (1 / θ) 1) d U) (Spec.clayton θ) :=
    frailtyLaw_isLaw _ hU.meas (gamma_pos.mono fun x hx r hr => hU.mem r hr x hx) (clayton_ones θ d)
      (fun b _ => Real.rpow_nonneg (le_max_right _ _) _) hU.dist
  obtain ⟨g, hg, hd'⟩ := clayton_pdf_density h0 (d := d) (by omega)
  exact ⟨U, hrun, fun i j hij => clayton_tau_kendall (by linarith) h0.ne' hL hij, g, hg, hd' _ hL⟩

/-- **C109** Gumbel, any dimension, parameters above `1 + 1e-5 + 1e-8` (below, `random` returns independent uniforms:
`gumbel_random_near_one_fails`): the rows drawn from uniforms and exponential variates. -/
theorem gumbel_sample_agrees_partial {θ : ℝ} (hθ : 1 + (1 / 10 ^ 8 + 1 / 10 ^ 5) < θ) {d : ℕ} (hd : 2 ≤ d)
    (mode : ℝ → ℝ → Except PyErr Fl) :
    ∃ U : ℝ → ℝ × ℝ → ℝ,
      (∀ (n : ℕ) (r r2 : Fin n → Fin d → ℝ) (ca v w : Fin n → ℝ), (∀ i j, r i j ∈ Ioo (0 : ℝ) 1) →
        (∀ i, v i ∈ Ioo (0 : ℝ) 1) → (∀ i, 0 < w i) →
        gumbelRandom mode θ (fun i j => .fin (r i j)) (fun i j => .fin (r2 i j)) ca v w
          = .ok fun i j => .fin (U (r i j) (v i, w i))) ∧
      (∀ i j, i ≠ j → gumbelTau θ = .ok (Spec.kendallTau (frailtyLaw frailSpace d U) i j)) ∧
      ∃ g, PdfComputes .gumbel θ d (cube d) g ∧ Spec.HasCubeDensity (frailtyLaw frailSpace d U) g := by
  have h1 : 1 ≤ θ := le_of_lt (lt_trans (by norm_num) hθ)
  obtain ⟨U, hm, hmem, hdist, hrun⟩ := gumbel_random_law_partial hθ (d := d) mode
  have hL : Spec.IsLawOf (frailtyLaw frailSpace d U) (Spec.gumbel θ) :=
    frailtyLaw_isLaw _ hm (frailSpace_ae.mono fun p hp r hr => hmem r hr p hp.1 hp.2) (gumbel_ones (by linarith) d)
      (fun b _ => (Real.exp_pos _).le) hdist
  obtain ⟨g, hg, hd'⟩ := gumbel_pdf_density h1 hd
  exact ⟨U, hrun, fun i j hij => gumbel_tau_kendall h1 hL hij, g, hg, hd' _ hL⟩

/-- The law of the pairs built from two independent uniforms. -/
noncomputable def pairSampleLaw (V : ℝ → ℝ → ℝ) : Measure (Fin 2 → ℝ) :=
  (unitSquare.map fun p => (p.1, V p.1 p.2)).map fun p => ![p.1, p.2]

theorem pairSampleLaw_isLaw {C : (Fin 2 → ℝ) → ℝ} {q : ℝ → ℝ} {V : ℝ → ℝ → ℝ}
    (h : IsPairSampler (fun u v => C ![u, v]) q V) (hC : ∀ b : Fin 2 → ℝ, (∀ j, 0 < b j ∧ b j ≤ 1) → 0 ≤ C b) :
    Spec.IsLawOf (pairSampleLaw V) C := by
  refine law_of_pairLaw (pairLaw_sampler (V := fun p => V p.1 p.2) h.meas h.mem (fun a b ha ha1 hb hb1 => hC _ ?_) h.dist)
  intro j
  fin_cases j
  · exact ⟨ha, ha1⟩
  · exact ⟨hb, hb1⟩

/-- **C109** Clayton, two dimensions: the pairs drawn by `random` have the Kendall's tau reported and the density
computed by `pdf`, for parameters of either sign. -/
theorem clayton_pair_agrees {θ : ℝ} (h1 : -1 < θ) (h0 : 1 / 10 ^ 7 ≤ |θ|) :
    ∃ V : ℝ → ℝ → ℝ,
      (∀ (n : ℕ) (r : Fin n → Fin 2 → ℝ) (gam : Fin n → Fl), (∀ i j, r i j ∈ Ioo (0 : ℝ) 1) →
        claytonRandom θ (fun i j => .fin (r i j)) gam = .ok (pairRows V r)) ∧
      (∀ i j, i ≠ j → claytonTau θ = .ok (Spec.kendallTau (pairSampleLaw V) i j)) ∧
      ∃ g, PdfComputes .clayton θ 2 (cube 2) g ∧ Spec.HasCubeDensity (pairSampleLaw V) g := by
  have hθ : θ ≠ 0 := by
    rintro rfl
    rw [abs_zero] at h0
    norm_num at h0
  obtain ⟨V, hV, hrun⟩ := clayton_random_pair h1 h0
  have hL : Spec.IsLawOf (pairSampleLaw V) (Spec.clayton θ) :=
    pairSampleLaw_isLaw hV fun b _ => Real.rpow_nonneg (le_max_right _ _) _
  refine ⟨V, hrun, fun i j hij => clayton_tau_kendall h1.le hθ hL hij, ?_⟩
  rcases lt_or_gt_of_ne hθ with hn | hp
  · obtain ⟨g, hg, hd'⟩ := clayton_pdf_density_neg h1 hn
    exact ⟨g, hg, hd' _ hL⟩
  · obtain ⟨g, hg, hd'⟩ := clayton_pdf_density hp (d := 2) le_rfl
    exact ⟨g, hg, hd' _ hL⟩

/-- **C109** Frank, two dimensions: Kendall's tau and Spearman's rho of the pairs drawn by `random` are those reported
(up to 1e-9 and 1e-8), for parameters of either sign, and for positive ones `pdf` is their density. In other dimensions
`random` draws from another law, see `frank_random_frailty_partial`. -/
theorem frank_pair_agrees_partial {θ : ℝ} (h0 : 1 / 10 ^ 7 ≤ |θ|) :
    ∃ V : ℝ → ℝ → ℝ,
      (∀ (n : ℕ) (r : Fin n → Fin 2 → ℝ) (fr : Fin n → Fl), (∀ i j, r i j ∈ Ioo (0 : ℝ) 1) →
        frankRandom θ (fun i j => .fin (r i j)) fr = pairRows V r) ∧
      (∀ i j, i ≠ j → ∃ v : ℝ, frankTau compiledD1 θ = .ok (.fin v) ∧
        |v - Spec.kendallTau (pairSampleLaw V) i j| ≤ 1 / 10 ^ 9) ∧
      (∀ i j, i ≠ j → ∃ v : ℝ, frankRho compiledD1 compiledD2 θ = .fin v ∧
        |v - Spec.spearmanRho (pairSampleLaw V) i j| ≤ 1 / 10 ^ 8) ∧
      (0 < θ → ∃ g, PdfComputes .frank θ 2 (cube 2) g ∧ Spec.HasCubeDensity (pairSampleLaw V) g) := by
  have hθ : θ ≠ 0 := by
    rintro rfl
    rw [abs_zero] at h0
    norm_num at h0
  obtain ⟨V, hV, hrun⟩ := frank_random_pair h0
  have hL : Spec.IsLawOf (pairSampleLaw V) (Spec.frank θ) := by
    refine pairSampleLaw_isLaw hV fun b hb => ?_
    have := (frank_pairLaw hθ).dist (b 0) (b 1) (hb 0).1 (hb 0).2 (hb 1).1 (hb 1).2
    have e : Spec.frank θ b = frankC2 θ (b 0) (b 1) := by simp [Spec.frank, Fin.prod_univ_two, frankC2]
    rw [e, ← this]
    exact measureReal_nonneg
  refine ⟨V, hrun, fun i j hij => frank_tau_kendall hθ hL hij, fun i j hij => frank_rho_spearman hθ hL hij, fun hp => ?_⟩
  obtain ⟨g, hg, hd'⟩ := frank_pdf_density_partial hp (d := 2) le_rfl
  exact ⟨g, hg, hd' _ hL⟩

/-- Parameters meeting the hypotheses. -/
example : (1 : ℝ) / 10 ^ 7 ≤ 2 ∧ (2 : ℕ) < 5 ∧ (1 : ℝ) + (1 / 10 ^ 8 + 1 / 10 ^ 5) < 3 / 2 ∧ (-1 : ℝ) < -1 / 2 ∧
    (1 : ℝ) / 10 ^ 7 ≤ |(-1 / 2 : ℝ)| := by
  refine ⟨by norm_num, by norm_num, by norm_num, by norm_num, ?_⟩
  rw [abs_of_neg (by norm_num)]
  norm_num

example : ∃ P : Measure (Fin 3 → ℝ), ∃ v : ℝ, Spec.IsLawOf P (Spec.frank 4) ∧ frankTau compiledD1 4 = .ok (.fin v) ∧
    |v - Spec.kendallTau P 0 2| ≤ 1 / 10 ^ 9 := by
  obtain ⟨P, hP⟩ := (archimedean_law_exists (θ := 4) (d := 3) (by norm_num)).2.2.1 (by norm_num)
  obtain ⟨v, hv⟩ := frank_tau_kendall (by norm_num) hP (i := 0) (j := 2) (by decide)
  exact ⟨P, v, hP, hv⟩

example : ∃ P : Measure (Fin 3 → ℝ), ∃ v : ℝ, Spec.IsLawOf P (Spec.frank 4) ∧ frankRho compiledD1 compiledD2 4 = .fin v ∧
    |v - Spec.spearmanRho P 0 2| ≤ 1 / 10 ^ 8 := by
  obtain ⟨P, hP⟩ := (archimedean_law_exists (θ := 4) (d := 3) (by norm_num)).2.2.1 (by norm_num)
  obtain ⟨v, hv⟩ := frank_rho_spearman (by norm_num) hP (i := 0) (j := 2) (by decide)
  exact ⟨P, v, hP, hv⟩

example := clayton_pdf_density (θ := 2) (by norm_num) (d := 5) (by norm_num)

example := clayton_pdf_density_neg (θ := -1 / 2) (by norm_num) (by norm_num)

example := gumbel_pdf_density (θ := 4) (by norm_num) (d := 3) (by norm_num)

example := frank_pdf_density_partial (θ := 4) (by norm_num) (d := 3) (by norm_num)

example := clayton_sample_agrees (θ := 2) (by norm_num) (d := 5) (by norm_num)

example := gumbel_sample_agrees_partial (θ := 3 / 2) (by norm_num) (d := 3) (by norm_num) fun _ _ => .ok .nan

example := clayton_pair_agrees (θ := -1 / 2) (by norm_num) (by norm_num [abs_of_pos])

end Copulae
