import Verif.Lemmas.ExchPower
import Verif.Lemmas.RadSymLaw

/-!
The pairs of columns of samples from the copulas of the library are exchangeable; a law of pairs that is not.
-/

namespace Copulae

open MeasureTheory ProbabilityTheory Spec CopulaMeasure Set

variable {d n : ℕ}

theorem measurable_pair (i j : Fin d) : Measurable fun x : Fin d → ℝ => ![x i, x j] := by
  refine measurable_pi_lambda _ fun k => ?_
  fin_cases k
  · exact measurable_pi_apply i
  · exact measurable_pi_apply j

section
variable {P Q : Measure (Fin d → ℝ)}

instance [IsProbabilityMeasure P] (i j : Fin d) : IsProbabilityMeasure (pairLaw P i j) :=
  Measure.isProbabilityMeasure_map (measurable_pair i j).aemeasurable

theorem pairLaw_uniform (hP : Uniform P) (i j : Fin d) : Uniform (pairLaw P i j) := by
  intro k
  rw [pairLaw, Measure.map_map (measurable_pi_apply k) (measurable_pair i j)]
  fin_cases k
  · exact hP i
  · exact hP j

theorem pairLaw_atomless (hQ : Atomless Q) (i j : Fin d) : Atomless (pairLaw Q i j) := by
  intro k y
  have hs : MeasurableSet {x : Fin 2 → ℝ | x k = y} :=
    measurableSet_eq_fun (measurable_pi_apply k) measurable_const
  rw [pairLaw, Measure.map_apply (measurable_pair i j) hs]
  fin_cases k
  · exact hQ i y
  · exact hQ j y

theorem pairLaw_hasCopula (h : HasCopula Q P) (i j : Fin d) : HasCopula (pairLaw Q i j) (pairLaw P i j) := by
  obtain ⟨F, hF, hFQ⟩ := h
  have hFm : Measurable fun (x : Fin d → ℝ) k => F k (x k) :=
    measurable_pi_lambda _ fun k => (hF k).measurable.comp (measurable_pi_apply k)
  refine ⟨![F i, F j], fun k => ?_, ?_⟩
  · fin_cases k
    · exact hF i
    · exact hF j
  · have hm : Measurable fun (x : Fin 2 → ℝ) k => ![F i, F j] k (x k) := by
      refine measurable_pi_lambda _ fun k => ?_
      fin_cases k
      · exact (hF i).measurable.comp (measurable_pi_apply 0)
      · exact (hF j).measurable.comp (measurable_pi_apply 1)
    rw [pairLaw, pairLaw, Measure.map_map hm (measurable_pair i j), ← hFQ, Measure.map_map (measurable_pair i j) hFm]
    congr 1
    funext x k
    fin_cases k <;> rfl

theorem iid_pair [IsProbabilityMeasure Q] (i j : Fin d) (n : ℕ) :
    (iid n Q).map (fun x k => ![x k i, x k j]) = iid n (pairLaw Q i j) :=
  Measure.pi_map_pi (μ := fun _ : Fin n => Q) (f := fun _ x => ![x i, x j]) fun _ => (measurable_pair i j).aemeasurable

theorem exchangeable_pair (i j : Fin d) (h : pairLaw P j i = pairLaw P i j) : Exchangeable (pairLaw P i j) := by
  rw [Exchangeable, pairLaw, pairLaw, Measure.map_map (measurable_pair 1 0) (measurable_pair i j)]
  exact h

theorem exchangeable_perm (h : ∀ σ : Equiv.Perm (Fin d), P.map (fun x k => x (σ k)) = P) (i j : Fin d) :
    Exchangeable (pairLaw P i j) := by
  refine exchangeable_pair i j ?_
  have hm : Measurable fun (x : Fin d → ℝ) k => x (Equiv.swap i j k) := measurable_pi_lambda _ fun k => measurable_pi_apply _
  rw [pairLaw, pairLaw]
  conv_lhs => rw [← h (Equiv.swap i j), Measure.map_map (measurable_pair j i) hm]
  congr 1
  funext x
  simp [Function.comp]

end

theorem family_copula_perm {F : Family} {θ : ℝ} (b : Fin d → ℝ) (σ : Equiv.Perm (Fin d)) :
    F.copula θ (fun k => b (σ k)) = F.copula θ b := by
  cases F with
  | clayton =>
    show Spec.clayton θ _ = Spec.clayton θ _
    unfold Spec.clayton
    rw [Equiv.sum_comp σ fun k => b k ^ (-θ)]
  | frank =>
    show Spec.frank θ _ = Spec.frank θ _
    unfold Spec.frank
    rw [Equiv.prod_comp σ fun k => Real.exp (-θ * b k) - 1]
  | gumbel =>
    show Spec.gumbel θ _ = Spec.gumbel θ _
    unfold Spec.gumbel
    rw [Equiv.sum_comp σ fun k => (-Real.log (b k)) ^ θ]

theorem arch_exchangeable {P : Measure (Fin d → ℝ)} {F : Family} {θ : ℝ} (hP : IsLawOf P (F.copula θ)) (i j : Fin d) :
    Exchangeable (pairLaw P i j) := by
  have := hP.prob
  refine exchangeable_perm (fun σ => ?_) i j
  have hm : Measurable fun (x : Fin d → ℝ) k => x (σ k) := measurable_pi_lambda _ fun k => measurable_pi_apply _
  refine IsLawOf.unique (C := F.copula θ) ⟨Measure.isProbabilityMeasure_map hm.aemeasurable, ?_, fun b hb => ?_⟩ hP
  · rw [ae_map_iff hm.aemeasurable (by
      have : {x : Fin d → ℝ | ∀ j, 0 < x j ∧ x j < 1} = ⋂ j, {x | 0 < x j ∧ x j < 1} := by ext; simp
      exact this ▸ MeasurableSet.iInter fun j => (measurableSet_lt measurable_const (measurable_pi_apply j)).inter
        (measurableSet_lt (measurable_pi_apply j) measurable_const))]
    filter_upwards [hP.mem] with x hx k
    exact hx (σ k)
  · rw [distFn, map_measureReal_apply hm (measurableSet_le b), ← family_copula_perm b σ.symm,
      ← hP.dist _ fun k => hb (σ.symm k), distFn]
    congr 1
    ext x
    simp only [mem_preimage, mem_ofPred_eq]
    constructor
    · intro h k
      have := h (σ.symm k)
      rwa [Equiv.apply_symm_apply] at this
    · intro h k
      have := h (σ k)
      rwa [Equiv.symm_apply_apply] at this

theorem gauss_pair_swap {S : Matrix (Fin d) (Fin d) ℝ} (hS : S.PosSemidef) (h1 : ∀ j, S j j = 1) (i j : Fin d) :
    (gauss S).map (fun x => ![x j, x i]) = (gauss S).map fun x => ![x i, x j] := by
  have key : ∀ i j : Fin d, (gauss S).map (fun x => ![x i, x j]) = gauss (S.submatrix ![i, j] ![i, j]) := by
    intro i j
    rw [← gauss_submatrix hS]
    congr 1
    funext x k
    fin_cases k <;> rfl
  rw [key, key]
  congr 1
  have hs : S i j = S j i := by
    have := congrFun (congrFun hS.1 i) j
    simpa using this.symm
  ext a b
  fin_cases a <;> fin_cases b <;> simp [h1, hs]

theorem gaussLaw_exchangeable {S : Matrix (Fin d) (Fin d) ℝ} (hS : S.PosSemidef) (h1 : ∀ j, S j j = 1) (i j : Fin d) :
    Exchangeable (pairLaw (gaussLaw S) i j) := by
  refine exchangeable_pair i j ?_
  have hm : Measurable fun (x : Fin d → ℝ) k => normCdf (x k) := measurable_pointwise normMargin.measurable
  have hm2 : Measurable fun (x : Fin 2 → ℝ) k => normCdf (x k) := measurable_pointwise normMargin.measurable
  have e : ∀ i j : Fin d, pairLaw (gaussLaw S) i j = ((gauss S).map fun x => ![x i, x j]).map fun x k => normCdf (x k) := by
    intro i j
    rw [pairLaw, gaussLaw_eq, cubeLaw, Measure.map_map (measurable_pair i j) hm, Measure.map_map hm2 (measurable_pair i j)]
    congr 1
    funext x k
    fin_cases k <;> rfl
  rw [e, e, gauss_pair_swap hS h1]

theorem studentLaw_exchangeable {S : Matrix (Fin d) (Fin d) ℝ} (hS : S.PosSemidef) (h1 : ∀ j, S j j = 1) {ν : ℝ} (hν : 0 < ν)
    (i j : Fin d) : Exchangeable (pairLaw (studentLaw S ν) i j) := by
  refine exchangeable_pair i j ?_
  have := chi_prob hν
  obtain ⟨q, hq⟩ := exists_tMargin hν
  have hm : Measurable fun (x : Fin d → ℝ) k => tCdfR ν (x k) := measurable_pointwise hq.measurable
  have hm2 : Measurable fun (x : Fin 2 → ℝ) k => tCdfR ν (x k) := measurable_pointwise hq.measurable
  have hsc : Measurable fun p : (Fin d → ℝ) × ℝ => tScale ν p.2 • p.1 := measurable_scale (measurable_tScale ν)
  have hsc2 : Measurable fun p : (Fin 2 → ℝ) × ℝ => tScale ν p.2 • p.1 := measurable_scale (measurable_tScale ν)
  have e : ∀ i j : Fin d, pairLaw (studentLaw S ν) i j =
      (((((gauss S).map fun x => ![x i, x j])).prod (gammaMeasure (ν / 2) (1 / 2))).map fun p => tScale ν p.2 • p.1).map
        fun x k => tCdfR ν (x k) := by
    intro i j
    conv_rhs => rw [← Measure.map_id (μ := gammaMeasure (ν / 2) (1 / 2))]
    rw [Measure.map_prod_map _ _ (measurable_pair i j) measurable_id, Measure.map_map hsc2 ((measurable_pair i j).prodMap measurable_id),
      Measure.map_map hm2 (hsc2.comp ((measurable_pair i j).prodMap measurable_id)),
      pairLaw, studentLaw_eq S hν, cubeLaw, tVector_eq S hν, scaleMix, Measure.map_map hm hsc,
      Measure.map_map (measurable_pair i j) (hm.comp hsc)]
    congr 1
    funext p k
    fin_cases k <;> rfl
  rw [e, e, gauss_pair_swap hS h1]

theorem iid_unif_uniform (d : ℕ) : Uniform (iid d unif) := fun j => by
  have h := Measure.pi_map_eval (fun _ : Fin d => unif) j
  simp only [measure_univ, Finset.prod_const_one, one_smul] at h
  refine h.trans ?_
  rw [unif]
  exact Measure.restrict_congr_set Ioo_ae_eq_Ioc

theorem indep_exchangeable (i j : Fin d) : Exchangeable (pairLaw (iid d unif) i j) := by
  refine exchangeable_perm (fun σ => ?_) i j
  have h := (measurePreserving_piCongrLeft (fun _ : Fin d => unif) σ.symm).map_eq
  have e : ⇑(MeasurableEquiv.piCongrLeft (fun _ : Fin d => ℝ) σ.symm) = fun (x : Fin d → ℝ) k => x (σ k) := by
    funext x k
    show Equiv.piCongrLeft (fun _ : Fin d => ℝ) σ.symm x k = x (σ k)
    obtain ⟨l, rfl⟩ := σ.symm.surjective k
    rw [Equiv.piCongrLeft_apply_apply, Equiv.apply_symm_apply]
  rw [e] at h
  exact h

/-! ### A law of pairs that is not exchangeable -/

/-- A third of the unit interval changes places with the other two thirds. -/
noncomputable def shiftThird (u : ℝ) : ℝ := if u ≤ 1 / 3 then u + 2 / 3 else u - 1 / 3

theorem measurable_shiftThird : Measurable shiftThird := by
  unfold shiftThird
  exact Measurable.ite measurableSet_Iic (by fun_prop) (by fun_prop)

/-- Pairs of a uniform number and the number the exchange moves it to. -/
noncomputable def shiftLaw : Measure (Fin 2 → ℝ) := (MeasureTheory.volume.restrict (Ioc (0 : ℝ) 1)).map fun u => ![u, shiftThird u]

theorem measurable_shift : Measurable fun u : ℝ => ![u, shiftThird u] := by
  refine measurable_pi_lambda _ fun k => ?_
  fin_cases k
  · exact measurable_id
  · exact measurable_shiftThird

instance : IsProbabilityMeasure (MeasureTheory.volume.restrict (Ioc (0 : ℝ) 1)) := ⟨by simp⟩

instance : IsProbabilityMeasure shiftLaw := Measure.isProbabilityMeasure_map measurable_shift.aemeasurable

theorem shiftThird_uniform : (MeasureTheory.volume.restrict (Ioc (0 : ℝ) 1)).map shiftThird = MeasureTheory.volume.restrict (Ioc (0 : ℝ) 1) := by
  have : IsProbabilityMeasure ((MeasureTheory.volume.restrict (Ioc (0 : ℝ) 1)).map shiftThird) :=
    Measure.isProbabilityMeasure_map measurable_shiftThird.aemeasurable
  refine Measure.ext_of_Iic _ _ fun t => ?_
  rw [Measure.map_apply measurable_shiftThird measurableSet_Iic, Measure.restrict_apply (measurable_shiftThird measurableSet_Iic),
    Measure.restrict_apply measurableSet_Iic]
  have e1 : shiftThird ⁻¹' Iic t ∩ Ioc 0 1 = Ioc 0 (min (t - 2 / 3) (1 / 3)) ∪ Ioc (1 / 3) (min (t + 1 / 3) 1) := by
    ext u
    simp only [mem_inter_iff, mem_preimage, mem_Iic, mem_Ioc, mem_union, le_min_iff, shiftThird]
    split_ifs with h
    · constructor
      · rintro ⟨h1, h2, h3⟩
        exact Or.inl ⟨h2, by linarith, h⟩
      · rintro (⟨h1, h2, h3⟩ | ⟨h1, h2, h3⟩)
        · exact ⟨by linarith, h1, by linarith⟩
        · linarith
    · constructor
      · rintro ⟨h1, h2, h3⟩
        exact Or.inr ⟨by linarith, by linarith, h3⟩
      · rintro (⟨h1, h2, h3⟩ | ⟨h1, h2, h3⟩)
        · exact absurd h3 h
        · exact ⟨by linarith, by linarith, h3⟩
  have e2 : Iic t ∩ Ioc (0 : ℝ) 1 = Ioc 0 (min t 1) := by
    ext u
    simp only [mem_inter_iff, mem_Iic, mem_Ioc, le_min_iff]
    tauto
  rw [e1, e2, measure_union _ measurableSet_Ioc, Real.volume_Ioc, Real.volume_Ioc, Real.volume_Ioc]
  · rcases le_total t 0 with h0 | h0
    · rw [ENNReal.ofReal_of_nonpos (by have := min_le_left (t - 2 / 3) (1 / 3); linarith),
        ENNReal.ofReal_of_nonpos (by have := min_le_left (t + 1 / 3) 1; linarith),
        ENNReal.ofReal_of_nonpos (by have := min_le_left t 1; linarith), add_zero]
    · rcases le_total t (2 / 3) with h1 | h1
      · rw [ENNReal.ofReal_of_nonpos (by have := min_le_left (t - 2 / 3) (1 / 3); linarith), min_eq_left (by linarith),
          min_eq_left (by linarith), zero_add]
        congr 1
        ring
      · rw [min_eq_right (by linarith : (1 : ℝ) ≤ t + 1 / 3), ← ENNReal.ofReal_add _ (by norm_num)]
        · congr 1
          rcases le_total t 1 with h2 | h2
          · rw [min_eq_left (by linarith), min_eq_left h2]
            ring
          · rw [min_eq_right (by linarith), min_eq_right h2]
            norm_num
        · rw [sub_zero]
          exact le_min (by linarith) (by norm_num)
  · rw [Set.disjoint_left]
    rintro u ⟨-, h1⟩ ⟨h2, -⟩
    have := h1.trans (min_le_right _ _)
    linarith

theorem shiftLaw_uniform : Uniform shiftLaw := by
  intro k
  rw [shiftLaw, Measure.map_map (measurable_pi_apply k) measurable_shift]
  fin_cases k
  · exact Measure.map_id
  · exact shiftThird_uniform

/-- Between one third and two thirds the gap is the distance to one third. -/
theorem shiftLaw_gap {u : ℝ} (h1 : 1 / 3 < u) (h2 : u ≤ 2 / 3) : exchGap shiftLaw ![u, u - 1 / 3] = u - 1 / 3 := by
  have hd : ∀ a b : ℝ, distFn shiftLaw ![a, b] = (MeasureTheory.volume.restrict (Ioc (0 : ℝ) 1)).real {v | v ≤ a ∧ shiftThird v ≤ b} := by
    intro a b
    rw [distFn, shiftLaw, map_measureReal_apply measurable_shift (measurableSet_le _)]
    congr 1
    ext v
    simp [Fin.forall_fin_two]
  have e : exchGap shiftLaw ![u, u - 1 / 3] = distFn shiftLaw ![u, u - 1 / 3] - distFn shiftLaw ![u - 1 / 3, u] := rfl
  have hmeas : ∀ a b : ℝ, MeasurableSet {v | v ≤ a ∧ shiftThird v ≤ b} := fun a b =>
    measurableSet_Iic.inter (measurable_shiftThird measurableSet_Iic)
  rw [e, hd, hd, measureReal_restrict_apply (hmeas _ _), measureReal_restrict_apply (hmeas _ _)]
  have e1 : {v | v ≤ u ∧ shiftThird v ≤ u - 1 / 3} ∩ Ioc (0 : ℝ) 1 = Ioc (1 / 3) u := by
    ext v
    simp only [mem_inter_iff, mem_ofPred_eq, mem_Ioc, shiftThird]
    split_ifs with h
    · constructor
      · rintro ⟨⟨a1, a2⟩, a3, a4⟩
        linarith
      · rintro ⟨a1, a2⟩
        linarith
    · constructor
      · rintro ⟨⟨a1, a2⟩, a3, a4⟩
        exact ⟨by linarith, a1⟩
      · rintro ⟨a1, a2⟩
        exact ⟨⟨a2, by linarith⟩, by linarith, by linarith⟩
  have e2 : {v | v ≤ u - 1 / 3 ∧ shiftThird v ≤ u} ∩ Ioc (0 : ℝ) 1 = ∅ := by
    ext v
    simp only [mem_inter_iff, mem_ofPred_eq, mem_Ioc, shiftThird, mem_empty_iff_false, iff_false]
    split_ifs with h
    · rintro ⟨⟨a1, a2⟩, a3, a4⟩
      linarith
    · rintro ⟨⟨a1, a2⟩, a3, a4⟩
      linarith
  rw [e1, e2, measureReal_empty, sub_zero, Real.volume_real_Ioc_of_le h1.le]

theorem shiftLaw_gap_mass : shiftLaw {w | exchGap shiftLaw w ≠ 0} ≠ 0 := by
  intro h0
  have hm : Measurable (exchGap shiftLaw) := (exchGap_continuous shiftLaw_uniform).measurable
  have hms : MeasurableSet {w | exchGap shiftLaw w ≠ 0} := hm (measurableSet_singleton 0).compl
  have hsub : Ioo (1 / 3 : ℝ) (2 / 3) ⊆ (fun u : ℝ => ![u, shiftThird u]) ⁻¹' {w | exchGap shiftLaw w ≠ 0} ∩ Ioc 0 1 := by
    intro u hu
    refine ⟨?_, by linarith [hu.1], by linarith [hu.2]⟩
    show exchGap shiftLaw ![u, shiftThird u] ≠ 0
    rw [shiftThird, if_neg (not_le.mpr hu.1), shiftLaw_gap hu.1 hu.2.le]
    have := hu.1
    intro h
    linarith
  rw [shiftLaw, Measure.map_apply measurable_shift (by rw [← shiftLaw]; exact hms),
    Measure.restrict_apply (measurable_shift (by rw [← shiftLaw]; exact hms))] at h0
  have := measure_mono_null hsub h0
  rw [Real.volume_Ioo, ENNReal.ofReal_eq_zero] at this
  norm_num at this

end Copulae
