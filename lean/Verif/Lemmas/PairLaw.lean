import Mathlib.MeasureTheory.Constructions.BorelSpace.Order
import Mathlib.MeasureTheory.Integral.Prod
import Verif.Spec.Concordance
import Verif.Spec.IsCopula
import Verif.Lemmas.Sampler

/-!
Laws of two coordinates: a law on the open square is determined by its distribution function, Kendall's tau is
`4 E[C(U, V)] - 1`.
-/

namespace Copulae

open MeasureTheory Set

/-- A law on the open unit square with distribution function `C`. -/
structure PairLaw (Q : Measure (ℝ × ℝ)) (C : ℝ → ℝ → ℝ) : Prop where
  prob : IsProbabilityMeasure Q
  mem : ∀ᵐ p ∂Q, p.1 ∈ Ioo (0 : ℝ) 1 ∧ p.2 ∈ Ioo (0 : ℝ) 1
  dist : ∀ a b, 0 < a → a ≤ 1 → 0 < b → b ≤ 1 → Q.real (Iic a ×ˢ Iic b) = C a b

namespace PairLaw

variable {Q R : Measure (ℝ × ℝ)} {C : ℝ → ℝ → ℝ}

theorem rect (h : PairLaw Q C) (a b : ℝ) :
    Q (Iic a ×ˢ Iic b) = if 0 < a ∧ 0 < b then ENNReal.ofReal (C (min a 1) (min b 1)) else 0 := by
  have := h.prob
  split_ifs with hab
  · rw [← h.dist _ _ (lt_min hab.1 one_pos) (min_le_right _ _) (lt_min hab.2 one_pos) (min_le_right _ _),
      measureReal_def, ENNReal.ofReal_toReal (measure_ne_top _ _)]
    refine measure_congr ?_
    filter_upwards [h.mem] with p hp
    refine propext ?_
    change (p.1 ≤ a ∧ p.2 ≤ b) ↔ (p.1 ≤ min a 1 ∧ p.2 ≤ min b 1)
    rw [le_min_iff, le_min_iff]
    constructor
    · rintro ⟨x, y⟩; exact ⟨⟨x, hp.1.2.le⟩, y, hp.2.2.le⟩
    · rintro ⟨⟨x, -⟩, y, -⟩; exact ⟨x, y⟩
  · rw [← nonpos_iff_eq_zero]
    have hn : Q {p | ¬ (p.1 ∈ Ioo (0 : ℝ) 1 ∧ p.2 ∈ Ioo (0 : ℝ) 1)} = 0 := h.mem
    rw [← hn]
    refine measure_mono fun p hp => ?_
    intro hc
    exact hab ⟨hc.1.1.trans_le hp.1, hc.2.1.trans_le hp.2⟩

theorem ext (h : PairLaw Q C) (h' : PairLaw R C) : Q = R := by
  have := h.prob
  have := h'.prob
  have hs : IsCountablySpanning (range (Iic : ℝ → Set ℝ)) := by
    refine ⟨fun n : ℕ => Iic (n : ℝ), fun n => ⟨n, rfl⟩, ?_⟩
    rw [eq_univ_iff_forall]
    intro x
    obtain ⟨n, hn⟩ := exists_nat_ge x
    exact mem_iUnion.mpr ⟨n, hn⟩
  have hg : (Prod.instMeasurableSpace : MeasurableSpace (ℝ × ℝ)) =
      MeasurableSpace.generateFrom (image2 (· ×ˢ ·) (range (Iic : ℝ → Set ℝ)) (range (Iic : ℝ → Set ℝ))) := by
    rw [← generateFrom_prod_eq hs hs, ← borel_eq_generateFrom_Iic ℝ, ← BorelSpace.measurable_eq]
  refine ext_of_generate_finite _ hg (IsPiSystem.prod isPiSystem_Iic isPiSystem_Iic) ?_ (by simp)
  rintro s ⟨_, ⟨a, rfl⟩, _, ⟨b, rfl⟩, rfl⟩
  rw [h.rect, h'.rect]

/-- The first margin is uniform. -/
theorem map_fst (h : PairLaw Q C) (hm : ∀ a, 0 < a → a ≤ 1 → C a 1 = a) :
    Q.map Prod.fst = volume.restrict (Ioc 0 1) := by
  have := h.prob
  have : IsProbabilityMeasure (Q.map Prod.fst) := Measure.isProbabilityMeasure_map measurable_fst.aemeasurable
  have : IsProbabilityMeasure (volume.restrict (Ioc (0 : ℝ) 1)) := ⟨by simp⟩
  refine Measure.ext_of_Iic _ _ fun u => ?_
  rw [Measure.map_apply measurable_fst measurableSet_Iic, Measure.restrict_apply measurableSet_Iic]
  have e : Q (Prod.fst ⁻¹' Iic u) = Q (Iic u ×ˢ Iic 1) := by
    refine measure_congr ?_
    filter_upwards [h.mem] with p hp
    refine propext ?_
    change p.1 ≤ u ↔ (p.1 ≤ u ∧ p.2 ≤ 1)
    exact ⟨fun x => ⟨x, hp.2.2.le⟩, fun x => x.1⟩
  have e2 : Iic u ∩ Ioc 0 1 = Ioc 0 (min u 1) := by
    ext x
    simp only [mem_inter_iff, mem_Iic, mem_Ioc, le_min_iff]
    tauto
  rw [e, h.rect, e2, Real.volume_Ioc, sub_zero, min_self]
  by_cases hu : 0 < u
  · rw [if_pos ⟨hu, one_pos⟩, hm _ (lt_min hu one_pos) (min_le_right _ _)]
  · rw [if_neg fun hc => hu hc.1, ENNReal.ofReal_of_nonpos ((min_le_left _ _).trans (not_lt.mp hu))]

theorem swap (h : PairLaw Q C) : PairLaw (Q.map Prod.swap) fun a b => C b a := by
  have := h.prob
  refine ⟨Measure.isProbabilityMeasure_map measurable_swap.aemeasurable, ?_, fun a b ha ha1 hb hb1 => ?_⟩
  · have hms : MeasurableSet {p : ℝ × ℝ | p.1 ∈ Ioo (0 : ℝ) 1 ∧ p.2 ∈ Ioo (0 : ℝ) 1} :=
      (measurable_fst measurableSet_Ioo).inter (measurable_snd measurableSet_Ioo)
    rw [ae_map_iff measurable_swap.aemeasurable hms]
    filter_upwards [h.mem] with p hp
    exact ⟨hp.2, hp.1⟩
  · rw [← h.dist b a hb hb1 ha ha1, map_measureReal_apply measurable_swap (measurableSet_Iic.prod measurableSet_Iic)]
    congr 1
    ext p
    simp

theorem fst_null (h : PairLaw Q C) (hm : ∀ a, 0 < a → a ≤ 1 → C a 1 = a) (c : ℝ) : Q {p | p.1 = c} = 0 := by
  have := Measure.map_apply (μ := Q) measurable_fst (measurableSet_singleton c)
  rw [h.map_fst hm, measure_singleton] at this
  exact this.symm

theorem snd_null (h : PairLaw Q C) (hm : ∀ a, 0 < a → a ≤ 1 → C 1 a = a) (c : ℝ) : Q {p | p.2 = c} = 0 := by
  have hs := h.swap.fst_null hm c
  have hms : MeasurableSet {p : ℝ × ℝ | p.1 = c} := measurable_fst (measurableSet_singleton c)
  rw [Measure.map_apply measurable_swap hms] at hs
  exact hs

end PairLaw

/-- Kendall's tau of a law on the plane. -/
noncomputable def pairTau (Q : Measure (ℝ × ℝ)) : ℝ :=
  (Q.prod Q).real {p | 0 < (p.1.1 - p.2.1) * (p.1.2 - p.2.2)} -
    (Q.prod Q).real {p | (p.1.1 - p.2.1) * (p.1.2 - p.2.2) < 0}

theorem PairLaw.tau {Q : Measure (ℝ × ℝ)} {C : ℝ → ℝ → ℝ} (h : PairLaw Q C)
    (hm1 : ∀ a, 0 < a → a ≤ 1 → C a 1 = a) (hm2 : ∀ a, 0 < a → a ≤ 1 → C 1 a = a) :
    pairTau Q = 4 * ∫ p, C p.1 p.2 ∂Q - 1 := by
  have := h.prob
  set L := {p : (ℝ × ℝ) × (ℝ × ℝ) | p.1.1 < p.2.1 ∧ p.1.2 < p.2.2} with hL
  set G := {p : (ℝ × ℝ) × (ℝ × ℝ) | p.2.1 < p.1.1 ∧ p.2.2 < p.1.2} with hG
  have hLm : MeasurableSet L := by
    have m1 : MeasurableSet {p : (ℝ × ℝ) × (ℝ × ℝ) | p.1.1 < p.2.1} := measurableSet_lt (by fun_prop) (by fun_prop)
    have m2 : MeasurableSet {p : (ℝ × ℝ) × (ℝ × ℝ) | p.1.2 < p.2.2} := measurableSet_lt (by fun_prop) (by fun_prop)
    exact m1.inter m2
  have hGm : MeasurableSet G := by
    have m1 : MeasurableSet {p : (ℝ × ℝ) × (ℝ × ℝ) | p.2.1 < p.1.1} := measurableSet_lt (by fun_prop) (by fun_prop)
    have m2 : MeasurableSet {p : (ℝ × ℝ) × (ℝ × ℝ) | p.2.2 < p.1.2} := measurableSet_lt (by fun_prop) (by fun_prop)
    exact m1.inter m2
  have hconc : {p : (ℝ × ℝ) × (ℝ × ℝ) | 0 < (p.1.1 - p.2.1) * (p.1.2 - p.2.2)} = L ∪ G := by
    ext p
    simp only [hL, hG, mem_ofPred_eq, mem_union, mul_pos_iff, sub_pos, sub_neg]
    tauto
  have hdj : Disjoint L G := by
    rw [Set.disjoint_left]
    rintro p ⟨h1, -⟩ ⟨h2, -⟩
    exact lt_asymm h1 h2
  have hGL : (Q.prod Q).real G = (Q.prod Q).real L := by
    have e : Q.prod Q = (Q.prod Q).map Prod.swap := Measure.prod_swap.symm
    rw [e, map_measureReal_apply measurable_swap hGm]
    rw [← e]
    rfl
  have hdisc : (Q.prod Q).real {p | (p.1.1 - p.2.1) * (p.1.2 - p.2.2) < 0} = 1 - (Q.prod Q).real (L ∪ G) := by
    rw [← probReal_compl_eq_one_sub (hLm.union hGm), ← hconc]
    have t1 : ∀ᵐ p ∂(Q.prod Q), p.1.1 ≠ p.2.1 := by
      have hms : MeasurableSet {p : (ℝ × ℝ) × (ℝ × ℝ) | p.1.1 = p.2.1} :=
        measurableSet_eq_fun (by fun_prop) (by fun_prop)
      rw [ae_iff]
      simp only [ne_eq, not_not]
      rw [Measure.prod_apply_symm hms]
      have : ∀ y : ℝ × ℝ, Q ((fun x => (x, y)) ⁻¹' {p : (ℝ × ℝ) × (ℝ × ℝ) | p.1.1 = p.2.1}) = 0 :=
        fun y => h.fst_null hm1 y.1
      simp only [this, lintegral_zero]
    have t2 : ∀ᵐ p ∂(Q.prod Q), p.1.2 ≠ p.2.2 := by
      have hms : MeasurableSet {p : (ℝ × ℝ) × (ℝ × ℝ) | p.1.2 = p.2.2} :=
        measurableSet_eq_fun (by fun_prop) (by fun_prop)
      rw [ae_iff]
      simp only [ne_eq, not_not]
      rw [Measure.prod_apply_symm hms]
      have : ∀ y : ℝ × ℝ, Q ((fun x => (x, y)) ⁻¹' {p : (ℝ × ℝ) × (ℝ × ℝ) | p.1.2 = p.2.2}) = 0 :=
        fun y => h.snd_null hm2 y.2
      simp only [this, lintegral_zero]
    refine measureReal_congr ?_
    filter_upwards [t1, t2] with p h1 h2
    refine propext ?_
    change ((p.1.1 - p.2.1) * (p.1.2 - p.2.2) < 0) ↔ ¬ (0 < (p.1.1 - p.2.1) * (p.1.2 - p.2.2))
    have hne : (p.1.1 - p.2.1) * (p.1.2 - p.2.2) ≠ 0 := mul_ne_zero (sub_ne_zero.mpr h1) (sub_ne_zero.mpr h2)
    constructor
    · intro h; linarith
    · intro h; exact lt_of_le_of_ne (not_lt.mp h) hne
  have hval : (Q.prod Q).real L = ∫ p, C p.1 p.2 ∂Q := by
    have hsec : ∀ᵐ y ∂Q, Q ((fun x => (x, y)) ⁻¹' L) = ENNReal.ofReal (C y.1 y.2) := by
      filter_upwards [h.mem] with y hy
      have hr := h.rect y.1 y.2
      rw [if_pos ⟨hy.1.1, hy.2.1⟩, min_eq_left hy.1.2.le, min_eq_left hy.2.2.le] at hr
      rw [← hr]
      have t1 : ∀ᵐ x ∂Q, x.1 ≠ y.1 := by
        rw [ae_iff]; simp only [ne_eq, not_not]; exact h.fst_null hm1 y.1
      have t2 : ∀ᵐ x ∂Q, x.2 ≠ y.2 := by
        rw [ae_iff]; simp only [ne_eq, not_not]; exact h.snd_null hm2 y.2
      refine measure_congr ?_
      filter_upwards [t1, t2] with x h1 h2
      refine propext ?_
      change (x.1 < y.1 ∧ x.2 < y.2) ↔ (x.1 ≤ y.1 ∧ x.2 ≤ y.2)
      exact ⟨fun a => ⟨a.1.le, a.2.le⟩, fun a => ⟨lt_of_le_of_ne a.1 h1, lt_of_le_of_ne a.2 h2⟩⟩
    have hpos : ∀ᵐ y ∂Q, 0 ≤ C y.1 y.2 := by
      filter_upwards [h.mem] with y hy
      rw [← h.dist y.1 y.2 hy.1.1 hy.1.2.le hy.2.1 hy.2.2.le]
      exact measureReal_nonneg
    have hmeas : AEStronglyMeasurable (fun y : ℝ × ℝ => C y.1 y.2) Q := by
      have hm := (measurable_measure_prodMk_right (μ := Q) hLm).ennreal_toReal
      refine ⟨fun y => (Q ((fun x => (x, y)) ⁻¹' L)).toReal, hm.stronglyMeasurable, ?_⟩
      filter_upwards [hsec, hpos] with y hy hp
      rw [hy, ENNReal.toReal_ofReal hp]
    rw [integral_eq_lintegral_of_nonneg_ae hpos hmeas, measureReal_def, Measure.prod_apply_symm hLm,
      lintegral_congr_ae hsec]
  unfold pairTau
  rw [hdisc, hconc, measureReal_union hdj hGm, hGL, hval]
  ring

/-! ### Coordinates of a law on the cube -/

theorem kendallTau_pair {d : ℕ} (P : Measure (Fin d → ℝ)) [IsProbabilityMeasure P] (i j : Fin d) :
    Spec.kendallTau P i j = pairTau (P.map fun x => (x i, x j)) := by
  have hm : Measurable fun x : Fin d → ℝ => (x i, x j) := by fun_prop
  have : IsProbabilityMeasure (P.map fun x => (x i, x j)) := Measure.isProbabilityMeasure_map hm.aemeasurable
  have h1 : MeasurableSet {p : (ℝ × ℝ) × (ℝ × ℝ) | 0 < (p.1.1 - p.2.1) * (p.1.2 - p.2.2)} :=
    measurableSet_lt (by fun_prop) (by fun_prop)
  have h2 : MeasurableSet {p : (ℝ × ℝ) × (ℝ × ℝ) | (p.1.1 - p.2.1) * (p.1.2 - p.2.2) < 0} :=
    measurableSet_lt (by fun_prop) (by fun_prop)
  unfold pairTau Spec.kendallTau
  rw [Measure.map_prod_map _ _ hm hm, map_measureReal_apply (hm.prodMap hm) h1,
    map_measureReal_apply (hm.prodMap hm) h2]
  rfl

theorem spearmanRho_pair {d : ℕ} (P : Measure (Fin d → ℝ)) (i j : Fin d) :
    Spec.spearmanRho P i j = 12 * ∫ p, p.1 * p.2 ∂(P.map fun x => (x i, x j)) - 3 := by
  have hm : Measurable fun x : Fin d → ℝ => (x i, x j) := by fun_prop
  have hf : AEStronglyMeasurable (fun p : ℝ × ℝ => p.1 * p.2) (P.map fun x => (x i, x j)) := by
    exact Measurable.aestronglyMeasurable (by fun_prop)
  unfold Spec.spearmanRho
  rw [integral_map hm.aemeasurable hf]

/-- The point with `a` and `b` at two coordinates and one elsewhere. -/
def pairPoint {d : ℕ} (i j : Fin d) (a b : ℝ) : Fin d → ℝ := fun k => if k = i then a else if k = j then b else 1

theorem pairLaw_of_law {d : ℕ} {P : Measure (Fin d → ℝ)} {C : (Fin d → ℝ) → ℝ} (h : Spec.IsLawOf P C) {i j : Fin d}
    (hij : i ≠ j) : PairLaw (P.map fun x => (x i, x j)) fun a b => C (pairPoint i j a b) := by
  have := h.prob
  have hm : Measurable fun x : Fin d → ℝ => (x i, x j) := by fun_prop
  refine ⟨Measure.isProbabilityMeasure_map hm.aemeasurable, ?_, fun a b ha ha1 hb hb1 => ?_⟩
  · have hms : MeasurableSet {p : ℝ × ℝ | p.1 ∈ Ioo (0 : ℝ) 1 ∧ p.2 ∈ Ioo (0 : ℝ) 1} :=
      (measurable_fst measurableSet_Ioo).inter (measurable_snd measurableSet_Ioo)
    rw [ae_map_iff hm.aemeasurable hms]
    filter_upwards [h.mem] with x hx
    exact ⟨hx i, hx j⟩
  · rw [map_measureReal_apply hm (measurableSet_Iic.prod measurableSet_Iic), ← h.dist (pairPoint i j a b) ?_]
    · refine measureReal_congr ?_
      filter_upwards [h.mem] with x hx
      refine propext ?_
      change (x i ≤ a ∧ x j ≤ b) ↔ ∀ k, x k ≤ pairPoint i j a b k
      constructor
      · rintro ⟨h1, h2⟩ k
        unfold pairPoint
        split_ifs with e1 e2
        · rw [e1]; exact h1
        · rw [e2]; exact h2
        · exact (hx k).2.le
      · intro hk
        have h1 := hk i
        have h2 := hk j
        simp only [pairPoint, if_true, if_neg hij.symm] at h1 h2
        exact ⟨h1, h2⟩
    · intro k
      unfold pairPoint
      split_ifs
      · exact ⟨ha, ha1⟩
      · exact ⟨hb, hb1⟩
      · exact ⟨one_pos, le_rfl⟩

/-! ### Samplers -/

/-- Two independent uniforms. -/
noncomputable def unitSquare : Measure (ℝ × ℝ) :=
  (volume.restrict (Ioo (0 : ℝ) 1)).prod (volume.restrict (Ioo (0 : ℝ) 1))

theorem unitSquare_eq : unitSquare = volume.restrict (Ioo (0 : ℝ) 1 ×ˢ Ioo (0 : ℝ) 1) := by
  rw [unitSquare, Measure.prod_restrict]
  rfl

theorem pairLaw_sampler {V : ℝ × ℝ → ℝ} (hV : Measurable V) {C : ℝ → ℝ → ℝ}
    (hmem : ∀ u ∈ Ioo (0 : ℝ) 1, ∀ w ∈ Ioo (0 : ℝ) 1, V (u, w) ∈ Ioo (0 : ℝ) 1)
    (hC : ∀ a b : ℝ, 0 < a → a ≤ 1 → 0 < b → b ≤ 1 → 0 ≤ C a b)
    (hdist : ∀ a b : ℝ, 0 < a → a ≤ 1 → 0 < b → b ≤ 1 →
      volume {p : ℝ × ℝ | p.1 ∈ Ioo (0 : ℝ) 1 ∧ p.2 ∈ Ioo (0 : ℝ) 1 ∧ p.1 ≤ a ∧ V p ≤ b} = ENNReal.ofReal (C a b)) :
    PairLaw (unitSquare.map fun p => (p.1, V p)) C := by
  have hT : Measurable fun p : ℝ × ℝ => (p.1, V p) := measurable_fst.prodMk hV
  have hsq : MeasurableSet (Ioo (0 : ℝ) 1 ×ˢ Ioo (0 : ℝ) 1) := measurableSet_Ioo.prod measurableSet_Ioo
  have hp : IsProbabilityMeasure unitSquare := by
    constructor
    rw [unitSquare, Measure.prod_apply MeasurableSet.univ]
    simp
  refine ⟨Measure.isProbabilityMeasure_map hT.aemeasurable, ?_, fun a b ha ha1 hb hb1 => ?_⟩
  · have hms : MeasurableSet {p : ℝ × ℝ | p.1 ∈ Ioo (0 : ℝ) 1 ∧ p.2 ∈ Ioo (0 : ℝ) 1} :=
      (measurable_fst measurableSet_Ioo).inter (measurable_snd measurableSet_Ioo)
    rw [ae_map_iff hT.aemeasurable hms, unitSquare_eq]
    filter_upwards [ae_restrict_mem hsq] with p hp
    exact ⟨hp.1, hmem _ hp.1 _ hp.2⟩
  · have hr := measurableSet_Iic (a := a).prod (measurableSet_Iic (a := b))
    rw [measureReal_def, Measure.map_apply hT hr, unitSquare_eq, Measure.restrict_apply (hT hr)]
    have e : ((fun p : ℝ × ℝ => (p.1, V p)) ⁻¹' Iic a ×ˢ Iic b) ∩ Ioo 0 1 ×ˢ Ioo 0 1
        = {p : ℝ × ℝ | p.1 ∈ Ioo (0 : ℝ) 1 ∧ p.2 ∈ Ioo (0 : ℝ) 1 ∧ p.1 ≤ a ∧ V p ≤ b} := by
      ext p
      simp only [mem_inter_iff, mem_preimage, mem_prod, mem_Iic, mem_ofPred_eq]
      tauto
    rw [e, hdist a b ha ha1 hb hb1, ENNReal.toReal_ofReal (hC a b ha ha1 hb hb1)]

end Copulae
