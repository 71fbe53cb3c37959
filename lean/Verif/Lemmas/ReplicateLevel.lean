import Verif.Lemmas.GofRun

/-!
The rank of a statistic among its independent replicates.
-/

namespace Copulae

open MeasureTheory ProbabilityTheory Finset Spec CopulaMeasure

variable {β : Type} [MeasurableSpace β]

/-- At most `J` of the numbers are reached by at most `J` of them. -/
theorem card_high {m : ℕ} (a : Fin m → ℝ) (J : ℕ) : #{i | #{k | a i ≤ a k} ≤ J} ≤ J := by
  rcases (univ.filter fun i => #{k | a i ≤ a k} ≤ J).eq_empty_or_nonempty with h | h
  · rw [h]; simp
  · obtain ⟨i, hi, hmin⟩ := exists_min_image _ a h
    refine (card_le_card fun k hk => ?_).trans (mem_filter.mp hi).2
    exact mem_filter.mpr ⟨mem_univ _, hmin k hk⟩

theorem iid_perm {m : ℕ} {L : Measure β} [IsProbabilityMeasure L] (σ : Equiv.Perm (Fin m)) :
    (iid m L).map (fun z k => z (σ k)) = iid m L := by
  have h := (measurePreserving_piCongrLeft (fun _ : Fin m => L) σ.symm).map_eq
  have e : ⇑(MeasurableEquiv.piCongrLeft (fun _ : Fin m => β) σ.symm) = fun (x : Fin m → β) k => x (σ k) := by
    funext x k
    show Equiv.piCongrLeft (fun _ : Fin m => β) σ.symm x k = x (σ k)
    obtain ⟨k, rfl⟩ := σ.symm.surjective k
    rw [Equiv.piCongrLeft_apply_apply, Equiv.apply_symm_apply]
  rwa [e] at h

theorem high_measurable {m : ℕ} {T : β → ℝ} (hT : Measurable T) (i : Fin m) (J : ℕ) :
    MeasurableSet {z : Fin m → β | #{k | T (z i) ≤ T (z k)} ≤ J} := by
  have h : Measurable fun z : Fin m → β => #{k | T (z i) ≤ T (z k)} := by
    simp only [card_filter]
    exact Finset.measurable_sum _ fun k _ => Measurable.ite (measurableSet_le (hT.comp (measurable_pi_apply i))
      (hT.comp (measurable_pi_apply k))) measurable_const measurable_const
  exact h measurableSet_Iic

/-- The probability that at most `J` of `M + 1` independent copies, itself among them, reach the first one. -/
theorem iid_level {M : ℕ} {L : Measure β} [IsProbabilityMeasure L] {T : β → ℝ} (hT : Measurable T) (J : ℕ) :
    iid (M + 1) L {z | #{k | T (z 0) ≤ T (z k)} ≤ J} ≤ ENNReal.ofReal (J / (M + 1)) := by
  set μ := iid (M + 1) L with hμ
  set A : Fin (M + 1) → Set (Fin (M + 1) → β) := fun i => {z | #{k | T (z i) ≤ T (z k)} ≤ J} with hA
  have hm : ∀ i, MeasurableSet (A i) := fun i => high_measurable hT i J
  have heq : ∀ i, μ (A i) = μ (A 0) := fun i => by
    have hσ : Measurable fun (z : Fin (M + 1) → β) k => z (Equiv.swap 0 i k) :=
      measurable_pi_lambda _ fun k => measurable_pi_apply _
    conv_rhs => rw [hμ, ← iid_perm (Equiv.swap 0 i), Measure.map_apply hσ (hm 0)]
    congr 1
    ext z
    simp only [hA, Set.mem_ofPred_eq, Set.mem_preimage, Equiv.swap_apply_left]
    rw [card_equiv (Equiv.swap 0 i) (s := {k | T (z i) ≤ T (z k)}) (t := {k | T (z i) ≤ T (z (Equiv.swap 0 i k))}) fun k => by simp]
  have hsum : ∑ i, μ (A i) ≤ J := by
    have e : ∑ i, μ (A i) = ∫⁻ z, ∑ i, (A i).indicator 1 z ∂μ := by
      rw [lintegral_finsetSum _ fun i _ => measurable_one.indicator (hm i)]
      exact sum_congr rfl fun i _ => (lintegral_indicator_one (hm i)).symm
    rw [e]
    refine (lintegral_mono (g := fun _ => (J : ENNReal)) fun z => ?_).trans (by simp)
    have h1 : ∑ i, (A i).indicator (1 : (Fin (M + 1) → β) → ENNReal) z = (#{i | #{k | T (z i) ≤ T (z k)} ≤ J} : ENNReal) := by
      rw [card_filter]
      push_cast
      exact sum_congr rfl fun i _ => by simp [Set.indicator_apply, hA]
    rw [h1]
    exact Nat.cast_le.mpr (card_high (fun i => T (z i)) J)
  rw [sum_congr rfl fun i _ => heq i, sum_const, card_univ, Fintype.card_fin, nsmul_eq_mul] at hsum
  rw [ENNReal.ofReal_div_of_pos (by positivity), ENNReal.le_div_iff_mul_le (Or.inl (by simp; positivity)) (by simp), mul_comm]
  refine le_trans (le_of_eq ?_) (hsum.trans (le_of_eq (by simp)))
  congr 1
  rw [show (M : ℝ) + 1 = ((M + 1 : ℕ) : ℝ) by push_cast; rfl, ENNReal.ofReal_natCast]

/-- A sample and more samples of the same law are independent samples of the law. -/
theorem cons_law {M : ℕ} {L : Measure β} [IsProbabilityMeasure L] :
    (L.prod (iid M L)).map (fun p => (Fin.cons p.1 p.2 : Fin (M + 1) → β)) = iid (M + 1) L := by
  have h := (measurePreserving_piFinSuccAbove (fun _ : Fin (M + 1) => L) 0).symm
  have e : ⇑(MeasurableEquiv.piFinSuccAbove (fun _ : Fin (M + 1) => β) 0).symm = fun p : β × (Fin M → β) => Fin.cons p.1 p.2 := by
    funext p
    simp [MeasurableEquiv.piFinSuccAbove_symm_apply, Fin.insertNthEquiv]
  have := h.map_eq
  rw [e] at this
  exact this

variable {G : Gen} [MeasurableSpace G.S] {R : Measure G.S}

/-- Repeated draws are independent. -/
theorem draws_seq [IsProbabilityMeasure R] {α : Type} {c : Rnd G α} {e : β → α} {L : Measure β}
    [IsProbabilityMeasure L] (h : Draws R c e L) : ∃ (X : G.S → β) (next : G.S → G.S), Measurable X ∧ Measurable next ∧
      (∀ M : ℕ, R.map (fun s (i : Fin M) => X (next^[i] s)) = iid M L) ∧
        ∀ᵐ s ∂R, ∀ j, c.exec (next^[j] s) = (.ok (e (X (next^[j] s))), next^[j + 1] s) := by
  obtain ⟨X, next, hX, hn, hex, hl⟩ := h
  have h2 : R.map next = R := by
    have := congrArg (Measure.map Prod.snd) hl
    rwa [Measure.map_map measurable_snd (hX.prodMk hn), Measure.map_snd_prod, measure_univ, one_smul] at this
  refine ⟨X, next, hX, hn, fun M => ?_, ae_all_iff.mpr fun j => ?_⟩
  · induction M with
    | zero =>
      have h0 : ∀ μ : Measure (Fin 0 → β), IsProbabilityMeasure μ → μ = Measure.dirac default := fun μ hμ => by
        refine Measure.ext fun s _ => ?_
        rcases s.eq_empty_or_nonempty with rfl | hs
        · simp
        · rw [Subsingleton.eq_univ_of_nonempty hs]
          simp
      rw [h0 (iid 0 L) inferInstance]
      exact h0 _ (Measure.isProbabilityMeasure_map (by fun_prop))
    | succ M ih =>
      have hf : Measurable fun s (i : Fin M) => X (next^[i] s) := measurable_pi_lambda _ fun i => hX.comp (hn.iterate i)
      have hc : Measurable fun p : β × (Fin M → β) => (Fin.cons p.1 p.2 : Fin (M + 1) → β) :=
        measurable_pi_lambda _ fun i => by
          refine Fin.cases ?_ (fun i => ?_) i
          · exact measurable_fst
          · exact (measurable_pi_apply i).comp measurable_snd
      have e1 : (fun s (i : Fin (M + 1)) => X (next^[i] s)) = (fun p : β × (Fin M → β) => (Fin.cons p.1 p.2 : Fin (M + 1) → β)) ∘
          Prod.map id (fun s (i : Fin M) => X (next^[i] s)) ∘ fun s => (X s, next s) := by
        funext s i
        refine Fin.cases ?_ (fun i => ?_) i
        · rfl
        · simp [Function.iterate_succ_apply]
      rw [e1, ← Measure.map_map hc ((measurable_id.prodMap hf).comp (hX.prodMk hn)), ← Measure.map_map (measurable_id.prodMap hf)
        (hX.prodMk hn), hl, ← Measure.map_prod_map _ _ measurable_id hf, Measure.map_id, ih, cons_law]
  · have h3 : ∀ᵐ s ∂(R.map next^[j]), c.exec s = (.ok (e (X s)), next s) := by rwa [iterate_law hn h2 j]
    filter_upwards [ae_of_ae_map (hn.iterate j).aemeasurable h3] with s hs
    rw [hs, Function.iterate_succ_apply']

end Copulae
