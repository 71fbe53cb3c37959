import Verif.Lemmas.EmpConsistency
import Verif.Spec.RadSym
import Verif.Props.Gof
import Mathlib.MeasureTheory.Constructions.Pi

/-!
The statistic of the test of radial symmetry on large samples: uniform convergence of the empirical distribution function,
its stability under small changes of the sample, and the ranks of perturbed and reflected samples.
-/

namespace Copulae

open MeasureTheory ProbabilityTheory Finset Spec CopulaMeasure

variable {d n : ℕ}

/-- The fraction of the rows below a point. -/
noncomputable def fracLe (y : Fin n → Fin d → ℝ) (w : Fin d → ℝ) : ℝ := (Nat.card {i // ∀ j, y i j ≤ w j} : ℝ) / n

theorem card_mono {p q : Fin n → Prop} (h : ∀ i, p i → q i) : (Nat.card {i // p i} : ℝ) ≤ Nat.card {i // q i} := by
  classical
  rw [Nat.card_eq_fintype_card, Nat.card_eq_fintype_card, Fintype.card_subtype, Fintype.card_subtype]
  exact_mod_cast card_le_card fun i hi => by
    rw [mem_filter] at hi ⊢
    exact ⟨hi.1, h i hi.2⟩

theorem fracLe_mono {y z : Fin n → Fin d → ℝ} {v w : Fin d → ℝ} (h : ∀ i, (∀ j, y i j ≤ v j) → ∀ j, z i j ≤ w j) :
    fracLe y v ≤ fracLe z w :=
  div_le_div_of_nonneg_right (card_mono h) (Nat.cast_nonneg n)

/-- The sample lies in the unit cube and its distribution function is within `ε` of that of `P`. -/
def CloseTo (P : Measure (Fin d → ℝ)) (ε : ℝ) (y : Fin n → Fin d → ℝ) : Prop :=
  (∀ i j, 0 < y i j ∧ y i j < 1) ∧ ∀ w, |fracLe y w - distFn P w| ≤ ε

section uniform
variable {P : Measure (Fin d → ℝ)} [IsProbabilityMeasure P]

omit [IsProbabilityMeasure P] in
theorem uniform_between (hP : Uniform P) (j : Fin d) {a b : ℝ} (h : a ≤ b) : P.real {x | a < x j ∧ x j ≤ b} ≤ b - a := by
  have e : {x : Fin d → ℝ | a < x j ∧ x j ≤ b} = (fun x => x j) ⁻¹' (Set.Ioc a b) := rfl
  have h1 : P {x : Fin d → ℝ | a < x j ∧ x j ≤ b} ≤ ENNReal.ofReal (b - a) := by
    rw [e, ← Measure.map_apply (measurable_pi_apply j) measurableSet_Ioc, hP j, ← Real.volume_Ioc]
    exact Measure.restrict_apply_le _ _
  exact ENNReal.toReal_le_of_le_ofReal (by linarith) h1

theorem distFn_shift (hP : Uniform P) (w : Fin d → ℝ) {δ : ℝ} (hδ : 0 ≤ δ) :
    distFn P (fun j => w j + δ) ≤ distFn P w + d * δ := by
  have h1 : {x : Fin d → ℝ | ∀ j, x j ≤ w j + δ} ⊆ {x | ∀ j, x j ≤ w j} ∪ ⋃ j, {x | w j < x j ∧ x j ≤ w j + δ} := by
    intro x hx
    by_cases h : ∀ j, x j ≤ w j
    · exact Or.inl h
    · push Not at h
      obtain ⟨j, hj⟩ := h
      exact Or.inr (Set.mem_iUnion.mpr ⟨j, hj, hx j⟩)
  refine (measureReal_mono h1).trans ((measureReal_union_le _ _).trans ?_)
  refine add_le_add le_rfl ((measureReal_iUnion_fintype_le _).trans ?_)
  refine (sum_le_sum fun j _ => uniform_between hP j (by linarith : w j ≤ w j + δ)).trans (le_of_eq ?_)
  simp

/-- A small change of the sample changes its distribution function little. -/
theorem fracLe_near (hP : Uniform P) {ε δ : ℝ} (hδ : 0 ≤ δ) {y z : Fin n → Fin d → ℝ} (hy : CloseTo P ε y)
    (hz : ∀ i j, |z i j - y i j| ≤ δ) (w : Fin d → ℝ) : |fracLe z w - distFn P w| ≤ ε + d * δ := by
  have h1 : fracLe z w ≤ fracLe y fun j => w j + δ := fracLe_mono fun i h j => by
    have := (abs_le.mp (hz i j)).1
    linarith [h j]
  have h2 : fracLe y (fun j => w j - δ) ≤ fracLe z w := fracLe_mono fun i h j => by
    have := (abs_le.mp (hz i j)).2
    linarith [h j]
  have h3 := (abs_le.mp (hy.2 fun j => w j + δ)).2
  have h4 := (abs_le.mp (hy.2 fun j => w j - δ)).1
  have h5 := distFn_shift hP w hδ
  have h6 := distFn_shift hP (fun j => w j - δ) hδ
  simp only [sub_add_cancel] at h6
  rw [abs_le]
  constructor <;> linarith

theorem distFn_near (hP : Uniform P) {v w : Fin d → ℝ} {δ : ℝ} (hδ : 0 ≤ δ) (h : ∀ j, |v j - w j| ≤ δ) :
    |distFn P v - distFn P w| ≤ d * δ := by
  have h1 := distFn_shift hP v hδ
  have h2 := distFn_shift hP w hδ
  have h3 : distFn P v ≤ distFn P fun j => w j + δ := distFn_mono P fun j => by have := (abs_le.mp (h j)).2; linarith
  have h4 : distFn P w ≤ distFn P fun j => v j + δ := distFn_mono P fun j => by have := (abs_le.mp (h j)).1; linarith
  rw [abs_le]
  constructor <;> linarith

theorem CloseTo.margin_le (hP : Uniform P) {ε : ℝ} {y : Fin n → Fin d → ℝ} (hy : CloseTo P ε y) (j : Fin d) {t : ℝ}
    (ht : 0 ≤ t) : (Nat.card {i // y i j ≤ t} : ℝ) / n ≤ t + ε := by
  classical
  have h1 := (abs_le.mp (hy.2 fun k => if k = j then t else 1)).2
  have h2 : distFn P (fun k => if k = j then t else 1) ≤ t := by
    have hs : {x : Fin d → ℝ | ∀ k, x k ≤ if k = j then t else 1} ⊆ (fun x => x j) ⁻¹' (Set.Iic t) := fun x hx => by
      have := hx j
      rw [if_pos rfl] at this
      exact this
    refine (measureReal_mono hs).trans (ENNReal.toReal_le_of_le_ofReal ht ?_)
    rw [← Measure.map_apply (measurable_pi_apply j) measurableSet_Iic, hP j, Measure.restrict_apply measurableSet_Iic]
    refine (measure_mono (t := Set.Ioc 0 t) fun z hz => ⟨hz.2.1, hz.1⟩).trans ?_
    rw [Real.volume_Ioc, sub_zero]
  have h3 : (Nat.card {i // y i j ≤ t} : ℝ) / n ≤ fracLe y fun k => if k = j then t else 1 := by
    refine div_le_div_of_nonneg_right (card_mono fun i hi k => ?_) (Nat.cast_nonneg n)
    show y i k ≤ if k = j then t else 1
    by_cases hk : k = j
    · rw [if_pos hk, hk]; exact hi
    · rw [if_neg hk]; exact (hy.1 i k).2.le
  linarith

theorem CloseTo.le_margin (hP : Uniform P) {ε : ℝ} (hε : 0 ≤ ε) {y : Fin n → Fin d → ℝ} (hy : CloseTo P ε y) (j : Fin d) {t : ℝ}
    (ht : t ≤ 1) : t - ε ≤ (Nat.card {i // y i j ≤ t} : ℝ) / n := by
  classical
  by_cases h0 : 0 ≤ t
  · have h1 := (abs_le.mp (hy.2 fun k => if k = j then t else 1)).1
    have h2 : distFn P (fun k => if k = j then t else 1) = t := by
      refine Eq.trans ?_ (uniform_le hP j h0 ht)
      refine measureReal_congr ?_
      filter_upwards [uniform_ae' hP] with x hx
      refine propext ⟨fun h => ?_, fun h k => ?_⟩
      · have := h j
        rw [if_pos rfl] at this
        exact this
      · by_cases hk : k = j
        · subst hk
          rw [if_pos rfl]; exact h
        · rw [if_neg hk]; exact (hx k).2.le
    have h3 : (fracLe y fun k => if k = j then t else 1) ≤ (Nat.card {i // y i j ≤ t} : ℝ) / n := by
      refine div_le_div_of_nonneg_right (card_mono fun i hi => ?_) (Nat.cast_nonneg n)
      have : y i j ≤ if j = j then t else 1 := hi j
      rw [if_pos rfl] at this
      exact this
    linarith
  · have : (0 : ℝ) ≤ (Nat.card {i // y i j ≤ t} : ℝ) / n := by positivity
    linarith

/-- The ranks of a slightly changed sample. -/
theorem rank_near_of_close (hP : Uniform P) (hn : 0 < n) {ε δ : ℝ} (hε : 0 < ε) (hδ : 0 ≤ δ) (hnε : 1 / ((n : ℝ) + 1) ≤ ε)
    {y z : Fin n → Fin d → ℝ} (hy : CloseTo P ε y) (hz : ∀ i j, |z i j - y i j| ≤ δ) (i : Fin n) (j : Fin d) :
    |((rankdata .average (fun k => z k j) i : ℚ) : ℝ) / (n + 1) - y i j| ≤ 2 * δ + 3 * ε := by
  classical
  have hn' : (0 : ℝ) < n := by exact_mod_cast hn
  set a := cntLt (fun k => z k j) i with ha
  set b := cntEq (fun k => z k j) i with hb
  have hb1 : 1 ≤ b := Finset.card_pos.mpr ⟨i, by simp⟩
  have hb1' : (1 : ℝ) ≤ b := by exact_mod_cast hb1
  have hr : ((rankdata .average (fun k => z k j) i : ℚ) : ℝ) = ((a + 1 : ℝ) + (a + b)) / 2 := by
    simp only [rankdata]
    push_cast
    rfl
  have hle : (a + b : ℝ) ≤ Nat.card {k // y k j ≤ y i j + 2 * δ} := by
    have : a + b ≤ Nat.card {k // y k j ≤ y i j + 2 * δ} := by
      rw [ha, hb, Nat.card_eq_fintype_card, Fintype.card_subtype]
      unfold cntLt cntEq
      rw [← Finset.card_union_of_disjoint]
      · refine card_le_card fun k hk => ?_
        rw [mem_union, mem_filter, mem_filter] at hk
        rw [mem_filter]
        refine ⟨mem_univ _, ?_⟩
        have h1 := (abs_le.mp (hz k j)).1
        have h2 := (abs_le.mp (hz i j)).2
        rcases hk with ⟨-, hk⟩ | ⟨-, hk⟩ <;> linarith
      · rw [Finset.disjoint_filter]
        intro k _ h1 h2
        exact absurd h2 (ne_of_lt h1)
    exact_mod_cast this
  have hge : (Nat.card {k // y k j ≤ y i j - 2 * δ - ε} : ℝ) ≤ a := by
    have : Nat.card {k // y k j ≤ y i j - 2 * δ - ε} ≤ a := by
      rw [ha, Nat.card_eq_fintype_card, Fintype.card_subtype]
      unfold cntLt
      refine card_le_card fun k hk => ?_
      rw [mem_filter] at hk ⊢
      refine ⟨mem_univ _, ?_⟩
      have h1 := (abs_le.mp (hz k j)).2
      have h2 := (abs_le.mp (hz i j)).1
      linarith [hk.2]
    exact_mod_cast this
  obtain ⟨hy0, hy1⟩ := hy.1 i j
  have h1 := hy.margin_le hP j (t := y i j + 2 * δ) (by linarith)
  have h2 := hy.le_margin hP hε.le j (t := y i j - 2 * δ - ε) (by linarith)
  rw [div_le_iff₀ hn'] at h1
  rw [le_div_iff₀ hn'] at h2
  rw [div_le_iff₀ (by positivity)] at hnε
  rw [hr, abs_le]
  constructor
  · rw [neg_le_sub_iff_le_add, ← sub_le_iff_le_add, le_div_iff₀ (by positivity)]
    nlinarith
  · rw [sub_le_iff_le_add, div_le_iff₀ (by positivity)]
    nlinarith

end uniform

/-! ### The statistic -/

theorem measurable_reflect : Measurable (reflect (d := d)) := by
  unfold reflect
  fun_prop

instance (P : Measure (Fin d → ℝ)) [IsProbabilityMeasure P] : IsProbabilityMeasure (reflected P) :=
  Measure.isProbabilityMeasure_map measurable_reflect.aemeasurable

theorem sum_ind_prod (v : Fin n → Fin d → ℝ) (w : Fin d → ℝ) :
    ∑ i, ∏ j, ind (v i j ≤ w j) = (Nat.card {i // ∀ j, v i j ≤ w j} : ℝ) := by
  classical
  rw [Nat.card_eq_fintype_card, Fintype.card_subtype, card_eq_sum_ones, Nat.cast_sum, sum_filter]
  refine sum_congr rfl fun i _ => ?_
  unfold ind
  rw [prod_ite_zero]
  simp

theorem radSymStat_frac (v : Fin n → Fin d → ℝ) :
    radSymStat (ravelF v) n d = ∑ k, (fracLe v (v k) - fracLe (fun i => reflect (v i)) (v k)) ^ 2 := by
  rw [radSymStat_eq]
  refine sum_congr rfl fun k _ => ?_
  rw [sum_sub_distrib, sub_div, sum_ind_prod, sum_ind_prod (fun i j => 1 - v i j)]
  rfl

section stat
variable {P : Measure (Fin d → ℝ)} [IsProbabilityMeasure P]

theorem diff_near (hP : Uniform P) (hP' : Uniform (reflected P)) {ε δ : ℝ} (hδ : 0 ≤ δ) {y v : Fin n → Fin d → ℝ}
    (hy : CloseTo P ε y) (hy' : CloseTo (reflected P) ε fun i => reflect (y i)) (hv : ∀ i j, |v i j - y i j| ≤ δ) (w : Fin d → ℝ) :
    |(fracLe v w - fracLe (fun i => reflect (v i)) w) - (distFn P w - distFn (reflected P) w)| ≤ 2 * (ε + d * δ) := by
  have h1 := abs_le.mp (fracLe_near hP hδ hy hv w)
  have h2 := abs_le.mp (fracLe_near hP' hδ hy' (z := fun i => reflect (v i)) (fun i j => by
    rw [show reflect (v i) j - reflect (y i) j = -(v i j - y i j) by unfold reflect; ring, abs_neg]
    exact hv i j) w)
  rw [abs_le]
  constructor <;> linarith [h1.1, h1.2, h2.1, h2.2]

/-- On a sample from a symmetric law the statistic is small. -/
theorem stat_small (hP : Uniform P) (hs : reflected P = P) {ε δ : ℝ} (hδ : 0 ≤ δ) {y v : Fin n → Fin d → ℝ}
    (hy : CloseTo P ε y) (hy' : CloseTo P ε fun i => reflect (y i)) (hv : ∀ i j, |v i j - y i j| ≤ δ) :
    radSymStat (ravelF v) n d ≤ n * (2 * (ε + d * δ)) ^ 2 := by
  rw [radSymStat_frac]
  calc ∑ k, (fracLe v (v k) - fracLe (fun i => reflect (v i)) (v k)) ^ 2 ≤ ∑ _k : Fin n, (2 * (ε + d * δ)) ^ 2 := by
        refine sum_le_sum fun k _ => ?_
        have := diff_near hP (by rw [hs]; exact hP) hδ hy (by rw [hs]; exact hy') hv (v k)
        rw [hs, sub_self, sub_zero] at this
        rw [← sq_abs]
        exact pow_le_pow_left₀ (abs_nonneg _) this 2
    _ = n * (2 * (ε + d * δ)) ^ 2 := by simp

/-- On a sample from another law it is large. -/
theorem stat_large (hP : Uniform P) (hP' : Uniform (reflected P)) {ε δ c : ℝ} (hδ : 0 ≤ δ) {y v : Fin n → Fin d → ℝ}
    (hy : CloseTo P ε y) (hy' : CloseTo (reflected P) ε fun i => reflect (y i)) (hv : ∀ i j, |v i j - y i j| ≤ δ)
    (hc : 2 * (ε + d * δ) + 2 * (d * δ) ≤ c / 2) (hc0 : 0 ≤ c) :
    (Nat.card {i // c ≤ |distFn P (y i) - distFn (reflected P) (y i)|} : ℝ) * (c / 2) ^ 2 ≤ radSymStat (ravelF v) n d := by
  classical
  rw [radSymStat_frac, Nat.card_eq_fintype_card, Fintype.card_subtype, ← nsmul_eq_mul, ← sum_const]
  refine (sum_le_sum fun k hk => ?_).trans (sum_le_sum_of_subset_of_nonneg (filter_subset _ _) fun k _ _ => sq_nonneg _)
  have hk' := (mem_filter.mp hk).2
  have h1 := diff_near hP hP' hδ hy hy' hv (v k)
  have h2 := distFn_near hP hδ (v := y k) (w := v k) fun j => by rw [abs_sub_comm]; exact hv k j
  have h3 := distFn_near hP' hδ (v := y k) (w := v k) fun j => by rw [abs_sub_comm]; exact hv k j
  rw [← sq_abs (fracLe v (v k) - _)]
  refine pow_le_pow_left₀ (by linarith) ?_ 2
  have h4 : |distFn P (y k) - distFn (reflected P) (y k)| ≤ |distFn P (v k) - distFn (reflected P) (v k)| + 2 * (d * δ) := by
    have e : distFn P (y k) - distFn (reflected P) (y k) = (distFn P (v k) - distFn (reflected P) (v k)) +
      ((distFn P (y k) - distFn P (v k)) - (distFn (reflected P) (y k) - distFn (reflected P) (v k))) := by ring
    rw [e]
    refine (abs_add_le _ _).trans (add_le_add le_rfl ((abs_sub _ _).trans ?_))
    linarith
  have h5 : |distFn P (v k) - distFn (reflected P) (v k)| ≤ |fracLe v (v k) - fracLe (fun i => reflect (v i)) (v k)| + 2 * (ε + d * δ) := by
    have e : distFn P (v k) - distFn (reflected P) (v k) = (fracLe v (v k) - fracLe (fun i => reflect (v i)) (v k)) -
      ((fracLe v (v k) - fracLe (fun i => reflect (v i)) (v k)) - (distFn P (v k) - distFn (reflected P) (v k))) := by ring
    rw [e]
    exact (abs_sub _ _).trans (add_le_add le_rfl h1)
  linarith

end stat

/-! ### Large samples are close to their law -/

theorem uniform_reflected {P : Measure (Fin d → ℝ)} (hP : Uniform P) : Uniform (reflected P) := by
  intro j
  have e : (fun u : Fin d → ℝ => u j) ∘ reflect = (fun t : ℝ => 1 - t) ∘ fun u => u j := rfl
  rw [reflected, Measure.map_map (measurable_pi_apply j) measurable_reflect, e,
    ← Measure.map_map (g := fun t : ℝ => 1 - t) (f := fun u : Fin d → ℝ => u j) (by fun_prop) (measurable_pi_apply j), hP j]
  have hmp : MeasurePreserving (fun t : ℝ => 1 - t) volume volume := Measure.measurePreserving_sub_left volume 1
  have e2 : (Set.Ico (0 : ℝ) 1) = (fun t : ℝ => 1 - t) ⁻¹' (Set.Ioc 0 1) := by
    ext t
    simp only [Set.mem_Ico, Set.mem_preimage, Set.mem_Ioc]
    constructor <;> rintro ⟨h1, h2⟩ <;> constructor <;> linarith
  have e3 : (volume : Measure ℝ).restrict (Set.Ioc 0 1) = volume.restrict ((fun t : ℝ => 1 - t) ⁻¹' Set.Ioc 0 1) := by
    rw [← e2, Measure.restrict_congr_set Ico_ae_eq_Ioc]
  conv_lhs => rw [e3]
  exact (hmp.restrict_preimage measurableSet_Ioc).map_eq

theorem iid_mem_ae {P : Measure (Fin d → ℝ)} [IsProbabilityMeasure P] (hP : Uniform P) :
    ∀ᵐ y ∂(iid n P), ∀ i j, 0 < y i j ∧ y i j < 1 := by
  rw [ae_all_iff]
  intro i
  exact (measurePreserving_eval (fun _ : Fin n => P) i).quasiMeasurePreserving.ae (uniform_ae' hP)

theorem distFn_clamp {P : Measure (Fin d → ℝ)} (hP : Uniform P) (w : Fin d → ℝ) :
    distFn P w = distFn P fun j => min (w j) 1 := by
  refine measureReal_congr ?_
  filter_upwards [uniform_ae' hP] with x hx
  exact propext ⟨fun h j => le_min (h j) (hx j).2.le, fun h j => (h j).trans (min_le_left _ _)⟩

/-- The size from which samples are close to the law is the same for all copulas. -/
theorem close_likely_all {ε δ : ℝ} (hε : 0 < ε) (hδ : 0 < δ) : ∃ N : ℕ, ∀ (P : Measure (Fin d → ℝ)) [IsProbabilityMeasure P],
    Uniform P → ∀ n, N ≤ n → iid n P {y | ¬ CloseTo P ε y} ≤ ENNReal.ofReal δ := by
  obtain ⟨m, hm⟩ := exists_nat_gt (2 * (d : ℝ) / ε)
  have hm0 : (0 : ℝ) < m + 1 := by positivity
  set c : ℝ := ((Fintype.card (Fin d → Fin (m + 1 + 1)) : ℕ) : ℝ) with hcdef
  have hc0 : 0 ≤ c := Nat.cast_nonneg _
  obtain ⟨N1, hN1⟩ := exists_nat_gt (c / (4 * δ * (ε / 2) ^ 2))
  refine ⟨N1 + 1, fun P _ hP n hn => ?_⟩
  have hnpos : 0 < n := by omega
  have hn1 : (N1 : ℝ) + 1 ≤ n := by exact_mod_cast hn
  have hn' : (0 : ℝ) < n := by exact_mod_cast hnpos
  have : IsProbabilityMeasure (iid n P) := by unfold iid; infer_instance
  set bad : (Fin d → Fin (m + 1 + 1)) → Set (Fin n → Fin d → ℝ) := fun g =>
    {y | ε / 2 ≤ |fracLe y (cubeGrid (m + 1) g) - distFn P (cubeGrid (m + 1) g)|} with hbad
  have hsub : {y : Fin n → Fin d → ℝ | ¬ CloseTo P ε y} ⊆ {y | ¬ ∀ i j, 0 < y i j ∧ y i j < 1} ∪ ⋃ g, bad g := by
    intro y hy
    by_contra hcon
    rw [Set.mem_union, not_or, Set.mem_iUnion, not_exists] at hcon
    obtain ⟨h1, h2⟩ := hcon
    have hy' := not_not.mp h1
    refine hy ⟨hy', fun w => ?_⟩
    have hcube : ∀ v : Fin d → ℝ, (∀ j, 0 ≤ v j) → (∀ j, v j ≤ 1) → |fracLe y v - distFn P v| ≤ ε := by
      intro v hv0 hv1
      have h11 := close_of_grid hP (C := fracLe y) (fun v w _ hvw _ => fracLe_mono fun i h j => (h j).trans (hvw j))
        (Nat.succ_pos m) (fun g => not_le.mp (h2 g)) hv0 hv1
      have h12 : (d : ℝ) / ((m + 1 : ℕ) : ℝ) ≤ ε / 2 := by
        push_cast
        rw [div_le_div_iff₀ hm0 two_pos]
        rw [div_lt_iff₀ hε] at hm
        nlinarith
      linarith
    by_cases hw : ∀ j, 0 ≤ w j
    · have e : fracLe y w = fracLe y fun j => min (w j) 1 :=
        le_antisymm (fracLe_mono fun i h j => le_min (h j) (hy' i j).2.le) (fracLe_mono fun i h j => (h j).trans (min_le_left _ _))
      rw [e, distFn_clamp hP]
      exact hcube _ (fun j => le_min (hw j) zero_le_one) fun j => min_le_right _ _
    · push Not at hw
      obtain ⟨j, hj⟩ := hw
      have e1 : fracLe y w = 0 := by
        unfold fracLe
        have : IsEmpty {i // ∀ j, y i j ≤ w j} := ⟨fun i => by linarith [i.2 j, (hy' i.1 j).1]⟩
        rw [Nat.card_of_isEmpty]
        simp
      have e2 : distFn P w = 0 := by
        unfold distFn
        rw [measureReal_eq_zero_iff]
        refine measure_mono_null (t := {x | ¬ ∀ j, 0 < x j ∧ x j < 1}) (fun x hx h => ?_) (ae_iff.mp (uniform_ae' hP))
        linarith [hx j, (h j).1]
      rw [e1, e2, sub_zero, abs_zero]
      exact hε.le
  refine (measure_mono hsub).trans ((measure_union_le _ _).trans ?_)
  rw [show iid n P {y | ¬ ∀ i j, 0 < y i j ∧ y i j < 1} = 0 from ae_iff.mp (iid_mem_ae hP), zero_add]
  refine (measure_iUnion_fintype_le _ _).trans ((sum_le_sum fun g _ =>
    (iid_frequency (L := P) hnpos (measurableSet_le (cubeGrid (m + 1) g)) (half_pos hε)).2).trans ?_)
  rw [sum_const, card_univ, nsmul_eq_mul, ← ENNReal.ofReal_natCast, ← ENNReal.ofReal_mul hc0]
  refine ENNReal.ofReal_le_ofReal ?_
  rw [div_lt_iff₀ (by positivity)] at hN1
  rw [mul_one_div, div_le_iff₀ (by positivity)]
  have : (N1 : ℝ) * (4 * δ * (ε / 2) ^ 2) ≤ n * (4 * δ * (ε / 2) ^ 2) := mul_le_mul_of_nonneg_right (by linarith) (by positivity)
  linarith

theorem close_likely {P : Measure (Fin d → ℝ)} [IsProbabilityMeasure P] (hP : Uniform P) {ε δ : ℝ} (hε : 0 < ε) (hδ : 0 < δ) :
    ∃ N : ℕ, ∀ n, N ≤ n → iid n P {y | ¬ CloseTo P ε y} ≤ ENNReal.ofReal δ := by
  obtain ⟨N, hN⟩ := close_likely_all (d := d) hε hδ
  exact ⟨N, hN P hP⟩

/-! ### Reflecting every row by the toss of a coin -/

/-- The row, reflected if the coin says so. -/
def flipRow (b : Bool) (x : Fin d → ℝ) : Fin d → ℝ := if b then reflect x else x

theorem measurable_flipRow : Measurable fun p : (Fin d → ℝ) × Bool => flipRow p.2 p.1 := by
  unfold flipRow
  exact Measurable.ite (measurableSet_eq_fun measurable_snd measurable_const) (measurable_reflect.comp measurable_fst) measurable_fst

instance : IsProbabilityMeasure fairCoin := ⟨by simp [fairCoin, ENNReal.inv_two_add_inv_two]⟩

theorem fairCoin_not : fairCoin.map not = fairCoin := by
  have hm : Measurable not := measurable_of_countable _
  rw [fairCoin, Measure.map_add _ _ hm, Measure.map_smul, Measure.map_smul, Measure.map_dirac' hm, Measure.map_dirac' hm, add_comm]
  rfl

/-- The law of a row that is reflected with probability one half. -/
noncomputable def symmetrised (P : Measure (Fin d → ℝ)) : Measure (Fin d → ℝ) :=
  (P.prod fairCoin).map fun p => flipRow p.2 p.1

section flips
variable {P : Measure (Fin d → ℝ)} [IsProbabilityMeasure P]

instance : IsProbabilityMeasure (symmetrised P) := Measure.isProbabilityMeasure_map measurable_flipRow.aemeasurable

theorem reflect_flipRow (b : Bool) (x : Fin d → ℝ) : reflect (flipRow b x) = flipRow (!b) x := by
  cases b
  · rfl
  · funext j
    simp [flipRow, reflect]

theorem symmetrised_reflected : reflected (symmetrised P) = symmetrised P := by
  have hn : Measurable not := measurable_of_countable _
  have hp : (P.prod fairCoin).map (Prod.map id not) = P.prod fairCoin := by
    rw [← Measure.map_prod_map _ _ measurable_id hn, Measure.map_id, fairCoin_not]
  rw [reflected, symmetrised, Measure.map_map measurable_reflect measurable_flipRow]
  conv_rhs => rw [← hp, Measure.map_map measurable_flipRow (measurable_id.prodMap hn)]
  congr 1
  funext p
  exact reflect_flipRow _ _

theorem symmetrised_apply (A : Set (Fin d → ℝ)) :
    symmetrised P A = (2 : ENNReal)⁻¹ * reflected P A + (2 : ENNReal)⁻¹ * P A := by
  have h1 : Measurable fun x : Fin d → ℝ => (x, true) := measurable_prodMk_right
  have h2 : Measurable fun x : Fin d → ℝ => (x, false) := measurable_prodMk_right
  rw [symmetrised, fairCoin, Measure.prod_add, Measure.prod_smul_right, Measure.prod_smul_right, Measure.prod_dirac, Measure.prod_dirac,
    Measure.map_add _ _ measurable_flipRow, Measure.map_smul, Measure.map_smul, Measure.map_map measurable_flipRow h1,
    Measure.map_map measurable_flipRow h2]
  have e1 : (fun p : (Fin d → ℝ) × Bool => flipRow p.2 p.1) ∘ (fun x => (x, true)) = reflect := rfl
  have e2 : (fun p : (Fin d → ℝ) × Bool => flipRow p.2 p.1) ∘ (fun x => (x, false)) = id := rfl
  rw [e1, e2, Measure.map_id]
  rfl

theorem symmetrised_uniform (hP : Uniform P) : Uniform (symmetrised P) := by
  intro j
  ext A hA
  rw [Measure.map_apply (measurable_pi_apply j) hA, symmetrised_apply, ← Measure.map_apply (measurable_pi_apply j) hA,
    ← Measure.map_apply (measurable_pi_apply j) hA, hP j, uniform_reflected hP j, ← add_mul, ENNReal.inv_two_add_inv_two, one_mul]

/-- Independent rows reflected by independent coins are independent rows from the symmetrised law. -/
theorem iid_flips (n : ℕ) : ((iid n P).prod (Measure.pi fun _ : Fin n => fairCoin)).map
    (fun q i => flipRow (q.2 i) (q.1 i)) = iid n (symmetrised P) := by
  have h1 := measurePreserving_arrowProdEquivProdArrow (Fin d → ℝ) Bool (Fin n) (fun _ => P) (fun _ => fairCoin)
  have hm : Measurable fun (q : (Fin n → Fin d → ℝ) × (Fin n → Bool)) i => flipRow (q.2 i) (q.1 i) :=
    measurable_pi_lambda _ fun i => by
      have h : Measurable fun q : (Fin n → Fin d → ℝ) × (Fin n → Bool) => (q.1 i, q.2 i) :=
        ((measurable_pi_apply i).comp measurable_fst).prodMk ((measurable_pi_apply i).comp measurable_snd)
      exact measurable_flipRow.comp h
  have e : iid n P = Measure.pi fun _ : Fin n => P := rfl
  rw [e, ← h1.map_eq, Measure.map_map hm h1.measurable]
  exact (Measure.pi_map_pi (μ := fun _ : Fin n => P.prod fairCoin) (f := fun _ p => flipRow p.2 p.1)
    fun _ => measurable_flipRow.aemeasurable)

theorem iid_reflect (n : ℕ) : (iid n P).map (fun y i => reflect (y i)) = iid n (reflected P) :=
  Measure.pi_map_pi (μ := fun _ : Fin n => P) (f := fun _ => reflect) fun _ => measurable_reflect.aemeasurable

end flips

end Copulae
