import Verif.Props.GofIndepLevel

/-!
C170: the level of the test of independence with worker processes.
-/

namespace Copulae

open MeasureTheory ProbabilityTheory Finset Spec CopulaMeasure

variable {d n : ℕ} {G : Gen}

section run

variable {σ : Type} {fit : (Fin n → Fin d → ℝ) → Except PyErr σ} {cdf : σ → (Fin n → Fin d → ℝ) → Fin n → Fl}
  {random : σ → Rnd G (Fin n → Fin d → Fl)} {data : Fin n → Fin d → ℝ} {reps : ℤ} {ties fitTies : String} {who : ℕ → ℕ}
  {c : σ} {t : Fl} {s s' : G.S}

/-- Where no worker takes two tasks, one replicate below the statistic makes the p-value the least for any number of replications. -/
theorem gofPar_spread_one (hwho : ∀ i j, i < reps.toNat → j < reps.toNat → who i = who j → i = j) (hr : 1 ≤ reps)
    (h : (gofRun fit cdf random data 1 ties fitTies).exec s = (.ok (c, t, 0.5 / ((1 : ℤ) + 1)), s')) :
    (gofRunPar who fit cdf random data reps ties fitTies).exec s = (.ok (c, t, 0.5 / (reps + 1)), s) := by
  have h1 : (gofRunPar (fun _ => 0) fit cdf random data 1 ties fitTies).exec s = (.ok (c, t, 0.5 / ((1 : ℤ) + 1)), s) := by
    refine Prod.ext ?_ gofRunPar_state
    rw [gofPar_serial_partial, h]
  have hfit := (gofRunPar_ok h1).2.1
  obtain ⟨t₁, ht₁, hcase⟩ := gofPar_spread_violation (fun i j hi hj _ => by
    have hi' : i < 1 := hi
    have hj' : j < 1 := hj
    omega) le_rfl h1
  have hlt : ¬ Fl.abs t₁ ≥ Fl.abs t := by
    rcases hcase with ⟨-, hp⟩ | ⟨hlt, -⟩
    · norm_num at hp
    · exact hlt
  have h0 : ∀ i < reps.toNat, outcome (gofTask fit cdf random data ties fitTies c) s (taken who (who i) i) = .ok t₁ := fun i hi => by
    rw [← ht₁]
    congr 1
    refine Nat.count_of_forall_not fun j hj hji => ?_
    exact hj.ne (hwho j i (hj.trans hi) hi hji)
  rw [gofRunPar_run hfit (by omega) (fun _ => t₁) h0, gofPValue, List.countP_eq_zero.mpr fun x hx => by
    obtain ⟨_, -, rfl⟩ := List.mem_map.mp hx
    simpa using hlt]
  norm_num

end run

/-! ### Samples of two rows -/

theorem unif_reflect : unif.map (fun x => 1 - x) = unif := by
  have hp := Measure.measurePreserving_sub_left (MeasureTheory.volume : Measure ℝ) 1
  have := hp.restrict_preimage (s := Set.Ioo (0 : ℝ) 1) measurableSet_Ioo
  have e : (fun x : ℝ => 1 - x) ⁻¹' Set.Ioo 0 1 = Set.Ioo 0 1 := by
    ext x
    simp only [Set.mem_preimage, Set.mem_Ioo]
    constructor <;> rintro ⟨_, _⟩ <;> constructor <;> linarith
  rw [e] at this
  exact this.map_eq

/-- The rows are ordered alike in both columns. -/
def Alike (y : Fin 2 → Fin 2 → ℝ) : Prop := 0 < (y 0 0 - y 1 0) * (y 0 1 - y 1 1)

/-- The rows are ordered in opposite ways. -/
def Opposed (y : Fin 2 → Fin 2 → ℝ) : Prop := (y 0 0 - y 1 0) * (y 0 1 - y 1 1) < 0

theorem diff_measurable : Measurable fun y : Fin 2 → Fin 2 → ℝ => (y 0 0 - y 1 0) * (y 0 1 - y 1 1) := by fun_prop

theorem opposed_eq : iid 2 (iid 2 unif) {y | Opposed y} = iid 2 (iid 2 unif) {y | Alike y} := by
  set ρ : Fin 2 → ℝ → ℝ := fun j x => if j = 1 then 1 - x else x with hρ
  have hρm : ∀ j, Measurable (ρ j) := fun j => by
    by_cases hj : j = 1
    · simp only [hρ, hj, if_true]; fun_prop
    · simp only [hρ, hj, if_false]; fun_prop
  have hm : Measurable fun (x : Fin 2 → ℝ) j => ρ j (x j) := measurable_pi_lambda _ fun j => (hρm j).comp (measurable_pi_apply j)
  have hρu : ∀ j, unif.map (ρ j) = unif := fun j => by
    by_cases hj : j = 1
    · simp only [hρ, hj, if_true]; exact unif_reflect
    · simp only [hρ, hj, if_false]; exact Measure.map_id
  have h1 : (iid 2 unif).map (fun (x : Fin 2 → ℝ) j => ρ j (x j)) = iid 2 unif := by
    have : ∀ j, IsProbabilityMeasure (unif.map (ρ j)) := fun j => by rw [hρu j]; infer_instance
    have h := Measure.pi_map_pi (μ := fun _ : Fin 2 => unif) (f := ρ) fun j => (hρm j).aemeasurable
    simp only [hρu] at h
    exact h
  have h2 := iid_map (n := 2) (L := iid 2 unif) hm
  rw [h1] at h2
  have hmm : Measurable fun (y : Fin 2 → Fin 2 → ℝ) i j => ρ j (y i j) := measurable_pi_lambda _ fun i => hm.comp (measurable_pi_apply i)
  have hA : MeasurableSet {y : Fin 2 → Fin 2 → ℝ | Alike y} := measurableSet_lt measurable_const diff_measurable
  conv_rhs => rw [← h2, Measure.map_apply hmm hA]
  congr 1
  ext y
  show (y 0 0 - y 1 0) * (y 0 1 - y 1 1) < 0 ↔ 0 < (ρ 0 (y 0 0) - ρ 0 (y 1 0)) * (ρ 1 (y 0 1) - ρ 1 (y 1 1))
  simp only [hρ, if_true, Fin.zero_eq_one_iff, if_false, OfNat.ofNat_ne_one]
  constructor <;> intro h <;> linarith

theorem alike_half : iid 2 (iid 2 unif) {y | Alike y} = 1 / 2 := by
  have hA : MeasurableSet {y : Fin 2 → Fin 2 → ℝ | Alike y} := measurableSet_lt measurable_const diff_measurable
  have hO : MeasurableSet {y : Fin 2 → Fin 2 → ℝ | Opposed y} := measurableSet_lt diff_measurable measurable_const
  have hd : Disjoint {y : Fin 2 → Fin 2 → ℝ | Alike y} {y | Opposed y} :=
    Set.disjoint_left.mpr fun y h1 h2 => by
      have h1' : 0 < (y 0 0 - y 1 0) * (y 0 1 - y 1 1) := h1
      have h2' : (y 0 0 - y 1 0) * (y 0 1 - y 1 1) < 0 := h2
      exact lt_asymm h1' h2'
  have hu : iid 2 (iid 2 unif) ({y | Alike y} ∪ {y | Opposed y}) = 1 := by
    rw [← measure_univ (μ := iid 2 (iid 2 unif))]
    refine measure_congr (Filter.eventuallyEq_univ.mpr ?_)
    filter_upwards [noTies_ae (n := 2) (iid_unif_atomless 2)] with y hy
    have h0 := sub_ne_zero.mpr (hy 0 0 1 (by simp))
    have h1 := sub_ne_zero.mpr (hy 1 0 1 (by simp))
    rcases lt_or_gt_of_ne (mul_ne_zero h0 h1) with h | h
    · exact Or.inr h
    · exact Or.inl h
  rw [measure_union hd hO, opposed_eq, ← two_mul] at hu
  rw [ENNReal.eq_div_iff (by simp) (by simp), hu]

theorem unitRanks_sum (y : Fin n → Fin d → ℝ) (i : Fin n) (j : Fin d) : unitRanks y i j = ((∑ k, if y k j < y i j then (1 : ℝ) else 0) + 1 +
    ((∑ k, if y k j < y i j then (1 : ℝ) else 0) + ∑ k, if y k j = y i j then (1 : ℝ) else 0)) / 2 / (n + 1) := by
  simp only [unitRanks, rankdata, cntLt, cntEq, card_filter]
  push_cast
  simp only [apply_ite (Rat.cast : ℚ → ℝ), Rat.cast_one, Rat.cast_zero]

open Classical in
theorem fracLe_sum (y : Fin n → Fin d → ℝ) (w : Fin d → ℝ) : fracLe y w = (∑ k, if ∀ j, y k j ≤ w j then (1 : ℝ) else 0) / n := by
  rw [fracLe, Nat.card_eq_fintype_card, Fintype.card_subtype, card_filter]
  push_cast
  rfl

theorem ranks_up {y : Fin 2 → Fin d → ℝ} {j : Fin d} (h : y 0 j < y 1 j) : unitRanks y 0 j = 1 / 3 ∧ unitRanks y 1 j = 2 / 3 := by
  constructor <;> rw [unitRanks_sum] <;>
    simp only [Fin.sum_univ_two, h, h.not_gt, h.ne, h.ne', lt_irrefl, if_true, if_false] <;> norm_num

theorem ranks_down {y : Fin 2 → Fin d → ℝ} {j : Fin d} (h : y 1 j < y 0 j) : unitRanks y 0 j = 2 / 3 ∧ unitRanks y 1 j = 1 / 3 := by
  constructor <;> rw [unitRanks_sum] <;>
    simp only [Fin.sum_univ_two, h, h.not_gt, h.ne, h.ne', lt_irrefl, if_true, if_false] <;> norm_num

theorem indepStat_alike {y : Fin 2 → Fin 2 → ℝ} (h : Alike y) : indepStat y = 149 / 324 := by
  rcases mul_pos_iff.mp (show 0 < (y 0 0 - y 1 0) * (y 0 1 - y 1 1) from h) with ⟨h0, h1⟩ | ⟨h0, h1⟩
  · have a := ranks_down (sub_pos.mp h0)
    have b := ranks_down (sub_pos.mp h1)
    simp only [indepStat, fracLe_sum, Fin.sum_univ_two, Fin.prod_univ_two, Fin.forall_fin_two, a.1, a.2, b.1, b.2]
    norm_num
  · have a := ranks_up (sub_neg.mp h0)
    have b := ranks_up (sub_neg.mp h1)
    simp only [indepStat, fracLe_sum, Fin.sum_univ_two, Fin.prod_univ_two, Fin.forall_fin_two, a.1, a.2, b.1, b.2]
    norm_num

theorem indepStat_opposed {y : Fin 2 → Fin 2 → ℝ} (h : Opposed y) : indepStat y = 50 / 324 := by
  rcases mul_neg_iff.mp (show (y 0 0 - y 1 0) * (y 0 1 - y 1 1) < 0 from h) with ⟨h0, h1⟩ | ⟨h0, h1⟩
  · have a := ranks_down (sub_pos.mp h0)
    have b := ranks_up (sub_neg.mp h1)
    simp only [indepStat, fracLe_sum, Fin.sum_univ_two, Fin.prod_univ_two, Fin.forall_fin_two, a.1, a.2, b.1, b.2]
    norm_num
  · have a := ranks_up (sub_neg.mp h0)
    have b := ranks_down (sub_pos.mp h1)
    simp only [indepStat, fracLe_sum, Fin.sum_univ_two, Fin.prod_univ_two, Fin.forall_fin_two, a.1, a.2, b.1, b.2]
    norm_num

variable [MeasurableSpace G.S] {R : Measure G.S}

/-- **C170**, where one worker takes all tasks: the level is kept. -/
theorem gof_indep_par_level_partial (hR : IsIdeal G R) {Q : Measure (Fin d → ℝ)} [IsProbabilityMeasure Q] (hQ : Atomless Q)
    (hc : HasCopula Q (iid d unif)) {reps : ℤ} (hr : 0 ≤ reps) {ties fitTies : String} {t t' : TieMethod} (ht : parseTies ties = .ok t)
    (ht' : parseTies fitTies = .ok t') (w : ℕ) {α : ℝ} {k : ℤ} (hk : α * (reps + 1) = k) :
    ((iid n Q).prod R) {q | ¬ ∃ r s', (gofRunPar (fun _ => w) indepGofFit indepGofCdf (fun _ => indepRandomG n d none) q.1 reps ties
      fitTies).exec q.2 = (.ok r, s') ∧ α < r.2.2} ≤ ENNReal.ofReal α := by
  refine (measure_mono ?_).trans (gof_indep_level_exact (n := n) hR hQ hc hr ht ht' hk)
  intro q hq
  rintro ⟨r, s', hrun, hα⟩
  refine hq ⟨r, _, Prod.ext ?_ rfl, hα⟩
  show ((gofRunPar _ _ _ _ _ _ _ _).exec q.2).1 = .ok r
  rw [gofPar_serial_partial]
  exact congrArg Prod.fst hrun

/-- **C170**, violated: where no worker takes two tasks, the p-value is the least with a probability that does not depend on the number of
replications: the probability that one replicate falls below the statistic. -/
theorem gof_indep_par_reject_violation (hR : IsIdeal G R) {Q : Measure (Fin d → ℝ)} [IsProbabilityMeasure Q] (hQ : Atomless Q)
    (hc : HasCopula Q (iid d unif)) {reps : ℤ} (hr : 1 ≤ reps) {ties fitTies : String} {t t' : TieMethod} (ht : parseTies ties = .ok t)
    (ht' : parseTies fitTies = .ok t') {who : ℕ → ℕ} (hwho : ∀ i j, i < reps.toNat → j < reps.toNat → who i = who j → i = j) :
    iid 2 (iid n (iid d unif)) {z | indepStat (z 1) < indepStat (z 0)} ≤ ((iid n Q).prod R) {q | ∃ r s', (gofRunPar who indepGofFit
      indepGofCdf (fun _ => indepRandomG n d none) q.1 reps ties fitTies).exec q.2 = (.ok r, s') ∧ r.2.2 = 0.5 / (reps + 1)} := by
  obtain ⟨Y, hY, hlaw, hae⟩ := gof_indep_rank (n := n) hR hQ hc 1
  have hT : MeasurableSet {z : Fin 2 → Fin n → Fin d → ℝ | indepStat (z 1) < indepStat (z 0)} :=
    measurableSet_lt (indepStat_measurable.comp (measurable_pi_apply 1)) (indepStat_measurable.comp (measurable_pi_apply 0))
  rw [← hlaw, Measure.map_apply hY hT]
  refine measure_mono_ae ?_
  filter_upwards [hae] with q hq hlt
  obtain ⟨s', hrun⟩ := hq ties fitTies t t' ht ht'
  have hlt' : indepStat (Y q 1) < indepStat (Y q 0) := hlt
  have hcard : #{k : Fin (1 + 1) | indepStat (Y q 0) ≤ indepStat (Y q k)} = 1 := by
    rw [card_eq_one]
    refine ⟨0, Finset.ext fun k => ?_⟩
    rw [mem_filter, mem_singleton]
    constructor
    · rintro ⟨-, hk⟩
      by_contra hne
      have : k = 1 := Fin.eq_one_of_ne_zero k hne
      rw [this] at hk
      exact absurd hlt' (not_lt.mpr hk)
    · rintro rfl
      exact ⟨mem_univ _, le_rfl⟩
  have hrun' : (gofRun indepGofFit indepGofCdf (fun _ => indepRandomG n d none) q.1 1 ties fitTies).exec q.2 =
      (.ok ((), .fin (indepStat (Y q 0)), 0.5 / ((1 : ℤ) + 1)), s') := by
    rw [hcard] at hrun
    refine hrun.trans ?_
    norm_num
  exact ⟨_, _, gofPar_spread_one hwho hr hrun', rfl⟩

/-- **C170**, violated: two rows and two columns of independent data. For every number of replications, the p-value is the least with a
probability of at least 1/4. -/
theorem gof_indep_par_level_violation (hR : IsIdeal G R) {reps : ℤ} (hr : 1 ≤ reps) {ties fitTies : String} {t t' : TieMethod}
    (ht : parseTies ties = .ok t) (ht' : parseTies fitTies = .ok t') {who : ℕ → ℕ}
    (hwho : ∀ i j, i < reps.toNat → j < reps.toNat → who i = who j → i = j) :
    1 / 4 ≤ ((iid 2 (iid 2 unif)).prod R) {q | ∃ r s', (gofRunPar who indepGofFit
      indepGofCdf (fun _ => indepRandomG 2 2 none) q.1 reps ties fitTies).exec q.2 = (.ok r, s') ∧ r.2.2 = 0.5 / (reps + 1)} := by
  refine le_trans ?_ (gof_indep_par_reject_violation (n := 2) hR (iid_unif_atomless 2) (hasCopula_self _) hr ht ht' hwho)
  have hsub : (Set.univ.pi fun k : Fin 2 => if k = 0 then {y : Fin 2 → Fin 2 → ℝ | Alike y} else {y | Opposed y}) ⊆
      {z | indepStat (z 1) < indepStat (z 0)} := by
    intro z hz
    have h0 : Alike (z 0) := by simpa using hz 0 (Set.mem_univ _)
    have h1 : Opposed (z 1) := by simpa using hz 1 (Set.mem_univ _)
    show indepStat (z 1) < indepStat (z 0)
    rw [indepStat_alike h0, indepStat_opposed h1]
    norm_num
  refine le_trans (le_of_eq ?_) (measure_mono hsub)
  rw [iid, Measure.pi_pi, Fin.prod_univ_two]
  simp only [if_true, one_ne_zero, if_false]
  rw [opposed_eq, alike_half, one_div, one_div, ← ENNReal.mul_inv (by simp) (by simp)]
  norm_num

/-! ### Cases -/

example (seeded : ℕ → ℕ → Answers) := gof_indep_par_level_partial (n := 50) (idealGen_isIdeal seeded) (iid_unif_atomless 3) (hasCopula_self _)
  (reps := 999) (by norm_num) (ties := "average") (fitTies := "average") rfl rfl 0 (α := 0.05) (k := 50) (by norm_num)

/-- With 64 processors and 64 replications, a p-value of 1/130 has a probability of at least 1/4. -/
example (seeded : ℕ → ℕ → Answers) := gof_indep_par_level_violation (idealGen_isIdeal seeded) (reps := 64) (by norm_num)
  (ties := "average") (fitTies := "average") rfl rfl (who := id) fun _ _ _ _ h => h

example (seeded : ℕ → ℕ → Answers) := gof_indep_par_reject_violation (n := 50) (idealGen_isIdeal seeded) (iid_unif_atomless 3)
  (hasCopula_self _) (reps := 64) (by norm_num) (ties := "average") (fitTies := "average") rfl rfl (who := id) fun _ _ _ _ h => h

end Copulae
