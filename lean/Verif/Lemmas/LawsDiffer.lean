import Verif.Lemmas.RadSymLaw
import Verif.Lemmas.FrankTau
import Verif.Lemmas.StudentTail
import Verif.Lemmas.TailDep

/-!
Kendall's tau and the tail dependence of the laws tell the copulas of the library apart.
-/

namespace Copulae

open MeasureTheory ProbabilityTheory Set Filter Topology Spec CopulaMeasure

variable {d : ℕ} {P P' : Measure (Fin d → ℝ)} {F F' : Family} {θ θ' : ℝ}

noncomputable def archTau (F : Family) (θ : ℝ) : ℝ :=
  match F with
  | .clayton => θ / (θ + 2)
  | .frank => frankTauR θ
  | .gumbel => 1 - 1 / θ

noncomputable def archLow (F : Family) (θ : ℝ) : ℝ :=
  match F with
  | .clayton => (claytonLambda θ).1
  | .frank => 0
  | .gumbel => 0

noncomputable def archUp (F : Family) (θ : ℝ) : ℝ :=
  match F with
  | .clayton => 0
  | .frank => 0
  | .gumbel => 2 - 2 ^ (1 / θ)

theorem arch_tau_eq (ha : Admissible F θ d) (hP : IsLawOf P (F.copula θ)) {i j : Fin d} (hij : i ≠ j) :
    kendallTau P i j = archTau F θ := by
  have := hP.prob
  cases F with
  | clayton =>
    have h := clayton_tau_kendall ha.2.2.1 ha.2.1 hP hij
    have h1 := ha.2.2.1
    rw [claytonTau, if_neg (by linarith)] at h
    exact (Except.ok.inj h).symm
  | frank =>
    have hpair := (pairLaw_of_law hP hij).congr (C' := frankC2 θ) fun a b ha' _ hb _ => frank_pairPoint ha.2.1 hij ha' hb
    rw [kendallTau_pair, frank_pair_tau ha.2.1 hpair]
    rfl
  | gumbel =>
    have h := gumbel_tau_kendall ha.2 hP hij
    have h1 : 1 ≤ θ := ha.2
    rw [gumbelTau, if_neg (by linarith)] at h
    exact (Except.ok.inj h).symm

theorem admissible_two (ha : Admissible F θ d) : Admissible F θ 2 := by
  cases F with
  | clayton => exact ⟨le_rfl, ha.2.1, ha.2.2.1, fun h => absurd rfl h⟩
  | frank => exact ⟨le_rfl, ha.2.1, ha.2.2.1, fun h => absurd rfl h⟩
  | gumbel => exact ⟨le_rfl, ha.2⟩

theorem tail_congr {C C' : (Fin 2 → ℝ) → ℝ} (h : ∀ u, 0 < u → u ≤ 1 → C ![u, u] = C' ![u, u]) {l m : ℝ} (hl : LowerTail C l)
    (hm : UpperTail C m) : LowerTail C' l ∧ UpperTail C' m := by
  constructor
  · refine Tendsto.congr' ?_ hl
    filter_upwards [eventually_Ioo_right one_pos] with u hu
    rw [h u hu.1 hu.2.le]
  · refine Tendsto.congr' ?_ hm
    filter_upwards [eventually_Ioo_left one_pos] with u hu
    rw [h u hu.1 hu.2.le]

theorem arch_tails (ha : Admissible F θ 2) : LowerTail (F.copula θ) (archLow F θ) ∧ UpperTail (F.copula θ) (archUp F θ) := by
  cases F with
  | clayton =>
    obtain ⟨C, hC, hl, hm, -⟩ := clayton_tail ha.2.1 ha.2.2.1
    exact tail_congr (fun u h0 h1 => computes_copula ha (by simp) hC h0 h1) hl hm
  | frank => exact (frank_tail_partial ha.2.1 ha.2.2.1).2
  | gumbel =>
    obtain ⟨C, hC, hl, hm, -⟩ := gumbel_tail_partial ha.2
    exact tail_congr (fun u h0 h1 => computes_copula ha (by simp) hC h0 h1) hl hm

theorem arch_diag (ha : Admissible F θ d) (hP : IsLawOf P (F.copula θ)) {i j : Fin d} (hij : i ≠ j) {a b : ℝ} (h0 : 0 < a) (h1 : a ≤ 1)
    (h2 : 0 < b) (h3 : b ≤ 1) : P.real {x | x i ≤ a ∧ x j ≤ b} = F.copula θ ![a, b] := by
  have hm : Measurable fun x : Fin d → ℝ => (x i, x j) := by fun_prop
  have := (pairLaw_of_law hP hij).dist a b h0 h1 h2 h3
  rw [map_measureReal_apply hm (measurableSet_Iic.prod measurableSet_Iic), copula_pair ha hij h0 h2] at this
  exact this

theorem arch_uniform (ha : Admissible F θ d) (hP : IsLawOf P (F.copula θ)) : Uniform P := by
  have := hP.prob
  exact uniform_of_law hP fun j v h0 h1 => copula_margin ha j v h0 h1

theorem arch_tailDep (ha : Admissible F θ d) (hP : IsLawOf P (F.copula θ)) {i j : Fin d} (hij : i ≠ j) :
    LowerTailDep P i j (archLow F θ) ∧ UpperTailDep P i j (archUp F θ) := by
  have := hP.prob
  have hu := arch_uniform ha hP
  have hmar : ∀ (k : Fin d) (u : ℝ), 0 < u → u < 1 → P.real {x | x k ≤ u} = u := by
    intro k u h0 h1
    exact uniform_le hu k h0.le h1.le
  obtain ⟨hl, hm⟩ := arch_tails (admissible_two ha)
  constructor
  · refine Tendsto.congr' ?_ hl
    filter_upwards [eventually_Ioo_right one_pos] with u hu
    rw [arch_diag ha hP hij hu.1 hu.2.le hu.1 hu.2.le, hmar i u hu.1 hu.2]
  · refine Tendsto.congr' ?_ hm
    filter_upwards [eventually_Ioo_left one_pos] with u hu
    have hms : ∀ k : Fin d, MeasurableSet {x : Fin d → ℝ | x k ≤ u} := fun k => measurableSet_le (measurable_pi_apply k) measurable_const
    have e1 : P.real {x | u < x i} = 1 - u := by
      have := probReal_compl_eq_one_sub (μ := P) (hms i)
      rw [hmar i u hu.1 hu.2] at this
      rw [← this]
      congr 1; ext x; simp
    have e2 : P.real {x | u < x i ∧ u < x j} = 1 - 2 * u + F.copula θ ![u, u] := by
      have h1 : P.real {x | u < x i ∧ u < x j} = 1 - P.real ({x | x i ≤ u} ∪ {x | x j ≤ u}) := by
        rw [← probReal_compl_eq_one_sub ((hms i).union (hms j))]
        congr 1; ext x; simp
      have h2 := measureReal_union_add_inter (μ := P) (s := {x | x i ≤ u}) (hms j)
      have h3 : P.real ({x | x i ≤ u} ∩ {x | x j ≤ u}) = F.copula θ ![u, u] := arch_diag ha hP hij hu.1 hu.2.le hu.1 hu.2.le
      rw [hmar i u hu.1 hu.2, hmar j u hu.1 hu.2, h3] at h2
      rw [h1]
      linarith
    rw [e1, e2]

theorem low_unique {i j : Fin d} {l l' : ℝ} (h : LowerTailDep P i j l) (h' : LowerTailDep P i j l') : l = l' := tendsto_nhds_unique h h'

theorem up_unique {i j : Fin d} {l l' : ℝ} (h : UpperTailDep P i j l) (h' : UpperTailDep P i j l') : l = l' := tendsto_nhds_unique h h'

theorem gumbel_up_pos (h : 1 < θ) : 0 < archUp .gumbel θ := by
  have : (2 : ℝ) ^ (1 / θ) < 2 ^ (1 : ℝ) := Real.rpow_lt_rpow_of_exponent_lt (by norm_num) ((div_lt_one (by linarith)).mpr h)
  rw [Real.rpow_one] at this
  simp only [archUp]
  linarith

theorem clayton_low_pos (h : 0 < θ) : 0 < archLow .clayton θ := by
  simp only [archLow, claytonLambda, if_pos h]
  exact Real.rpow_pos_of_pos (by norm_num) _

theorem frankTauR_ne (h : θ ≠ 0) : frankTauR θ ≠ 0 := by
  rcases lt_or_gt_of_ne h with h' | h'
  · have h1 := (frankTauR_bounds (t := -θ) (by linarith)).1
    rw [frankTauR_neg h] at h1
    linarith
  · exact (frankTauR_bounds h').1.ne'

/-- A Clayton copula with a negative parameter vanishes near the origin, and a Frank copula does not. -/
theorem clayton_frank_ne (h : θ < 0) (h' : θ' ≠ 0) : ∃ u, 0 < u ∧ u ≤ 1 ∧ Spec.clayton θ ![u, u] ≠ Spec.frank θ' ![u, u] := by
  set a := -θ with ha
  have ha0 : 0 < a := by linarith
  refine ⟨(1 / 4) ^ (1 / a), by positivity, Real.rpow_le_one (by norm_num) (by norm_num) (by positivity), ?_⟩
  set u : ℝ := (1 / 4) ^ (1 / a) with hu
  have hu0 : 0 < u := by positivity
  have hua : u ^ a = 1 / 4 := by rw [hu, ← Real.rpow_mul (by norm_num), one_div_mul_cancel ha0.ne', Real.rpow_one]
  have h1 : Spec.clayton θ ![u, u] = 0 := by
    simp only [Spec.clayton, Fin.sum_univ_two, Matrix.cons_val_zero, Matrix.cons_val_one, ← ha, hua]
    rw [max_eq_right (by norm_num), Real.zero_rpow]
    exact div_ne_zero (by norm_num) (by linarith)
  rw [h1, frank_diag_spec]
  have hem := exp_neg_ne h'
  have hne : Real.exp (-θ' * u) - 1 ≠ 0 := by
    rw [sub_ne_zero, Ne, Real.exp_eq_one_iff]
    exact mul_ne_zero (neg_ne_zero.mpr h') hu0.ne'
  refine (mul_ne_zero (div_ne_zero (by norm_num) h') ?_).symm
  have hq : (Real.exp (-θ' * u) - 1) ^ 2 / (Real.exp (-θ') - 1) ≠ 0 := div_ne_zero (pow_ne_zero 2 hne) hem
  have hpos := frank_den h' hu0.le (Real.rpow_le_one (by norm_num) (by norm_num) (by positivity) : u ≤ 1) hu0.le
    (Real.rpow_le_one (by norm_num) (by norm_num) (by positivity) : u ≤ 1)
  refine Real.log_ne_zero_of_pos_of_ne_one ?_ ?_
  · rwa [sq]
  · intro h0
    exact hq (by linarith)

theorem clayton_tau_inj (h : -1 ≤ θ) (h' : -1 ≤ θ') (he : archTau .clayton θ = archTau .clayton θ') : θ = θ' := by
  simp only [archTau] at he
  rw [div_eq_div_iff (by linarith) (by linarith)] at he
  linarith

/-- Different Archimedean copulas of the library have different laws. -/
theorem arch_laws_differ (ha : Admissible F θ d) (ha' : Admissible F' θ' d) (hP : IsLawOf P (F.copula θ)) (hP' : IsLawOf P' (F'.copula θ'))
    (hne : ¬ (F = F' ∧ θ = θ')) : P ≠ P' := by
  rintro rfl
  have h2 := ha.1
  have hij : (⟨0, by omega⟩ : Fin d) ≠ ⟨1, by omega⟩ := by simp
  have ht := (arch_tau_eq ha hP hij).symm.trans (arch_tau_eq ha' hP' hij)
  obtain ⟨hl, hu⟩ := arch_tailDep ha hP hij
  obtain ⟨hl', hu'⟩ := arch_tailDep ha' hP' hij
  have el := low_unique hl hl'
  have eu := up_unique hu hu'
  have hCF : ∀ {a b : ℝ}, Admissible .clayton a d → Admissible .frank b d → IsLawOf P (Family.copula .clayton a) →
      IsLawOf P (Family.copula .frank b) → archLow .clayton a = 0 → False := by
    intro a b ha hb hPa hPb h0
    rcases lt_or_gt_of_ne ha.2.1 with h | h
    · obtain ⟨u, h0, h1, hne⟩ := clayton_frank_ne h hb.2.1
      exact hne ((arch_diag ha hPa hij h0 h1 h0 h1).symm.trans (arch_diag hb hPb hij h0 h1 h0 h1))
    · exact (clayton_low_pos h).ne' h0
  have hCG : ∀ {a b : ℝ}, Admissible .clayton a d → Admissible .gumbel b d → archTau .clayton a = archTau .gumbel b →
      archLow .clayton a = 0 → False := by
    intro a b ha hb ht h0
    rcases lt_or_gt_of_ne ha.2.1 with h | h
    · have h1 := ha.2.2.1
      have hb1 : 1 ≤ b := hb.2
      have : a / (a + 2) < 0 := div_neg_of_neg_of_pos h (by linarith)
      have : 1 / b ≤ 1 := (div_le_one (by linarith)).mpr hb1
      simp only [archTau] at ht
      linarith
    · exact (clayton_low_pos h).ne' h0
  have hFG : ∀ {a b : ℝ}, Admissible .frank a d → Admissible .gumbel b d → archTau .frank a = archTau .gumbel b →
      0 = archUp .gumbel b → False := by
    intro a b ha hb ht h0
    have hb1 : 1 ≤ b := hb.2
    rcases hb1.eq_or_lt with rfl | h
    · simp only [archTau] at ht
      exact frankTauR_ne ha.2.1 (by rw [ht]; norm_num)
    · exact (gumbel_up_pos h).ne h0
  cases F <;> cases F'
  · exact hne ⟨rfl, clayton_tau_inj ha.2.2.1 ha'.2.2.1 ht⟩
  · exact hCF ha ha' hP hP' el
  · exact hCG ha ha' ht el
  · exact hCF ha' ha hP' hP el.symm
  · refine hne ⟨rfl, ?_⟩
    by_contra h
    rcases lt_or_gt_of_ne h with h | h
    · exact (frankTauR_lt ha.2.1 ha'.2.1 h).ne ht
    · exact (frankTauR_lt ha'.2.1 ha.2.1 h).ne ht.symm
  · exact hFG ha ha' ht eu
  · exact hCG ha' ha ht.symm el.symm
  · exact hFG ha' ha ht.symm eu.symm
  · refine hne ⟨rfl, ?_⟩
    have h1 : 1 ≤ θ := ha.2
    have h1' : 1 ≤ θ' := ha'.2
    simp only [archTau] at ht
    have h3 : 1 / θ = 1 / θ' := by linarith
    rw [one_div, one_div] at h3
    exact inv_injective h3

end Copulae
