import Verif.Lemmas.ReplicateLevel
import Verif.Props.GofIndep

/-!
C169: the level of the test of independence.
-/

namespace Copulae

open MeasureTheory ProbabilityTheory Finset Spec CopulaMeasure

variable {d n : ℕ}

theorem unitRanks_measurable : Measurable fun y : Fin n → Fin d → ℝ => unitRanks y := by
  refine measurable_pi_lambda _ fun i => measurable_pi_lambda _ fun j => ?_
  have hap : ∀ k, Measurable fun y : Fin n → Fin d → ℝ => y k j := fun k => (measurable_pi_apply j).comp (measurable_pi_apply k)
  have e : (fun y : Fin n → Fin d → ℝ => unitRanks y i j) = fun y : Fin n → Fin d → ℝ => ((∑ k, if y k j < y i j then (1 : ℝ) else 0) + 1 +
      ((∑ k, if y k j < y i j then (1 : ℝ) else 0) + ∑ k, if y k j = y i j then (1 : ℝ) else 0)) / 2 / (n + 1) := by
    funext y
    simp only [unitRanks, rankdata, cntLt, cntEq, card_filter]
    push_cast
    simp only [apply_ite (Rat.cast : ℚ → ℝ), Rat.cast_one, Rat.cast_zero]
  rw [e]
  have h1 : Measurable fun y : Fin n → Fin d → ℝ => ∑ k, if y k j < y i j then (1 : ℝ) else 0 :=
    Finset.measurable_sum _ fun k _ => Measurable.ite (measurableSet_lt (hap k) (hap i)) measurable_const measurable_const
  have h2 : Measurable fun y : Fin n → Fin d → ℝ => ∑ k, if y k j = y i j then (1 : ℝ) else 0 :=
    Finset.measurable_sum _ fun k _ => Measurable.ite (measurableSet_eq_fun (hap k) (hap i)) measurable_const measurable_const
  exact (((h1.add_const 1).add (h1.add h2)).div_const 2).div_const _

/-- The statistic of a sample without ties. -/
noncomputable def indepStat (y : Fin n → Fin d → ℝ) : ℝ :=
  ∑ i, (fracLe (unitRanks y) (unitRanks y i) - ∏ j, unitRanks y i j) * (fracLe (unitRanks y) (unitRanks y i) - ∏ j, unitRanks y i j)

theorem indepStat_nonneg (y : Fin n → Fin d → ℝ) : 0 ≤ indepStat y := sum_nonneg fun _ _ => mul_self_nonneg _

theorem indepStat_measurable : Measurable fun y : Fin n → Fin d → ℝ => indepStat y := by
  classical
  have hr : ∀ i j, Measurable fun y : Fin n → Fin d → ℝ => unitRanks y i j := fun i j =>
    (measurable_pi_apply j).comp ((measurable_pi_apply i).comp unitRanks_measurable)
  have hf : ∀ i, Measurable fun y : Fin n → Fin d → ℝ => fracLe (unitRanks y) (unitRanks y i) := fun i => by
    have e : (fun y : Fin n → Fin d → ℝ => fracLe (unitRanks y) (unitRanks y i)) = fun y : Fin n → Fin d → ℝ =>
        (∑ k, if ∀ j, unitRanks y k j ≤ unitRanks y i j then (1 : ℝ) else 0) / n := by
      funext y
      rw [fracLe, Nat.card_eq_fintype_card, Fintype.card_subtype, card_filter]
      push_cast
      rfl
    rw [e]
    refine (Finset.measurable_sum _ fun k _ => Measurable.ite ?_ measurable_const measurable_const).div_const _
    have e2 : {y : Fin n → Fin d → ℝ | ∀ j, unitRanks y k j ≤ unitRanks y i j} = ⋂ j, {y | unitRanks y k j ≤ unitRanks y i j} := by
      ext; simp
    rw [e2]
    exact MeasurableSet.iInter fun j => measurableSet_le (hr k j) (hr i j)
  have hp : ∀ i, Measurable fun y : Fin n → Fin d → ℝ => ∏ j, unitRanks y i j := fun i => Finset.measurable_prod _ fun j _ => hr i j
  exact Finset.measurable_sum _ fun i _ => ((hf i).sub (hp i)).mul ((hf i).sub (hp i))

theorem gofFit_indep {x y : Fin n → Fin d → ℝ} (hx : NoTies x) (hy : NoTies y) (hxy : ∀ i k j, x i j < x k j → y i j ≤ y k j)
    {ties fitTies : String} {t t' : TieMethod} (ht : parseTies ties = .ok t) (ht' : parseTies fitTies = .ok t') :
    gofFit indepGofFit indepGofCdf x ties fitTies = .ok ((), .fin (indepStat y)) := by
  unfold gofFit
  rw [gofData_noTies hx hy hxy ht ht']
  simp only [bind, Except.bind, pure, Except.pure, indepGofFit, gofTStat, indepGofCdf_eq]
  congr 2
  rw [indepStat, ← Fl.sum_fin]
  exact sum_congr rfl fun i _ => by rw [gofStat_frac i.pos, Fl.fin_sub_fin, Fl.fin_mul_fin]

theorem countP_high {M : ℕ} (a : ℝ) (b : ℕ → ℝ) (ha : 0 ≤ a) (hb : ∀ k, 0 ≤ b k) :
    gofPValue ((List.range M).map fun k => .fin (b k)) (.fin a) M =
      ((#{k : Fin (M + 1) | a ≤ (Fin.cons a fun k : Fin M => b k : Fin (M + 1) → ℝ) k} : ℝ) - 0.5) / (M + 1) := by
  classical
  unfold gofPValue
  rw [List.countP_map, Fin.card_filter_univ_succ]
  have e : (List.range M).countP ((fun r => @decide (Fl.abs r ≥ Fl.abs (.fin a)) (Classical.propDecidable _)) ∘ fun k => .fin (b k)) =
      #{k : Fin M | a ≤ b k} := by
    rw [card_filter, ← Finset.sum_range fun k => if a ≤ b k then 1 else 0, ← card_filter, ← Nat.count_eq_card_filter_range,
      Nat.count]
    exact List.countP_congr fun k _ => by
      simp [Fl.abs, abs_of_nonneg ha, abs_of_nonneg (hb k)]
  rw [e]
  simp only [Fin.cons_zero, le_refl, if_true, Fin.cons_succ]
  push_cast
  congr 1
  ring

variable {G : Gen} [MeasurableSpace G.S] {R : Measure G.S}

/-- **C169** `gof_copula(IndepCopula, ...)` on `n` independent rows with independent components and continuous margins: with probability one
it returns, and the data and the replicates have the statistics of `reps + 1` independent samples of one law, of which the p-value counts
those that reach the first. -/
theorem gof_indep_rank (hR : IsIdeal G R) {Q : Measure (Fin d → ℝ)} [IsProbabilityMeasure Q] (hQ : Atomless Q)
    (hc : HasCopula Q (iid d unif)) (M : ℕ) : ∃ Y : (Fin n → Fin d → ℝ) × G.S → Fin (M + 1) → Fin n → Fin d → ℝ, Measurable Y ∧
      ((iid n Q).prod R).map Y = iid (M + 1) (iid n (iid d unif)) ∧ ∀ᵐ q ∂((iid n Q).prod R), ∀ (ties fitTies : String)
        (t t' : TieMethod), parseTies ties = .ok t → parseTies fitTies = .ok t' → ∃ s', (gofIndep q.1 M ties fitTies).exec q.2 =
          (.ok ((), .fin (indepStat (Y q 0)), ((#{k | indepStat (Y q 0) ≤ indepStat (Y q k)} : ℝ) - 0.5) / (M + 1)), s') := by
  have hRp := hR.prob
  obtain ⟨F, hF, hFQ⟩ := hc
  obtain ⟨X, next, hX, hn, hseq, hex⟩ := draws_seq (randomUniform_draws hR n d)
  have hFm : Measurable fun (x : Fin d → ℝ) j => F j (x j) :=
    measurable_pi_lambda _ fun j => (hF j).measurable.comp (measurable_pi_apply j)
  set φ : (Fin n → Fin d → ℝ) → Fin n → Fin d → ℝ := fun x i j => F j (x i j) with hφ
  have hφm : Measurable φ := measurable_pi_lambda _ fun i => hFm.comp (measurable_pi_apply i)
  have hφQ : (iid n Q).map φ = iid n (iid d unif) := by
    have h := iid_map (n := n) (L := Q) hFm
    rwa [hFQ] at h
  have hf : Measurable fun s (i : Fin M) => X (next^[i] s) := measurable_pi_lambda _ fun i => hX.comp (hn.iterate i)
  have hcm : Measurable fun p : (Fin n → Fin d → ℝ) × (Fin M → Fin n → Fin d → ℝ) =>
      (Fin.cons p.1 p.2 : Fin (M + 1) → Fin n → Fin d → ℝ) :=
    measurable_pi_lambda _ fun i => by
      refine Fin.cases ?_ (fun i => ?_) i
      · exact measurable_fst
      · exact (measurable_pi_apply i).comp measurable_snd
  set Y : (Fin n → Fin d → ℝ) × G.S → Fin (M + 1) → Fin n → Fin d → ℝ := fun q => Fin.cons (φ q.1) fun i : Fin M => X (next^[i] q.2)
    with hY
  have hYm : Measurable Y := hcm.comp (hφm.prodMap hf)
  have hlaw : ((iid n Q).prod R).map Y = iid (M + 1) (iid n (iid d unif)) := by
    rw [show Y = (fun p => Fin.cons p.1 p.2) ∘ Prod.map φ (fun s (i : Fin M) => X (next^[i] s)) from rfl,
      ← Measure.map_map hcm (hφm.prodMap hf), ← Measure.map_prod_map _ _ hφm hf, hφQ, hseq M, cons_law]
  refine ⟨Y, hYm, hlaw, ?_⟩
  have h1 : ∀ᵐ q ∂((iid n Q).prod R), NoTies q.1 := Measure.quasiMeasurePreserving_fst.ae (noTies_ae hQ)
  have h2 : ∀ᵐ q ∂((iid n Q).prod R), ∀ j, (indepRandomG n d none : Rnd G _).exec (next^[j] q.2) =
      (.ok (matFl (X (next^[j] q.2))), next^[j + 1] q.2) := Measure.quasiMeasurePreserving_snd.ae hex
  have h3 : ∀ᵐ q ∂((iid n Q).prod R), ∀ k, NoTies (Y q k) := by
    have : ∀ᵐ z ∂(((iid n Q).prod R).map Y), ∀ k, NoTies (z k) := by
      rw [hlaw]
      exact iid_ae (noTies_ae (iid_unif_atomless d))
    exact ae_of_ae_map hYm.aemeasurable this
  filter_upwards [h1, h2, h3] with q hq1 hq2 hq3 ties fitTies t t' ht ht'
  have hq0 : NoTies (φ q.1) := hq3 0
  have hqs : ∀ k : Fin M, NoTies (X (next^[k] q.2)) := fun k => hq3 k.succ
  have hfit := gofFit_indep hq1 hq0 (fun i k j hik => hF j hik.le) ht ht'
  have hrep : ∀ k ∈ List.range M, gofReplicate indepGofFit indepGofCdf q.1 (X (next^[k] q.2)) ties fitTies =
      .ok (.fin (indepStat (X (next^[k] q.2)))) := fun k hk => by
    have hk' := hqs ⟨k, List.mem_range.mp hk⟩
    unfold gofReplicate
    simp only [anyTies_false hq1, Bool.false_eq_true, if_false, gofFit_indep hk' hk' (fun i k j h => h.le) ht ht', bind, Except.bind, pure,
      Except.pure]
  refine ⟨_, gofRun_exec (p := ((#{k | indepStat (Y q 0) ≤ indepStat (Y q k)} : ℝ) - 0.5) / (M + 1))
    (rnd := fun _ j => X (next^[j] q.2)) (fun j => next^[j] q.2) ?_ fun j => hq2 j⟩
  unfold gofCopula
  simp only [hfit, bind, Except.bind, pure, Except.pure, Int.toNat_natCast]
  rw [mapM_ok _ _ _ hrep]
  simp only [if_neg (by omega : ¬ (M : ℤ) + 1 = 0)]
  rw [show ((M : ℤ)) = ((M : ℕ) : ℤ) from rfl, countP_high _ (fun k => indepStat (X (next^[k] q.2))) (indepStat_nonneg _)
    fun k => indepStat_nonneg _]
  have e : (Fin.cons (indepStat (φ q.1)) fun k : Fin M => indepStat (X (next^[k] q.2)) : Fin (M + 1) → ℝ) = fun k => indepStat (Y q k) := by
    funext k
    refine Fin.cases ?_ (fun k => ?_) k <;> rfl
  rw [e]
  rfl

/-- **C169** The probability that the p-value is at most `α`, for `n` independent rows with independent components and continuous margins. -/
theorem gof_indep_level (hR : IsIdeal G R) {Q : Measure (Fin d → ℝ)} [IsProbabilityMeasure Q] (hQ : Atomless Q)
    (hc : HasCopula Q (iid d unif)) {reps : ℤ} (hr : 0 ≤ reps) {ties fitTies : String} {t t' : TieMethod} (ht : parseTies ties = .ok t)
    (ht' : parseTies fitTies = .ok t') (α : ℝ) : ((iid n Q).prod R) {q | ¬ ∃ r s', (gofIndep q.1 reps ties fitTies).exec q.2 = (.ok r, s') ∧
      α < r.2.2} ≤ ENNReal.ofReal (⌊α * (reps + 1) + 1 / 2⌋ / (reps + 1)) := by
  obtain ⟨M, rfl⟩ := Int.eq_ofNat_of_zero_le hr
  obtain ⟨Y, hY, hlaw, hae⟩ := gof_indep_rank (n := n) hR hQ hc M
  set J := ⌊α * (M + 1) + 1 / 2⌋ with hJ
  have hT := high_measurable (m := M + 1) (indepStat_measurable (n := n) (d := d)) 0 J.toNat
  have hM : (0 : ℝ) < M + 1 := by positivity
  have hb : ((iid n Q).prod R) (Y ⁻¹' {z | #{k | indepStat (z 0) ≤ indepStat (z k)} ≤ J.toNat}) ≤ ENNReal.ofReal (J / (M + 1)) := by
    rw [← Measure.map_apply hY hT, hlaw]
    refine (iid_level indepStat_measurable J.toNat).trans ?_
    rcases le_total 0 J with h0 | h0
    · have : ((J.toNat : ℕ) : ℝ) = J := by exact_mod_cast congrArg (Int.cast : ℤ → ℝ) (Int.toNat_of_nonneg h0)
      rw [this]
    · rw [Int.toNat_of_nonpos h0]
      simp
  have hnull := ae_iff.mp hae
  push_cast
  refine (measure_mono (t := Y ⁻¹' {z | #{k | indepStat (z 0) ≤ indepStat (z k)} ≤ J.toNat} ∪ _) fun q hq => ?_).trans
    ((measure_union_le _ _).trans (le_of_eq_of_le (by rw [hnull, add_zero]) hb))
  by_contra hcon
  rw [Set.mem_union, not_or] at hcon
  obtain ⟨s', hrun⟩ := not_not.mp hcon.2 ties fitTies t t' ht ht'
  refine hq ⟨_, _, hrun, ?_⟩
  have h1 : ¬ #{k | indepStat (Y q 0) ≤ indepStat (Y q k)} ≤ J.toNat := hcon.1
  have h2 : J < (#{k | indepStat (Y q 0) ≤ indepStat (Y q k)} : ℤ) := by omega
  rw [hJ, Int.floor_lt] at h2
  push_cast at h2
  show α < _ / ((M : ℝ) + 1)
  rw [lt_div_iff₀ hM]
  norm_num at h2 ⊢
  linarith

/-- **C169** Where `α (reps + 1)` is a whole number, the probability of a p-value of at most `α` is at most `α`. -/
theorem gof_indep_level_exact (hR : IsIdeal G R) {Q : Measure (Fin d → ℝ)} [IsProbabilityMeasure Q] (hQ : Atomless Q)
    (hc : HasCopula Q (iid d unif)) {reps : ℤ} (hr : 0 ≤ reps) {ties fitTies : String} {t t' : TieMethod} (ht : parseTies ties = .ok t)
    (ht' : parseTies fitTies = .ok t') {α : ℝ} {k : ℤ} (hk : α * (reps + 1) = k) :
    ((iid n Q).prod R) {q | ¬ ∃ r s', (gofIndep q.1 reps ties fitTies).exec q.2 = (.ok r, s') ∧ α < r.2.2} ≤ ENNReal.ofReal α := by
  have hM : (0 : ℝ) < reps + 1 := by
    have : (0 : ℝ) ≤ reps := by exact_mod_cast hr
    linarith
  refine (gof_indep_level hR hQ hc hr ht ht' α).trans (ENNReal.ofReal_le_ofReal (le_of_eq ?_))
  rw [hk, show ⌊(k : ℝ) + 1 / 2⌋ = k from by rw [Int.floor_eq_iff]; constructor <;> linarith, ← hk]
  field_simp

/-! ### Cases -/

example (seeded : ℕ → ℕ → Answers) := gof_indep_rank (n := 50) (idealGen_isIdeal seeded) (iid_unif_atomless 3) (hasCopula_self _) 999

/-- The level 0.05 with 999 replications, 50 rows and three columns. -/
example (seeded : ℕ → ℕ → Answers) := gof_indep_level_exact (n := 50) (idealGen_isIdeal seeded) (iid_unif_atomless 3) (hasCopula_self _)
  (reps := 999) (by norm_num) (ties := "average") (fitTies := "average") rfl rfl (α := 0.05) (k := 50) (by norm_num)

/-- The level 0.05 with 1000 replications. -/
example (seeded : ℕ → ℕ → Answers) := gof_indep_level (n := 50) (idealGen_isIdeal seeded) (iid_unif_atomless 3) (hasCopula_self _)
  (reps := 1000) (by norm_num) (ties := "average") (fitTies := "average") rfl rfl 0.05

end Copulae
