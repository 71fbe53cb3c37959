import Verif.Spec.Consistency
import Verif.Lemmas.UStat
import Verif.Lemmas.Draws
import Verif.Lemmas.CopulaMeasure
import Verif.Lemmas.MarginLaw
import Mathlib.Tactic.Linarith

/-!
Samples without ties, and the closeness of the sample's Kendall tau to that of the law.
-/

namespace Copulae

open MeasureTheory ProbabilityTheory Finset Spec

variable {d n : ℕ} {P : Measure (Fin d → ℝ)}

theorem atomless_of_uniform (h : CopulaMeasure.Uniform P) : Atomless P := by
  intro j y
  have e : {x : Fin d → ℝ | x j = y} = (fun x => x j) ⁻¹' {y} := rfl
  rw [e, ← Measure.map_apply (measurable_pi_apply j) (measurableSet_singleton y), h j]
  simp

theorem noTies_ae [IsProbabilityMeasure P] (h : Atomless P) : ∀ᵐ x ∂(iid n P), NoTies x := by
  unfold NoTies
  rw [ae_all_iff]
  intro j
  rw [ae_all_iff]
  intro i
  rw [ae_all_iff]
  intro k
  by_cases hik : i = k
  · exact ae_of_all _ fun x hne => absurd hik hne
  have hm : MeasurableSet {p : (Fin d → ℝ) × (Fin d → ℝ) | p.1 j = p.2 j} :=
    measurableSet_eq_fun ((measurable_pi_apply j).comp measurable_fst) ((measurable_pi_apply j).comp measurable_snd)
  have h0 : (P.prod P) {p | p.1 j = p.2 j} = 0 := by
    rw [Measure.prod_apply_symm hm, lintegral_eq_zero_iff (measurable_measure_prodMk_right hm)]
    exact ae_of_all _ fun y => h j (y j)
  have h1 : iid n P {x | x i j = x k j} = 0 := by
    have := pi_pair_map (P := P) hik
    rw [← this, Measure.map_apply (by fun_prop) hm] at h0
    exact h0
  rw [ae_iff]
  refine measure_mono_null (fun x hx => ?_) h1
  simp only [Classical.not_imp, not_not] at hx
  exact hx.2

/-- The sign of concordance of two observations. -/
noncomputable def concord (a b : Fin d) (p : (Fin d → ℝ) × (Fin d → ℝ)) : ℝ :=
  (if 0 < (p.1 a - p.2 a) * (p.1 b - p.2 b) then 1 else 0) - (if (p.1 a - p.2 a) * (p.1 b - p.2 b) < 0 then 1 else 0)

theorem concord_le (a b : Fin d) (p) : |concord a b p| ≤ 1 := by
  unfold concord
  split_ifs <;> simp

theorem measurable_prodDiff (a b : Fin d) :
    Measurable fun p : (Fin d → ℝ) × (Fin d → ℝ) => (p.1 a - p.2 a) * (p.1 b - p.2 b) := by fun_prop

theorem measurable_concord (a b : Fin d) : Measurable (concord a b) :=
  (Measurable.ite (measurableSet_lt measurable_const (measurable_prodDiff a b)) measurable_const measurable_const).sub
    (Measurable.ite (measurableSet_lt (measurable_prodDiff a b) measurable_const) measurable_const measurable_const)

theorem integral_concord [IsProbabilityMeasure P] (a b : Fin d) : ∫ p, concord a b p ∂(P.prod P) = kendallTau P a b := by
  have h1 : MeasurableSet {p : (Fin d → ℝ) × (Fin d → ℝ) | 0 < (p.1 a - p.2 a) * (p.1 b - p.2 b)} :=
    measurableSet_lt measurable_const (measurable_prodDiff a b)
  have h2 : MeasurableSet {p : (Fin d → ℝ) × (Fin d → ℝ) | (p.1 a - p.2 a) * (p.1 b - p.2 b) < 0} :=
    measurableSet_lt (measurable_prodDiff a b) measurable_const
  have e1 : (fun p : (Fin d → ℝ) × (Fin d → ℝ) => if 0 < (p.1 a - p.2 a) * (p.1 b - p.2 b) then (1 : ℝ) else 0) =
      Set.indicator {p | 0 < (p.1 a - p.2 a) * (p.1 b - p.2 b)} 1 := by
    funext p; simp [Set.indicator]
  have e2 : (fun p : (Fin d → ℝ) × (Fin d → ℝ) => if (p.1 a - p.2 a) * (p.1 b - p.2 b) < 0 then (1 : ℝ) else 0) =
      Set.indicator {p | (p.1 a - p.2 a) * (p.1 b - p.2 b) < 0} 1 := by
    funext p; simp [Set.indicator]
  have hi : ∀ {s : Set ((Fin d → ℝ) × (Fin d → ℝ))}, MeasurableSet s → Integrable (s.indicator (1 : (Fin d → ℝ) × (Fin d → ℝ) → ℝ)) (P.prod P) :=
    fun hs => (integrable_const (1 : ℝ)).indicator hs
  unfold concord
  rw [integral_sub (e1 ▸ hi h1) (e2 ▸ hi h2), e1, e2, integral_indicator_one h1, integral_indicator_one h2]
  rfl

theorem sum_pairs_symm (f : Fin n × Fin n → ℝ) (hf : ∀ p, f p.swap = f p) :
    ∑ p ∈ pairsOf n, f p = 2 * ∑ p ∈ univ.filter (fun p : Fin n × Fin n => p.1 < p.2), f p := by
  have e : pairsOf n = univ.filter (fun p : Fin n × Fin n => p.1 < p.2) ∪ univ.filter (fun p : Fin n × Fin n => p.2 < p.1) := by
    ext p
    simp [pairsOf, lt_or_lt_iff_ne]
  have hd : Disjoint (univ.filter (fun p : Fin n × Fin n => p.1 < p.2)) (univ.filter (fun p : Fin n × Fin n => p.2 < p.1)) := by
    rw [disjoint_left]
    intro p h1 h2
    exact lt_asymm (mem_filter.mp h1).2 (mem_filter.mp h2).2
  have hs : ∑ p ∈ univ.filter (fun p : Fin n × Fin n => p.2 < p.1), f p =
      ∑ p ∈ univ.filter (fun p : Fin n × Fin n => p.1 < p.2), f p :=
    sum_nbij' Prod.swap Prod.swap (by simp) (by simp) (by simp) (by simp) fun p _ => (hf p).symm
  rw [e, sum_union hd, hs]
  ring

theorem sampleTau_pairMean (x : Fin n → Fin d → ℝ) (a b : Fin d) :
    sampleTau (fun i => x i a) (fun i => x i b) = pairMean (concord a b) x := by
  classical
  unfold pairMean sampleTau
  rw [sum_pairs_symm (fun p => concord a b (x p.1, x p.2)) fun p => by
    have : ∀ p : Fin n × Fin n, (x p.swap.1 a - x p.swap.2 a) * (x p.swap.1 b - x p.swap.2 b) =
        (x p.1 a - x p.2 a) * (x p.1 b - x p.2 b) := fun p => by simp only [Prod.fst_swap, Prod.snd_swap]; ring
    unfold concord
    simp only [this]]
  have c1 : ∀ q : Fin n × Fin n → Prop, (Nat.card {p : Fin n × Fin n // p.1 < p.2 ∧ q p} : ℝ) =
      ∑ p ∈ univ.filter (fun p : Fin n × Fin n => p.1 < p.2), if q p then 1 else 0 := fun q => by
    rw [Nat.card_eq_fintype_card, Fintype.card_subtype, ← filter_filter, sum_boole]
  rw [c1, c1, ← sum_sub_distrib, div_div_eq_mul_div, mul_comm]
  rfl

theorem sampleTau_mem (x y : Fin n → ℝ) (hn : 2 ≤ n) : -1 ≤ sampleTau x y ∧ sampleTau x y ≤ 1 := by
  have hn1 : (2 : ℝ) ≤ n := by exact_mod_cast hn
  have hpos : (0 : ℝ) < n * (n - 1) := by nlinarith
  have := sampleTau_pairMean (d := 2) (fun i j => if j = 0 then x i else y i) 0 1
  simp only [if_true, show ¬ (1 : Fin 2) = 0 by decide, if_false] at this
  rw [this, ← abs_le, pairMean, abs_div, abs_of_pos hpos, div_le_one hpos]
  refine (abs_sum_le_sum_abs _ _).trans ?_
  rw [← card_pairsOf, ← nsmul_one, ← sum_const]
  rw [show ∑ _x ∈ pairsOf n, (1 : ℝ) = (pairsOf n).card • (1 : ℝ) from sum_const _]
  exact sum_le_card_nsmul _ _ _ fun p _ => concord_le _ _ _

/-- Samples from `P` that have ties or a pair of columns whose tau is not within `ε` of that of `P` are unlikely. -/
theorem sampleTau_close [IsProbabilityMeasure P] (hP : Atomless P) (hn : 2 ≤ n) {ε : ℝ} (hε : 0 < ε) :
    iid n P {x | ¬ (NoTies x ∧ ∀ a b, a < b → |sampleTau (fun i => x i a) (fun i => x i b) - kendallTau P a b| < ε)} ≤
      ENNReal.ofReal (2 * d * (d - 1) / ((n - 1) * ε ^ 2)) := by
  classical
  have hn1 : (2 : ℝ) ≤ n := by exact_mod_cast hn
  have h0 := noTies_ae (n := n) hP
  rw [ae_iff] at h0
  have hsub : {x : Fin n → Fin d → ℝ | ¬ (NoTies x ∧ ∀ a b, a < b →
      |sampleTau (fun i => x i a) (fun i => x i b) - kendallTau P a b| < ε)} ⊆
      {x | ¬ NoTies x} ∪ ⋃ p ∈ univ.filter (fun p : Fin d × Fin d => p.1 < p.2),
        {x | ε ≤ |pairMean (concord p.1 p.2) x - ∫ q, concord p.1 p.2 q ∂(P.prod P)|} := by
    intro x hx
    by_cases ht : NoTies x
    · right
      have hx' : ¬ (NoTies x ∧ ∀ a b, a < b → |sampleTau (fun i => x i a) (fun i => x i b) - kendallTau P a b| < ε) := hx
      push Not at hx'
      obtain ⟨a, b, hab, hc⟩ := hx' ht
      simp only [Set.mem_iUnion]
      refine ⟨(a, b), by simpa using hab, ?_⟩
      show ε ≤ |pairMean (concord a b) x - ∫ q, concord a b q ∂(P.prod P)|
      rw [integral_concord, ← sampleTau_pairMean]
      exact hc
    · left; exact ht
  refine (measure_mono hsub).trans ((measure_union_le _ _).trans ?_)
  rw [h0, zero_add]
  refine (measure_biUnion_finset_le _ _).trans ?_
  refine (sum_le_sum fun p _ => pairMean_close (P := P) (measurable_concord p.1 p.2) (concord_le _ _) hn hε).trans ?_
  rw [sum_const, nsmul_eq_mul]
  have hc : (((univ.filter (fun p : Fin d × Fin d => p.1 < p.2)).card : ℕ) : ℝ) = d * (d - 1) / 2 := by
    have := sum_pairs_symm (n := d) (fun _ => 1) fun _ => rfl
    simp only [sum_const, nsmul_eq_mul, mul_one] at this
    rw [card_pairsOf] at this
    linarith
  rw [← ENNReal.ofReal_natCast, ← ENNReal.ofReal_mul (by positivity), hc]
  refine ENNReal.ofReal_le_ofReal (le_of_eq ?_)
  ring

/-- A computation that draws a sample, seen through a property of the sample. -/
theorem likely_of_draws {G : Gen} [MeasurableSpace G.S] {R : Measure G.S} [IsProbabilityMeasure R] {α β : Type}
    [MeasurableSpace β] {c : Rnd G α} {e : β → α} {L : Measure β} [IsProbabilityMeasure L] (hc : Draws R c e L) {δ : ℝ} {good : α → Prop}
    (h : L {x | ¬ good (e x)} ≤ ENNReal.ofReal δ) : Likely R c δ good := by
  obtain ⟨X, next, hX, hnext, hrun, hmap⟩ := hc
  have hlaw : R.map X = L := Draws.law_fst hX hnext hmap
  have hsub : {s | ¬ ∃ a s', c.exec s = (.ok a, s') ∧ good a} ⊆
      {s | ¬ c.exec s = (.ok (e (X s)), next s)} ∪ X ⁻¹' {x | ¬ good (e x)} := by
    intro s hs
    by_cases hr : c.exec s = (.ok (e (X s)), next s)
    · exact Or.inr fun hg => hs ⟨_, _, hr, hg⟩
    · exact Or.inl hr
  refine (measure_mono hsub).trans ((measure_union_le _ _).trans ?_)
  rw [ae_iff.mp hrun, zero_add]
  refine (Measure.le_map_apply hX.aemeasurable _).trans ?_
  rw [hlaw]
  exact h

/-! ### Margins without atoms change neither the order of the observations nor Kendall's tau -/

open CopulaMeasure

variable {m : Fin d → Margin} {M : Fin d → Measure ℝ} {q : Fin d → ℝ → ℝ}

theorem quantile_lt {m : Margin} {M : Measure ℝ} {q : ℝ → ℝ} (h : IsMarginLaw m M q) (hM : ∀ y, M {y} = 0)
    {u v : ℝ} (hu : 0 < u ∧ u < 1) (hv : 0 < v ∧ v < 1) : qHat q u < qHat q v ↔ u < v := by
  rw [qHat_eq hu.1 hu.2, qHat_eq hv.1 hv.2, ← not_le, ← not_le, h.quantile v hv.1 hv.2,
    cdf_quantile_atomless h hM hu.1 hu.2]

theorem sign_diff {u v a b : ℝ} (h1 : a < b ↔ u < v) (h2 : b < a ↔ v < u) : SignType.sign (a - b) = SignType.sign (u - v) := by
  rcases lt_trichotomy u v with h | h | h
  · rw [sign_neg (sub_neg.mpr h), sign_neg (sub_neg.mpr (h1.mpr h))]
  · have : a = b := le_antisymm (not_lt.mp fun hb => (h2.mp hb).ne' h) (not_lt.mp fun hb => (h1.mp hb).ne h)
    rw [h, this, sub_self, sub_self]
  · rw [sign_pos (sub_pos.mpr h), sign_pos (sub_pos.mpr (h2.mpr h))]

theorem jointLaw_kendall {P : Measure (Fin d → ℝ)} [IsProbabilityMeasure P] (hP : Uniform P)
    (h : ∀ j, IsMarginLaw (m j) (M j) (q j)) (hM : ∀ j y, M j {y} = 0) : kendallTau (jointLaw P q) = kendallTau P := by
  have hm := measurable_quantiles h
  have hu := uniform_ae' hP
  have h1 : ∀ᵐ p ∂(P.prod P), ∀ j, 0 < p.1 j ∧ p.1 j < 1 := Measure.quasiMeasurePreserving_fst.ae hu
  have h2 : ∀ᵐ p ∂(P.prod P), ∀ j, 0 < p.2 j ∧ p.2 j < 1 := Measure.quasiMeasurePreserving_snd.ae hu
  funext a b
  have hs : ∀ᵐ p ∂(P.prod P), SignType.sign ((qHat (q a) (p.1 a) - qHat (q a) (p.2 a)) *
      (qHat (q b) (p.1 b) - qHat (q b) (p.2 b))) = SignType.sign ((p.1 a - p.2 a) * (p.1 b - p.2 b)) := by
    filter_upwards [h1, h2] with p hp1 hp2
    rw [sign_mul, sign_mul]
    rw [sign_diff (quantile_lt (h a) (hM a) (hp1 a) (hp2 a)) (quantile_lt (h a) (hM a) (hp2 a) (hp1 a)),
      sign_diff (quantile_lt (h b) (hM b) (hp1 b) (hp2 b)) (quantile_lt (h b) (hM b) (hp2 b) (hp1 b))]
  have hmap : (jointLaw P q).prod (jointLaw P q) =
      (P.prod P).map (Prod.map (fun u j => qHat (q j) (u j)) fun u j => qHat (q j) (u j)) := by
    unfold jointLaw
    rw [Measure.map_prod_map _ _ hm hm]
  unfold kendallTau
  rw [hmap, map_measureReal_apply (hm.prodMap hm) (measurableSet_lt measurable_const (measurable_prodDiff a b)),
    map_measureReal_apply (hm.prodMap hm) (measurableSet_lt (measurable_prodDiff a b) measurable_const)]
  congr 1
  · refine measureReal_congr ?_
    filter_upwards [hs] with p hp
    refine propext ?_
    show 0 < ((qHat (q a) (p.1 a) - qHat (q a) (p.2 a)) * (qHat (q b) (p.1 b) - qHat (q b) (p.2 b))) ↔
      0 < ((p.1 a - p.2 a) * (p.1 b - p.2 b))
    rw [← sign_eq_one_iff, ← sign_eq_one_iff, hp]
  · refine measureReal_congr ?_
    filter_upwards [hs] with p hp
    refine propext ?_
    show ((qHat (q a) (p.1 a) - qHat (q a) (p.2 a)) * (qHat (q b) (p.1 b) - qHat (q b) (p.2 b))) < 0 ↔
      ((p.1 a - p.2 a) * (p.1 b - p.2 b)) < 0
    rw [← sign_eq_neg_one_iff, ← sign_eq_neg_one_iff, hp]

theorem jointLaw_atomless {P : Measure (Fin d → ℝ)} [IsProbabilityMeasure P] (hP : Uniform P)
    (h : ∀ j, IsMarginLaw (m j) (M j) (q j)) (hM : ∀ j y, M j {y} = 0) : Atomless (jointLaw P q) := by
  intro j y
  have e : {x : Fin d → ℝ | x j = y} = (fun x => x j) ⁻¹' {y} := rfl
  rw [e, ← Measure.map_apply (measurable_pi_apply j) (measurableSet_singleton y), (jointLaw_isJoint hP h).margin j, hM]

end Copulae
