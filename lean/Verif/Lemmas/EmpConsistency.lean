import Verif.Lemmas.EmpKernel
import Verif.Lemmas.Consistency
import Verif.Lemmas.CopulaDensity
import Verif.Props.SampleLaw

/-!
The empirical copula of a sample is close to the copula of the law of the sample.
-/

namespace Copulae

open MeasureTheory ProbabilityTheory Finset Spec

variable {d n : ℕ}

theorem prod_near {ι : Type*} (s : Finset ι) (a b : ι → ℝ) (ha : ∀ j ∈ s, 0 ≤ a j ∧ a j ≤ 1) (hb : ∀ j ∈ s, 0 ≤ b j ∧ b j ≤ 1) :
    |∏ j ∈ s, a j - ∏ j ∈ s, b j| ≤ ∑ j ∈ s, |a j - b j| := by
  classical
  induction s using Finset.induction_on with
  | empty => simp
  | insert k s hk ih =>
    have ih' := ih (fun j hj => ha j (mem_insert_of_mem hj)) fun j hj => hb j (mem_insert_of_mem hj)
    rw [prod_insert hk, prod_insert hk, sum_insert hk]
    have h1 := ha k (mem_insert_self k s)
    have hP0 : 0 ≤ ∏ j ∈ s, b j := prod_nonneg fun j hj => (hb j (mem_insert_of_mem hj)).1
    have hP1 : ∏ j ∈ s, b j ≤ 1 := prod_le_one (fun j hj => (hb j (mem_insert_of_mem hj)).1) fun j hj =>
      (hb j (mem_insert_of_mem hj)).2
    have e : a k * ∏ j ∈ s, a j - b k * ∏ j ∈ s, b j
        = a k * (∏ j ∈ s, a j - ∏ j ∈ s, b j) + (a k - b k) * ∏ j ∈ s, b j := by ring
    rw [e]
    refine (abs_add_le _ _).trans ?_
    rw [abs_mul, abs_mul, abs_of_nonneg h1.1, abs_of_nonneg hP0]
    have h2 : a k * |∏ j ∈ s, a j - ∏ j ∈ s, b j| ≤ |∏ j ∈ s, a j - ∏ j ∈ s, b j| := by
      nlinarith [abs_nonneg (∏ j ∈ s, a j - ∏ j ∈ s, b j)]
    have h3 : |a k - b k| * ∏ j ∈ s, b j ≤ |a k - b k| := by nlinarith [abs_nonneg (a k - b k)]
    linarith

theorem ordPerm_lt {x : Fin n → ℝ} (hx : Function.Injective x) (i k : Fin n) : ordPerm x k < ordPerm x i ↔ x k < x i := by
  have h : ∀ i k : Fin n, x k < x i → ordPerm x k < ordPerm x i := by
    intro i k hlt
    have := rankdata_lt .ordinal x hlt
    rw [rankdata_ordinal_perm, rankdata_ordinal_perm] at this
    rw [Fin.lt_def]
    have h' : (((ordPerm x k : Fin n) : ℕ) : ℚ) < ((ordPerm x i : Fin n) : ℕ) := by linarith
    exact_mod_cast h'
  refine ⟨fun hlt => ?_, h i k⟩
  rcases lt_trichotomy (x k) (x i) with h1 | h1 | h1
  · exact h1
  · rw [hx h1] at hlt
    exact absurd hlt (lt_irrefl _)
  · exact absurd (h k i h1) hlt.asymm

/-- The observations in a lower set are those with the smallest ranks. -/
theorem mem_lower_iff {x : Fin n → ℝ} (hx : Function.Injective x) {A : Set ℝ} (hA : IsLowerSet A) (i : Fin n) :
    x i ∈ A ↔ ((ordPerm x i : Fin n) : ℕ) < Nat.card {k // x k ∈ A} := by
  classical
  have hc : Nat.card {k // x k ∈ A} = (univ.filter fun k => x k ∈ A).card := by
    rw [Nat.card_eq_fintype_card, Fintype.card_subtype]
  rw [hc]
  have hcard := cntLt_of_perm (ordPerm x) i
  constructor
  · intro hi
    rw [← Nat.succ_le_iff, ← hcard, Nat.succ_eq_add_one,
      ← card_insert_of_notMem (s := univ.filter fun j => ordPerm x j < ordPerm x i) (a := i) (by simp)]
    refine card_le_card fun k hk => ?_
    rw [mem_insert, mem_filter] at hk
    rw [mem_filter]
    refine ⟨mem_univ _, ?_⟩
    rcases hk with rfl | ⟨-, hk⟩
    · exact hi
    · exact hA ((ordPerm_lt hx i k).mp hk).le hi
  · intro hlt
    by_contra hi
    refine absurd hlt (not_lt.mpr ?_)
    rw [← hcard]
    refine card_le_card fun k hk => ?_
    rw [mem_filter] at hk ⊢
    refine ⟨mem_univ _, (ordPerm_lt hx i k).mpr ?_⟩
    by_contra hge
    exact hi (hA (not_lt.mp hge) hk.2)

theorem empReal_monotone (s : Smoothing) {r : Fin n → Fin d → ℝ} (hr : ∀ i j, 1 ≤ r i j ∧ r i j ≤ n) {offset : ℝ} (ho : 0 ≤ offset)
    {v w : Fin d → ℝ} (h0 : ∀ j, 0 ≤ v j) (hvw : ∀ j, v j ≤ w j) (h1 : ∀ j, w j ≤ 1) :
    empReal s r offset v ≤ empReal s r offset w := by
  unfold empReal
  refine div_le_div_of_nonneg_right (sum_le_sum fun i _ => prod_le_prod (fun j _ => ?_) fun j _ => ?_) (by positivity)
  · exact (real_mem s (hr i j).1 (hr i j).2 (h0 j) ((hvw j).trans (h1 j))).1
  · exact real_mono s (hr i j).1 (hr i j).2 (h0 j) (hvw j) (h1 j)

/-- The empirical copula at `v` and the fraction of the observations in the product of lower sets. -/
theorem empReal_near (s : Smoothing) (hn : 0 < n) {x : Fin n → Fin d → ℝ} (hx : NoTies x) (tm : TieMethod) {offset : ℝ}
    (ho : 0 ≤ offset) {v : Fin d → ℝ} (h0 : ∀ j, 0 ≤ v j) (h1 : ∀ j, v j ≤ 1) {A : Fin d → Set ℝ} (hA : ∀ j, IsLowerSet (A j)) :
    |empReal s (fun i j => ((rankdata tm (fun k => x k j) i : ℚ) : ℝ)) offset v - (Nat.card {i // ∀ j, x i j ∈ A j} : ℝ) / n|
      ≤ ∑ j, |(Nat.card {i // x i j ∈ A j} : ℝ) / n - v j| + d * (Real.sqrt n + 2) / n + offset / n := by
  classical
  have hn' : (0 : ℝ) < n := by exact_mod_cast hn
  have hinj : ∀ j, Function.Injective fun i => x i j := fun j i k h => by_contra fun hne => hx j i k hne h
  set r : Fin n → Fin d → ℝ := fun i j => ((rankdata tm (fun k => x k j) i : ℚ) : ℝ) with hr
  have hrm : ∀ i j, 1 ≤ r i j ∧ r i j ≤ n := fun i j => rank_real_mem x tm i j
  have hrv : ∀ i j, r i j = (((ordPerm fun k => x k j) i : Fin n) : ℕ) + 1 := by
    intro i j
    simp only [hr]
    rw [rankdata_eq_of_injective tm _ (hinj j), rankdata_ordinal_perm]
    push_cast
    rfl
  have hk01 : ∀ i j, 0 ≤ s.real n (r i j) (v j) ∧ s.real n (r i j) (v j) ≤ 1 := fun i j =>
    real_mem s (hrm i j).1 (hrm i j).2 (h0 j) (h1 j)
  -- column by column
  have hcol : ∀ j, ∑ i, |s.real n (r i j) (v j) - if x i j ∈ A j then 1 else 0|
      ≤ Real.sqrt n + 2 + n * |(Nat.card {i // x i j ∈ A j} : ℝ) / n - v j| := by
    intro j
    obtain ⟨m, hmn, hm1, hm2⟩ := kernel_near s hn (h0 j) (h1 j)
    set K := Nat.card {i // x i j ∈ A j} with hK
    have hKn : K ≤ n := by
      rw [hK, Nat.card_eq_fintype_card]
      exact (Fintype.card_subtype_le _).trans (by simp)
    have e : ∑ i, |s.real n (r i j) (v j) - if x i j ∈ A j then 1 else 0|
        = ∑ k ∈ range n, |s.real n ((k : ℕ) + 1) (v j) - if k < K then 1 else 0| := by
      rw [sum_range, ← Equiv.sum_comp (ordPerm fun i => x i j)
        fun k : Fin n => |s.real n ((k : ℕ) + 1) (v j) - if (k : ℕ) < K then 1 else 0|]
      refine sum_congr rfl fun i _ => ?_
      rw [hrv i j]
      simp only [mem_lower_iff (hinj j) (hA j) i, ← hK]
    rw [e]
    have htri : ∀ k ∈ range n, |s.real n ((k : ℕ) + 1) (v j) - if k < K then 1 else 0|
        ≤ |s.real n ((k : ℕ) + 1) (v j) - if k < m then 1 else 0| + |(if k < m then (1 : ℝ) else 0) - if k < K then 1 else 0| :=
      fun k _ => abs_sub_le _ _ _
    refine (sum_le_sum htri).trans ?_
    rw [sum_add_distrib, sum_between hmn hKn]
    have h2 := abs_sub_le (m : ℝ) (n * v j) K
    have h3 : |(n : ℝ) * v j - K| = n * |(K : ℝ) / n - v j| := by
      rw [← abs_of_pos hn', ← abs_mul, abs_of_pos hn', abs_sub_comm]
      congr 1
      field_simp
    rw [h3] at h2
    linarith
  -- the sum over the rows
  have hS : |∑ i, ∏ j, s.real n (r i j) (v j) - (Nat.card {i // ∀ j, x i j ∈ A j} : ℝ)|
      ≤ n * ∑ j, |(Nat.card {i // x i j ∈ A j} : ℝ) / n - v j| + d * (Real.sqrt n + 2) := by
    have hcount : (Nat.card {i // ∀ j, x i j ∈ A j} : ℝ) = ∑ i, ∏ j, if x i j ∈ A j then (1 : ℝ) else 0 := by
      rw [Nat.card_eq_fintype_card, Fintype.card_subtype, card_eq_sum_ones, Nat.cast_sum, sum_filter]
      refine sum_congr rfl fun i _ => ?_
      rw [prod_ite_zero]
      simp
    rw [hcount, ← sum_sub_distrib]
    refine (abs_sum_le_sum_abs _ _).trans ?_
    calc ∑ i, |∏ j, s.real n (r i j) (v j) - ∏ j, if x i j ∈ A j then (1 : ℝ) else 0|
        ≤ ∑ i, ∑ j, |s.real n (r i j) (v j) - if x i j ∈ A j then 1 else 0| :=
          sum_le_sum fun i _ => prod_near _ _ _ (fun j _ => hk01 i j) fun j _ => by split_ifs <;> norm_num
      _ = ∑ j, ∑ i, |s.real n (r i j) (v j) - if x i j ∈ A j then 1 else 0| := sum_comm
      _ ≤ ∑ j, (Real.sqrt n + 2 + n * |(Nat.card {i // x i j ∈ A j} : ℝ) / n - v j|) := sum_le_sum fun j _ => hcol j
      _ = _ := by
        rw [sum_add_distrib, ← mul_sum, sum_const, card_univ, Fintype.card_fin, nsmul_eq_mul]
        ring
  set T := ∑ i, ∏ j, s.real n (r i j) (v j) with hT
  have hT0 : 0 ≤ T := sum_nonneg fun i _ => prod_nonneg fun j _ => (hk01 i j).1
  have hTn : T ≤ n := by
    have : T ≤ ∑ _i : Fin n, (1 : ℝ) := sum_le_sum fun i _ => prod_le_one (fun j _ => (hk01 i j).1) fun j _ => (hk01 i j).2
    simpa using this
  have hoff : |T / (n + offset) - T / n| ≤ offset / n := by
    have e : T / n - T / (n + offset) = T * offset / ((n + offset) * n) := by
      field_simp
      ring
    rw [abs_sub_comm, e, abs_of_nonneg (by positivity), div_le_div_iff₀ (by positivity) hn']
    have : T * offset ≤ (n + offset) * offset := mul_le_mul_of_nonneg_right (by linarith) ho
    nlinarith
  have hmain : |T / n - (Nat.card {i // ∀ j, x i j ∈ A j} : ℝ) / n|
      ≤ ∑ j, |(Nat.card {i // x i j ∈ A j} : ℝ) / n - v j| + d * (Real.sqrt n + 2) / n := by
    rw [← sub_div, abs_div, abs_of_pos hn', div_le_iff₀ hn']
    refine hS.trans (le_of_eq ?_)
    field_simp
  have := abs_sub_le (T / (n + offset)) (T / n) ((Nat.card {i // ∀ j, x i j ∈ A j} : ℝ) / n)
  unfold empReal
  linarith

/-! ### Probabilities -/

open CopulaMeasure

/-- `Q` has the copula with law `P`: monotone transformations of the columns turn `Q` into `P`. -/
def Spec.HasCopula (Q P : Measure (Fin d → ℝ)) : Prop :=
  ∃ F : Fin d → ℝ → ℝ, (∀ j, Monotone (F j)) ∧ Q.map (fun x j => F j (x j)) = P

theorem hasCopula_self (P : Measure (Fin d → ℝ)) : HasCopula P P :=
  ⟨fun _ => id, fun _ => monotone_id, Measure.map_id⟩

theorem jointLaw_hasCopula {P : Measure (Fin d → ℝ)} [IsProbabilityMeasure P] (hP : Uniform P) {m : Fin d → Margin}
    {M : Fin d → Measure ℝ} {q : Fin d → ℝ → ℝ} (h : ∀ j, IsMarginLaw (m j) (M j) (q j)) (hM : ∀ j y, M j {y} = 0) :
    HasCopula (jointLaw P q) P := by
  have hmono : ∀ j, Monotone fun y => (M j).real (Set.Iic y) := fun j a b hab => by
    have := (h j).prob
    exact measureReal_mono (Set.Iic_subset_Iic.mpr hab)
  refine ⟨fun j y => (M j).real (Set.Iic y), hmono, ?_⟩
  have hFm : Measurable fun (x : Fin d → ℝ) j => (M j).real (Set.Iic (x j)) :=
    measurable_pi_lambda _ fun j => (hmono j).measurable.comp (measurable_pi_apply j)
  show (jointLaw P q).map (fun x j => (M j).real (Set.Iic (x j))) = P
  rw [jointLaw, Measure.map_map hFm (measurable_quantiles h)]
  conv_rhs => rw [← Measure.map_id (μ := P)]
  refine Measure.map_congr ?_
  filter_upwards [uniform_ae' hP] with u hu
  funext j
  show (M j).real (Set.Iic (qHat (q j) (u j))) = u j
  rw [qHat_eq (hu j).1 (hu j).2, cdf_quantile_atomless (h j) (hM j) (hu j).1 (hu j).2]

/-- The frequencies that matter at one point. -/
theorem frequencies_close {Q P : Measure (Fin d → ℝ)} [IsProbabilityMeasure Q] [IsProbabilityMeasure P] (hP : Uniform P)
    {F : Fin d → ℝ → ℝ} (hF : ∀ j, Monotone (F j)) (hQ : Q.map (fun x j => F j (x j)) = P) (hn : 0 < n) {v : Fin d → ℝ}
    (h0 : ∀ j, 0 ≤ v j) (h1 : ∀ j, v j ≤ 1) {η : ℝ} (hη : 0 < η) :
    iid n Q {x | ¬ (|(Nat.card {i // ∀ j, x i j ∈ {y | F j y ≤ v j}} : ℝ) / n - distFn P v| < η ∧
      ∀ j, |(Nat.card {i // x i j ∈ {y | F j y ≤ v j}} : ℝ) / n - v j| < η)}
      ≤ ENNReal.ofReal ((d + 1) / (4 * n * η ^ 2)) := by
  have hFm : Measurable fun (x : Fin d → ℝ) j => F j (x j) :=
    measurable_pi_lambda _ fun j => (hF j).measurable.comp (measurable_pi_apply j)
  have hm0 : MeasurableSet {x : Fin d → ℝ | ∀ j, F j (x j) ≤ v j} := hFm (measurableSet_le v)
  have hmj : ∀ j, MeasurableSet {x : Fin d → ℝ | F j (x j) ≤ v j} := fun j =>
    ((hF j).measurable.comp (measurable_pi_apply j)) measurableSet_Iic
  have e0 : Q.real {x | ∀ j, F j (x j) ≤ v j} = distFn P v := by
    rw [distFn, ← hQ, map_measureReal_apply hFm (measurableSet_le v)]
    rfl
  have ej : ∀ j, Q.real {x | F j (x j) ≤ v j} = v j := by
    intro j
    have h := uniform_le hP j (h0 j) (h1 j)
    have hms : MeasurableSet {x : Fin d → ℝ | x j ≤ v j} := measurable_pi_apply j measurableSet_Iic
    rw [← hQ, map_measureReal_apply hFm hms] at h
    exact h
  have k0 := (iid_frequency (L := Q) hn hm0 hη).2
  have kj := fun j => (iid_frequency (L := Q) hn (hmj j) hη).2
  rw [e0] at k0
  simp only [ej] at kj
  have hsub : {x : Fin n → Fin d → ℝ | ¬ (|(Nat.card {i // ∀ j, x i j ∈ {y | F j y ≤ v j}} : ℝ) / n - distFn P v| < η ∧
      ∀ j, |(Nat.card {i // x i j ∈ {y | F j y ≤ v j}} : ℝ) / n - v j| < η)} ⊆
      {x | η ≤ |(Nat.card {i // x i ∈ {x : Fin d → ℝ | ∀ j, F j (x j) ≤ v j}} : ℝ) / n - distFn P v|} ∪
      ⋃ j, {x | η ≤ |(Nat.card {i // x i ∈ {x : Fin d → ℝ | F j (x j) ≤ v j}} : ℝ) / n - v j|} := by
    intro x hx
    rw [Set.mem_ofPred_eq, not_and_or] at hx
    rcases hx with hx | hx
    · exact Or.inl (not_lt.mp hx)
    · push Not at hx
      obtain ⟨j, hj⟩ := hx
      exact Or.inr (Set.mem_iUnion.mpr ⟨j, hj⟩)
  refine (measure_mono hsub).trans ((measure_union_le _ _).trans
    ((add_le_add k0 ((measure_iUnion_fintype_le _ _).trans (sum_le_sum fun j _ => kj j))).trans ?_))
  rw [sum_const, card_univ, Fintype.card_fin, nsmul_eq_mul, ← ENNReal.ofReal_natCast, ← ENNReal.ofReal_mul (by positivity),
    ← ENNReal.ofReal_add (by positivity) (by positivity)]
  refine ENNReal.ofReal_le_ofReal (le_of_eq ?_)
  ring

/-- The points of a grid with `m` steps in every direction. -/
noncomputable def cubeGrid (m : ℕ) (g : Fin d → Fin (m + 1)) (j : Fin d) : ℝ := (g j : ℕ) / m

theorem cubeGrid_mem {m : ℕ} (hm : 0 < m) (g : Fin d → Fin (m + 1)) (j : Fin d) : 0 ≤ cubeGrid m g j ∧ cubeGrid m g j ≤ 1 := by
  have hm' : (0 : ℝ) < m := by exact_mod_cast hm
  unfold cubeGrid
  refine ⟨by positivity, ?_⟩
  rw [div_le_one hm']
  exact_mod_cast Nat.lt_succ_iff.mp (g j).2

theorem grid_around {m : ℕ} (hm : 0 < m) {v : Fin d → ℝ} (h0 : ∀ j, 0 ≤ v j) (h1 : ∀ j, v j ≤ 1) :
    ∃ a b : Fin d → Fin (m + 1), (∀ j, cubeGrid m a j ≤ v j ∧ v j - cubeGrid m a j ≤ 1 / m) ∧
      ∀ j, v j ≤ cubeGrid m b j ∧ cubeGrid m b j - v j ≤ 1 / m := by
  have hm' : (0 : ℝ) < m := by exact_mod_cast hm
  have hmv : ∀ j, (m : ℝ) * v j ≤ m := fun j => by nlinarith [h1 j]
  have hmv0 : ∀ j, 0 ≤ (m : ℝ) * v j := fun j => mul_nonneg hm'.le (h0 j)
  have hfl : ∀ j, ⌊(m : ℝ) * v j⌋₊ < m + 1 := fun j => by
    have := Nat.floor_le_floor (hmv j)
    rw [Nat.floor_natCast] at this
    omega
  have hce : ∀ j, ⌈(m : ℝ) * v j⌉₊ < m + 1 := fun j => by
    have := Nat.ceil_le.mpr (hmv j)
    omega
  refine ⟨fun j => ⟨_, hfl j⟩, fun j => ⟨_, hce j⟩, fun j => ?_, fun j => ?_⟩
  · have ha := Nat.floor_le (hmv0 j)
    have hb := Nat.lt_floor_add_one ((m : ℝ) * v j)
    simp only [cubeGrid]
    constructor
    · rw [div_le_iff₀ hm']
      linarith
    · rw [sub_le_iff_le_add, ← add_div, le_div_iff₀ hm']
      linarith
  · have ha := Nat.le_ceil ((m : ℝ) * v j)
    have hb := Nat.ceil_lt_add_one (hmv0 j)
    simp only [cubeGrid]
    constructor
    · rw [le_div_iff₀ hm']
      linarith
    · rw [sub_le_iff_le_add, div_le_iff₀ hm', add_mul, one_div, inv_mul_cancel₀ hm'.ne']
      linarith

theorem distFn_mono (P : Measure (Fin d → ℝ)) [IsProbabilityMeasure P] {v w : Fin d → ℝ} (h : ∀ j, v j ≤ w j) :
    distFn P v ≤ distFn P w :=
  measureReal_mono fun _ hx j => (hx j).trans (h j)

/-- Closeness on the grid is closeness everywhere. -/
theorem close_of_grid {P : Measure (Fin d → ℝ)} [IsProbabilityMeasure P] (hP : Uniform P) {C : (Fin d → ℝ) → ℝ}
    (hC : ∀ v w : Fin d → ℝ, (∀ j, 0 ≤ v j) → (∀ j, v j ≤ w j) → (∀ j, w j ≤ 1) → C v ≤ C w) {m : ℕ} (hm : 0 < m) {ε : ℝ}
    (hg : ∀ g : Fin d → Fin (m + 1), |C (cubeGrid m g) - distFn P (cubeGrid m g)| < ε) {v : Fin d → ℝ} (h0 : ∀ j, 0 ≤ v j)
    (h1 : ∀ j, v j ≤ 1) : |C v - distFn P v| < ε + d / m := by
  obtain ⟨a, b, ha, hb⟩ := grid_around hm h0 h1
  have hlip : ∀ w : Fin d → ℝ, (∀ j, 0 ≤ w j ∧ w j ≤ 1) → (∀ j, |w j - v j| ≤ 1 / m) → |distFn P w - distFn P v| ≤ d / m := by
    intro w hw hd
    refine (df_lipschitz hP hw fun j => ⟨h0 j, h1 j⟩).trans ((sum_le_sum fun j _ => hd j).trans (le_of_eq ?_))
    rw [sum_const, card_univ, Fintype.card_fin, nsmul_eq_mul]
    ring
  have la := abs_le.mp (hlip _ (cubeGrid_mem hm a) fun j => by
    rw [abs_sub_comm, abs_of_nonneg (by linarith [(ha j).1])]
    exact (ha j).2)
  have lb := abs_le.mp (hlip _ (cubeGrid_mem hm b) fun j => by
    rw [abs_of_nonneg (by linarith [(hb j).1])]
    exact (hb j).2)
  have ca := hC _ _ (fun j => (cubeGrid_mem hm a j).1) (fun j => (ha j).1) h1
  have cb := hC _ _ h0 (fun j => (hb j).1) fun j => (cubeGrid_mem hm b j).2
  have ga := abs_lt.mp (hg a)
  have gb := abs_lt.mp (hg b)
  rw [abs_lt]
  constructor <;> linarith [la.1, la.2, lb.1, lb.2, ga.1, gb.2]

/-- The empirical copula of `n` independent rows is uniformly close to the copula. -/
theorem empReal_close {Q P : Measure (Fin d → ℝ)} [IsProbabilityMeasure Q] [IsProbabilityMeasure P] (hP : Uniform P)
    (hQ : Atomless Q) (hc : HasCopula Q P) {offset ε δ : ℝ} (ho : 0 ≤ offset) (hε : 0 < ε) (hδ : 0 < δ) :
    ∃ N : ℕ, 0 < N ∧ ∀ n, N ≤ n → iid n Q {x | ¬ ∀ (s : Smoothing) (tm : TieMethod) (v : Fin d → ℝ), (∀ j, 0 ≤ v j) →
      (∀ j, v j ≤ 1) → |empReal s (fun i j => ((rankdata tm (fun k => x k j) i : ℚ) : ℝ)) offset v - distFn P v| < ε}
      ≤ ENNReal.ofReal δ := by
  obtain ⟨F, hF, hFQ⟩ := hc
  obtain ⟨m, hm⟩ := exists_nat_gt (2 * (d : ℝ) / ε)
  have hm0 : (0 : ℝ) < m + 1 := by positivity
  -- the grid has `m + 1` steps
  set η : ℝ := ε / (8 * (d + 1)) with hη
  have hη0 : 0 < η := by positivity
  set c : ℝ := ((Fintype.card (Fin d → Fin (m + 1 + 1)) : ℕ) : ℝ) with hcdef
  have hc0 : 0 ≤ c := Nat.cast_nonneg _
  obtain ⟨N1, hN1⟩ := exists_nat_gt (c * (d + 1) / (4 * δ * η ^ 2))
  obtain ⟨N2, hN2⟩ := exists_nat_gt ((3 * d / (ε / 8)) ^ 2)
  obtain ⟨N3, hN3⟩ := exists_nat_gt (offset / (ε / 8))
  refine ⟨N1 + N2 + N3 + 1, by omega, fun n hn => ?_⟩
  have hn1 : (N1 : ℝ) + N2 + N3 + 1 ≤ n := by exact_mod_cast hn
  have hN1' : (0 : ℝ) ≤ N1 := Nat.cast_nonneg _
  have hN2' : (0 : ℝ) ≤ N2 := Nat.cast_nonneg _
  have hN3' : (0 : ℝ) ≤ N3 := Nat.cast_nonneg _
  have hnpos : 0 < n := by omega
  have hn' : (0 : ℝ) < n := by linarith
  have : IsProbabilityMeasure (iid n Q) := by unfold iid; infer_instance
  set bad : (Fin d → Fin (m + 1 + 1)) → Set (Fin n → Fin d → ℝ) := fun g =>
    {x | ¬ (|(Nat.card {i // ∀ j, x i j ∈ {y | F j y ≤ cubeGrid (m + 1) g j}} : ℝ) / n - distFn P (cubeGrid (m + 1) g)| < η ∧
      ∀ j, |(Nat.card {i // x i j ∈ {y | F j y ≤ cubeGrid (m + 1) g j}} : ℝ) / n - cubeGrid (m + 1) g j| < η)} with hbad
  have hsub : {x : Fin n → Fin d → ℝ | ¬ ∀ (s : Smoothing) (tm : TieMethod) (v : Fin d → ℝ), (∀ j, 0 ≤ v j) →
      (∀ j, v j ≤ 1) → |empReal s (fun i j => ((rankdata tm (fun k => x k j) i : ℚ) : ℝ)) offset v - distFn P v| < ε}
      ⊆ {x | ¬ NoTies x} ∪ ⋃ g, bad g := by
    intro x hx
    by_contra hcon
    rw [Set.mem_union, not_or, Set.mem_iUnion, not_exists] at hcon
    obtain ⟨h1, h2⟩ := hcon
    have hx' : NoTies x := not_not.mp h1
    refine hx fun s tm v hv0 hv1 => ?_
    have hgrid : ∀ g : Fin d → Fin (m + 1 + 1), |empReal s (fun i j => ((rankdata tm (fun k => x k j) i : ℚ) : ℝ)) offset
        (cubeGrid (m + 1) g) - distFn P (cubeGrid (m + 1) g)| < ε / 2 := by
      intro g
      obtain ⟨h3, h4⟩ := not_not.mp (h2 g)
      have hmem := cubeGrid_mem (Nat.succ_pos m) g
      have h5 := empReal_near s hnpos hx' tm ho (fun j => (hmem j).1) (fun j => (hmem j).2)
        (A := fun j => {y | F j y ≤ cubeGrid (m + 1) g j}) fun j a b hab ha => (hF j hab).trans ha
      have h6 : ∑ j, |(Nat.card {i // x i j ∈ {y | F j y ≤ cubeGrid (m + 1) g j}} : ℝ) / n - cubeGrid (m + 1) g j| ≤ d * η := by
        refine (sum_le_sum fun j _ => (h4 j).le).trans (le_of_eq ?_)
        rw [sum_const, card_univ, Fintype.card_fin, nsmul_eq_mul]
      have h7 : (d : ℝ) * (Real.sqrt n + 2) / n ≤ ε / 8 := by
        have hs1 : 1 ≤ Real.sqrt n := by
          rw [Real.one_le_sqrt]
          linarith
        have hs2 := Real.mul_self_sqrt hn'.le
        have hs3 : 3 * d / (ε / 8) ≤ Real.sqrt n := Real.le_sqrt_of_sq_le (by linarith)
        rw [div_le_iff₀ (by positivity)] at hs3
        rw [div_le_iff₀ hn']
        have hd0 : (0 : ℝ) ≤ d := Nat.cast_nonneg _
        calc (d : ℝ) * (Real.sqrt n + 2) ≤ d * (3 * Real.sqrt n) := mul_le_mul_of_nonneg_left (by linarith) hd0
          _ = 3 * d * Real.sqrt n := by ring
          _ ≤ Real.sqrt n * (ε / 8) * Real.sqrt n := mul_le_mul_of_nonneg_right hs3 (by linarith)
          _ = ε / 8 * (Real.sqrt n * Real.sqrt n) := by ring
          _ = ε / 8 * n := by rw [hs2]
      have h8 : offset / n ≤ ε / 8 := by
        rw [div_lt_iff₀ (by positivity)] at hN3
        rw [div_le_iff₀ hn']
        nlinarith
      have h9 : (d + 1) * η = ε / 8 := by
        rw [hη]
        field_simp
      have h10 := abs_sub_le (empReal s (fun i j => ((rankdata tm (fun k => x k j) i : ℚ) : ℝ)) offset (cubeGrid (m + 1) g))
        ((Nat.card {i // ∀ j, x i j ∈ {y | F j y ≤ cubeGrid (m + 1) g j}} : ℝ) / n) (distFn P (cubeGrid (m + 1) g))
      linarith
    have h11 := close_of_grid hP (C := empReal s (fun i j => ((rankdata tm (fun k => x k j) i : ℚ) : ℝ)) offset)
      (fun v w h0 hvw h1 => empReal_monotone s (fun i j => rank_real_mem x tm i j) ho h0 hvw h1) (Nat.succ_pos m) hgrid hv0 hv1
    have h12 : (d : ℝ) / ((m + 1 : ℕ) : ℝ) ≤ ε / 2 := by
      push_cast
      rw [div_le_div_iff₀ hm0 two_pos]
      rw [div_lt_iff₀ hε] at hm
      nlinarith
    linarith
  refine (measure_mono hsub).trans ((measure_union_le _ _).trans ?_)
  rw [show iid n Q {x | ¬ NoTies x} = 0 from ae_iff.mp (noTies_ae hQ), zero_add]
  refine (measure_iUnion_fintype_le _ _).trans ((sum_le_sum fun g _ => frequencies_close hP hF hFQ hnpos
    (fun j => (cubeGrid_mem (Nat.succ_pos m) g j).1) (fun j => (cubeGrid_mem (Nat.succ_pos m) g j).2) hη0).trans ?_)
  rw [sum_const, card_univ, nsmul_eq_mul, ← ENNReal.ofReal_natCast, ← ENNReal.ofReal_mul hc0]
  refine ENNReal.ofReal_le_ofReal ?_
  rw [div_lt_iff₀ (by positivity)] at hN1
  rw [← mul_div_assoc, div_le_iff₀ (by positivity)]
  have : (N1 : ℝ) * (4 * δ * η ^ 2) ≤ n * (4 * δ * η ^ 2) := mul_le_mul_of_nonneg_right (by linarith) (by positivity)
  linarith

end Copulae
