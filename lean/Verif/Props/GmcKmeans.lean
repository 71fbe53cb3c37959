import Verif.Model.GmcFit
import Verif.Lemmas.Gmc
import Mathlib.Algebra.Order.Star.Real

/-!
C114: the parameters from k-means clustering.
-/

namespace Copulae

open Matrix

/-- Mean of column `j` of the rows in `s`. -/
noncomputable def Spec.sampleMean {n d : ℕ} (x : Fin n → Fin d → ℚ) (s : Finset (Fin n)) (j : Fin d) : ℝ :=
  (∑ i ∈ s, (x i j : ℝ)) / s.card

/-- Sample covariance matrix (with denominator one less than the number of rows) of the rows in `s`. -/
noncomputable def Spec.sampleCov {n d : ℕ} (x : Fin n → Fin d → ℚ) (s : Finset (Fin n)) : Matrix (Fin d) (Fin d) ℝ :=
  fun a b => (∑ i ∈ s, ((x i a : ℝ) - Spec.sampleMean x s a) * ((x i b : ℝ) - Spec.sampleMean x s b)) / (s.card - 1)

variable {n m d : ℕ} {data : Fin n → Fin d → ℚ} {labels : Fin n → ℕ}

theorem groupMean_fin {g : ℕ} (h : 1 ≤ (groupRows labels g).card) (j : Fin d) :
    groupMean data labels g j = .fin (Spec.sampleMean data (groupRows labels g) j) := by
  have h1 : ((groupRows labels g).card : ℝ) ≠ 0 := by
    have : (1 : ℝ) ≤ (groupRows labels g).card := by exact_mod_cast h
    linarith
  rw [groupMean, Fl.fin_div_fin' _ h1, Spec.sampleMean]
  push_cast
  rfl

theorem groupCov_fin {g : ℕ} (h : 2 ≤ (groupRows labels g).card) (a b : Fin d) :
    groupCov data labels g a b = .fin (Spec.sampleCov data (groupRows labels g) a b) := by
  have h2 : (2 : ℝ) ≤ (groupRows labels g).card := by exact_mod_cast h
  have h1 : ((groupRows labels g).card - 1 : ℝ) ≠ 0 := by linarith
  unfold groupCov
  simp only [groupMean_fin (data := data) (le_trans (by norm_num) h), Fl.fin_sub_fin, Fl.fin_mul_fin, Fl.sum_fin,
    Fl.fin_div_fin' _ h1]
  rw [Spec.sampleCov, mul_one_div]

theorem groupCov_one {g : ℕ} (h : (groupRows labels g).card = 1) (a b : Fin d) :
    groupCov data labels g a b = .nan := by
  obtain ⟨i, hi⟩ := Finset.card_eq_one.mp h
  unfold groupCov
  simp only [groupMean_fin (data := data) h.ge, Fl.fin_sub_fin, Fl.fin_mul_fin, Fl.sum_fin, h]
  have e : ∀ j, Spec.sampleMean data (groupRows labels g) j = data i j := fun j => by
    simp [Spec.sampleMean, hi]
  simp only [e]
  simp only [hi, Finset.sum_singleton, sub_self, mul_zero, Nat.cast_one]
  rw [Fl.fin_div_fin, if_pos rfl]
  have h1 : Fl.infSign 1 = .pinf := by simp [Fl.infSign]
  have h2 : Fl.fin 0 * Fl.pinf = Fl.infSign 0 := rfl
  rw [h1, h2]
  simp [Fl.infSign]

theorem sampleCov_posSemidef (x : Fin n → Fin d → ℚ) {s : Finset (Fin n)} (h : 1 ≤ s.card) :
    (Spec.sampleCov x s).PosSemidef := by
  have h1 : (0 : ℝ) ≤ (s.card - 1 : ℝ)⁻¹ := by
    have : (1 : ℝ) ≤ s.card := by exact_mod_cast h
    exact inv_nonneg.mpr (by linarith)
  have e : Spec.sampleCov x s = (s.card - 1 : ℝ)⁻¹ • ∑ i ∈ s,
      vecMulVec (fun a => (x i a : ℝ) - Spec.sampleMean x s a) (star fun a => (x i a : ℝ) - Spec.sampleMean x s a) := by
    ext a b
    rw [Matrix.smul_apply, Matrix.sum_apply, Spec.sampleCov, smul_eq_mul, div_eq_inv_mul]
    rfl
  rw [e]
  exact (Matrix.posSemidef_sum _ fun i _ => posSemidef_vecMulVec_self_star _).smul h1

theorem labelGroups_full (hlt : ∀ i, labels i < m) (hall : ∀ g < m, 1 ≤ (groupRows labels g).card) :
    labelGroups labels = List.range m := by
  have : Finset.univ.image labels = Finset.range m := by
    ext g
    simp only [Finset.mem_image, Finset.mem_univ, true_and, Finset.mem_range]
    constructor
    · rintro ⟨i, rfl⟩
      exact hlt i
    · intro hg
      obtain ⟨i, hi⟩ := Finset.card_pos.mp (hall g hg)
      exact ⟨i, (Finset.mem_filter.mp hi).2⟩
  rw [labelGroups, this, Finset.sort_range]

theorem labelGroups_short (hlt : ∀ i, labels i < m) {g : ℕ} (hg : g < m) (h0 : (groupRows labels g).card = 0) :
    (labelGroups labels).length ≠ m := by
  rw [labelGroups, Finset.length_sort]
  have hs : Finset.univ.image labels ⊆ (Finset.range m).erase g := by
    intro k hk
    obtain ⟨i, -, rfl⟩ := Finset.mem_image.mp hk
    rw [Finset.mem_erase, Finset.mem_range]
    refine ⟨fun h => ?_, hlt i⟩
    have : i ∈ groupRows labels g := Finset.mem_filter.mpr ⟨Finset.mem_univ _, h⟩
    rw [Finset.card_eq_zero.mp h0] at this
    exact absurd this (Finset.notMem_empty _)
  have h1 := Finset.card_le_card hs
  rw [Finset.card_erase_of_mem (Finset.mem_range.mpr hg), Finset.card_range] at h1
  omega

theorem card_groups (hlt : ∀ i, labels i < m) : ∑ c : Fin m, (groupRows labels c).card = n := by
  have h := Finset.card_eq_sum_card_fiberwise (s := (Finset.univ : Finset (Fin n))) (t := Finset.range m) (f := labels)
    (fun i _ => Finset.mem_coe.mpr (Finset.mem_range.mpr (hlt i)))
  rw [Finset.card_univ, Fintype.card_fin, Finset.sum_range] at h
  exact h.symm

theorem sum_groups (hlt : ∀ i, labels i < m) (f : Fin n → ℝ) :
    ∑ c : Fin m, ∑ i ∈ groupRows labels c, f i = ∑ i, f i := by
  have h := Finset.sum_fiberwise_of_maps_to (s := (Finset.univ : Finset (Fin n))) (t := Finset.range m) (g := labels)
    (fun i _ => Finset.mem_range.mpr (hlt i)) f
  rw [Finset.sum_range] at h
  exact h

theorem counts_prob (hlt : ∀ i, labels i < m) (hn : 0 < n) :
    (((List.range m).map fun g => (groupRows labels g).card).map fun k : ℕ =>
      Fl.fin (k : ℝ) / Fl.fin (((List.range m).map fun g => (groupRows labels g).card).sum : ℝ)) =
    List.ofFn fun c : Fin m => Fl.fin ((groupRows labels c).card / n) := by
  have hs : ((List.range m).map fun g => (groupRows labels g).card).sum = n := by
    refine Eq.trans ?_ (card_groups hlt)
    rw [← List.sum_ofFn, List.ofFn_eq_map, ← List.map_coe_finRange_eq_range, List.map_map]
    rfl
  have hn' : (n : ℝ) ≠ 0 := by exact_mod_cast hn.ne'
  rw [hs, List.ofFn_eq_map, ← List.map_coe_finRange_eq_range, List.map_map, List.map_map]
  refine List.map_congr_left fun c _ => ?_
  simp only [Function.comp]
  rw [Fl.fin_div_fin' _ hn']

/-- **C114.** When every cluster has two rows or more, `k_means` succeeds (in two dimensions and more): the probabilities are
the shares of the clusters, the means and covariances those of the rows of the clusters. They are a mixture: the
probabilities are positive with sum one and the covariances positive semi-definite. The mean of the mixture is that of the
data, and so is, up to the denominators, the covariance. -/
theorem kMeans_valid (ext : CovNearest) (km : KMeansFn) (hd : 2 ≤ d) {ties : String} {u : Fin n → Fin d → ℚ}
    (hu : pobsMat data ties = .ok u) (hk : km m u = .ok labels) (hm : 1 ≤ m) (hlt : ∀ i, labels i < m)
    (h2 : ∀ g < m, 2 ≤ (Finset.univ.filter fun i => labels i = g).card) :
    ∃ (p : Fin m → ℝ) (μ : Fin m → Fin d → ℝ) (S : Fin m → Matrix (Fin d) (Fin d) ℝ),
      kMeans ext km data m ties = .ok (flParam p μ S) ∧
      (∀ c, p c = (Finset.univ.filter fun i => labels i = c).card / n) ∧
      (∀ c, μ c = Spec.sampleMean data (Finset.univ.filter fun i => labels i = c)) ∧
      (∀ c, S c = Spec.sampleCov data (Finset.univ.filter fun i => labels i = c)) ∧
      (∀ c, 0 < p c) ∧ ∑ c, p c = 1 ∧ (∀ c, (S c).PosSemidef) ∧
      (∀ j, ∑ c, p c * μ c j = Spec.sampleMean data Finset.univ j) ∧
      ∀ a b, ∑ c, (n * p c - 1) * S c a b +
          n * ∑ c, p c * (μ c a - Spec.sampleMean data Finset.univ a) * (μ c b - Spec.sampleMean data Finset.univ b) =
        (n - 1) * Spec.sampleCov data Finset.univ a b := by
  have hg2 : ∀ c : Fin m, 2 ≤ (groupRows labels c).card := fun c => h2 c c.2
  have hg2' : ∀ c : Fin m, (2 : ℝ) ≤ (groupRows labels c).card := fun c => by exact_mod_cast hg2 c
  have hn2 : 2 ≤ n := by
    have h1 := hg2 ⟨0, hm⟩
    have h3 : (groupRows labels (⟨0, hm⟩ : Fin m)).card ≤ n := by
      have := Finset.card_le_univ (groupRows labels (⟨0, hm⟩ : Fin m))
      rwa [Fintype.card_fin] at this
    omega
  have hn : 0 < n := by omega
  have hn' : (0 : ℝ) < n := by exact_mod_cast hn
  have hn2' : (2 : ℝ) ≤ n := by exact_mod_cast hn2
  have hcard : ∑ c : Fin m, ((groupRows labels c).card : ℝ) = n := by exact_mod_cast card_groups hlt
  have hp0 : ∀ c : Fin m, (0 : ℝ) < (groupRows labels c).card / n := fun c =>
    div_pos (by linarith [hg2' c]) hn'
  have hps : ∑ c : Fin m, ((groupRows labels c).card / n : ℝ) = 1 := by
    rw [← Finset.sum_div, hcard, div_self hn'.ne']
  have hmean : ∀ (c : Fin m) (j : Fin d), (groupRows labels c).card * Spec.sampleMean data (groupRows labels c) j =
      ∑ i ∈ groupRows labels c, (data i j : ℝ) := fun c j => by
    rw [Spec.sampleMean, mul_div_cancel₀]
    linarith [hg2' c]
  have htot : ∀ j : Fin d, n * Spec.sampleMean data Finset.univ j = ∑ i, (data i j : ℝ) := fun j => by
    rw [Spec.sampleMean, Finset.card_univ, Fintype.card_fin, mul_div_cancel₀ _ hn'.ne']
  refine ⟨fun c => (groupRows labels c).card / n, fun c => Spec.sampleMean data (groupRows labels c),
    fun c => Spec.sampleCov data (groupRows labels c), ?_, fun c => rfl, fun c => rfl, fun c => rfl, hp0, hps,
    fun c => sampleCov_posSemidef data (by linarith [hg2 c]), fun j => ?_, fun a b => ?_⟩
  · have hgr := labelGroups_full hlt fun g hg => le_trans (by norm_num) (h2 g hg)
    have hget : ∀ c : Fin m, (List.range m).getD c.val 0 = c.val := fun c => by
      simp [List.getD_eq_getElem?_getD]
    unfold kMeans
    simp only [hu, hk, hgr, bind, Except.bind, if_neg (show ¬ d = 1 by omega), List.length_range]
    refine mk'_ok ext _ (fun c => (hp0 c).le) (fun c => ?_) (by rw [hps]; norm_num) _ _
      (fun c => sampleCov_posSemidef data (by linarith [hg2 c])) _ (counts_prob hlt hn) _ (fun c j => ?_) _ (fun c a b => ?_)
    · rw [← hps]
      exact Finset.single_le_sum (fun c _ => (hp0 c).le) (Finset.mem_univ c)
    · rw [dif_pos j.2, hget]
      exact groupMean_fin (le_trans (by norm_num) (hg2 c)) j
    · rw [dif_pos ⟨a.2, b.2⟩, hget]
      exact groupCov_fin (hg2 c) a b
  · have h1 : n * ∑ c : Fin m, ((groupRows labels c).card / n : ℝ) * Spec.sampleMean data (groupRows labels c) j =
        n * Spec.sampleMean data Finset.univ j := by
      rw [htot, ← sum_groups hlt, Finset.mul_sum]
      refine Finset.sum_congr rfl fun c _ => ?_
      rw [← hmean]
      field_simp
    exact mul_left_cancel₀ hn'.ne' h1
  · have hcov : ∀ c : Fin m, (n * ((groupRows labels c).card / n) - 1 : ℝ) * Spec.sampleCov data (groupRows labels c) a b =
        ∑ i ∈ groupRows labels c, ((data i a : ℝ) - Spec.sampleMean data (groupRows labels c) a) *
          ((data i b : ℝ) - Spec.sampleMean data (groupRows labels c) b) := fun c => by
      have h1 : (groupRows labels c).card - 1 ≠ (0 : ℝ) := by linarith [hg2' c]
      rw [mul_div_cancel₀ _ hn'.ne', Spec.sampleCov, mul_div_cancel₀ _ h1]
    have hall : (n - 1 : ℝ) * Spec.sampleCov data Finset.univ a b =
        ∑ i, ((data i a : ℝ) - Spec.sampleMean data Finset.univ a) * ((data i b : ℝ) - Spec.sampleMean data Finset.univ b) := by
      have h1 : (n - 1 : ℝ) ≠ 0 := by linarith
      rw [Spec.sampleCov, Finset.card_univ, Fintype.card_fin, mul_div_cancel₀ _ h1]
    rw [hall, ← sum_groups hlt, Finset.sum_congr rfl fun c _ => hcov c, Finset.mul_sum, ← Finset.sum_add_distrib]
    refine Finset.sum_congr rfl fun c _ => ?_
    have e : ∀ i, ((data i a : ℝ) - Spec.sampleMean data Finset.univ a) * ((data i b : ℝ) - Spec.sampleMean data Finset.univ b) =
        ((data i a : ℝ) - Spec.sampleMean data (groupRows labels c) a) *
          ((data i b : ℝ) - Spec.sampleMean data (groupRows labels c) b) +
        ((data i a : ℝ) * (Spec.sampleMean data (groupRows labels c) b - Spec.sampleMean data Finset.univ b) +
         (data i b : ℝ) * (Spec.sampleMean data (groupRows labels c) a - Spec.sampleMean data Finset.univ a)) +
        (Spec.sampleMean data Finset.univ a * Spec.sampleMean data Finset.univ b -
          Spec.sampleMean data (groupRows labels c) a * Spec.sampleMean data (groupRows labels c) b) := fun i => by ring
    rw [Finset.sum_congr rfl fun i _ => e i, Finset.sum_add_distrib, Finset.sum_add_distrib, Finset.sum_add_distrib,
      ← Finset.sum_mul, ← Finset.sum_mul, ← hmean, ← hmean, Finset.sum_const, nsmul_eq_mul]
    field_simp
    ring

/-- When every element succeeds or raises `e` and one raises, so does the whole. -/
theorem mapM_same_error {α β : Type} {f : α → Except PyErr β} {e : PyErr} : ∀ {l : List α},
    (∀ a ∈ l, (∃ b, f a = .ok b) ∨ f a = .error e) → (∃ a ∈ l, f a = .error e) → l.mapM f = .error e
  | [], _, h => by simp at h
  | a :: l, hall, h => by
    rw [List.mapM_cons]
    rcases hall a (by simp) with ⟨b, hb⟩ | hb
    · have : ∃ a ∈ l, f a = .error e := by
        obtain ⟨c, hc, he⟩ := h
        rcases List.mem_cons.mp hc with rfl | hc
        · rw [hb] at he; cases he
        · exact ⟨c, hc, he⟩
      rw [hb, mapM_same_error (fun c hc => hall c (List.mem_cons_of_mem _ hc)) this]
      rfl
    · rw [hb]; rfl

/-- **C114 is violated** by clusters of one row: the covariance of a single row is NaN, and `k_means` raises
`NonSymmetricMatrix`. A cluster without rows makes it raise `GMCParamError`. -/
theorem kMeans_small_cluster (ext : CovNearest) (km : KMeansFn) (hd : 2 ≤ d) {ties : String} {u : Fin n → Fin d → ℚ}
    (hu : pobsMat data ties = .ok u) (hk : km m u = .ok labels) (hlt : ∀ i, labels i < m) :
    ((∃ g < m, (Finset.univ.filter fun i => labels i = g).card = 0) →
      kMeans ext km data m ties = .error .gmcParam) ∧
    ((∀ g < m, 1 ≤ (Finset.univ.filter fun i => labels i = g).card) →
      (∃ g < m, (Finset.univ.filter fun i => labels i = g).card = 1) →
      kMeans ext km data m ties = .error .nonSymmetric) := by
  constructor
  · rintro ⟨g, hg, h0⟩
    have hne := labelGroups_short hlt hg h0
    have hp : setProb m (((labelGroups labels).map fun g => (groupRows labels g).card).map fun k : ℕ =>
        Fl.fin (k : ℝ) / Fl.fin (((labelGroups labels).map fun g => (groupRows labels g).card).sum : ℝ)) =
        .error .gmcParam := by
      rw [setProb, dif_neg]
      rwa [List.length_map, List.length_map]
    unfold kMeans
    simp only [hu, hk, bind, Except.bind, GMCParam.mk', hp]
  · rintro hall ⟨g, hg, h1⟩
    have hm : 1 ≤ m := by omega
    have hn : 0 < n := by
      obtain ⟨i, -⟩ := Finset.card_pos.mp (hall g hg)
      exact i.pos
    have hn' : (0 : ℝ) < n := by exact_mod_cast hn
    have hcard : ∑ c : Fin m, ((groupRows labels c).card : ℝ) = n := by exact_mod_cast card_groups hlt
    have hp0 : ∀ c : Fin m, (0 : ℝ) ≤ (groupRows labels c).card / n := fun c => by positivity
    have hps : ∑ c : Fin m, ((groupRows labels c).card / n : ℝ) = 1 := by
      rw [← Finset.sum_div, hcard, div_self hn'.ne']
    have hgr := labelGroups_full hlt hall
    have hget : ∀ c : Fin m, (List.range m).getD c.val 0 = c.val := fun c => by
      simp [List.getD_eq_getElem?_getD]
    have hprob : setProb m (((List.range m).map fun g => (groupRows labels g).card).map fun k : ℕ =>
        Fl.fin (k : ℝ) / Fl.fin (((List.range m).map fun g => (groupRows labels g).card).sum : ℝ)) =
        .ok fun c => .fin ((groupRows labels c).card / n) := by
      rw [counts_prob hlt hn]
      refine setProb_ok _ hp0 (fun c => ?_) (by rw [hps]; norm_num)
      rw [← hps]
      exact Finset.single_le_sum (fun c _ => hp0 c) (Finset.mem_univ c)
    have hone : ∀ c : Fin m, (groupRows labels c).card = 1 →
        nearPsdSq ext (fun a b : Fin d => if h : a.val < d ∧ b.val < d then
          groupCov data labels ((List.range m).getD c.val 0) ⟨a.val, h.1⟩ ⟨b.val, h.2⟩ else .nan) = .error .nonSymmetric := by
      intro c hc
      rw [nearPsdSq, if_neg]
      intro hs
      have := hs ⟨0, by omega⟩ ⟨0, by omega⟩
      dsimp only at this
      rw [dif_pos ⟨by omega, by omega⟩, hget, groupCov_one hc] at this
      exact this
    unfold kMeans
    simp only [hu, hk, hgr, bind, Except.bind, if_neg (show ¬ d = 1 by omega), List.length_range, GMCParam.mk', hprob,
      setMeans, and_self, if_true, setCovs]
    rw [mapM_same_error (e := .nonSymmetric) (fun c _ => ?_) ⟨⟨g, hg⟩, List.mem_finRange _, hone ⟨g, hg⟩ h1⟩]
    rcases Nat.lt_or_ge 1 (groupRows labels c).card with h2 | h2
    · left
      have e : (fun a b : Fin d => if h : a.val < d ∧ b.val < d then
          groupCov data labels ((List.range m).getD c.val 0) ⟨a.val, h.1⟩ ⟨b.val, h.2⟩ else .nan) =
          flMat (Spec.sampleCov data (groupRows labels c)) := by
        funext a b
        rw [dif_pos ⟨a.2, b.2⟩, hget]
        exact groupCov_fin h2 a b
      have hS := sampleCov_posSemidef data (s := groupRows labels c) (by omega)
      rw [e, nearPsdSq, if_pos (isSymmetric_self hS.1 (by norm_num)), if_pos (isPsd_of_posSemidef ext _ hS).1]
      exact ⟨_, rfl⟩
    · right
      exact hone c (le_antisymm h2 (hall c c.2))

example (ext : CovNearest) := kMeans_small_cluster (m := 3) (labels := fun i : Fin 4 => i.val / 2) ext
  (fun _ _ _ _ => .ok fun i => i.val / 2) (data := fun (i : Fin 4) (j : Fin 2) => (i.val * (j.val + 1) : ℚ)) le_rfl (ties := "average") rfl rfl
  (fun i => by omega)

/-- **C114 is violated** with fewer than two rows for each cluster: whatever the labels, `k_means` raises. -/
theorem kMeans_few_rows (ext : CovNearest) (km : KMeansFn) (hd : 2 ≤ d) (hn : n < 2 * m)
    (hlt : ∀ (u : Fin n → Fin d → ℚ) l, km m u = .ok l → ∀ i, l i < m) (ties : String) :
    ∃ e, kMeans ext km data m ties = .error e := by
  cases hu : pobsMat data ties with
  | error e => exact ⟨e, by unfold kMeans; simp only [hu, bind, Except.bind]⟩
  | ok u =>
    cases hk : km m u with
    | error e => exact ⟨e, by unfold kMeans; simp only [hu, hk, bind, Except.bind]⟩
    | ok labels =>
      have hl := hlt u labels hk
      have h := kMeans_small_cluster ext km hd hu hk hl
      by_cases h0 : ∃ g < m, (Finset.univ.filter fun i => labels i = g).card = 0
      · exact ⟨_, h.1 h0⟩
      push Not at h0
      refine ⟨_, h.2 (fun g hg => Nat.one_le_iff_ne_zero.mpr (h0 g hg)) ?_⟩
      by_contra hc
      push Not at hc
      have h2 : ∀ c : Fin m, 2 ≤ (groupRows labels c).card := fun c => by
        have h1 := h0 c c.2
        have h3 := hc c c.2
        unfold groupRows
        omega
      have := Finset.sum_le_sum fun (c : Fin m) (_ : c ∈ Finset.univ) => h2 c
      rw [card_groups hl] at this
      simp at this
      omega

/-- Four rows in two clusters of two. -/
example (ext : CovNearest) : ∃ s, kMeans ext (fun _ _ _ _ => .ok fun i => i.val / 2)
    (fun (i : Fin 4) (j : Fin 2) => (i.val * (j.val + 1) : ℚ)) 2 "average" = .ok s := by
  obtain ⟨p, μ, S, h, -⟩ := kMeans_valid (m := 2) (labels := fun i : Fin 4 => i.val / 2) ext
    (fun _ _ _ _ => .ok fun i => i.val / 2) le_rfl (data := fun (i : Fin 4) (j : Fin 2) => (i.val * (j.val + 1) : ℚ))
    (ties := "average") rfl rfl (by norm_num) (fun i => by omega) (by decide)
  exact ⟨_, h⟩

end Copulae
