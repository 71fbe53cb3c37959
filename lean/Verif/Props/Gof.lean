import Verif.Model.Gof
import Verif.Props.Marginals

/-!
C43–C46, C62: the tests of exchangeability, radial symmetry and goodness of fit.
-/

namespace Copulae

variable {n p : ℕ}

/-- Assumption on `np.argsort`: a permutation that sorts. -/
def IsArgsort (f : ∀ {n : ℕ}, (Fin n → ℝ) → Fin n → Fin n) : Prop :=
  ∀ (n : ℕ) (x : Fin n → ℝ), Function.Bijective (f x) ∧ Monotone fun i => x (f x i)

/-- The assumption is satisfiable. -/
theorem isArgsort_sort : IsArgsort fun {_} x => Tuple.sort x :=
  fun _ x => ⟨(Tuple.sort x).bijective, Tuple.monotone_sort x⟩

/-! ### pseudo-observations inside the tests -/

theorem pseudoObsMat_eq (x : Fin n → Fin p → ℝ) (ties : String) {v : Fin n → Fin p → ℝ} :
    pseudoObsMat x ties = .ok v ↔
      ∃ u, pseudoObs (.mat n p x) ties = .ok (.mat n p u) ∧ v = fun i j => (u i j : ℝ) := by
  cases hs : parseTies ties with
  | error e =>
    simp [pseudoObsMat, hs, pseudoObs_badTies _ hs, bind, Except.bind]
  | ok m =>
    rw [pseudoObs_mat x hs]
    simp only [pseudoObsMat, hs, bind, Except.bind, pure, Except.pure, Except.ok.injEq]
    constructor
    · rintro rfl
      exact ⟨_, rfl, by funext i j; push_cast; rfl⟩
    · rintro ⟨u, hu, rfl⟩
      have : (fun i j => rankdata m (fun k => x k j) i / ((n : ℚ) + 1)) = u := by simpa using hu
      subst this
      funext i j
      push_cast
      rfl

theorem pseudoObsMat_ok (x : Fin n → Fin p → ℝ) {ties : String} {t : TieMethod}
    (ht : parseTies ties = .ok t) :
    pseudoObsMat x ties = .ok fun i j => (rankdata t (fun k => x k j) i : ℝ) / (n + 1) := by
  simp [pseudoObsMat, ht, bind, Except.bind, pure, Except.pure]

theorem pseudoObsVec_ok (x : Fin n → ℝ) {ties : String} {t : TieMethod}
    (ht : parseTies ties = .ok t) :
    pseudoObsVec x ties = .ok fun i => (rankdata t x i : ℝ) / (n + 1) := by
  simp [pseudoObsVec, ht, bind, Except.bind, pure, Except.pure]

theorem parseTies_average : parseTies "average" = .ok .average := by decide

/-! ### p-values -/

theorem pValue_bounds {s0 : List ℝ} {N : ℕ} (h : s0.length = N) (s : ℝ) :
    0.5 / (N + 1) ≤ pValue s0 s N ∧ pValue s0 s N ≤ (N + 0.5) / (N + 1) := by
  have h1 : ((s0.countP fun r => decide (r ≥ s) : ℕ) : ℝ) ≤ N := by
    exact_mod_cast h ▸ List.countP_le_length
  have h2 : (0 : ℝ) ≤ (s0.countP fun r => decide (r ≥ s) : ℕ) := by positivity
  unfold pValue
  constructor <;> · gcongr <;> linarith

/-- C43: a larger statistic never gives a larger p-value. -/
theorem pValue_antitone (s0 : List ℝ) (N : ℕ) {s s' : ℝ} (h : s ≤ s') :
    pValue s0 s' N ≤ pValue s0 s N := by
  unfold pValue
  have : (s0.countP fun r => decide (r ≥ s')) ≤ s0.countP fun r => decide (r ≥ s) :=
    List.countP_mono_left fun r _ hr => by
      simp only [ge_iff_le, decide_eq_true_eq] at hr ⊢
      exact h.trans hr
  gcongr

example := pValue_antitone [1 / 2, 3, 1] 3 (s := 1 / 2) (s' := 2) (by norm_num)

theorem pValue_zero {s0 : List ℝ} {N : ℕ} (h : s0.length = N) (h0 : ∀ r ∈ s0, 0 ≤ r) :
    pValue s0 0 N = (N + 0.5) / (N + 1) := by
  unfold pValue
  have : (s0.countP fun r => decide (r ≥ 0)) = s0.length :=
    List.countP_eq_length.mpr fun r hr => by simpa using h0 r hr
  rw [this, h]

/-! ### exchangeability -/

theorem cn_swap (u v : Fin n → ℝ) (x y : ℝ) : cn u v x y = cn v u y x := by
  unfold cn
  congr 1
  exact Finset.sum_congr rfl fun i _ => mul_comm _ _

theorem exchTestStat_nonneg (u v : Fin n → ℝ) (g : List (ℝ × ℝ)) : 0 ≤ exchTestStat u v g := by
  unfold exchTestStat
  refine div_nonneg (mul_nonneg (List.sum_nonneg fun a ha => ?_) (by positivity)) (by positivity)
  obtain ⟨q, -, rfl⟩ := List.mem_map.mp ha
  exact mul_self_nonneg _

theorem exchTestStat_swap_grid (u v : Fin n → ℝ) (g : List (ℝ × ℝ)) :
    exchTestStat v u g = exchTestStat u v g := by
  unfold exchTestStat
  congr 3
  refine List.map_congr_left fun q _ => ?_
  simp only [cn_swap v u]
  ring

theorem exchTestStat_swap_data (u v : Fin n → ℝ) :
    exchTestStat v u (List.ofFn fun i => (v i, u i)) = exchTestStat u v (List.ofFn fun i => (u i, v i)) := by
  unfold exchTestStat
  simp only [List.length_ofFn, List.map_ofFn]
  congr 4
  funext i
  simp only [Function.comp, cn_swap v u]

theorem cn_perm (u v : Fin n → ℝ) (σ : Equiv.Perm (Fin n)) (x y : ℝ) :
    cn (fun i => u (σ i)) (fun i => v (σ i)) x y = cn u v x y := by
  unfold cn
  congr 1
  exact Equiv.sum_comp σ fun i => ind (u i ≤ x) * ind (v i ≤ y)

theorem derCn_swap (u v : Fin n → ℝ) (x y : ℝ) : derCn1 v u x y = derCn2 u v y x := by
  unfold derCn1 derCn2
  simp only [cn_swap v u]

theorem derCn_swap' (u v : Fin n → ℝ) (x y : ℝ) : derCn2 v u x y = derCn1 u v y x := by
  unfold derCn1 derCn2
  simp only [cn_swap v u]

theorem exchInflu_swap (u v : Fin n → ℝ) (x y : ℝ) (j : Fin n) :
    exchInflu v u x y j = - exchInflu u v x y j := by
  unfold exchInflu
  simp only [derCn_swap u v, derCn_swap' u v]
  ring

theorem exchInflu_swap' (u v : Fin n → ℝ) (x y : ℝ) (j : Fin n) :
    exchInflu v u y x j = exchInflu u v x y j := by
  unfold exchInflu
  simp only [derCn_swap u v, derCn_swap' u v]
  ring

theorem exchMultiplier_nonneg (u v : Fin n → ℝ) (g : List (ℝ × ℝ)) (z : Fin n → ℝ) :
    0 ≤ exchMultiplier u v g z := by
  unfold exchMultiplier
  refine div_nonneg (List.sum_nonneg fun a ha => ?_) (by positivity)
  obtain ⟨q, -, rfl⟩ := List.mem_map.mp ha
  exact mul_self_nonneg _

theorem exchMultiplier_swap (u v : Fin n → ℝ) (g : List (ℝ × ℝ)) (z : Fin n → ℝ) :
    exchMultiplier v u g z = exchMultiplier u v g z := by
  unfold exchMultiplier
  dsimp only
  congr 2
  refine List.map_congr_left fun q _ => ?_
  simp only [exchInflu_swap u v, mul_neg, Finset.sum_neg_distrib, neg_mul, neg_neg]

theorem exchMultiplier_swap' (u v : Fin n → ℝ) (z : Fin n → ℝ) :
    exchMultiplier v u (List.ofFn fun i => (v i, u i)) z
      = exchMultiplier u v (List.ofFn fun i => (u i, v i)) z := by
  unfold exchMultiplier
  simp only [List.length_ofFn, List.map_ofFn]
  congr 3
  funext i
  simp only [Function.comp, exchInflu_swap' u v]

theorem exchReplication_ok (argsort : (Fin n → ℝ) → Fin n → Fin n) (ir : Fin n → Fin 2 → Fin n)
    (u : Fin n → Fin 2 → ℝ) (g : List (ℝ × ℝ)) (m : ℕ) (flip : Fin n → Bool) :
    ∃ r, 0 ≤ r ∧ exchReplication argsort ir u g m flip = .ok r := by
  unfold exchReplication
  simp only [pseudoObsMat_ok _ parseTies_average, bind, Except.bind, pure, Except.pure]
  exact ⟨_, exchTestStat_nonneg _ _ _, rfl⟩

section
variable (argsort : ∀ {n : ℕ}, (Fin n → ℝ) → Fin n → Fin n) (flips : ∀ {n : ℕ}, ℕ → Fin n → Bool)
  (normals : ∀ {n : ℕ}, ℕ → Fin n → ℝ)

theorem exchTest_vec (x y : Fin n → ℝ) {ties : String} {t : TieMethod} (ht : parseTies ties = .ok t)
    (N m : ℤ) : exchTest argsort flips normals (.vec n x) (.vec n y) N m ties
      = exchTestVec argsort flips normals (fun i => (rankdata t x i : ℝ) / (n + 1))
          (fun i => (rankdata t y i : ℝ) / (n + 1)) N m := by
  simp only [exchTest, pseudoObsVec_ok _ ht, bind, Except.bind, dif_pos]

/-- The replicated statistics of the two branches. -/
theorem exchTestVec_ok (hn : 0 < n) (x y : Fin n → ℝ) {N m : ℤ} (hN : 1 ≤ N) (hm : 0 ≤ m) :
    ∃ s0 : List ℝ, s0.length = N.toNat ∧ (∀ r ∈ s0, 0 ≤ r) ∧
      (¬ hasTies x → ¬ hasTies y → s0 = exchTestCn x y
        (if 0 < m then exchGrid m.toNat else List.ofFn fun i => (x i, y i)) N.toNat normals) ∧
      exchTestVec argsort flips normals x y N m = .ok
        ⟨exchTestStat x y (if 0 < m then exchGrid m.toNat else List.ofFn fun i => (x i, y i)),
          pValue s0 (exchTestStat x y
            (if 0 < m then exchGrid m.toNat else List.ofFn fun i => (x i, y i))) N.toNat⟩ := by
  have hg : ¬ (if 0 < m then exchGrid m.toNat else List.ofFn fun i => (x i, y i)).length = 0 := by
    split_ifs with h
    · have : m.toNat ≠ 0 := by omega
      simp [exchGrid, this]
    · simp; omega
  generalize hgr : (if 0 < m then exchGrid m.toNat else List.ofFn fun i => (x i, y i)) = g at hg ⊢
  choose r hr0 hr using fun k => exchReplication_ok argsort
    (fun j c => tieIndex (fun i => twoCols x y i c) j) (twoCols x y) g m.toNat (flips k)
  unfold exchTestVec
  simp only [hgr, if_neg (not_lt.mpr hm), if_neg (not_lt.mpr hN), if_neg hg]
  by_cases ht : hasTies x ∨ hasTies y
  · refine ⟨(List.range N.toNat).map r, by simp, ?_, fun h1 h2 => absurd ht (by tauto), ?_⟩
    · intro a ha
      obtain ⟨k, -, rfl⟩ := List.mem_map.mp ha
      exact hr0 k
    · simp only [if_pos ht, mapM_ok _ r _ fun k _ => hr k, bind, Except.bind, pure, Except.pure]
  · refine ⟨exchTestCn x y g N.toNat normals, by simp [exchTestCn], ?_, fun _ _ => rfl, ?_⟩
    · intro a ha
      obtain ⟨k, -, rfl⟩ := List.mem_map.mp ha
      exact exchMultiplier_nonneg _ _ _ _
    · simp only [if_neg ht, bind, Except.bind, pure, Except.pure]

/-- C43, C44: for two samples of equal positive length and valid settings `exch_test` returns a
non-negative statistic and a p-value between 0.5/(N+1) and (N+0.5)/(N+1). -/
theorem exchTest_valid (hn : 0 < n) (x y : Fin n → ℝ) {ties : String} {t : TieMethod}
    (ht : parseTies ties = .ok t) {N m : ℤ} (hN : 1 ≤ N) (hm : 0 ≤ m) :
    ∃ r, exchTest argsort flips normals (.vec n x) (.vec n y) N m ties = .ok r ∧ 0 ≤ r.statistic ∧
      0.5 / (N + 1) ≤ r.pValue ∧ r.pValue ≤ (N + 0.5) / (N + 1) := by
  rw [exchTest_vec argsort flips normals x y ht]
  obtain ⟨s0, h1, -, -, h2⟩ := exchTestVec_ok argsort flips normals hn
    (fun i => (rankdata t x i : ℝ) / (n + 1)) (fun i => (rankdata t y i : ℝ) / (n + 1)) hN hm
  refine ⟨_, h2, exchTestStat_nonneg _ _ _, ?_⟩
  have := pValue_bounds h1 (exchTestStat (fun i => (rankdata t x i : ℝ) / (n + 1))
    (fun i => (rankdata t y i : ℝ) / (n + 1)) (if 0 < m then exchGrid m.toNat else
      List.ofFn fun i => ((rankdata t x i : ℝ) / (n + 1), (rankdata t y i : ℝ) / (n + 1))))
  have e : ((N.toNat : ℕ) : ℝ) = N := by
    exact_mod_cast Int.toNat_of_nonneg (by omega : 0 ≤ N)
  rwa [e] at this

example := exchTest_valid (n := 3) (fun x => Tuple.sort x) (fun k i => decide (i.val = k)) (fun _ _ => 0) (by norm_num)
  ![1, 2, 2] ![3, 5, 4] parseTies_average (N := 10) (m := 4) (by norm_num) (by norm_num)

/-- C43: fewer than one replication, a negative grid size, samples of different lengths, or arguments
that are not vectors are rejected. -/
theorem exchTest_rejects {n' d : ℕ} (x : Fin n → ℝ) (y : Fin n' → ℝ) (z : Fin n' → Fin d → ℝ) {ties : String}
    {t : TieMethod} (ht : parseTies ties = .ok t) (N m : ℤ) :
    (n' ≠ n → exchTest argsort flips normals (.vec n x) (.vec n' y) N m ties = .error .valueError) ∧
    (N < 1 ∨ m < 0 → ∀ y : Fin n → ℝ,
      exchTest argsort flips normals (.vec n x) (.vec n y) N m ties = .error .assertionError) ∧
    ∃ e, exchTest argsort flips normals (.vec n x) (.mat n' d z) N m ties = .error e := by
  refine ⟨fun h => ?_, fun h y => ?_, ?_⟩
  · simp only [exchTest, pseudoObsVec_ok _ ht, bind, Except.bind, dif_neg h]
  · rw [exchTest_vec argsort flips normals x y ht]
    unfold exchTestVec
    by_cases hm : m < 0
    · rw [if_pos hm]
    · rw [if_neg hm, if_pos (by omega)]
  · simp only [exchTest, pseudoObs_mat z ht,
      pseudoObs_vec (x := x) (s := ties) (pseudoObs_mat (fun i (_ : Fin 1) => x i) ht), bind, Except.bind]
    split_ifs
    · exact ⟨_, rfl⟩
    · exact ⟨_, rfl⟩

example := exchTest_rejects (n := 3) (fun x => Tuple.sort x) (fun k i => decide (i.val = k)) (fun _ _ => 0) (n' := 2)
  (d := 2) ![1, 2, 2] ![3, 5] (fun _ _ => 1) parseTies_average 0 4

/-- C44: swapping the two samples does not change the statistic; without ties among the ranks it does not
change the p-value either. -/
theorem exchTest_swap (hn : 0 < n) (x y : Fin n → ℝ) {ties : String} {t : TieMethod}
    (ht : parseTies ties = .ok t) {N m : ℤ} (hN : 1 ≤ N) (hm : 0 ≤ m) :
    ∃ r r', exchTest argsort flips normals (.vec n x) (.vec n y) N m ties = .ok r ∧
      exchTest argsort flips normals (.vec n y) (.vec n x) N m ties = .ok r' ∧
      r'.statistic = r.statistic ∧
      (Function.Injective x → Function.Injective y → r' = r) := by
  rw [exchTest_vec argsort flips normals x y ht, exchTest_vec argsort flips normals y x ht]
  set px : Fin n → ℝ := fun i => (rankdata t x i : ℝ) / (n + 1) with hpx
  set py : Fin n → ℝ := fun i => (rankdata t y i : ℝ) / (n + 1) with hpy
  obtain ⟨s0, h1, -, h3, h2⟩ := exchTestVec_ok argsort flips normals hn px py hN hm
  obtain ⟨s0', h1', -, h3', h2'⟩ := exchTestVec_ok argsort flips normals hn py px hN hm
  have hst : exchTestStat py px (if 0 < m then exchGrid m.toNat else List.ofFn fun i => (py i, px i))
      = exchTestStat px py (if 0 < m then exchGrid m.toNat else List.ofFn fun i => (px i, py i)) := by
    split_ifs
    · exact exchTestStat_swap_grid _ _ _
    · exact exchTestStat_swap_data _ _
  refine ⟨_, _, h2, h2', hst, fun hx hy => ?_⟩
  have hinj : ∀ {z : Fin n → ℝ}, Function.Injective z →
      ¬ hasTies fun i => (rankdata t z i : ℝ) / (n + 1) := by
    intro z hz
    unfold hasTies
    rw [not_not]
    intro i j hij
    have h0 : ((n : ℝ) + 1) ≠ 0 := by positivity
    have h4 : rankdata t z i = rankdata t z j := by
      have := (div_left_inj' h0).mp hij
      exact_mod_cast this
    by_contra hne
    rcases lt_or_gt_of_ne (fun h => hne (hz h)) with h5 | h5
    · exact absurd h4 (rankdata_lt t z h5).ne
    · exact absurd h4 (rankdata_lt t z h5).ne'
  have e1 := h3 (hinj hx) (hinj hy)
  have e2 := h3' (hinj hy) (hinj hx)
  have : s0' = s0 := by
    rw [e1, e2]
    unfold exchTestCn
    refine List.map_congr_left fun k _ => ?_
    split_ifs
    · exact exchMultiplier_swap _ _ _ _
    · exact exchMultiplier_swap' _ _ _
  rw [hst, this]

example := exchTest_swap (n := 3) (fun x => Tuple.sort x) (fun k i => decide (i.val = k)) (fun _ _ => 0) (by norm_num)
  ![1, 2, 2] ![3, 5, 4] parseTies_average (N := 10) (m := 4) (by norm_num) (by norm_num)

/-- C44: strictly increasing transformations of the two samples change nothing. -/
theorem exchTest_strictMono (x y : Fin n → ℝ) {f g : ℝ → ℝ} (hf : StrictMono f) (hg : StrictMono g)
    (N m : ℤ) (ties : String) :
    exchTest argsort flips normals (.vec n fun i => f (x i)) (.vec n fun i => g (y i)) N m ties
      = exchTest argsort flips normals (.vec n x) (.vec n y) N m ties := by
  cases ht : parseTies ties with
  | error e => simp [exchTest, pseudoObsVec, ht, bind, Except.bind]
  | ok t =>
    rw [exchTest_vec _ _ _ _ _ ht, exchTest_vec _ _ _ _ _ ht]
    congr 1 <;> funext i
    · rw [rankdata_congr t x _ (fun a b => hf.lt_iff_lt) i]
    · rw [rankdata_congr t y _ (fun a b => hg.lt_iff_lt) i]

example := exchTest_strictMono (n := 3) (fun x => Tuple.sort x) (fun k i => decide (i.val = k)) (fun _ _ => 0)
  ![1, 2, 2] ![3, 5, 4] (f := Real.exp) (g := fun x => 2 * x + 1) Real.exp_strictMono
  (fun a b h => by simpa using h) 10 4 "max"

/-- C44: a sample whose rows are closed under swapping the coordinates (in particular one with equal
columns) has the statistic 0 and the largest possible p-value. The tie method 'ordinal' depends on the
order of the rows and is excluded. -/
theorem exchTest_exchangeable (hn : 0 < n) (x y : Fin n → ℝ) (σ : Equiv.Perm (Fin n))
    (hx : ∀ i, x (σ i) = y i) (hy : ∀ i, y (σ i) = x i) {ties : String} {t : TieMethod}
    (ht : parseTies ties = .ok t) (hto : t ≠ .ordinal) {N m : ℤ} (hN : 1 ≤ N) (hm : 0 ≤ m) :
    ∃ r, exchTest argsort flips normals (.vec n x) (.vec n y) N m ties = .ok r ∧ r.statistic = 0 ∧
      r.pValue = (N + 0.5) / (N + 1) := by
  rw [exchTest_vec argsort flips normals x y ht]
  obtain ⟨s0, h1, h0, -, h2⟩ := exchTestVec_ok argsort flips normals hn
    (fun i => (rankdata t x i : ℝ) / (n + 1)) (fun i => (rankdata t y i : ℝ) / (n + 1)) hN hm
  have hcn : ∀ a b, cn (fun i => (rankdata t x i : ℝ) / (n + 1)) (fun i => (rankdata t y i : ℝ) / (n + 1)) a b
      = cn (fun i => (rankdata t x i : ℝ) / (n + 1)) (fun i => (rankdata t y i : ℝ) / (n + 1)) b a := by
    intro a b
    rw [← cn_perm _ _ σ, cn_swap]
    have e1 : ∀ i, rankdata t y (σ i) = rankdata t x i := by
      intro i
      rw [← rankdata_perm t hto y σ i, show y ∘ σ = x from funext hy]
    have e2 : ∀ i, rankdata t x (σ i) = rankdata t y i := by
      intro i
      rw [← rankdata_perm t hto x σ i, show x ∘ σ = y from funext hx]
    simp only [e1, e2]
  have hs : ∀ g, exchTestStat (fun i => (rankdata t x i : ℝ) / (n + 1))
      (fun i => (rankdata t y i : ℝ) / (n + 1)) g = 0 := by
    intro g
    unfold exchTestStat
    have : (g.map fun q : ℝ × ℝ =>
        let diff := cn (fun i => (rankdata t x i : ℝ) / (n + 1)) (fun i => (rankdata t y i : ℝ) / (n + 1)) q.1 q.2
          - cn (fun i => (rankdata t x i : ℝ) / (n + 1)) (fun i => (rankdata t y i : ℝ) / (n + 1)) q.2 q.1
        diff * diff).sum = 0 := by
      refine List.sum_eq_zero fun a ha => ?_
      obtain ⟨q, -, rfl⟩ := List.mem_map.mp ha
      simp only [hcn q.2 q.1, sub_self, mul_zero]
    rw [this]
    simp
  refine ⟨_, h2, hs _, ?_⟩
  have e : ((N.toNat : ℕ) : ℝ) = N := by
    exact_mod_cast Int.toNat_of_nonneg (by omega : 0 ≤ N)
  simp only [hs]
  rw [pValue_zero h1 h0, e]

/-- C44: reordering the observations does not change the statistic. -/
theorem exchTest_rows (hn : 0 < n) (x y : Fin n → ℝ) (σ : Equiv.Perm (Fin n)) {ties : String}
    {t : TieMethod} (ht : parseTies ties = .ok t) (hto : t ≠ .ordinal) {N m : ℤ} (hN : 1 ≤ N)
    (hm : 0 ≤ m) :
    ∃ r r', exchTest argsort flips normals (.vec n x) (.vec n y) N m ties = .ok r ∧
      exchTest argsort flips normals (.vec n fun i => x (σ i)) (.vec n fun i => y (σ i)) N m ties = .ok r' ∧
      r'.statistic = r.statistic := by
  rw [exchTest_vec _ _ _ _ _ ht, exchTest_vec _ _ _ _ _ ht]
  obtain ⟨s0, -, -, -, h2⟩ := exchTestVec_ok argsort flips normals hn
    (fun i => (rankdata t x i : ℝ) / (n + 1)) (fun i => (rankdata t y i : ℝ) / (n + 1)) hN hm
  obtain ⟨s0', -, -, -, h2'⟩ := exchTestVec_ok argsort flips normals hn
    (fun i => (rankdata t (fun i => x (σ i)) i : ℝ) / (n + 1))
    (fun i => (rankdata t (fun i => y (σ i)) i : ℝ) / (n + 1)) hN hm
  refine ⟨_, _, h2, h2', ?_⟩
  have e1 : ∀ i, rankdata t (fun i => x (σ i)) i = rankdata t x (σ i) := rankdata_perm t hto x σ
  have e2 : ∀ i, rankdata t (fun i => y (σ i)) i = rankdata t y (σ i) := rankdata_perm t hto y σ
  simp only [e1, e2]
  unfold exchTestStat
  simp only [cn_perm (fun i => (rankdata t x i : ℝ) / (n + 1)) (fun i => (rankdata t y i : ℝ) / (n + 1)) σ]
  split_ifs with h
  · rfl
  · simp only [List.map_ofFn, List.sum_ofFn, List.length_ofFn, Function.comp]
    congr 2
    exact Equiv.sum_comp σ fun i : Fin n =>
      (cn (fun i => (rankdata t x i : ℝ) / (n + 1)) (fun i => (rankdata t y i : ℝ) / (n + 1))
        ((rankdata t x i : ℝ) / (n + 1)) ((rankdata t y i : ℝ) / (n + 1))
      - cn (fun i => (rankdata t x i : ℝ) / (n + 1)) (fun i => (rankdata t y i : ℝ) / (n + 1))
        ((rankdata t y i : ℝ) / (n + 1)) ((rankdata t x i : ℝ) / (n + 1)))
      * (cn (fun i => (rankdata t x i : ℝ) / (n + 1)) (fun i => (rankdata t y i : ℝ) / (n + 1))
        ((rankdata t x i : ℝ) / (n + 1)) ((rankdata t y i : ℝ) / (n + 1))
      - cn (fun i => (rankdata t x i : ℝ) / (n + 1)) (fun i => (rankdata t y i : ℝ) / (n + 1))
        ((rankdata t y i : ℝ) / (n + 1)) ((rankdata t x i : ℝ) / (n + 1)))

example := exchTest_rows (n := 3) (fun x => Tuple.sort x) (fun k i => decide (i.val = k)) (fun _ _ => 0) (by norm_num)
  ![1, 2, 2] ![3, 5, 4] (Equiv.swap 0 2) parseTies_average (by simp) (N := 10) (m := 4) (by norm_num) (by norm_num)

end

/-! ### radial symmetry -/

theorem ravelF_apply (u : Fin n → Fin p → ℝ) (i : Fin n) (j : Fin p) :
    ravelF u (i + n * j) = u i j := by
  have hn : 0 < n := i.pos
  have h1 : ((i : ℕ) + n * j) % n = i := by
    rw [Nat.add_mul_mod_self_left, Nat.mod_eq_of_lt i.2]
  have h2 : ((i : ℕ) + n * j) / n = j := by
    rw [Nat.add_mul_div_left _ _ hn, Nat.div_eq_of_lt i.2, zero_add]
  unfold ravelF
  rw [dif_pos ⟨by rw [h1]; exact i.2, by rw [h2]; exact j.2⟩]
  congr 1 <;> simp [h1, h2]

/-- The statistic written over the matrix. -/
theorem radSymStat_eq (u : Fin n → Fin p → ℝ) : radSymStat (ravelF u) n p
    = ∑ k, ((∑ i, ((∏ j, ind (u i j ≤ u k j)) - ∏ j, ind (1 - u i j ≤ u k j))) / n) ^ 2 := by
  have hd : ∀ k : Fin n, diffCn (ravelF u) n p k
      = (∑ i, ((∏ j, ind (u i j ≤ u k j)) - ∏ j, ind (1 - u i j ≤ u k j))) / n := by
    intro k
    unfold diffCn
    congr 1
    rw [Finset.sum_range]
    refine Finset.sum_congr rfl fun i _ => ?_
    rw [Finset.prod_range, Finset.prod_range]
    simp only [ravelF_apply]
  unfold radSymStat
  rw [Finset.sum_range]
  refine Finset.sum_congr rfl fun k _ => ?_
  rw [hd, sq]

theorem radSymStat_nonneg (u : Fin n → Fin p → ℝ) : 0 ≤ radSymStat (ravelF u) n p := by
  rw [radSymStat_eq]
  exact Finset.sum_nonneg fun k _ => sq_nonneg _

theorem radSymReplicate_ok (argsort : (Fin n → ℝ) → Fin n → Fin n) (ir : Fin n → Fin p → Fin n)
    (u : Fin n → Fin p → ℝ) (b : Bool) (flip : Fin n → Bool) :
    ∃ r, 0 ≤ r ∧ radSymReplicate argsort ir u b flip = .ok r := by
  unfold radSymReplicate
  simp only [pseudoObsMat_ok _ parseTies_average, bind, Except.bind, pure, Except.pure]
  exact ⟨_, radSymStat_nonneg _, rfl⟩

section
variable (argsort : (Fin n → ℝ) → Fin n → Fin n) (flips : ℕ → Fin n → Bool)

theorem radSymTest_ok (x : Fin n → Fin p → ℝ) {ties : String} {t : TieMethod}
    (ht : parseTies ties = .ok t) {N : ℤ} (hN : 1 ≤ N) :
    ∃ s0 : List ℝ, s0.length = N.toNat ∧ (∀ r ∈ s0, 0 ≤ r) ∧
      radSymTest argsort flips x N ties = .ok
        ⟨radSymStat (ravelF fun i j => (rankdata t (fun k => x k j) i : ℝ) / (n + 1)) n p,
          pValue s0 (radSymStat (ravelF fun i j => (rankdata t (fun k => x k j) i : ℝ) / (n + 1)) n p)
            N.toNat⟩ := by
  classical
  choose r hr0 hr using fun k => radSymReplicate_ok argsort
    (fun j c => tieIndex (fun i => (rankdata t (fun k => x k c) i : ℝ) / (n + 1)) j)
    (fun i j => (rankdata t (fun k => x k j) i : ℝ) / (n + 1)) (anyTies x)
    (flips k)
  refine ⟨(List.range N.toNat).map r, by simp, ?_, ?_⟩
  · intro a ha
    obtain ⟨k, -, rfl⟩ := List.mem_map.mp ha
    exact hr0 k
  · unfold radSymTest
    simp only [if_neg (not_lt.mpr hN), pseudoObsMat_ok _ ht, bind, Except.bind, pure, Except.pure]
    rw [mapM_ok _ r _ fun k _ => hr k]

/-- C43, C45: `rad_sym_test` returns a non-negative statistic and a p-value between 0.5/(N+1) and
(N+0.5)/(N+1); fewer than one replication is rejected. -/
theorem radSymTest_valid (x : Fin n → Fin p → ℝ) {ties : String} {t : TieMethod}
    (ht : parseTies ties = .ok t) (N : ℤ) :
    (1 ≤ N → ∃ r, radSymTest argsort flips x N ties = .ok r ∧ 0 ≤ r.statistic ∧
      0.5 / (N + 1) ≤ r.pValue ∧ r.pValue ≤ (N + 0.5) / (N + 1)) ∧
    (N < 1 → radSymTest argsort flips x N ties = .error .assertionError) := by
  refine ⟨fun hN => ?_, fun hN => by unfold radSymTest; rw [if_pos hN]⟩
  obtain ⟨s0, h1, -, h2⟩ := radSymTest_ok argsort flips x ht hN
  refine ⟨_, h2, radSymStat_nonneg _, ?_⟩
  have := pValue_bounds h1
    (radSymStat (ravelF fun i j => (rankdata t (fun k => x k j) i : ℝ) / (n + 1)) n p)
  have e : ((N.toNat : ℕ) : ℝ) = N := by
    exact_mod_cast Int.toNat_of_nonneg (by omega : 0 ≤ N)
  rwa [e] at this

example := radSymTest_valid (n := 3) (p := 2) (fun x => Tuple.sort x) (fun k i => decide (i.val = k))
  (fun i j => (i.val : ℝ) * j.val) parseTies_average 10

/-- C45: reordering the rows (unless ranks are 'ordinal') or the columns does not change the statistic. -/
theorem radSymTest_perm (x : Fin n → Fin p → ℝ) (σ : Equiv.Perm (Fin n)) (τ : Equiv.Perm (Fin p))
    {ties : String} {t : TieMethod} (ht : parseTies ties = .ok t) (hσ : t ≠ .ordinal ∨ σ = 1) {N : ℤ}
    (hN : 1 ≤ N) :
    ∃ r r', radSymTest argsort flips x N ties = .ok r ∧
      radSymTest argsort flips (fun i j => x (σ i) (τ j)) N ties = .ok r' ∧
      r'.statistic = r.statistic := by
  obtain ⟨s0, -, -, h2⟩ := radSymTest_ok argsort flips x ht hN
  obtain ⟨s0', -, -, h2'⟩ := radSymTest_ok argsort flips (fun i j => x (σ i) (τ j)) ht hN
  refine ⟨_, _, h2, h2', ?_⟩
  have e : ∀ i j, rankdata t (fun k => x (σ k) (τ j)) i = rankdata t (fun k => x k (τ j)) (σ i) := by
    intro i j
    rcases hσ with h | rfl
    · exact rankdata_perm t h (fun k => x k (τ j)) σ i
    · rfl
  set u : Fin n → Fin p → ℝ := fun i j => (rankdata t (fun k => x k j) i : ℝ) / (n + 1) with hu
  have e' : (fun i j => (rankdata t (fun k => x (σ k) (τ j)) i : ℝ) / ((n : ℝ) + 1))
      = fun i j => u (σ i) (τ j) := by
    funext i j
    rw [e]
  simp only [e']
  rw [radSymStat_eq, radSymStat_eq]
  rw [← Equiv.sum_comp σ (fun k => ((∑ i, ((∏ j, ind (u i j ≤ u k j))
    - ∏ j, ind (1 - u i j ≤ u k j))) / (n : ℝ)) ^ 2)]
  refine Finset.sum_congr rfl fun k _ => ?_
  congr 2
  rw [← Equiv.sum_comp σ (fun i => ((∏ j, ind (u i j ≤ u (σ k) j))
    - ∏ j, ind (1 - u i j ≤ u (σ k) j)))]
  refine Finset.sum_congr rfl fun i _ => ?_
  rw [← Equiv.prod_comp τ (fun j => ind (u (σ i) j ≤ u (σ k) j)),
    ← Equiv.prod_comp τ (fun j => ind (1 - u (σ i) j ≤ u (σ k) j))]

example := radSymTest_perm (n := 3) (p := 2) (fun x => Tuple.sort x) (fun k i => decide (i.val = k))
  (fun i j => (i.val : ℝ) * j.val) (Equiv.swap 0 2) (Equiv.swap 0 1) parseTies_average (.inl (by simp)) (N := 10)
  (by norm_num)

theorem rankdata_average_reflect (x : Fin n → ℝ) (c : ℝ) (i : Fin n) :
    rankdata .average (fun k => c - x k) i = n + 1 - rankdata .average x i := by
  have h1 : cntEq (fun k => c - x k) i = cntEq x i := by
    unfold cntEq
    congr 1
    ext j
    simp
  have h2 : cntLt (fun k => c - x k) i + (cntLt x i + cntEq x i) = n := by
    rw [← cntLe_eq]
    unfold cntLt
    have : (Finset.univ.filter fun j => c - x j < c - x i) = Finset.univ.filter fun j => ¬ x j ≤ x i := by
      ext j
      simp
    rw [this, add_comm, Finset.card_filter_add_card_filter_not]
    simp
  have h3 : (cntLt (fun k => c - x k) i : ℚ) = n - (cntLt x i + cntEq x i) := by
    rw [eq_sub_iff_add_eq]
    exact_mod_cast h2
  simp only [rankdata, h1, h3]
  ring

/-- C45: a sample that is radially symmetric about some centre (its rows are closed under the point
reflection) has, with average ranks, the statistic 0 and the largest possible p-value. -/
theorem radSymTest_symmetric (x : Fin n → Fin p → ℝ) (c : Fin p → ℝ) (σ : Equiv.Perm (Fin n))
    (h : ∀ i j, x (σ i) j = 2 * c j - x i j) {ties : String} (ht : parseTies ties = .ok .average) {N : ℤ}
    (hN : 1 ≤ N) :
    ∃ r, radSymTest argsort flips x N ties = .ok r ∧ r.statistic = 0 ∧
      r.pValue = (N + 0.5) / (N + 1) := by
  obtain ⟨s0, h1, h0, h2⟩ := radSymTest_ok argsort flips x ht hN
  have hs : radSymStat (ravelF fun i j => (rankdata .average (fun k => x k j) i : ℝ) / (n + 1)) n p = 0 := by
    have hu : ∀ i j, 1 - (rankdata .average (fun k => x k j) i : ℝ) / (n + 1)
        = (rankdata .average (fun k => x k j) (σ i) : ℝ) / (n + 1) := by
      intro i j
      have e := rankdata_perm .average (by decide) (fun k => x k j) σ i
      rw [show (fun k => x k j) ∘ σ = fun k => 2 * c j - x k j from funext fun k => h k j,
        rankdata_average_reflect] at e
      rw [← e]
      push_cast
      field_simp
    rw [radSymStat_eq]
    refine Finset.sum_eq_zero fun k _ => ?_
    simp only [hu]
    rw [Finset.sum_sub_distrib, Equiv.sum_comp σ (fun i => ∏ j, ind
      ((rankdata .average (fun k => x k j) i : ℝ) / (n + 1)
        ≤ (rankdata .average (fun k => x k j) k : ℝ) / (n + 1))), sub_self]
    simp
  refine ⟨_, h2, hs, ?_⟩
  have e : ((N.toNat : ℕ) : ℝ) = N := by
    exact_mod_cast Int.toNat_of_nonneg (by omega : 0 ≤ N)
  simp only [hs]
  rw [pValue_zero h1 h0, e]

/-- C45: strictly increasing transformations of the columns change nothing. -/
theorem radSymTest_strictMono (x : Fin n → Fin p → ℝ) (f : Fin p → ℝ → ℝ) (hf : ∀ j, StrictMono (f j))
    (N : ℤ) (ties : String) :
    radSymTest argsort flips (fun i j => f j (x i j)) N ties = radSymTest argsort flips x N ties := by
  have e : pseudoObsMat (fun i j => f j (x i j)) ties = pseudoObsMat x ties := by
    cases ht : parseTies ties with
    | error e => simp [pseudoObsMat, ht, bind, Except.bind]
    | ok t =>
      rw [pseudoObsMat_ok _ ht, pseudoObsMat_ok _ ht]
      congr 1
      funext i j
      rw [rankdata_congr t (fun k => x k j) _ (fun a b => (hf j).lt_iff_lt) i]
  have e2 : (∃ j, hasTies fun i => f j (x i j)) ↔ ∃ j, hasTies fun i => x i j := by
    refine exists_congr fun j => not_congr ?_
    exact ⟨fun h a b hab => h (by simp only at hab ⊢; rw [hab]), fun h => (hf j).injective.comp h⟩
  have e3 : anyTies (fun i j => f j (x i j)) = anyTies x := decide_eq_decide.mpr e2
  unfold radSymTest
  rw [e, e3]

example := radSymTest_strictMono (n := 3) (p := 2) (fun x => Tuple.sort x) (fun k i => decide (i.val = k))
  (fun i j => (i.val : ℝ) * j.val) (fun _ => Real.exp) (fun _ => Real.exp_strictMono) 10 "min"

end

/-! ### ties in the bootstrap samples -/

/-- `v` is `u` with its rows in another order and its columns coarsened: no pair of rows is ordered
against the order it has in `u`, in any column, and the values of a column are values of that column. -/
def KeepsPairing (u v : Fin n → Fin p → ℝ) : Prop :=
  ∃ σ : Equiv.Perm (Fin n), ∀ c, (∀ a b, u (σ a) c < u (σ b) c → v a c ≤ v b c) ∧
    ∀ a, ∃ i, v a c = u i c

/-- `v`, made from a sample `w`, has ties where `d` has them, up to the order of the entries, and no others
if `w` has none. -/
def TiedLike (d w v : Fin n → ℝ) : Prop :=
  ∃ τ : Equiv.Perm (Fin n), (∀ a b, d (τ a) = d (τ b) → v a = v b) ∧
    (Function.Injective w → ∀ a b, v a = v b → d (τ a) = d (τ b))

theorem cntLt_le_of_le (x : Fin n → ℝ) {i j : Fin n} (h : x i ≤ x j) : cntLt x i ≤ cntLt x j :=
  Finset.card_le_card fun k => by simpa using fun hk => lt_of_lt_of_le hk h

theorem tieIndex_mono (x : Fin n → ℝ) : Monotone (tieIndex x) := by
  intro i j h
  have hle : rankdata .average (fun k => x (Tuple.sort x k)) i
      ≤ rankdata .average (fun k => x (Tuple.sort x k)) j := by
    rcases (Tuple.monotone_sort x h).lt_or_eq with h' | h'
    · exact (rankdata_lt .average (fun k => x (Tuple.sort x k)) h').le
    · exact (rankdata_eq_of_eq .average (by decide) (fun k => x (Tuple.sort x k)) h').le
  have := Int.toNat_le_toNat (Int.floor_le_floor hle)
  simp only [tieIndex, Fin.mk_le_mk]
  omega

theorem tieIndex_eq (x : Fin n → ℝ) {i j : Fin n} (h : x (Tuple.sort x i) = x (Tuple.sort x j)) :
    tieIndex x i = tieIndex x j := by
  have := rankdata_eq_of_eq .average (by decide) (fun k => x (Tuple.sort x k)) h
  simp only [tieIndex, this]

theorem tieIndex_lt_of_lt (x : Fin n → ℝ) {i j : Fin n} (h : x (Tuple.sort x i) < x (Tuple.sort x j)) :
    tieIndex x i < tieIndex x j := by
  set y : Fin n → ℝ := fun k => x (Tuple.sort x k) with hy
  have h1 : cntLt y i + cntEq y i ≤ cntLt y j := cntLt_add_cntEq_le_cntLt y h
  have h2 : (1 : ℚ) ≤ cntEq y i := by exact_mod_cast one_le_cntEq y i
  have h3 : (1 : ℚ) ≤ cntEq y j := by exact_mod_cast one_le_cntEq y j
  have h4 : ⌊rankdata .average y i⌋ ≤ ((cntLt y i + cntEq y i : ℕ) : ℤ) := by
    rw [← Int.lt_add_one_iff, Int.floor_lt]
    simp only [rankdata]
    push_cast
    linarith
  have h5 : ((cntLt y j + 1 : ℕ) : ℤ) ≤ ⌊rankdata .average y j⌋ := by
    rw [Int.le_floor]
    simp only [rankdata]
    push_cast
    linarith
  have h6 : 1 ≤ cntEq y i := one_le_cntEq y i
  simp only [tieIndex, Fin.mk_lt_mk]
  simp only [← hy]
  omega

theorem tieIndex_inj (x : Fin n → ℝ) {i j : Fin n} (h : tieIndex x i = tieIndex x j) :
    x (Tuple.sort x i) = x (Tuple.sort x j) := by
  rcases lt_trichotomy (x (Tuple.sort x i)) (x (Tuple.sort x j)) with h' | h' | h'
  · exact absurd h (tieIndex_lt_of_lt x h').ne
  · exact h'
  · exact absurd h (tieIndex_lt_of_lt x h').ne'

/-- Invariant of the loop over the columns. -/
theorem retieAll_aux {argsort : (Fin n → ℝ) → Fin n → Fin n}
    (ha : ∀ x, Function.Bijective (argsort x) ∧ Monotone fun i => x (argsort x i))
    (d : Fin n → Fin p → ℝ) (ub : Fin n → Fin p → ℝ) (l : List (Fin p)) (done : Fin p → Prop)
    (hd : l.Nodup) (hdl : ∀ c ∈ l, ¬ done c) (v : Fin n → Fin p → ℝ)
    (hv : ∃ σ : Equiv.Perm (Fin n), (∀ c, ¬ done c → ∀ a, v a c = ub (σ a) c) ∧
      ∀ c, done c → ((∀ a b, ub (σ a) c < ub (σ b) c → v a c ≤ v b c) ∧ ∀ a, ∃ i, v a c = ub i c) ∧
        TiedLike (fun i => d i c) (fun i => ub i c) fun a => v a c) :
    ∃ σ : Equiv.Perm (Fin n),
      (∀ c, ¬ (done c ∨ c ∈ l) → ∀ a, l.foldl
        (retie argsort fun j c => tieIndex (fun i => d i c) j) v a c = ub (σ a) c) ∧
      ∀ c, (done c ∨ c ∈ l) → ((∀ a b, ub (σ a) c < ub (σ b) c →
        l.foldl (retie argsort fun j c => tieIndex (fun i => d i c) j) v a c
          ≤ l.foldl (retie argsort fun j c => tieIndex (fun i => d i c) j) v b c) ∧
          ∀ a, ∃ i, l.foldl (retie argsort fun j c => tieIndex (fun i => d i c) j) v a c = ub i c) ∧
        TiedLike (fun i => d i c) (fun i => ub i c) fun a =>
          l.foldl (retie argsort fun j c => tieIndex (fun i => d i c) j) v a c := by
  induction l generalizing done v with
  | nil => simpa using hv
  | cons i l ih =>
    obtain ⟨σ, h1, h2⟩ := hv
    rw [List.foldl_cons]
    have hnd := List.nodup_cons.mp hd
    have hi : ¬ done i := hdl i List.mem_cons_self
    have hor : ∀ c, (done c ∨ c ∈ i :: l) ↔ ((done c ∨ c = i) ∨ c ∈ l) := fun c => by
      rw [List.mem_cons]; tauto
    simp only [hor]
    refine ih (fun c => done c ∨ c = i) hnd.2 (fun c hc => ?_) _ ?_
    · rintro (h | rfl)
      · exact hdl c (List.mem_cons_of_mem _ hc) h
      · exact hnd.1 hc
    · set π : Equiv.Perm (Fin n) := Equiv.ofBijective _ (ha fun j => v j i).1 with hπ
      have hm : Monotone fun k => v (π k) i := (ha fun j => v j i).2
      have hr : ∀ a c, retie argsort (fun j c => tieIndex (fun i => d i c) j) v i a c
          = if c = i then v (π (tieIndex (fun k => d k i) a)) i else v (π a) c := by
        intro a c
        unfold retie
        by_cases hc : c = i
        · simp only [hc, if_true]; rfl
        · simp only [hc, if_false]; rfl
      refine ⟨π.trans σ, fun c hc a => ?_, fun c hc => ?_⟩
      · push Not at hc
        rw [hr, if_neg hc.2, h1 c hc.1]
        rfl
      · by_cases hci : c = i
        · subst hci
          simp only [hr, if_true]
          refine ⟨⟨fun a b hab => ?_, fun a => ⟨_, h1 c hi _⟩⟩, Tuple.sort fun k => d k c,
            fun a b hab => ?_, fun hinj a b hab => ?_⟩
          · have hlt : v (π a) c < v (π b) c := by
              rw [h1 c hi, h1 c hi]
              exact hab
            have : a < b := by
              by_contra hc
              exact absurd (hm (not_lt.mp hc)) (not_le.mpr hlt)
            exact hm (tieIndex_mono _ this.le)
          · beta_reduce
            rw [tieIndex_eq (fun k => d k c) hab]
          · refine tieIndex_inj (fun k => d k c) (π.injective (σ.injective (hinj ?_)))
            simp only [h1 c hi] at hab
            exact hab
        · have hdc : done c := by tauto
          simp only [hr, if_neg hci]
          obtain ⟨⟨h3, h5⟩, τ, h4, h6⟩ := h2 c hdc
          exact ⟨⟨fun a b hab => h3 _ _ hab, fun a => h5 _⟩, π.trans τ, fun a b hab => h4 _ _ hab,
            fun hinj a b hab => h6 hinj _ _ hab⟩

/-- C62: re-creating ties in the replicated samples of `exch_test` and `rad_sym_test` moves whole rows and
coarsens the columns; every column gets the ties of the data. -/
theorem retieAll_spec {argsort : (Fin n → ℝ) → Fin n → Fin n}
    (ha : ∀ x, Function.Bijective (argsort x) ∧ Monotone fun i => x (argsort x i))
    (d ub : Fin n → Fin p → ℝ) :
    KeepsPairing ub (retieAll argsort (fun j c => tieIndex (fun i => d i c) j) ub) ∧
      ∀ c, TiedLike (fun i => d i c) (fun i => ub i c)
        fun a => retieAll argsort (fun j c => tieIndex (fun i => d i c) j) ub a c := by
  obtain ⟨σ, -, h⟩ := retieAll_aux ha d ub (List.finRange p) (fun _ => False) (List.nodup_finRange p)
    (fun _ _ => id) ub ⟨1, fun _ _ _ => rfl, fun _ h => h.elim⟩
  have h' : ∀ c, _ := fun c => h c (Or.inr (List.mem_finRange c))
  exact ⟨⟨σ, fun c => (h' c).1⟩, fun c => (h' c).2⟩

/-- C46: the bootstrap of `gof_copula` gives every column the ties of the data ... -/
theorem gofResort_ties (d u : Fin n → Fin p → ℝ) (c : Fin p) :
    TiedLike (fun i => d i c) (fun i => u i c)
      fun a => gofResort (fun i j => tieIndex (fun k => d k j) i) u a c :=
  ⟨Tuple.sort fun k => d k c, fun a b h => by
    simp only [gofResort]
    rw [tieIndex_eq (fun k => d k c) h], fun hinj a b h =>
    tieIndex_inj (fun k => d k c) ((Tuple.sort fun k => u k c).injective (hinj h))⟩

/-- ... but it sorts every column on its own: whatever the fitted copula is and whatever was simulated, the
rows of the bootstrap sample are ordered in the same way in all columns. -/
theorem gofResort_comonotone (d u : Fin n → Fin p → ℝ) {a b : Fin n} (h : a ≤ b) (c : Fin p) :
    gofResort (fun i j => tieIndex (fun k => d k j) i) u a c
      ≤ gofResort (fun i j => tieIndex (fun k => d k j) i) u b c := by
  unfold gofResort
  exact Tuple.monotone_sort (fun k => u k c) (tieIndex_mono (fun k => d k c) h)

example := gofResort_comonotone (n := 3) (p := 2) (fun i _ => ![1, 1, 2] i) (fun i j => ![4, 6, 5] i - j.val) (a := 0)
  (b := 2) (by decide) 1

theorem tieIndex_of_strictMono {x : Fin n → ℝ} (hx : StrictMono x) (j : Fin n) : tieIndex x j = j := by
  have hs : Tuple.sort x = Equiv.refl _ := Tuple.sort_eq_refl_iff_monotone.mpr hx.monotone
  have h1 : cntLt x j = j := by
    unfold cntLt
    refine (congrArg Finset.card (?_ : _ = Finset.Iio j)).trans (Fin.card_Iio j)
    ext k
    simp [hx.lt_iff_lt]
  have h2 : cntEq x j = 1 := by
    unfold cntEq
    exact Finset.card_eq_one.mpr ⟨j, by ext; simp [hx.injective.eq_iff]⟩
  have h3 : rankdata .average x j = ((j + 1 : ℕ) : ℚ) := by
    simp only [rankdata, h1, h2]
    push_cast
    ring
  ext
  simp only [tieIndex, hs, Equiv.refl_apply, h3, Int.floor_natCast, Int.toNat_natCast]
  omega

theorem sort_fin3_anti {u : Fin 3 → ℝ} (h : StrictAnti u) : (fun i => u (Tuple.sort u i)) = fun i => u (Fin.rev i) := by
  have := Tuple.comp_sort_eq_comp_iff_monotone (f := u) (σ := Fin.revPerm)
  have hm : Monotone (u ∘ Fin.revPerm) := fun a b hab => h.antitone (Fin.rev_le_rev.mpr hab)
  exact (this.mpr hm).symm

/-- The negation of C46: three observations with a tie in the first column; in the simulated sample large
values of the first column go with small values of the second, in the bootstrap sample with large ones. -/
theorem gofResort_breaks_pairing : ∃ (d u : Fin 3 → Fin 2 → ℝ), (∃ c, hasTies fun i => d i c) ∧
    ¬ KeepsPairing u (gofResort (fun i j => tieIndex (fun k => d k j) i) u) := by
  refine ⟨fun i c => if c = 0 then ![1, 1, 2] i else i, fun i c => if c = 0 then i else -i, ⟨0, ?_⟩, ?_⟩
  · unfold hasTies
    intro h
    exact absurd (@h 0 1 (by simp)) (by decide)
  · rintro ⟨σ, h⟩
    set d0 : Fin 3 → ℝ := ![1, 1, 2] with hd0
    have hmono : Monotone d0 := by
      intro a b hab
      fin_cases a <;> fin_cases b <;> simp_all
    have hs0 : Tuple.sort d0 = Equiv.refl _ := Tuple.sort_eq_refl_iff_monotone.mpr hmono
    have hlt : tieIndex d0 0 < tieIndex d0 2 := tieIndex_lt_of_lt d0 (by rw [hs0]; simp [hd0])
    have hid : StrictMono fun i : Fin 3 => ((i : ℕ) : ℝ) := fun a b hab => by
      beta_reduce
      exact_mod_cast hab
    have hsid : Tuple.sort (fun i : Fin 3 => ((i : ℕ) : ℝ)) = Equiv.refl _ :=
      Tuple.sort_eq_refl_iff_monotone.mpr hid.monotone
    have hanti : StrictAnti fun i : Fin 3 => -((i : ℕ) : ℝ) := fun a b hab => neg_lt_neg (hid hab)
    have hrev := sort_fin3_anti hanti
    have h0 := (h 0).1
    have h1 := (h 1).1
    simp only [gofResort, if_true, one_ne_zero, if_false, hsid, Equiv.refl_apply] at h0 h1
    simp only [tieIndex_of_strictMono hid] at h1
    have h1' : ∀ a b : Fin 3, -((σ a : ℕ) : ℝ) < -((σ b : ℕ) : ℝ) →
        -((Fin.rev a : ℕ) : ℝ) ≤ -((Fin.rev b : ℕ) : ℝ) := by
      intro a b hab
      have := h1 a b hab
      have ea := congrFun hrev a
      have eb := congrFun hrev b
      rwa [ea, eb] at this
    have hne : σ 0 ≠ σ 2 := fun h => absurd (σ.injective h) (by decide)
    rcases lt_or_gt_of_ne hne with h2 | h2
    · have h3 := h1' 2 0 (neg_lt_neg (by exact_mod_cast h2))
      simp [Fin.rev] at h3
      norm_num at h3
    · have h3 := h0 2 0 (by exact_mod_cast h2)
      have h4 : ((tieIndex d0 2 : Fin 3) : ℕ) ≤ (tieIndex d0 0 : Fin 3) := by exact_mod_cast h3
      exact absurd hlt (not_lt.mpr h4)

/-- The assumption on `argsort` of `retieAll_spec` is met by a stable sort; here the rows of a sample are
re-tied like the data. -/
example : KeepsPairing (fun (i : Fin 3) (c : Fin 2) => if c = 0 then (i : ℝ) else -i)
    (retieAll (fun x => Tuple.sort x)
      (fun j c => tieIndex (fun i : Fin 3 => if c = 0 then ![1, 1, 2] i else (i : ℝ)) j)
      fun (i : Fin 3) (c : Fin 2) => if c = 0 then (i : ℝ) else -i) :=
  (retieAll_spec (fun x => isArgsort_sort 3 x)
    (fun (i : Fin 3) (c : Fin 2) => if c = 0 then ![1, 1, 2] i else (i : ℝ)) _).1

/-- Four points closed under swapping the coordinates, two of them with a tie. -/
example (argsort : ∀ {n : ℕ}, (Fin n → ℝ) → Fin n → Fin n) (flips : ∀ {n : ℕ}, ℕ → Fin n → Bool)
    (normals : ∀ {n : ℕ}, ℕ → Fin n → ℝ) :
    ∃ r, exchTest argsort flips normals (.vec 4 ![1, 3, 2, 2]) (.vec 4 ![3, 1, 2, 2]) 100 0 "average" = .ok r ∧
      r.statistic = 0 ∧ r.pValue = ((100 : ℤ) + 0.5) / ((100 : ℤ) + 1) :=
  exchTest_exchangeable argsort flips normals (by norm_num) _ _ (Equiv.swap 0 1)
    (by intro i; fin_cases i <;> simp [Equiv.swap_apply_def])
    (by intro i; fin_cases i <;> simp [Equiv.swap_apply_def])
    parseTies_average (by decide) (by norm_num) (by norm_num)

/-- Four points in the plane, symmetric about (1, 0). -/
example (argsort : (Fin 4 → ℝ) → Fin 4 → Fin 4) (flips : ℕ → Fin 4 → Bool) :
    ∃ r, radSymTest argsort flips (fun i (j : Fin 2) => if j = 0 then ![0, 1, 1, 2] i else ![1, 3, -3, -1] i)
        100 "average" = .ok r ∧
      r.statistic = 0 ∧ r.pValue = ((100 : ℤ) + 0.5) / ((100 : ℤ) + 1) := by
  refine radSymTest_symmetric argsort flips _ (fun j => if j = 0 then 1 else 0)
    Fin.revPerm ?_ parseTies_average (by norm_num)
  intro i j
  fin_cases i <;> fin_cases j <;> simp [Fin.rev] <;> norm_num

/-! ### goodness of fit -/

theorem mapM_length {α β : Type} {f : α → Except PyErr β} {l : List α} {v : List β}
    (h : l.mapM f = .ok v) : v.length = l.length := by
  induction l generalizing v with
  | nil =>
    have : v = [] := by
      simp [pure, Except.pure] at h
      exact h
    simp [this]
  | cons a l ih =>
    rw [List.mapM_cons] at h
    cases ha : f a with
    | error e => simp [ha, bind, Except.bind] at h
    | ok b =>
      cases hl : l.mapM f with
      | error e => simp [ha, hl, bind, Except.bind] at h
      | ok w =>
        simp [ha, hl, bind, Except.bind, pure, Except.pure] at h
        subst h
        simp [ih hl]

/-- C43: with at least one replication, the p-value of `gof_copula` lies between 0.5/(reps+1) and
(reps+0.5)/(reps+1), whatever the copula class does. -/
theorem gofCopula_pvalue {σ : Type} {d : ℕ} (fit : (Fin n → Fin d → ℝ) → Except PyErr σ)
    (cdf : σ → (Fin n → Fin d → ℝ) → Fin n → Fl) (random : σ → ℕ → Fin n → Fin d → ℝ)
    (data : Fin n → Fin d → ℝ) {reps : ℤ} (hr : 1 ≤ reps) (ties fitTies : String) {c : σ} {t : Fl} {p : ℝ}
    (h : gofCopula fit cdf random data reps ties fitTies = .ok (c, t, p)) :
    0.5 / (reps + 1) ≤ p ∧ p ≤ (reps + 0.5) / (reps + 1) := by
  classical
  unfold gofCopula at h
  cases h1 : gofFit fit cdf data ties fitTies with
  | error e => simp [h1, bind, Except.bind] at h
  | ok q =>
    obtain ⟨c', t'⟩ := q
    simp only [h1, bind, Except.bind] at h
    cases hts : (List.range reps.toNat).mapM fun k =>
        gofReplicate fit cdf data (random c' k) ties fitTies with
    | error e => simp [hts] at h
    | ok ts =>
        have hl := mapM_length hts
        simp only [hts] at h
        rw [if_neg (by omega)] at h
        simp only [pure, Except.pure, Except.ok.injEq, Prod.mk.injEq] at h
        obtain ⟨-, rfl, rfl⟩ := h
        have h3 : (ts.countP fun r => @decide (Fl.abs r ≥ Fl.abs t') (Classical.propDecidable _)) ≤ reps.toNat := by
          have := List.countP_le_length (p := fun r => @decide (Fl.abs r ≥ Fl.abs t') (Classical.propDecidable _)) (l := ts)
          rwa [hl, List.length_range] at this
        have h4 : ((ts.countP fun r => @decide (Fl.abs r ≥ Fl.abs t') (Classical.propDecidable _) : ℕ) : ℝ) ≤ reps := by
          have : ((reps.toNat : ℕ) : ℝ) = reps := by
            exact_mod_cast Int.toNat_of_nonneg (by omega : 0 ≤ reps)
          rw [← this]
          exact_mod_cast h3
        have h5 : (1 : ℝ) ≤ reps := by exact_mod_cast hr
        unfold gofPValue
        constructor
        · gcongr
          · have : (0 : ℝ) ≤ (ts.countP fun r => @decide (Fl.abs r ≥ Fl.abs t') (Classical.propDecidable _) : ℕ) := by
              positivity
            linarith
        · gcongr

/-- C43: a larger statistic never gives a larger p-value. -/
theorem gofPValue_antitone (ts : List Fl) {reps : ℤ} (hr : 0 ≤ reps) {t t' : ℝ} (h : |t| ≤ |t'|) :
    gofPValue ts (.fin t') reps ≤ gofPValue ts (.fin t) reps := by
  classical
  have h5 : (0 : ℝ) ≤ reps := by exact_mod_cast hr
  have hc : (ts.countP fun r => @decide (Fl.abs r ≥ Fl.abs (.fin t')) (Classical.propDecidable _))
      ≤ ts.countP fun r => @decide (Fl.abs r ≥ Fl.abs (.fin t)) (Classical.propDecidable _) :=
    List.countP_mono_left fun r _ hr => by
      simp only [ge_iff_le, decide_eq_true_eq, Fl.abs_fin] at hr ⊢
      cases r with
      | nan => simp [Fl.abs] at hr
      | pinf => simp [Fl.abs]
      | ninf => simp [Fl.abs]
      | fin r =>
        simp only [Fl.abs_fin, Fl.fin_le_fin] at hr ⊢
        exact h.trans hr
  unfold gofPValue
  gcongr

example := gofPValue_antitone [.fin 1, .fin (-2), .nan] (reps := 3) (by norm_num) (t := -1) (t' := 3 / 2) (by norm_num [abs_of_pos])

/-- A statistic that is NaN gets the smallest p-value, as if it were the strongest evidence against the
copula. -/
theorem gofPValue_nan (ts : List Fl) (reps : ℤ) : gofPValue ts .nan reps = 0.5 / (reps + 1) := by
  classical
  unfold gofPValue
  have : (ts.countP fun r => @decide (Fl.abs r ≥ Fl.abs .nan) (Classical.propDecidable _)) = 0 :=
    List.countP_eq_zero.mpr fun r _ => by
      cases r <;> simp [Fl.abs]
  rw [this]
  simp

theorem gofResort_lt_iff (ir : Fin n → Fin p → Fin n) (u : Fin n → Fin p → ℝ)
    (hu : ∀ c, Function.Injective fun i => u i c) (a b : Fin n) (c : Fin p) :
    gofResort ir u a c < gofResort ir u b c ↔ ir a c < ir b c := by
  have : StrictMono fun i => u (Tuple.sort (fun k => u k c) i) c :=
    (Tuple.monotone_sort fun k => u k c).strictMono_of_injective
      ((hu c).comp (Tuple.sort fun k => u k c).injective)
  exact this.lt_iff_lt

/-- Pseudo-observations of the re-sorted sample do not depend on the sample. -/
theorem gofData_resort (ir : Fin n → Fin p → Fin n) (u v : Fin n → Fin p → ℝ)
    (hu : ∀ c, Function.Injective fun i => u i c) (hv : ∀ c, Function.Injective fun i => v i c)
    (ties fitTies : String) :
    gofData (gofResort ir u) ties fitTies = gofData (gofResort ir v) ties fitTies := by
  have hp : ∀ s, pseudoObsMat (gofResort ir u) s = pseudoObsMat (gofResort ir v) s := by
    intro s
    cases ht : parseTies s with
    | error e => simp [pseudoObsMat, ht, bind, Except.bind]
    | ok t =>
      rw [pseudoObsMat_ok _ ht, pseudoObsMat_ok _ ht]
      congr 1
      funext i j
      rw [rankdata_congr t (fun k => gofResort ir v k j) (fun k => gofResort ir u k j) (fun a b => by
        rw [gofResort_lt_iff ir u hu, gofResort_lt_iff ir v hv]) i]
  have he : ∀ (w : Fin n → Fin p → ℝ), (∀ c, Function.Injective fun i => w i c) → ∀ j,
      (hasTies fun i => gofResort ir w i j) ↔ ¬ Function.Injective fun i => ir i j := by
    intro w hw j
    refine not_congr ⟨fun h a b hab => h ?_, fun h a b hab => h ?_⟩
    · simp only [gofResort] at hab ⊢
      rw [hab]
    · by_contra hne
      rcases lt_or_gt_of_ne hne with h' | h'
      · exact absurd hab ((gofResort_lt_iff ir w hw _ _ j).mpr h').ne
      · exact absurd hab ((gofResort_lt_iff ir w hw _ _ j).mpr h').ne'
  have ht : anyTies (gofResort ir u) = anyTies (gofResort ir v) :=
    decide_eq_decide.mpr (exists_congr fun j => (he u hu j).trans (he v hv j).symm)
  unfold gofData
  rw [hp, hp, ht]

/-- The consequence for the test: if the data have ties (and the simulated samples have none, as samples
from a continuous distribution do), all replicated statistics are equal, so the p-value is one of the two
extreme values, independently of the dependence in the simulated samples. -/
theorem gofCopula_ties_degenerate {σ : Type} {d : ℕ} (fit : (Fin n → Fin d → ℝ) → Except PyErr σ)
    (cdf : σ → (Fin n → Fin d → ℝ) → Fin n → Fl) (random : σ → ℕ → Fin n → Fin d → ℝ)
    (data : Fin n → Fin d → ℝ) (hd : ∃ j, hasTies fun i => data i j)
    (hr : ∀ c k j, Function.Injective fun i => random c k i j) {reps : ℤ} (hreps : 1 ≤ reps)
    (ties fitTies : String) {c : σ} {t : Fl} {p : ℝ}
    (h : gofCopula fit cdf random data reps ties fitTies = .ok (c, t, p)) :
    p = 0.5 / (reps + 1) ∨ p = (reps + 0.5) / (reps + 1) := by
  classical
  have htied : anyTies data = true := decide_eq_true hd
  unfold gofCopula at h
  cases h1 : gofFit fit cdf data ties fitTies with
  | error e => simp [h1, bind, Except.bind] at h
  | ok q =>
    obtain ⟨c', t'⟩ := q
    simp only [h1, bind, Except.bind] at h
    have hconst : ∀ k, gofReplicate fit cdf data (random c' k) ties fitTies
        = gofReplicate fit cdf data (random c' 0) ties fitTies := by
      intro k
      unfold gofReplicate gofFit
      simp only [htied, if_true]
      rw [gofData_resort _ (random c' k) (random c' 0) (hr c' k) (hr c' 0)]
    cases hts : (List.range reps.toNat).mapM fun k =>
        gofReplicate fit cdf data (random c' k) ties fitTies with
    | error e => simp [hts] at h
    | ok ts =>
        have hl := mapM_length hts
        rw [List.length_range] at hl
        simp only [hts] at h
        rw [if_neg (by omega)] at h
        simp only [pure, Except.pure, Except.ok.injEq, Prod.mk.injEq] at h
        obtain ⟨-, rfl, rfl⟩ := h
        obtain ⟨a, ha⟩ : ∃ a, ∀ r ∈ ts, r = a := by
          cases hA : gofReplicate fit cdf data (random c' 0) ties fitTies with
          | error e =>
            have hmem : 0 ∈ List.range reps.toNat := List.mem_range.mpr (by omega)
            obtain ⟨e', he'⟩ := mapM_error (f := fun k =>
              gofReplicate fit cdf data (random c' k) ties fitTies) hmem ⟨e, hA⟩
            rw [hts] at he'
            exact absurd he' (by simp)
          | ok a =>
            refine ⟨a, fun r hr' => ?_⟩
            rw [mapM_ok _ (fun _ => a) _ fun k _ => (hconst k).trans hA] at hts
            have : ts = (List.range reps.toNat).map fun _ => a := by simpa using hts.symm
            rw [this] at hr'
            obtain ⟨k, -, rfl⟩ := List.mem_map.mp hr'
            rfl
        have e : ((reps.toNat : ℕ) : ℝ) = reps := by
          exact_mod_cast Int.toNat_of_nonneg (by omega : 0 ≤ reps)
        unfold gofPValue
        by_cases hat : Fl.abs a ≥ Fl.abs t'
        · right
          have : (ts.countP fun r => @decide (Fl.abs r ≥ Fl.abs t') (Classical.propDecidable _)) = ts.length :=
            List.countP_eq_length.mpr fun r hr' => by simpa [ha r hr'] using hat
          rw [this, hl, e]
        · left
          have : (ts.countP fun r => @decide (Fl.abs r ≥ Fl.abs t') (Classical.propDecidable _)) = 0 :=
            List.countP_eq_zero.mpr fun r hr' => by simpa [ha r hr'] using hat
          rw [this]
          simp

end Copulae
