import Mathlib.Data.Fin.Tuple.Sort
import Verif.Model.Empirical

/-!
Model of `copulae/gof`: `exch_test` (exchangeability.py, _exchangeability.pyx), `rad_sym_test`
(radial_symmetry.py, _radial_symmetry.pyx) and `gof_copula` (goodness_of_fit/).

Data are real matrices and vectors. The random draws are parameters: the coin flips obtained from C's
`rand()`, the normal variates of `np.random.normal` after `np.random.seed(8888)`, and the samples of the
fitted copula. The `method` text of the results is not modelled.
-/

namespace Copulae

/-- core/misc.py:39-106 `pseudo_obs` of a real matrix; `pseudoObsMat_eq` relates it to `pseudoObs`. -/
noncomputable def pseudoObsMat {n p : ℕ} (u : Fin n → Fin p → ℝ) (ties : String) :
    Except PyErr (Fin n → Fin p → ℝ) := do
  let t ← parseTies ties
  return fun i j => (rankdata t (fun k => u k j) i : ℝ) / (n + 1)

/-- core/misc.py:39-106 `pseudo_obs` of a real vector. -/
noncomputable def pseudoObsVec {n : ℕ} (x : Fin n → ℝ) (ties : String) : Except PyErr (Fin n → ℝ) := do
  let t ← parseTies ties
  return fun i => (rankdata t x i : ℝ) / (n + 1)

/-- C value of a comparison. -/
noncomputable def ind (p : Prop) [Decidable p] : ℝ := if p then 1 else 0

/-- exchangeability.py:116 and radial_symmetry.py:84 `(np.sum(s0 >= s) + 0.5) / (N + 1)`. -/
noncomputable def pValue (s0 : List ℝ) (s : ℝ) (N : ℕ) : ℝ :=
  ((s0.countP fun r => decide (r ≥ s)) + 0.5) / (N + 1)

/-- gof/common.py:4-7 `TestStatistic`. -/
structure TestStat where
  statistic : ℝ
  pValue : ℝ

/-! ### Exchangeability -/

/-- _exchangeability.pyx:10-38 `cn`. -/
noncomputable def cn {n : ℕ} (u v : Fin n → ℝ) (x y : ℝ) : ℝ :=
  (∑ i, ind (u i ≤ x) * ind (v i ≤ y)) / n

/-- _exchangeability.pyx:69-72, 104-107: clipping to [1/√n, 1 - 1/√n]. -/
noncomputable def clipCn (n : ℕ) (x : ℝ) : ℝ :=
  if x < 1 / √n then 1 / √n else if x > 1 - 1 / √n then 1 - 1 / √n else x

/-- _exchangeability.pyx:41-74 `der_cn_1`. -/
noncomputable def derCn1 {n : ℕ} (u v : Fin n → ℝ) (x y : ℝ) : ℝ :=
  (cn u v (clipCn n x + 1 / √n) y - cn u v (clipCn n x - 1 / √n) y) / (2 * (1 / √n))

/-- _exchangeability.pyx:77-110 `der_cn_2`. -/
noncomputable def derCn2 {n : ℕ} (u v : Fin n → ℝ) (x y : ℝ) : ℝ :=
  (cn u v x (clipCn n y + 1 / √n) - cn u v x (clipCn n y - 1 / √n)) / (2 * (1 / √n))

/-- _exchangeability.pyx:145-156: the influence of observation `j` at the grid point `(x, y)`. -/
noncomputable def exchInflu {n : ℕ} (u v : Fin n → ℝ) (x y : ℝ) (j : Fin n) : ℝ :=
  (ind (u j ≤ x) * ind (v j ≤ y) - derCn1 u v x y * ind (u j ≤ x) - derCn2 u v x y * ind (v j ≤ y)
    - ind (u j ≤ y) * ind (v j ≤ x) + derCn1 u v y x * ind (u j ≤ y) + derCn2 u v y x * ind (v j ≤ x))
    / √n

/-- _exchangeability.pyx:160-173: one multiplier replication with the normal variates `z`. -/
noncomputable def exchMultiplier {n : ℕ} (u v : Fin n → ℝ) (g : List (ℝ × ℝ)) (z : Fin n → ℝ) : ℝ :=
  let mean := ∑ j, z j / n
  (g.map fun q =>
    let process := ∑ k, (z k - mean) * exchInflu u v q.1 q.2 k
    process * process).sum / g.length

/-- _exchangeability.pyx:113-173 `exch_test_cn`; `normals i` are the variates of replication `i`. -/
noncomputable def exchTestCn {n : ℕ} (u v : Fin n → ℝ) (g : List (ℝ × ℝ)) (N : ℕ)
    (normals : ℕ → Fin n → ℝ) : List ℝ :=
  (List.range N).map fun i => exchMultiplier u v g (normals i)

/-- _exchangeability.pyx:176-209 `exch_test_stat` for a non-empty grid. -/
noncomputable def exchTestStat {n : ℕ} (u v : Fin n → ℝ) (g : List (ℝ × ℝ)) : ℝ :=
  (g.map fun q =>
    let diff := cn u v q.1 q.2 - cn u v q.2 q.1
    diff * diff).sum * n / g.length

theorem tieIndex_lt {n : ℕ} (x : Fin n → ℝ) (j : Fin n) :
    ⌊rankdata .average x j⌋.toNat - 1 < n := by
  have h0 : (0 : ℚ) ≤ n := by positivity
  have hn : 0 < n := j.pos
  have h1 : rankdata .average x j ≤ n := by
    have hle : cntLt x j + cntEq x j ≤ n := by
      unfold cntLt cntEq
      rw [← Finset.card_union_of_disjoint]
      · exact (Finset.card_le_univ _).trans (by simp)
      · rw [Finset.disjoint_filter]
        intro k _ h1 h2
        exact absurd h2 (ne_of_lt h1)
    have h2 : 1 ≤ cntEq x j := Finset.card_pos.mpr ⟨j, by simp⟩
    have h3 : ((cntLt x j : ℚ) + cntEq x j) ≤ n := by exact_mod_cast hle
    have h4 : (1 : ℚ) ≤ cntEq x j := by exact_mod_cast h2
    simp only [rankdata]
    linarith
  have h2 : ⌊rankdata .average x j⌋ ≤ n := by
    exact_mod_cast (Int.floor_le_floor h1).trans (by simp)
  omega

/-- exchangeability.py:108, radial_symmetry.py:79: `floor(rank_data(np.sort(u, 0), axis=1)) - 1`, and
goodness_of_fit/utils.py:30 (sorting the ranks instead of ranking the sorted column is the same, and
`astype(int)` truncates the positive ranks): for each position of a sorted
column the position whose value stands for its group of ties. The type records that the index is in
range. -/
noncomputable def tieIndex {n : ℕ} (x : Fin n → ℝ) (j : Fin n) : Fin n :=
  ⟨⌊rankdata .average (fun k => x (Tuple.sort x k)) j⌋.toNat - 1, tieIndex_lt _ _⟩

/-- _exchangeability.pyx:250-259 and _radial_symmetry.pyx:53-62: one pass of the loop over the columns.
The rows are sorted by column `i`, then the values of column `i` are tied. -/
def retie {n p : ℕ} (argsort : (Fin n → ℝ) → Fin n → Fin n) (ir : Fin n → Fin p → Fin n)
    (ub : Fin n → Fin p → ℝ) (i : Fin p) : Fin n → Fin p → ℝ :=
  let order := argsort fun j => ub j i
  let t1 : Fin n → Fin p → ℝ := fun j => ub (order j)
  fun j c => if c = i then t1 (ir j i) i else t1 j c

/-- The loop over the columns. -/
def retieAll {n p : ℕ} (argsort : (Fin n → ℝ) → Fin n → Fin n) (ir : Fin n → Fin p → Fin n)
    (ub : Fin n → Fin p → ℝ) : Fin n → Fin p → ℝ :=
  (List.finRange p).foldl (retie argsort ir) ub

/-- Two vectors as the columns of a matrix: `np.vstack([x, y]).T`. -/
def twoCols {n : ℕ} (x y : Fin n → ℝ) (i : Fin n) (c : Fin 2) : ℝ := if c = 0 then x i else y i

/-- _exchangeability.pyx:212-266 `exch_replication`; `flip i` says that row `i` keeps its order
(`rand() / RAND_MAX > 0.5`). -/
noncomputable def exchReplication {n : ℕ} (argsort : (Fin n → ℝ) → Fin n → Fin n)
    (ir : Fin n → Fin 2 → Fin n) (u : Fin n → Fin 2 → ℝ) (g : List (ℝ × ℝ)) (m : ℕ)
    (flip : Fin n → Bool) : Except PyErr ℝ := do
  let ub : Fin n → Fin 2 → ℝ := fun i => twoCols (fun k => if flip k then u k 0 else u k 1)
    (fun k => if flip k then u k 1 else u k 0) i
  let ub ← pseudoObsMat (retieAll argsort ir ub) "average"
  let g := if m = 0 then List.ofFn fun i => (ub i 0, ub i 1) else g
  return exchTestStat (fun i => ub i 0) (fun i => ub i 1) g

/-- exchangeability.py:95-98: the integration grid, `np.linspace(1/m, 1 - 1/m, m)` in both coordinates
(`np.tile` for the first, `np.repeat` for the second). For `m = 1` linspace returns its start. -/
noncomputable def exchGrid (m : ℕ) : List (ℝ × ℝ) :=
  let xis : ℕ → ℝ := fun k => 1 / m + k * (((1 - 1 / m) - 1 / m) / (m - 1))
  (List.range (m * m)).map fun k => (xis (k % m), xis (k / m))

/-- `len(np.unique(x)) != n`. -/
def hasTies {n : ℕ} (x : Fin n → ℝ) : Prop := ¬ Function.Injective x

open Classical in
/-- exchangeability.py:10-119 `exch_test` from line 90 on, for two vectors of the same length. A zero
length is only modelled for `m = 0` (division by the grid size). -/
noncomputable def exchTestVec {n : ℕ} (argsort : (Fin n → ℝ) → Fin n → Fin n) (flips : ℕ → Fin n → Bool)
    (normals : ℕ → Fin n → ℝ) (x y : Fin n → ℝ) (N m : ℤ) : Except PyErr TestStat := do
  if m < 0 then .error .assertionError
  else if N < 1 then .error .assertionError
  else
    let g := if 0 < m then exchGrid m.toNat else List.ofFn fun i => (x i, y i)
    if g.length = 0 then .error .zeroDivision
    else
      let s := exchTestStat x y g
      let s0 ← if hasTies x ∨ hasTies y then
          (List.range N.toNat).mapM fun k => exchReplication argsort
            (fun j c => tieIndex (fun i => twoCols x y i c) j) (twoCols x y) g m.toNat (flips k)
        else pure (exchTestCn x y g N.toNat normals)
      return ⟨s, pValue s0 s N.toNat⟩

/-- exchangeability.py:10-119 `exch_test`. `np.vstack` needs equal row lengths; arguments that are not
vectors fail the assertion of line 91 after that. -/
noncomputable def exchTest (argsort : ∀ {n : ℕ}, (Fin n → ℝ) → Fin n → Fin n)
    (flips : ∀ {n : ℕ}, ℕ → Fin n → Bool) (normals : ∀ {n : ℕ}, ℕ → Fin n → ℝ) (x y : NDArr ℝ)
    (N m : ℤ) (ties : String) : Except PyErr TestStat :=
  match x, y with
  | .vec n x, .vec n' y => do
    let px ← pseudoObsVec x ties
    let py ← pseudoObsVec y ties
    if h : n' = n then exchTestVec argsort flips normals px (fun i => py (h ▸ i)) N m
    else .error .valueError
  | x, y => do
    let px ← pseudoObs x ties
    let py ← pseudoObs y ties
    let width : NDArr ℚ → ℕ := fun
      | .vec n _ => n
      | .mat _ d _ => d
      | .other _ => 0
    if width px = width py then .error .assertionError else .error .valueError

open Classical in
/-- radial_symmetry.py:73-77 and goodness_of_fit/utils.py:18-23: whether a column has ties. -/
noncomputable def anyTies {n p : ℕ} (x : Fin n → Fin p → ℝ) : Bool :=
  decide (∃ j, hasTies fun i => x i j)

/-! ### Radial symmetry -/

/-- `u.ravel('F')[k]`. -/
noncomputable def ravelF {n p : ℕ} (u : Fin n → Fin p → ℝ) (k : ℕ) : ℝ :=
  if h : k % n < n ∧ k / n < p then u ⟨k % n, h.1⟩ ⟨k / n, h.2⟩ else 0

/-- _radial_symmetry.pyx:68-107 `diff_cn` on the flattened array. -/
noncomputable def diffCn (u : ℕ → ℝ) (n p k : ℕ) : ℝ :=
  (∑ i ∈ Finset.range n, ((∏ j ∈ Finset.range p, ind (u (i + n * j) ≤ u (k + n * j)))
    - ∏ j ∈ Finset.range p, ind (1 - u (i + n * j) ≤ u (k + n * j)))) / n

/-- _radial_symmetry.pyx:9-37 `rad_sym_test_stat`. -/
noncomputable def radSymStat (u : ℕ → ℝ) (n p : ℕ) : ℝ :=
  ∑ i ∈ Finset.range n, diffCn u n p i * diffCn u n p i

/-- _radial_symmetry.pyx:40-65 `rad_sym_replicate`; `flip i` says that row `i` is reflected
(`rand() / RAND_MAX < 0.5`). -/
noncomputable def radSymReplicate {n p : ℕ} (argsort : (Fin n → ℝ) → Fin n → Fin n)
    (ir : Fin n → Fin p → Fin n) (u : Fin n → Fin p → ℝ) (hasTies : Bool) (flip : Fin n → Bool) :
    Except PyErr ℝ := do
  let ub : Fin n → Fin p → ℝ := fun i j => if flip i then 1 - u i j else u i j
  let ub := if hasTies then retieAll argsort ir ub else ub
  let ub ← pseudoObsMat ub "average"
  return radSymStat (ravelF ub) n p

/-- radial_symmetry.py:11-86 `rad_sym_test` for a matrix (other shapes fail the assertion of line 66). -/
noncomputable def radSymTest {n p : ℕ} (argsort : (Fin n → ℝ) → Fin n → Fin n)
    (flips : ℕ → Fin n → Bool) (x : Fin n → Fin p → ℝ) (N : ℤ) (ties : String) :
    Except PyErr TestStat := do
  if N < 1 then .error .assertionError
  else
    let u ← pseudoObsMat x ties
    let s := radSymStat (ravelF u) n p
    let s0 ← (List.range N.toNat).mapM fun k => radSymReplicate argsort
      (fun j c => tieIndex (fun i => u i c) j) u (anyTies x) (flips k)
    return ⟨s, pValue s0 s N.toNat⟩

/-! ### Goodness of fit -/

/-- goodness_of_fit/goodness_of_fit.py:145-149 `gof_t_stat`: the empirical distribution function is
`emp_dist_func` without smoothing and offset. -/
noncomputable def gofTStat {n d : ℕ} (cdf : (Fin n → Fin d → ℝ) → Fin n → Fl) (u : Fin n → Fin d → ℝ) :
    Fl :=
  ∑ i, (empDist (n := n) empCop u 0 (fun j => .fin (u i j)) - cdf u i)
    * (empDist (n := n) empCop u 0 (fun j => .fin (u i j)) - cdf u i)

/-- goodness_of_fit/goodness_of_fit.py:132-142 `_sort_data_by_column_inplace` for a sample of the shape
of the data: every column is sorted on its own, then tied as the data. -/
noncomputable def gofResort {n d : ℕ} (ir : Fin n → Fin d → Fin n) (u : Fin n → Fin d → ℝ) :
    Fin n → Fin d → ℝ :=
  let sorted : Fin n → Fin d → ℝ := fun i j => u (Tuple.sort (fun k => u k j) i) j
  fun i j => sorted (ir i j) j

/-- goodness_of_fit/utils.py:12-30: the pair `pobs`, `fitted_pobs` of `GofData`. -/
noncomputable def gofData {n d : ℕ} (data : Fin n → Fin d → ℝ) (ties fitTies : String) :
    Except PyErr ((Fin n → Fin d → ℝ) × (Fin n → Fin d → ℝ)) := do
  let pobs ← pseudoObsMat data ties
  let fitted ← if anyTies data ∧ ties ≠ fitTies then pseudoObsMat data fitTies else pure pobs
  return (pobs, fitted)

/-- goodness_of_fit.py:124-127 `t_stat` with a fresh or the main copula: the fitted state and the
statistic. `fit` and `cdf` are the methods of the copula class. -/
noncomputable def gofFit {σ : Type} {n d : ℕ} (fit : (Fin n → Fin d → ℝ) → Except PyErr σ)
    (cdf : σ → (Fin n → Fin d → ℝ) → Fin n → Fl) (data : Fin n → Fin d → ℝ) (ties fitTies : String) :
    Except PyErr (σ × Fl) := do
  let p ← gofData data ties fitTies
  let c ← fit p.2
  return (c, gofTStat (cdf c) p.1)

/-- goodness_of_fit.py:114-122 `_process_result` on the simulated sample `u`. -/
noncomputable def gofReplicate {σ : Type} {n d : ℕ} (fit : (Fin n → Fin d → ℝ) → Except PyErr σ)
    (cdf : σ → (Fin n → Fin d → ℝ) → Fin n → Fl) (data u : Fin n → Fin d → ℝ) (ties fitTies : String) :
    Except PyErr Fl := do
  let u := if anyTies data then gofResort (fun i j => tieIndex (fun k => data k j) i) u else u
  let r ← gofFit fit cdf u ties fitTies
  return r.2

open Classical in
/-- goodness_of_fit.py:112 `(sum(np.abs(ts) >= abs(t)) + 0.5) / (reps + 1)`. -/
noncomputable def gofPValue (ts : List Fl) (t : Fl) (reps : ℤ) : ℝ :=
  ((ts.countP fun r => decide (Fl.abs r ≥ Fl.abs t)) + 0.5) / (reps + 1)

/-- goodness_of_fit.py:19-122 `gof_copula` without multiprocessing; `random c k` is the sample the fitted
copula `c` returns in replication `k`. Returns the fitted copula, the statistic and the p-value. -/
noncomputable def gofCopula {σ : Type} {n d : ℕ} (fit : (Fin n → Fin d → ℝ) → Except PyErr σ)
    (cdf : σ → (Fin n → Fin d → ℝ) → Fin n → Fl) (random : σ → ℕ → Fin n → Fin d → ℝ)
    (data : Fin n → Fin d → ℝ) (reps : ℤ) (ties fitTies : String) : Except PyErr (σ × Fl × ℝ) := do
  let r ← gofFit fit cdf data ties fitTies
  let ts ← (List.range reps.toNat).mapM fun k =>
    gofReplicate fit cdf data (random r.1 k) ties fitTies
  if reps + 1 = 0 then .error .zeroDivision
  else return (r.1, r.2, gofPValue ts r.2 reps)

end Copulae
