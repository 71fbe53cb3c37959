import Mathlib.Analysis.SpecialFunctions.Log.Deriv
import Verif.Lemmas.LogSum

/-!
Properties C28 - C32: Stirling and Eulerian numbers, polylogarithm, Horner
scheme, `log_sum` (`copulae/special/special_func.py`).
-/

namespace Copulae

open Finset

/-! ### C28 -/

/-- **C28** `stirling_first(n, k)` returns the coefficients of the falling factorial:
`x (x-1) ... (x-n+1) = Σ_k stirling_first(n, k) x^k`, for every `x`. -/
theorem stirlingFirst_spec (n : ℕ) :
    ∃ c : ℕ → ℤ, (∀ k ≤ n, stirlingFirst n k = .ok (c k)) ∧
      ∀ x : ℝ, ∏ i ∈ range n, (x - i) = ∑ k ∈ range (n + 1), (c k : ℝ) * x ^ k :=
  ⟨s1 n, fun _ h => stirlingFirst_eq h, fun x => falling_eq_sum_s1 n x⟩

/-- **C28** `stirling_second(n, k)` returns the coefficients of the powers in terms of falling
factorials: `x^n = Σ_k stirling_second(n, k) x (x-1) ... (x-k+1)`, for every `x`. -/
theorem stirlingSecond_spec (n : ℕ) :
    ∃ c : ℕ → ℤ, (∀ k ≤ n, stirlingSecond n k = .ok (c k)) ∧
      ∀ x : ℝ, x ^ n = ∑ k ∈ range (n + 1), (c k : ℝ) * ∏ i ∈ range k, (x - i) :=
  ⟨s2 n, fun _ h => stirlingSecond_eq h, fun x => pow_eq_sum_s2 n x⟩

/-- **C28** The values are those of Mathlib's (unsigned) Stirling numbers: permutations by number
of cycles, and set partitions by number of blocks. -/
theorem stirling_mathlib {n k : ℕ} (h : k ≤ n) :
    stirlingFirst n k = .ok ((-1) ^ (n + k) * (Nat.stirlingFirst n k : ℤ)) ∧
    stirlingSecond n k = .ok (Nat.stirlingSecond n k : ℤ) :=
  ⟨stirlingFirst_eq h, stirlingSecond_eq h⟩

example := stirling_mathlib (n := 12) (k := 5) (by norm_num)

/-- **C28** The `*_all` lists contain the values for `k = 1, ..., n`. -/
theorem stirlingAll_spec (n : ℕ) :
    (∃ l, stirlingFirstAll n = .ok l ∧ l.length = n ∧
      ∀ (i : ℕ) (hi : i < l.length), stirlingFirst n ((i : ℤ) + 1) = .ok l[i]) ∧
    (∃ l, stirlingSecondAll n = .ok l ∧ l.length = n ∧
      ∀ (i : ℕ) (hi : i < l.length), stirlingSecond n ((i : ℤ) + 1) = .ok l[i]) := by
  constructor
  · refine ⟨_, stirlingFirstAll_eq n, by simp, fun i hi => ?_⟩
    have hi' : i + 1 ≤ n := by simpa using hi
    have := stirlingFirst_eq hi'
    push_cast at this
    rw [this]; simp
  · refine ⟨_, stirlingSecondAll_eq n, by simp, fun i hi => ?_⟩
    have hi' : i + 1 ≤ n := by simpa using hi
    have := stirlingSecond_eq hi'
    push_cast at this
    rw [this]; simp

/-- **C28** Arguments outside `0 ≤ k ≤ n` are rejected. -/
theorem stirling_reject (n k : ℤ) (h : k < 0 ∨ n < k) :
    stirlingFirst n k = .error .assertionError ∧ stirlingSecond n k = .error .assertionError := by
  unfold stirlingFirst stirlingSecond
  rw [if_pos (by omega), if_pos (by omega)]
  exact ⟨rfl, rfl⟩

example : stirlingFirst 5 3 = .ok 35 ∧ stirlingSecond 5 3 = .ok 25 ∧
    stirlingFirst 4 1 = .ok (-6) := by decide

example : stirlingFirst 2 (-1) = .error .assertionError := (stirling_reject 2 (-1) (by omega)).1

/-! ### C29 -/

/-- **C29** `eulerian(n, k)` is the Eulerian number, for `n ≥ 1`. -/
theorem eulerian_spec {n k : ℕ} (hn : 1 ≤ n) (h : k ≤ n) :
    eulerian n k = .ok (eulerianSpec n k) := eulerian_eq hn h

example := eulerian_spec (n := 12) (k := 5) (by norm_num) (by norm_num)

/-- **C29** Rows are symmetric. -/
theorem eulerian_symm {n k : ℕ} (hn : 1 ≤ n) (h : k < n) :
    eulerian n ((n - 1 - k : ℕ) : ℤ) = eulerian n k := by
  rw [eulerian_eq hn (by omega), eulerian_eq hn h.le, eulerianSpec_symm h]

example := eulerian_symm (n := 12) (k := 5) (by norm_num) (by norm_num)

/-- **C29** Rows sum to `n!`. -/
theorem eulerian_rowSum {n : ℕ} (hn : 1 ≤ n) :
    ∃ l, eulerianAll n = .ok l ∧ l.length = n ∧
      (∀ (i : ℕ) (hi : i < l.length), eulerian n i = .ok l[i]) ∧ l.sum = (n.factorial : ℤ) := by
  refine ⟨_, eulerianAll_eq hn, by simp, ?_, ?_⟩
  · intro i hi
    have hi' : i ≤ n := by simp at hi; omega
    rw [eulerian_eq hn hi']; simp
  · rw [list_sum_range_map, ← eulerianSpec_sum, sum_range_succ,
      eulerianSpec_eq_zero hn le_rfl, add_zero]

example := eulerian_rowSum (n := 12) (by norm_num)

/-- **C29** Arguments outside `0 ≤ k ≤ n` are rejected. -/
theorem eulerian_reject (n k : ℤ) (h : k < 0 ∨ n < k) :
    eulerian n k = .error .assertionError := by
  unfold eulerian
  rw [if_pos (by omega)]

example : eulerian 5 2 = .ok 66 ∧ eulerianSpec 5 2 = 66 ∧ eulerian 5 3 = .ok 26 := by decide

/-- For `n = 0` the code returns 0 although there is one (empty) permutation: this is why the
property starts at `n = 1`. -/
theorem eulerian_zero_zero : eulerian 0 0 = .ok 0 ∧ eulerianSpec 0 0 = 1 := by decide

/-! ### C31 -/

/-- **C31** `polyn_eval` evaluates the polynomial with the given coefficients. -/
theorem polynEval_spec (coef : List ℝ) (x : ℝ) (h : coef ≠ []) :
    polynEval coef x = .ok (∑ i : Fin coef.length, coef[i] * x ^ (i : ℕ)) := by
  rw [polynEval_eq coef x h, Finset.sum_range]
  congr 1
  apply sum_congr rfl
  intro i _
  simp

example := polynEval_spec [1, -2, 1 / 2] (-3) (by simp)

/-- **C31** An empty coefficient list raises `IndexError`. -/
theorem polynEval_empty (x : ℝ) : polynEval [] x = .error .indexError := rfl

example : polynEval [1, 2, 3] (2 : ℝ) = .ok 17 := by
  rw [polynEval_spec _ _ (by simp)]
  simp [Fin.sum_univ_succ]
  norm_num

/-! ### C32 -/

/-- **C32** `log_sum` is log-sum-exp for finite or `-inf` log values, at least one finite. -/
theorem logSum_spec {x : List Fl} (h : ∀ v ∈ x, v ≠ .nan ∧ v ≠ .pinf) (hf : ∃ v ∈ x, v.isFin) :
    logSum x none = .ok (Fl.log ((x.map Fl.exp).sum)) := logSum_none h hf

example := logSum_spec (x := [.fin 1, .ninf, .fin (-1000)]) (by simp) ⟨.fin 1, by simp, by simp [Fl.isFin]⟩

/-- **C32** For real inputs. -/
theorem logSum_real {x : List ℝ} (hne : x ≠ []) :
    logSum (x.map Fl.fin) none = .ok (.fin (Real.log (x.map Real.exp).sum)) := by
  rw [logSum_none (by intro v hv; simp at hv; obtain ⟨a, -, rfl⟩ := hv; simp [IsLogVal])]
  · rw [List.map_map]
    have : (Fl.exp ∘ Fl.fin) = Fl.fin ∘ Real.exp := rfl
    rw [this, ← List.map_map, list_sum_fin, Fl.log_pos]
    cases x with
    | nil => exact absurd rfl hne
    | cons a l =>
      rw [List.map_cons, List.sum_cons]
      have : 0 ≤ (l.map Real.exp).sum := List.sum_nonneg (by
        intro b hb
        rw [List.mem_map] at hb
        obtain ⟨c, -, rfl⟩ := hb
        exact Real.exp_nonneg c)
      have := Real.exp_pos a
      linarith
  · cases x with
    | nil => exact absurd rfl hne
    | cons a l => exact ⟨.fin a, by simp, trivial⟩

example := logSum_real (x := [1, -1000]) (by simp)

/-- **C32** The offset does not change the value: every finite offset gives the default result. -/
theorem logSum_offset {x : List Fl} (h : ∀ v ∈ x, v ≠ .nan ∧ v ≠ .pinf) (hf : ∃ v ∈ x, v.isFin)
    (o : ℝ) : logSum x (some (.fin o)) = logSum x none := by
  rw [logSum_none h hf, logSum_some h]

example := logSum_offset (x := [.fin 1, .ninf, .fin (-1000)]) (by simp) ⟨.fin 1, by simp, by simp [Fl.isFin]⟩ 7

/-- The case left out: when every log value is `-inf` (all probabilities zero) `log_sum` returns
NaN instead of `-inf`. -/
theorem logSum_all_ninf {x : List Fl} (hne : x ≠ []) (h : ∀ v ∈ x, v = .ninf) :
    logSum x none = .ok .nan ∧ Fl.log ((x.map Fl.exp).sum) = .ninf := by
  refine ⟨logSum_ninf hne h, ?_⟩
  rw [sum_exp_logVal fun v hv => by rw [h v hv]; simp [IsLogVal]]
  have : (x.map expVal).sum = 0 := by
    apply List.sum_eq_zero
    intro a ha
    rw [List.mem_map] at ha
    obtain ⟨v, hv, rfl⟩ := ha
    rw [h v hv]; rfl
  rw [this]; simp

example : logSum [.fin 0, .ninf, .fin 0] none = .ok (.fin (Real.log 2)) := by
  rw [logSum_spec (by simp) ⟨.fin 0, by simp, trivial⟩]
  simp [Fl.zero_def, Fl.log_pos]
  norm_num

/-! ### C30 -/

theorem eulerianSpec_nonneg (n k : ℕ) : 0 ≤ eulerianSpec n k := by
  induction n generalizing k with
  | zero => cases k <;> simp [eulerianSpec]
  | succ n ih =>
    cases k with
    | zero => rw [eulerianSpec_zero]; norm_num
    | succ k =>
      rw [eulerianSpec]
      have h1 := mul_nonneg (show (0 : ℤ) ≤ k + 2 by omega) (ih (k + 1))
      rcases le_or_gt k n with h | h
      · have h2 := mul_nonneg (show (0 : ℤ) ≤ n - k by omega) (ih k)
        linarith
      · have : eulerianSpec n k = 0 := by
          rcases Nat.eq_zero_or_pos n with h0 | h0
          · subst h0
            obtain ⟨k, rfl⟩ : ∃ m, k = m + 1 := ⟨k - 1, by omega⟩
            rfl
          · exact eulerianSpec_eq_zero h0 (by omega)
        rw [this]; simpa using h1

theorem one_le_polySum (c : ℕ → ℝ) (n : ℕ) (hn : 1 ≤ n) (h0 : c 0 = 1) (hc : ∀ k, 0 ≤ c k)
    {x : ℝ} (hx : 0 ≤ x) : 1 ≤ ∑ k ∈ range n, c k * x ^ k := by
  obtain ⟨n, rfl⟩ : ∃ m, n = m + 1 := ⟨n - 1, by omega⟩
  rw [sum_range_succ', h0]
  have : 0 ≤ ∑ k ∈ range n, c (k + 1) * x ^ (k + 1) :=
    sum_nonneg fun k _ => mul_nonneg (hc _) (pow_nonneg hx _)
  simp only [pow_zero, mul_one]
  linarith

theorem s2_succ_one (n : ℕ) : s2 (n + 1) 1 = 1 := by
  induction n with
  | zero => exact s2_self 1
  | succ n ih =>
    have := s2_succ_succ (n + 1) 0
    rw [ih, s2_succ_zero] at this
    rw [this]; simp

theorem polyLog_negStirling (n : ℕ) {z : ℝ} (hz : |z| < 1) :
    ∃ v, HasSum (fun k : ℕ => ((k : ℝ) + 1) ^ n * z ^ (k + 1)) v ∧
      polyLog (.fin z) (-n) .negStirling false = .ok (.fin v) ∧
      (0 ≤ z → polyLog (.fin z) (-n) .negStirling true = .ok (Fl.log (.fin v))) := by
  refine ⟨_, polylog_stirling n hz, ?_⟩
  have hlt := (abs_lt.mp hz).2
  have h1z : 1 - z ≠ 0 := by linarith
  let c : ℕ → ℝ := fun k => (k.factorial : ℝ) * (s2 (n + 1) (k + 1) : ℝ)
  have hl : List.zipWith (fun (a : ℕ) (b : ℤ) => Fl.fin ((a : ℝ) * (b : ℝ)))
      (cumProd 1 (1 :: List.range' 1 n)) ((List.range (n + 1)).map fun k => s2 (n + 1) (k + 1))
      = ((List.range (n + 1)).map c).map Fl.fin := by
    rw [cumProd_factorials, List.zipWith_map, List.zipWith_self, List.map_map]
    rfl
  have hp := polynEval_fin ((List.range (n + 1)).map c) (z / (1 - z)) (by simp)
  rw [List.length_map, List.length_range] at hp
  have hsum : ∑ i ∈ range (n + 1), ((List.range (n + 1)).map c).getD i 0 * (z / (1 - z)) ^ i
      = ∑ k ∈ range (n + 1), c k * (z / (1 - z)) ^ k := by
    apply sum_congr rfl
    intro i hi
    rw [mem_range] at hi
    rw [getD_map_range _ _ _ hi]
  rw [hsum] at hp
  have key : ∀ log, polyLog (.fin z) (-n) .negStirling log = .ok (if log then
      Fl.log (.fin (∑ k ∈ range (n + 1), c k * (z / (1 - z)) ^ k)) + logisPpf (.fin z) else
      .fin (z / (1 - z) * ∑ k ∈ range (n + 1), c k * (z / (1 - z)) ^ k)) := by
    intro log
    unfold polyLog
    rw [if_neg (by omega), if_neg (by omega)]
    simp only [Int.natAbs_neg, Int.natAbs_natCast]
    rw [stirlingSecondAll_eq]
    simp only [bind, Except.bind, pure, Except.pure]
    rw [hl, Fl.fin_sub_fin, Fl.fin_div_fin' _ h1z, hp]
    simp only [Fl.fin_mul_fin]
  refine ⟨by rw [key]; rfl, fun h0 => ?_⟩
  rw [key, if_pos rfl]
  have hr : 0 ≤ z / (1 - z) := div_nonneg h0 (by linarith)
  have hpos : 1 ≤ ∑ k ∈ range (n + 1), c k * (z / (1 - z)) ^ k := by
    apply one_le_polySum c (n + 1) (by omega) _ _ hr
    · simp [c, s2_succ_one]
    · intro k
      exact mul_nonneg (by positivity) (by exact_mod_cast s2_nonneg _ _)
  have hl : logisPpf (.fin z) = Fl.log (.fin (z / (1 - z))) := by
    unfold logisPpf
    rw [if_pos ⟨by simpa using h0, by simpa using hlt.le⟩, Fl.fin_sub_fin,
      Fl.fin_div_fin' _ h1z]
  rw [hl, fl_log_add (by linarith) hr]

example := polyLog_negStirling 3 (z := -1 / 2) (by norm_num [abs_of_pos])

theorem polyLog_negEulerian (n : ℕ) {z : ℝ} (hz : |z| < 1) :
    ∃ v, HasSum (fun k : ℕ => ((k : ℝ) + 1) ^ n * z ^ (k + 1)) v ∧
      polyLog (.fin z) (-n) .negEulerian false = .ok (.fin v) ∧
      (0 ≤ z → polyLog (.fin z) (-n) .negEulerian true = .ok (Fl.log (.fin v))) := by
  have hlt := (abs_lt.mp hz).2
  have h1z : 1 - z ≠ 0 := by linarith
  -- coefficients
  obtain ⟨c, m, hm, hall, hc0, hcn, hsum⟩ : ∃ (c : ℕ → ℤ) (m : ℕ), 1 ≤ m ∧
      eulerianAll n = .ok ((List.range m).map c) ∧ c 0 = 1 ∧ (∀ k, 0 ≤ c k) ∧
      HasSum (fun k : ℕ => ((k : ℝ) + 1) ^ n * z ^ (k + 1))
        (z * (∑ k ∈ range m, (c k : ℝ) * z ^ k) / (1 - z) ^ (n + 1)) := by
    rcases Nat.eq_zero_or_pos n with h0 | h0
    · subst h0
      refine ⟨fun _ => 1, 1, le_rfl, rfl, rfl, fun _ => by norm_num, ?_⟩
      have := polylog_stirling 0 hz
      simpa [s2_self 1] using this
    · exact ⟨eulerianSpec n, n, h0, eulerianAll_eq h0, eulerianSpec_zero n,
        eulerianSpec_nonneg n, polylog_eulerian h0 hz⟩
  refine ⟨_, hsum, ?_⟩
  set p := ∑ k ∈ range m, (c k : ℝ) * z ^ k with hpdef
  have hp : polynEval (((List.range m).map c).map fun (k : ℤ) => Fl.fin (k : ℝ)) (.fin z)
      = .ok (.fin p) := by
    have := polynEval_fin ((List.range m).map fun k => (c k : ℝ)) z (by simp; omega)
    rw [List.length_map, List.length_range] at this
    rw [List.map_map]
    rw [List.map_map] at this
    have e : ((fun (k : ℤ) => Fl.fin (k : ℝ)) ∘ c) = Fl.fin ∘ fun k => (c k : ℝ) := rfl
    rw [e, this, hpdef]
    congr 2
    apply sum_congr rfl
    intro i hi
    rw [mem_range] at hi
    rw [getD_map_range _ _ _ hi]
  have key : ∀ log, polyLog (.fin z) (-n) .negEulerian log = .ok (if log then
      Fl.log (.fin p) + Fl.log (.fin z) - (.fin ((n : ℝ) + 1)) * Fl.log1p (-(.fin z))
      else .fin (z * p / (1 - z) ^ (n + 1))) := by
    intro log
    unfold polyLog
    rw [if_neg (by omega), if_neg (by omega)]
    simp only [Int.natAbs_neg, Int.natAbs_natCast]
    rw [hall]
    simp only [bind, Except.bind, pure, Except.pure]
    rw [hp]
    simp only [Fl.fin_mul_fin, Fl.fin_sub_fin, fl_pow_fin]
    rw [Fl.fin_div_fin' _ (pow_ne_zero _ h1z)]
  refine ⟨by rw [key]; rfl, fun h0 => ?_⟩
  rw [key, if_pos rfl]
  have hpos : 1 ≤ p := one_le_polySum (fun k => (c k : ℝ)) m hm (by simp [hc0])
    (fun k => by exact_mod_cast hcn k) h0
  rw [fl_log_add (by linarith) h0, Fl.neg_fin, Fl.log1p_pos (by linarith), Fl.fin_mul_fin]
  have h1z' : 0 < 1 - z := by linarith
  rcases h0.eq_or_lt with h | h
  · rw [← h]; simp
  · rw [Fl.log_pos (mul_pos h (by linarith)), Fl.log_pos (by positivity), Fl.fin_sub_fin,
      Real.log_div (mul_pos h (by linarith)).ne' (by positivity), Real.log_pow]
    push_cast
    rfl

example := polyLog_negEulerian 3 (z := -1 / 2) (by norm_num [abs_of_pos])

/-- **C30** For integer order `s ≤ 1` and `|z| < 1`, both methods of `poly_log` return the
polylogarithm `Li_s(z) = Σ_{k ≥ 1} z^k / k^s`; with `log=True` (and `0 ≤ z`) its logarithm. -/
theorem polyLog_spec (s : ℤ) (hs : s ≤ 1) {z : ℝ} (hz : |z| < 1) :
    ∃ v, HasSum (fun k : ℕ => z ^ (k + 1) / ((k : ℝ) + 1) ^ s) v ∧ ∀ m,
      polyLog (.fin z) s m false = .ok (.fin v) ∧
      (0 ≤ z → polyLog (.fin z) s m true = .ok (Fl.log (.fin v))) := by
  rcases hs.eq_or_lt with rfl | hs
  · refine ⟨-Real.log (1 - z), ?_, fun m => ?_⟩
    · simpa using Real.hasSum_pow_div_log_of_abs_lt_one hz
    · have : Fl.log1p (-Fl.fin z) = .fin (Real.log (1 - z)) := by
        rw [Fl.neg_fin, Fl.log1p_pos (by have := (abs_lt.mp hz).2; linarith), sub_eq_add_neg]
      constructor
      · unfold polyLog
        rw [if_neg (by omega), if_pos rfl]
        rw [this]; rfl
      · intro _
        unfold polyLog
        rw [if_neg (by omega), if_pos rfl]
        rw [this]; rfl
  · obtain ⟨n, rfl⟩ : ∃ n : ℕ, s = -n := ⟨s.natAbs, by omega⟩
    obtain ⟨v, h1, h2, h3⟩ := polyLog_negStirling n hz
    obtain ⟨w, k1, k2, k3⟩ := polyLog_negEulerian n hz
    obtain rfl := h1.unique k1
    refine ⟨v, ?_, fun m => ?_⟩
    · convert h1 using 2 with k
      rw [zpow_neg, zpow_natCast, div_inv_eq_mul, mul_comm]
    · cases m with
      | negStirling => exact ⟨h2, h3⟩
      | negEulerian => exact ⟨k2, k3⟩

example := polyLog_spec (-3) (by norm_num) (z := -1 / 2) (by norm_num [abs_of_pos])

/-- **C30** The two methods agree. -/
theorem polyLog_methods (s : ℤ) (hs : s ≤ 1) {z : ℝ} (hz : |z| < 1) :
    polyLog (.fin z) s .negStirling false = polyLog (.fin z) s .negEulerian false := by
  obtain ⟨v, -, h⟩ := polyLog_spec s hs hz
  rw [(h _).1, (h _).1]

example := polyLog_methods (-3) (by norm_num) (z := -1 / 2) (by norm_num [abs_of_pos])

/-- **C30** Other orders are rejected. -/
theorem polyLog_reject (s : ℤ) (hs : 1 < s) (z : Fl) (m : PolyMethod) (log : Bool) :
    polyLog z s m log = .error .assertionError := by
  unfold polyLog
  rw [if_pos hs]

example : ∃ v, HasSum (fun k : ℕ => (1 / 2 : ℝ) ^ (k + 1) / ((k : ℝ) + 1) ^ (-3 : ℤ)) v ∧
    polyLog (.fin (1 / 2)) (-3) .negEulerian false = .ok (.fin v) := by
  obtain ⟨v, h, h'⟩ := polyLog_spec (-3) (by norm_num) (z := 1 / 2) (by norm_num [abs_lt])
  exact ⟨v, h, (h' _).1⟩

end Copulae
