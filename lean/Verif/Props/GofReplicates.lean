import Mathlib.Data.Fintype.Fin
import Verif.Props.Gof

/-!
C90: which ranks the goodness-of-fit test uses.
C91: replicated samples under the null hypothesis.
C92: derivative estimates of the exchangeability test.
-/

namespace Copulae

variable {n p : ℕ}

/-! ### C90 -/

theorem gofData_ok (data : Fin n → Fin p → ℝ) {ties fitTies : String} {t t' : TieMethod}
    (ht : parseTies ties = .ok t) (ht' : parseTies fitTies = .ok t') :
    gofData data ties fitTies = .ok
      (fun i j => (rankdata t (fun k => data k j) i : ℝ) / (n + 1),
        fun i j => (rankdata t' (fun k => data k j) i : ℝ) / (n + 1)) := by
  unfold gofData
  rw [pseudoObsMat_ok data ht]
  by_cases h : anyTies data ∧ ties ≠ fitTies
  · simp only [if_pos h, pseudoObsMat_ok data ht', bind, Except.bind, pure, Except.pure]
  · simp only [if_neg h, bind, Except.bind, pure, Except.pure, Except.ok.injEq, Prod.mk.injEq, true_and]
    funext i j
    by_cases he : ties = fitTies
    · subst he
      rw [ht] at ht'
      rw [Except.ok.inj ht']
    · have ha : ¬ anyTies data := fun ha => h ⟨ha, he⟩
      have hj : Function.Injective fun k => data k j := by
        by_contra hc
        exact ha (by unfold anyTies; exact (@decide_eq_true_eq _ (_)).mpr ⟨j, hc⟩)
      rw [rankdata_eq_of_injective t _ hj, rankdata_eq_of_injective t' _ hj]

example := gofData_ok (n := 3) (p := 2) (fun i _ => ![1, 1, 2] i) parseTies_average parseTies_average

/-- C90: if both tie methods are known, the copula is fitted to the pseudo-observations with the ties
broken by `fit_ties`, and the statistic compares the fitted copula with the pseudo-observations with the
ties broken by `ties`. -/
theorem gofFit_spec {σ : Type} (fit : (Fin n → Fin p → ℝ) → Except PyErr σ)
    (cdf : σ → (Fin n → Fin p → ℝ) → Fin n → Fl) (data : Fin n → Fin p → ℝ) {ties fitTies : String}
    {t t' : TieMethod} (ht : parseTies ties = .ok t) (ht' : parseTies fitTies = .ok t') :
    gofFit fit cdf data ties fitTies =
      (fit fun i j => (rankdata t' (fun k => data k j) i : ℝ) / (n + 1)).map fun c =>
        (c, ∑ i, (fun D => D * D) (empDist (n := n) empCop
          (fun i j => (rankdata t (fun k => data k j) i : ℝ) / (n + 1)) 0
            (fun j => .fin ((rankdata t (fun k => data k j) i : ℝ) / (n + 1)))
          - cdf c (fun i j => (rankdata t (fun k => data k j) i : ℝ) / (n + 1)) i)) := by
  unfold gofFit
  rw [gofData_ok data ht ht']
  simp only [bind, Except.bind, pure, Except.pure, gofTStat]
  cases fit fun i j => (rankdata t' (fun k => data k j) i : ℝ) / (n + 1) <;> rfl

example := gofFit_spec (n := 3) (p := 2) (σ := Unit) (fun _ => .ok ()) (fun _ _ _ => .fin (1 / 2)) (fun i _ => ![1, 1, 2] i)
  parseTies_average parseTies_average

/-- The empirical distribution function of the statistic: the share of observations that are nowhere
larger. -/
theorem gofStat_emp (hn : 0 < n) (u : Fin n → Fin p → ℝ) (v : Fin p → ℝ) :
    empDist (n := n) empCop u 0 (fun j => .fin (v j)) =
      .fin ((Finset.univ.filter fun i : Fin n => ∀ j, u i j ≤ v j).card / n) := by
  have hn' : (n : ℝ) + 0 ≠ 0 := by
    have : (0 : ℝ) < n := by exact_mod_cast hn
    linarith
  have e : ∀ i j, empCop (u i j) (.fin (v j)) n = .fin (if u i j ≤ v j then 1 else 0) := by
    intro i j
    unfold empCop
    by_cases h : u i j ≤ v j
    · rw [if_pos h, if_pos (by simpa [Fl.fin_le_fin] using h)]
    · rw [if_neg h, if_neg (by simpa [Fl.fin_le_fin] using h)]
  unfold empDist
  simp only [e, Fl.prod_fin, Fl.sum_fin]
  rw [Fl.fin_div_fin' _ hn', add_zero]
  congr 2
  rw [Finset.card_filter]
  push_cast
  refine Finset.sum_congr rfl fun i _ => ?_
  by_cases h : ∀ j, u i j ≤ v j
  · rw [if_pos h]
    exact Finset.prod_eq_one fun j _ => by rw [if_pos (h j)]
  · rw [if_neg h]
    push Not at h
    obtain ⟨j, hj⟩ := h
    exact Finset.prod_eq_zero (Finset.mem_univ j) (by rw [if_neg (not_le.mpr hj)])

example := gofStat_emp (n := 3) (p := 2) (by norm_num) (fun i _ => ![1 / 2, 1 / 3, 1] i) ![1 / 2, 1]

/-- The tie methods matter: with ties, the two samples differ. -/
theorem gofFit_ties_differ : ∃ (data : Fin 2 → Fin 1 → ℝ) (u v : Fin 2 → Fin 1 → ℝ),
    gofData data "max" "min" = .ok (u, v) ∧ u ≠ v := by
  refine ⟨fun _ _ => 0, _, _, gofData_ok _ (t := .max) (t' := .min) (by decide) (by decide), fun h => ?_⟩
  have := congrFun (congrFun h 0) 0
  simp [rankdata, cntLt, cntEq] at this
  norm_num at this

/-! ### C91 -/

/-- C91: exchanging the two columns of the sample has the same effect on a replication as reversing all coin
flips. As the flips are fair, exchanged samples have the same replications in law. -/
theorem exchReplication_swap (argsort : (Fin n → ℝ) → Fin n → Fin n) (ir : Fin n → Fin 2 → Fin n)
    (u : Fin n → Fin 2 → ℝ) (g : List (ℝ × ℝ)) (m : ℕ) (flip : Fin n → Bool) :
    exchReplication argsort ir (fun i c => u i (1 - c)) g m flip =
      exchReplication argsort ir u g m fun i => !flip i := by
  unfold exchReplication
  have : (fun i => twoCols (fun k => if flip k = true then u k (1 - 0) else u k (1 - 1))
      (fun k => if flip k = true then u k (1 - 1) else u k (1 - 0)) i) =
      fun i => twoCols (fun k => if (!flip k) = true then u k 0 else u k 1)
      (fun k => if (!flip k) = true then u k 1 else u k 0) i := by
    funext i c
    unfold twoCols
    cases h : flip i <;> simp [h]
  simp only [this]

/-- C91: if no row is exchanged, the sample that is re-tied and ranked is the given one. -/
theorem exchReplication_keep (argsort : (Fin n → ℝ) → Fin n → Fin n) (ir : Fin n → Fin 2 → Fin n)
    (u : Fin n → Fin 2 → ℝ) (g : List (ℝ × ℝ)) {m : ℕ} (hm : m ≠ 0) :
    exchReplication argsort ir u g m (fun _ => true) =
      (pseudoObsMat (retieAll argsort ir u) "average").map fun v =>
        exchTestStat (fun i => v i 0) (fun i => v i 1) g := by
  unfold exchReplication
  have : (fun i => twoCols (fun k => if true = true then u k 0 else u k 1)
      (fun k => if true = true then u k 1 else u k 0) i) = u := by
    funext i c
    unfold twoCols
    fin_cases c <;> simp
  rw [this]
  simp only [if_neg hm]
  cases pseudoObsMat (retieAll argsort ir u) "average" <;> rfl

example := exchReplication_keep (n := 3) (fun x => Tuple.sort x) (fun i _ => i) (fun i _ => ![1 / 2, 1 / 3, 1] i)
  [(1 / 2, 1 / 2)] (m := 4) (by norm_num)

/-- C91: reflecting the sample has the same effect on a replication as reversing all coin flips. -/
theorem radSymReplicate_reflect (argsort : (Fin n → ℝ) → Fin n → Fin n) (ir : Fin n → Fin p → Fin n)
    (u : Fin n → Fin p → ℝ) (ht : Bool) (flip : Fin n → Bool) :
    radSymReplicate argsort ir (fun i j => 1 - u i j) ht flip =
      radSymReplicate argsort ir u ht fun i => !flip i := by
  unfold radSymReplicate
  have : (fun i j => if flip i = true then 1 - (1 - u i j) else 1 - u i j) =
      fun i j => if (!flip i) = true then 1 - u i j else u i j := by
    funext i j
    cases flip i <;> simp
  simp only [this]

/-- C91: without reflections and ties, the replication is the statistic of the sample itself. -/
theorem radSymReplicate_keep (argsort : (Fin n → ℝ) → Fin n → Fin n) (ir : Fin n → Fin p → Fin n)
    (u : Fin n → Fin p → ℝ) :
    radSymReplicate argsort ir u false (fun _ => false) =
      (pseudoObsMat u "average").map fun v => radSymStat (ravelF v) n p := by
  unfold radSymReplicate
  simp only [Bool.false_eq_true, if_false]
  cases pseudoObsMat u "average" <;> rfl

/-! ### C92 -/

theorem card_le_bounds (σ : Equiv.Perm (Fin n)) {y : ℝ} (h0 : 0 ≤ y) (h1 : y ≤ n + 1) :
    y - 1 ≤ (Finset.univ.filter fun i => (((σ i : ℕ) : ℝ) + 1 ≤ y)).card ∧
      ((Finset.univ.filter fun i => (((σ i : ℕ) : ℝ) + 1 ≤ y)).card : ℝ) ≤ y := by
  have e : (Finset.univ.filter fun i => (((σ i : ℕ) : ℝ) + 1 ≤ y)).card = min n ⌊y⌋₊ := by
    rw [← Fin.card_filter_val_lt]
    refine Finset.card_bij (fun i _ => σ i) ?_ (fun a _ b _ h => σ.injective h) ?_
    · intro a ha
      simp only [Finset.mem_filter, Finset.mem_univ, true_and] at ha ⊢
      exact Nat.le_floor (by push_cast; linarith)
    · intro b hb
      simp only [Finset.mem_filter, Finset.mem_univ, true_and] at hb
      refine ⟨σ.symm b, ?_, by simp⟩
      simp only [Finset.mem_filter, Finset.mem_univ, true_and, Equiv.apply_symm_apply]
      have : ((b : ℕ) + 1 : ℕ) ≤ ⌊y⌋₊ := hb
      have := (Nat.le_floor_iff h0).mp this
      push_cast at this
      exact this
  rw [e]
  push_cast
  have := Nat.floor_le h0
  have := Nat.lt_floor_add_one y
  constructor
  · rw [le_min_iff]; constructor <;> linarith
  · exact (min_le_right _ _).trans ‹_›

theorem cn_one_right {u v : Fin n → ℝ} (hv : ∀ i, v i ≤ 1) (x : ℝ) :
    cn u v x 1 = (Finset.univ.filter fun i => u i ≤ x).card / n := by
  unfold cn ind
  rw [Finset.card_filter]
  push_cast
  congr 1
  exact Finset.sum_congr rfl fun i _ => by rw [if_pos (hv i), mul_one]

theorem clipCn_mem (hn : 4 ≤ n) (x : ℝ) : 1 / √n ≤ clipCn n x ∧ clipCn n x ≤ 1 - 1 / √n := by
  have h2 : (2 : ℝ) ≤ √n := by
    rw [show (2 : ℝ) = √4 by rw [show (4 : ℝ) = 2 ^ 2 by norm_num]; simp]
    exact Real.sqrt_le_sqrt (by exact_mod_cast hn)
  have h : 1 / √n ≤ 1 / 2 := by gcongr
  unfold clipCn
  split_ifs <;> constructor <;> linarith

/-- C92: for at least four observations without ties (pseudo-observations that are a permutation of
1/(n+1), ..., n/(n+1)), the estimate of the first partial derivative at `(x, 1)`, where the copula is `x`,
differs from `1 + 1/n` by at most `1/(2√n)`, for every `x`. -/
theorem derCn1_margin (hn : 4 ≤ n) (σ : Equiv.Perm (Fin n)) {u v : Fin n → ℝ}
    (hu : ∀ i, u i = ((σ i : ℕ) + 1) / (n + 1)) (hv : ∀ i, v i ≤ 1) (x : ℝ) :
    |derCn1 u v x 1 - (1 + 1 / n)| ≤ 1 / (2 * √n) := by
  obtain ⟨c1, c2⟩ := clipCn_mem hn x
  set c := clipCn n x with hc
  have hn' : (0 : ℝ) < n := by exact_mod_cast (by omega : 0 < n)
  have hs : (0 : ℝ) < √n := Real.sqrt_pos.mpr hn'
  have hss : √n * √n = n := Real.mul_self_sqrt hn'.le
  have hh : 0 < 1 / √n := by positivity
  set h := 1 / √n with hhd
  have e : ∀ t, (Finset.univ.filter fun i => u i ≤ t) =
      Finset.univ.filter fun i => (((σ i : ℕ) : ℝ) + 1 ≤ t * (n + 1)) := by
    intro t
    refine Finset.filter_congr fun i _ => ?_
    rw [hu, div_le_iff₀ (by positivity)]
  have b1 := card_le_bounds σ (y := (c + h) * (n + 1)) (by nlinarith) (by nlinarith)
  have b2 := card_le_bounds σ (y := (c - h) * (n + 1)) (by nlinarith) (by nlinarith)
  unfold derCn1
  rw [← hc, ← hhd, cn_one_right hv, cn_one_right hv, e, e]
  set A : ℝ := ((Finset.univ.filter fun i => (((σ i : ℕ) : ℝ) + 1 ≤ (c + h) * (n + 1))).card : ℝ)
  set B : ℝ := ((Finset.univ.filter fun i => (((σ i : ℕ) : ℝ) + 1 ≤ (c - h) * (n + 1))).card : ℝ)
  have key : (A / n - B / n) / (2 * h) - (1 + 1 / n) = (A - B - 2 * h * (n + 1)) / (2 * √n) := by
    have : h = 1 / √n := rfl
    rw [this]
    field_simp
    rw [Real.sq_sqrt hn'.le]
  rw [key, abs_div, abs_of_pos (by positivity : (0 : ℝ) < 2 * √n)]
  gcongr
  rw [abs_le]
  constructor <;> nlinarith

/-- C92: likewise for the second partial derivative. -/
theorem derCn2_margin (hn : 4 ≤ n) (σ : Equiv.Perm (Fin n)) {u v : Fin n → ℝ}
    (hv : ∀ i, v i = ((σ i : ℕ) + 1) / (n + 1)) (hu : ∀ i, u i ≤ 1) (y : ℝ) :
    |derCn2 u v 1 y - (1 + 1 / n)| ≤ 1 / (2 * √n) := by
  rw [← derCn_swap]
  exact derCn1_margin hn σ hv hu y

example := derCn2_margin (n := 4) le_rfl (Equiv.refl _) (u := fun _ => 1 / 2) (v := fun i => ((i : ℕ) + 1) / 5)
  (fun i => by norm_num) (fun _ => by norm_num) (1 / 3)

/-- C92: the estimates are never negative, and vanish where the second coordinate is zero. -/
theorem derCn1_nonneg (u v : Fin n → ℝ) (x y : ℝ) : 0 ≤ derCn1 u v x y := by
  unfold derCn1
  have h : 0 ≤ 1 / √(n : ℝ) := by positivity
  refine div_nonneg (sub_nonneg.mpr ?_) (by positivity)
  unfold cn ind
  refine div_le_div_of_nonneg_right (Finset.sum_le_sum fun i _ => ?_) (by positivity)
  refine mul_le_mul_of_nonneg_right ?_ (by split_ifs <;> norm_num)
  by_cases hx : u i ≤ clipCn n x - 1 / √n
  · rw [if_pos hx, if_pos (by linarith)]
  · rw [if_neg hx]; split_ifs <;> norm_num

theorem derCn1_zero {u v : Fin n → ℝ} (hv : ∀ i, 0 < v i) (x : ℝ) : derCn1 u v x 0 = 0 := by
  have : ∀ t, cn u v t 0 = 0 := by
    intro t
    unfold cn ind
    rw [Finset.sum_eq_zero fun i _ => by rw [if_neg (not_le.mpr (hv i)), mul_zero], zero_div]
  simp [derCn1, this]

/-- Four observations without ties meet the hypotheses. -/
example (x : ℝ) : |derCn1 (fun i : Fin 4 => ((i : ℕ) + 1) / 5) (fun i => (((Fin.rev i : Fin 4) : ℕ) + 1) / 5) x 1
    - (1 + 1 / 4)| ≤ 1 / 4 := by
  have h4 : √((4 : ℕ) : ℝ) = 2 := by
    rw [show ((4 : ℕ) : ℝ) = 2 ^ 2 by norm_num]; simp
  have := derCn1_margin (n := 4) le_rfl (Equiv.refl _) (u := fun i => ((i : ℕ) + 1) / 5)
    (v := fun i => (((Fin.rev i : Fin 4) : ℕ) + 1) / 5) (fun i => by norm_num) (fun i => by
      fin_cases i <;> norm_num [Fin.rev]) x
  rw [h4] at this
  norm_num at this ⊢
  exact this

end Copulae
