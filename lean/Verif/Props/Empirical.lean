import Verif.Lemmas.Empirical
import Verif.Props.Ranks

/-!
C40: the empirical copula is a distribution function on the cube.
C41: margins of the smoothed empirical copulas.
-/

namespace Copulae

open Set

/-- Assumption on `scipy.special.btdtr`: it is the distribution function of the beta distribution. -/
def IsBtdtr (btdtr : ℝ → ℝ → Fl → Fl) : Prop :=
  ∀ a b x : ℝ, 1 ≤ a → 1 ≤ b → 0 ≤ x → x ≤ 1 → btdtr a b (.fin x) = .fin (Spec.betaCdf a b x)

/-- The assumption can be met. -/
theorem exists_btdtr : ∃ btdtr, IsBtdtr btdtr :=
  ⟨fun a b x => match x with
    | .fin x => .fin (Spec.betaCdf a b x)
    | _ => .nan, fun _ _ _ _ _ _ _ => rfl⟩

/-- The kernels as real functions of the rank and the argument. -/
noncomputable def Smoothing.real (n : ℕ) : Smoothing → ℝ → ℝ → ℝ
  | .none, r, v => if r / (n + 1) ≤ v then 1 else 0
  | .beta, r, v => Spec.betaCdf r (n + 1 - r) v
  | .checkerboard, r, v => min (max (n * v - (r - 1)) 0) 1

theorem kernel_value {btdtr : ℝ → ℝ → Fl → Fl} (hb : IsBtdtr btdtr) (s : Smoothing) {n : ℕ} {r v : ℝ}
    (hr1 : 1 ≤ r) (hrn : r ≤ n) (h0 : 0 ≤ v) (h1 : v ≤ 1) :
    s.kernel btdtr (r / (n + 1)) (.fin v) n = .fin (s.real n r v) := by
  have hn : (n : ℝ) + 1 ≠ 0 := by positivity
  rcases s with _ | _ | _
  · simp only [Smoothing.kernel, Smoothing.real, empCop, Fl.fin_le_fin]
    split_ifs <;> rfl
  · simp only [Smoothing.kernel, Smoothing.real, empBetaCop]
    have e1 : r / (n + 1) * ((n : ℝ) + 1) = r := by field_simp
    have e2 : ((n : ℝ) + 1) * (1 - r / (n + 1)) = n + 1 - r := by field_simp
    rw [e1, e2]
    exact hb _ _ _ hr1 (by linarith) h0 h1
  · simp only [Smoothing.kernel, Smoothing.real, empMultiLinear]
    have e : ((n : ℝ) + 1) * (r / (n + 1)) = r := by field_simp
    rw [e, Fl.fin_mul_fin, Fl.fin_sub_fin, Fl.fin_add_fin]
    have hmax : ∀ x : ℝ, cfmax (.fin x) (.fin 0) = .fin (max x 0) := by
      intro x
      simp only [cfmax, Fl.fin_lt_fin]
      split_ifs with h
      · rw [max_eq_right h.le]
      · rw [max_eq_left (not_lt.mp h)]
    have hmin : ∀ x : ℝ, cfmin (.fin x) (.fin 1) = .fin (min x 1) := by
      intro x
      simp only [cfmin, Fl.fin_lt_fin]
      split_ifs with h
      · rw [min_eq_right h.le]
      · rw [min_eq_left (not_lt.mp h)]
    rw [hmax, hmin]
    congr 3
    ring

theorem real_mono (s : Smoothing) {n : ℕ} {r v w : ℝ} (hr1 : 1 ≤ r) (hrn : r ≤ n) (h0 : 0 ≤ v)
    (hvw : v ≤ w) (h1 : w ≤ 1) : s.real n r v ≤ s.real n r w := by
  rcases s with _ | _ | _
  · simp only [Smoothing.real]
    split_ifs with h h'
    · exact le_rfl
    · exact absurd (h.trans hvw) h'
    · exact zero_le_one
    · exact le_rfl
  · exact betaCdf_mono hr1 (by linarith) h0 hvw h1
  · simp only [Smoothing.real]
    have : (n : ℝ) * v ≤ n * w := mul_le_mul_of_nonneg_left hvw n.cast_nonneg
    gcongr

theorem real_zero (s : Smoothing) {n : ℕ} {r : ℝ} (hr1 : 1 ≤ r) : s.real n r 0 = 0 := by
  rcases s with _ | _ | _
  · simp only [Smoothing.real]
    rw [if_neg]
    rw [not_le]
    positivity
  · exact betaCdf_zero _ _
  · simp only [Smoothing.real]
    rw [max_eq_right (by linarith), min_eq_left zero_le_one]

theorem real_one (s : Smoothing) {n : ℕ} {r : ℝ} (hr1 : 1 ≤ r) (hrn : r ≤ n) : s.real n r 1 = 1 := by
  rcases s with _ | _ | _
  · simp only [Smoothing.real]
    rw [if_pos]
    rw [div_le_one (by positivity)]
    linarith
  · exact betaCdf_one hr1 (by linarith)
  · simp only [Smoothing.real]
    rw [mul_one, max_eq_left (by linarith), min_eq_right (by linarith)]

theorem real_mem (s : Smoothing) {n : ℕ} {r v : ℝ} (hr1 : 1 ≤ r) (hrn : r ≤ n) (h0 : 0 ≤ v)
    (h1 : v ≤ 1) : 0 ≤ s.real n r v ∧ s.real n r v ≤ 1 :=
  ⟨(real_zero s hr1).symm.trans_le (real_mono s hr1 hrn le_rfl h0 h1),
    (real_mono s hr1 hrn h0 h1 le_rfl).trans_eq (real_one s hr1 hrn)⟩

/-- The function the code computes, as a real function of a point of the cube. -/
noncomputable def empReal {n d : ℕ} (s : Smoothing) (r : Fin n → Fin d → ℝ) (offset : ℝ)
    (v : Fin d → ℝ) : ℝ :=
  (∑ i, ∏ j, s.real n (r i j) (v j)) / (n + offset)

theorem rank_real_mem {n d : ℕ} (data : Fin n → Fin d → ℝ) (m : TieMethod) (i : Fin n) (j : Fin d) :
    (1 : ℝ) ≤ (rankdata m (fun k => data k j) i : ℚ) ∧
      ((rankdata m (fun k => data k j) i : ℚ) : ℝ) ≤ n := by
  constructor
  · exact_mod_cast (rankdata_bounds m (fun k => data k j) i).1
  · exact_mod_cast rankdata_le_n m (fun k => data k j) i

theorem empCdf_value {btdtr : ℝ → ℝ → Fl → Fl} (hb : IsBtdtr btdtr) {n d : ℕ}
    (data : Fin n → Fin d → ℝ) (s : Smoothing) {ties : String} {m : TieMethod}
    (ht : parseTies ties = .ok m) {offset : ℝ} (ho : (n : ℝ) + offset ≠ 0) {k : ℕ} {u : Fin k → Fin d → ℝ}
    (h0 : ∀ i j, 0 ≤ u i j) (h1 : ∀ i j, u i j ≤ 1) (log : Bool) :
    empCdf btdtr data s ties offset (fun i j => .fin (u i j)) log = .ok fun i =>
      let c := empReal s (fun i j => ((rankdata m (fun k => data k j) i : ℚ) : ℝ)) offset (u i)
      if log then Fl.log (.fin c) else .fin c := by
  have he : 0 ≤ flEps := by unfold flEps; positivity
  unfold empCdf
  rw [if_neg]
  · simp only [pseudoObs_mat data ht, bind, Except.bind, pure, Except.pure, dif_pos]
    congr 1
    funext i
    have e : ∀ (a : Fin n) (j : Fin d),
        s.kernel btdtr ((rankdata m (fun k => data k j) a / ((n : ℚ) + 1) : ℚ) : ℝ) (.fin (u i j)) n
          = .fin (s.real n ((rankdata m (fun k => data k j) a : ℚ) : ℝ) (u i j)) := by
      intro a j
      rw [← kernel_value hb s (rank_real_mem data m a j).1 (rank_real_mem data m a j).2 (h0 i j) (h1 i j)]
      push_cast
      rfl
    have e' : empDist (s.kernel btdtr)
        (fun k (j : Fin d) => ((rankdata m (fun k => data k j) k / ((n : ℚ) + 1) : ℚ) : ℝ)) offset
          (fun j => .fin (u i j)) = .fin (empReal s
            (fun i j => ((rankdata m (fun k => data k j) i : ℚ) : ℝ)) offset (u i)) := by
      unfold empDist empReal
      simp only [e, Fl.prod_fin, Fl.sum_fin]
      rw [Fl.fin_div_fin' _ ho]
    rw [e']
  · rintro (⟨i, j, h⟩ | ⟨i, j, h⟩)
    · rw [gt_iff_lt, Fl.fin_lt_fin] at h
      linarith [h1 i j]
    · rw [Fl.fin_lt_fin] at h
      linarith [h0 i j]

/-- C40: for every data set, smoothing and tie method there is one function `C` on the unit cube that
`cdf` returns at every list of points (and its logarithm with `log=True`). `C` takes values in [0, 1],
is non-decreasing, is zero as soon as one coordinate is zero, is one at (1, ..., 1) if the offset is
zero, and no box has negative volume. -/
theorem empCdf_distribution {btdtr : ℝ → ℝ → Fl → Fl} (hb : IsBtdtr btdtr) {n d : ℕ} (hn : 0 < n)
    (data : Fin n → Fin d → ℝ) (s : Smoothing) {ties : String} {m : TieMethod}
    (ht : parseTies ties = .ok m) {offset : ℝ} (ho : 0 ≤ offset) :
    ∃ C : (Fin d → ℝ) → ℝ,
      (∀ (k : ℕ) (u : Fin k → Fin d → ℝ), (∀ i j, 0 ≤ u i j) → (∀ i j, u i j ≤ 1) →
        empCdf btdtr data s ties offset (fun i j => .fin (u i j)) false = .ok (fun i => .fin (C (u i))) ∧
        empCdf btdtr data s ties offset (fun i j => .fin (u i j)) true
          = .ok (fun i => Fl.log (.fin (C (u i))))) ∧
      (∀ v, (∀ j, 0 ≤ v j) → (∀ j, v j ≤ 1) → 0 ≤ C v ∧ C v ≤ 1) ∧
      (∀ v w, (∀ j, 0 ≤ v j) → (∀ j, v j ≤ w j) → (∀ j, w j ≤ 1) → C v ≤ C w) ∧
      (∀ v j, v j = 0 → C v = 0) ∧
      (offset = 0 → C (fun _ => 1) = 1) ∧
      ∀ a b, (∀ j, 0 ≤ a j) → (∀ j, a j ≤ b j) → (∀ j, b j ≤ 1) → 0 ≤ Spec.volume C a b := by
  have hn' : (0 : ℝ) < n := by exact_mod_cast hn
  have hpos : 0 < (n : ℝ) + offset := by linarith
  set r : Fin n → Fin d → ℝ := fun i j => ((rankdata m (fun k => data k j) i : ℚ) : ℝ) with hr
  have hr1 : ∀ i j, 1 ≤ r i j := fun i j => (rank_real_mem data m i j).1
  have hrn : ∀ i j, r i j ≤ n := fun i j => (rank_real_mem data m i j).2
  refine ⟨empReal s r offset, ?_, ?_, ?_, ?_, ?_, ?_⟩
  · intro k u h0 h1
    constructor
    · rw [empCdf_value hb data s ht hpos.ne' h0 h1]
      rfl
    · rw [empCdf_value hb data s ht hpos.ne' h0 h1]
      rfl
  · intro v h0 h1
    unfold empReal
    have hp : ∀ i, 0 ≤ ∏ j, s.real n (r i j) (v j) ∧ ∏ j, s.real n (r i j) (v j) ≤ 1 := fun i =>
      ⟨Finset.prod_nonneg fun j _ => (real_mem s (hr1 i j) (hrn i j) (h0 j) (h1 j)).1,
        Finset.prod_le_one (fun j _ => (real_mem s (hr1 i j) (hrn i j) (h0 j) (h1 j)).1)
          fun j _ => (real_mem s (hr1 i j) (hrn i j) (h0 j) (h1 j)).2⟩
    refine ⟨div_nonneg (Finset.sum_nonneg fun i _ => (hp i).1) hpos.le, ?_⟩
    rw [div_le_one hpos]
    calc ∑ i, ∏ j, s.real n (r i j) (v j) ≤ ∑ _i : Fin n, (1 : ℝ) :=
          Finset.sum_le_sum fun i _ => (hp i).2
      _ = n := by simp
      _ ≤ n + offset := by linarith
  · intro v w h0 hvw h1
    unfold empReal
    refine div_le_div_of_nonneg_right (Finset.sum_le_sum fun i _ => ?_) hpos.le
    exact Finset.prod_le_prod
      (fun j _ => (real_mem s (hr1 i j) (hrn i j) (h0 j) ((hvw j).trans (h1 j))).1)
      fun j _ => real_mono s (hr1 i j) (hrn i j) (h0 j) (hvw j) (h1 j)
  · intro v j hj
    unfold empReal
    rw [Finset.sum_eq_zero fun i _ => ?_, zero_div]
    exact Finset.prod_eq_zero (Finset.mem_univ j) (by rw [hj, real_zero s (hr1 i j)])
  · rintro rfl
    unfold empReal
    rw [Finset.sum_congr rfl fun i _ => Finset.prod_eq_one fun j _ => real_one s (hr1 i j) (hrn i j)]
    simp [hn'.ne']
  · intro a b h0 hab h1
    unfold empReal
    rw [volume_div, volume_sum]
    refine div_nonneg (Finset.sum_nonneg fun i _ => ?_) hpos.le
    rw [volume_prod fun j => s.real n (r i j)]
    exact Finset.prod_nonneg fun j _ =>
      sub_nonneg.mpr (real_mono s (hr1 i j) (hrn i j) (h0 j) (hab j) (h1 j))

/-- C40: what the three smoothing options compute on the unit cube, from the value of the option to the
result. Without smoothing (`None` or `"none"`): the share of observations whose pseudo-observations are
nowhere larger than `u`. `"checkerboard"` and `"beta"`: the mean of products of the uniform and beta
distribution functions of the ranks. Every other text is rejected. -/
theorem empCdf_smoothing {btdtr : ℝ → ℝ → Fl → Fl} (hb : IsBtdtr btdtr) {n d : ℕ}
    (data : Fin n → Fin d → ℝ) {ties : String} {m : TieMethod} (ht : parseTies ties = .ok m)
    {offset : ℝ} (ho : (n : ℝ) + offset ≠ 0) {k : ℕ} {u : Fin k → Fin d → ℝ}
    (h0 : ∀ i j, 0 ≤ u i j) (h1 : ∀ i j, u i j ≤ 1) (opt : Option String) :
    (parseSmoothing opt).bind (fun s => empCdf btdtr data s ties offset (fun i j => .fin (u i j)) false) =
      let r : Fin n → Fin d → ℝ := fun a j => ((rankdata m (fun k => data k j) a : ℚ) : ℝ)
      if opt = none ∨ opt = some "none" then
        .ok fun i => .fin ((Finset.univ.filter fun a => ∀ j, r a j / (n + 1) ≤ u i j).card / (n + offset))
      else if opt = some "checkerboard" then
        .ok fun i => .fin ((∑ a, ∏ j, min (max (n * u i j - (r a j - 1)) 0) 1) / (n + offset))
      else if opt = some "beta" then
        .ok fun i => .fin ((∑ a, ∏ j, Spec.betaCdf (r a j) (n + 1 - r a j) (u i j)) / (n + offset))
      else .error .assertionError := by
  have key : ∀ s, empCdf btdtr data s ties offset (fun i j => .fin (u i j)) false = .ok fun i =>
      .fin (empReal s (fun i j => ((rankdata m (fun k => data k j) i : ℚ) : ℝ)) offset (u i)) := by
    intro s
    rw [empCdf_value hb data s ht ho h0 h1 false]
    simp
  have none_eq : (fun i => Fl.fin (empReal .none
      (fun i j => ((rankdata m (fun k => data k j) i : ℚ) : ℝ)) offset (u i))) =
      fun i => Fl.fin ((Finset.univ.filter fun a => ∀ j,
        ((rankdata m (fun k => data k j) a : ℚ) : ℝ) / (n + 1) ≤ u i j).card / (n + offset)) := by
    funext i
    unfold empReal
    congr 2
    rw [Finset.card_filter]
    push_cast
    refine Finset.sum_congr rfl fun a _ => ?_
    by_cases h : ∀ j, ((rankdata m (fun k => data k j) a : ℚ) : ℝ) / (n + 1) ≤ u i j
    · rw [if_pos h]
      exact Finset.prod_eq_one fun j _ => by rw [Smoothing.real, if_pos (h j)]
    · rw [if_neg h]
      push Not at h
      obtain ⟨j, hj⟩ := h
      exact Finset.prod_eq_zero (Finset.mem_univ j) (by rw [Smoothing.real, if_neg (not_le.mpr hj)])
  cases opt with
  | none =>
    simp only [parseSmoothing, Except.bind, key, true_or, if_true, none_eq]
  | some t =>
    by_cases c1 : t = "none"
    · subst c1
      simp only [parseSmoothing, if_true, Except.bind, key, or_true, none_eq]
    · by_cases c2 : t = "beta"
      · subst c2
        simp [parseSmoothing, Except.bind, key, empReal, Smoothing.real]
      · by_cases c3 : t = "checkerboard"
        · subst c3
          simp [parseSmoothing, Except.bind, key, empReal, Smoothing.real]
        · simp [parseSmoothing, Except.bind, c1, c2, c3]

example (opt : Option String) := empCdf_smoothing exists_btdtr.choose_spec (n := 3) (d := 2)
  (fun i j => if j = 0 then (i : ℕ) else 5) (ties := "average") (m := .average) (by decide) (offset := 1) (by norm_num)
  (k := 1) (u := fun _ j => (j.val + 1) / 3) (fun _ _ => by positivity) (by intro i j; fin_cases j <;> norm_num) opt

/-- C40: a coordinate outside [-eps, 1 + eps] is rejected, wherever it is. -/
theorem empCdf_rejects (btdtr : ℝ → ℝ → Fl → Fl) {n d : ℕ} (data : Fin n → Fin d → ℝ) (s : Smoothing)
    (ties : String) (offset : ℝ) {k : ℕ} (u : Fin k → Fin d → Fl) (log : Bool)
    (h : ∃ i j, u i j > .fin (1 + 2 ^ (-52 : ℤ)) ∨ u i j < .fin (-2 ^ (-52 : ℤ))) :
    empCdf btdtr data s ties offset u log = .error .valueError := by
  unfold empCdf
  rw [if_pos]
  obtain ⟨i, j, h | h⟩ := h
  · exact Or.inl ⟨i, j, h⟩
  · exact Or.inr ⟨i, j, h⟩

example (btdtr : ℝ → ℝ → Fl → Fl) := empCdf_rejects btdtr (n := 3) (d := 2) (fun i j => i.val * j.val) .beta "max" 0 (k := 1)
  (fun _ _ => .fin 2) true ⟨0, 0, .inl (by show Fl.fin _ < Fl.fin _; rw [Fl.fin_lt_fin]; norm_num)⟩

/-- C41: without ties the checkerboard and the beta copula have uniform margins, and the margins of the
unsmoothed one are within 1/n of the uniform distribution. -/
theorem empCdf_margins {btdtr : ℝ → ℝ → Fl → Fl} (hb : IsBtdtr btdtr) {n d : ℕ} (hn : 0 < n)
    (data : Fin n → Fin d → ℝ) (hx : ∀ j, Function.Injective fun i => data i j) (s : Smoothing)
    {ties : String} {m : TieMethod} (ht : parseTies ties = .ok m) (j : Fin d) {v : ℝ} (h0 : 0 ≤ v)
    (h1 : v ≤ 1) :
    ∃ c : ℝ, empCdf btdtr data s ties 0
        (fun (_ : Fin 1) l => .fin (if l = j then v else 1)) false = .ok (fun _ => .fin c) ∧
      (s ≠ .none → c = v) ∧ |c - v| ≤ 1 / n := by
  have hn' : (0 : ℝ) < n := by exact_mod_cast hn
  set r : Fin n → Fin d → ℝ := fun i j => ((rankdata m (fun k => data k j) i : ℚ) : ℝ) with hr
  have hr1 : ∀ i j, 1 ≤ r i j := fun i j => (rank_real_mem data m i j).1
  have hrn : ∀ i j, r i j ≤ n := fun i j => (rank_real_mem data m i j).2
  refine ⟨empReal s r 0 fun l => if l = j then v else 1, ?_, ?_⟩
  · rw [empCdf_value hb data s ht (by simpa using hn'.ne')
      (u := fun _ l => if l = j then v else 1)
      (fun _ l => by split_ifs <;> linarith)
      (fun _ l => by split_ifs <;> linarith)]
    rfl
  -- the sum over the rows is a sum over the ranks
  have hsum : empReal s r 0 (fun l => if l = j then v else 1)
      = (∑ k : Fin n, s.real n ((k : ℕ) + 1) v) / n := by
    unfold empReal
    rw [add_zero]
    congr 1
    rw [← Equiv.sum_comp (ordPerm fun i => data i j) fun k : Fin n => s.real n ((k : ℕ) + 1) v]
    refine Finset.sum_congr rfl fun i _ => ?_
    rw [Finset.prod_eq_single j]
    · simp only [if_true, hr]
      rw [rankdata_eq_of_injective m _ (hx j), rankdata_ordinal_perm]
      push_cast
      rfl
    · intro l _ hl
      simp only [if_neg hl]
      exact real_one s (hr1 i l) (hrn i l)
    · intro h
      exact absurd (Finset.mem_univ j) h
  have hc : s ≠ .none → empReal s r 0 (fun l => if l = j then v else 1) = v := by
    intro hs
    rw [hsum]
    rcases s with _ | _ | _
    · exact absurd rfl hs
    · have := sum_betaCdf n v
      simp only [Smoothing.real, add_sub_add_right_eq_sub]
      rw [this]
      field_simp
    · have := sum_clamp n (n * v) (by positivity) (by nlinarith)
      simp only [Smoothing.real, add_sub_cancel_right]
      rw [this]
      field_simp
  refine ⟨hc, ?_⟩
  by_cases hs : s = .none
  · subst hs
    rw [hsum]
    have hcount : ∀ N : ℕ, ∑ k ∈ Finset.range N, (if ((k : ℝ) + 1) / (n + 1) ≤ v then (1 : ℝ) else 0)
        = min (⌊((n : ℝ) + 1) * v⌋₊ : ℝ) N := by
      intro N
      induction N with
      | zero => simp
      | succ N ih =>
        rw [Finset.sum_range_succ, ih]
        have hiff : ((N : ℝ) + 1) / (n + 1) ≤ v ↔ N + 1 ≤ ⌊((n : ℝ) + 1) * v⌋₊ := by
          rw [Nat.le_floor_iff (by positivity), div_le_iff₀ (by positivity), mul_comm]
          push_cast
          rfl
        split_ifs with h
        · have h' := hiff.mp h
          have h'' : ((N : ℝ) + 1) ≤ (⌊((n : ℝ) + 1) * v⌋₊ : ℝ) := by exact_mod_cast h'
          rw [min_eq_right (by linarith), Nat.cast_succ, min_eq_right h'']
        · have h' : ⌊((n : ℝ) + 1) * v⌋₊ ≤ N := by
            by_contra hcon
            exact h (hiff.mpr (by omega))
          have h'' : (⌊((n : ℝ) + 1) * v⌋₊ : ℝ) ≤ N := by exact_mod_cast h'
          rw [min_eq_left h'', Nat.cast_succ, min_eq_left (by linarith), add_zero]
    have e : ∑ k : Fin n, Smoothing.none.real n ((k : ℕ) + 1) v = min (⌊((n : ℝ) + 1) * v⌋₊ : ℝ) n := by
      rw [← hcount n, Finset.sum_range]
      rfl
    rw [e]
    have hf1 : (⌊((n : ℝ) + 1) * v⌋₊ : ℝ) ≤ (n + 1) * v := Nat.floor_le (by positivity)
    have hf2 : ((n : ℝ) + 1) * v < ⌊((n : ℝ) + 1) * v⌋₊ + 1 := Nat.lt_floor_add_one _
    have : |min (⌊((n : ℝ) + 1) * v⌋₊ : ℝ) n - n * v| ≤ 1 := by
      rw [abs_le]
      constructor
      · rcases min_choice (⌊((n : ℝ) + 1) * v⌋₊ : ℝ) n with h | h <;> rw [h] <;> nlinarith
      · have := min_le_left (⌊((n : ℝ) + 1) * v⌋₊ : ℝ) n
        nlinarith
    have e2 : min (⌊((n : ℝ) + 1) * v⌋₊ : ℝ) n / n - v = (min (⌊((n : ℝ) + 1) * v⌋₊ : ℝ) n - n * v) / n := by
      field_simp
    rw [e2, abs_div, abs_of_pos hn']
    gcongr
  · rw [hc hs, sub_self, abs_zero]
    positivity

/-- Three observations of two variables, one pair of ties: the theorem on the distribution function
applies with every smoothing. -/
example : ∃ btdtr, IsBtdtr btdtr ∧ ∃ c : ℝ, empCdf btdtr (n := 3) (d := 2)
    (fun i j => if j = 0 then (i : ℕ) else 5) .checkerboard "average" 0 (fun (_ : Fin 1) _ => .fin (1 / 2))
      false = .ok (fun _ => .fin c) ∧ 0 ≤ c ∧ c ≤ 1 := by
  obtain ⟨b, hb⟩ := exists_btdtr
  obtain ⟨C, h1, h2, -⟩ := empCdf_distribution hb (n := 3) (d := 2) (by norm_num)
    (fun i j => if j = 0 then (i : ℕ) else 5) .checkerboard (ties := "average") (m := .average)
    (by decide) (offset := 0) le_rfl
  exact ⟨b, hb, _, (h1 1 (fun _ _ => 1 / 2) (by norm_num) (by norm_num)).1,
    h2 _ (by norm_num) (by norm_num)⟩

end Copulae
