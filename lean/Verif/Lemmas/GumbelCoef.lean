import Mathlib.Data.Real.Sign
import Mathlib.Algebra.Group.ForwardDiff
import Verif.Lemmas.GumbelReal

namespace Copulae

open Finset

/-! ### Signs -/

theorem real_sign_mul_abs (x : ℝ) : Real.sign x * |x| = x := by
  rcases lt_trichotomy x 0 with h | h | h
  · rw [Real.sign_of_neg h, abs_of_neg h]; ring
  · rw [h]; simp
  · rw [Real.sign_of_pos h, abs_of_pos h]; ring

theorem falling_sign_pos {x : ℝ} {c : ℕ} (hc1 : (c : ℝ) - 1 < x) (hc2 : x < c) (e : ℕ) :
    0 < (-1 : ℝ) ^ e * ∏ i ∈ range (c + e), (x - i) := by
  induction e with
  | zero =>
    simp only [pow_zero, one_mul, Nat.add_zero]
    apply prod_pos
    intro i hi
    rw [mem_range] at hi
    have : (i : ℝ) + 1 ≤ c := by exact_mod_cast hi
    linarith
  | succ e ih =>
    rw [← Nat.add_assoc, prod_range_succ, pow_succ]
    have h : 0 < ((c + e : ℕ) : ℝ) - x := by
      push_cast
      have : (0 : ℝ) ≤ e := Nat.cast_nonneg e
      linarith
    have := mul_pos ih h
    calc 0 < _ := this
      _ = _ := by ring

theorem natCast_ceil {x : ℝ} (hx : 0 < x) : ∃ c : ℕ, ⌈x⌉ = (c : ℤ) ∧ (c : ℝ) - 1 < x ∧ x ≤ c := by
  have h0 : 0 ≤ ⌈x⌉ := Int.ceil_nonneg hx.le
  refine ⟨⌈x⌉.toNat, (Int.toNat_of_nonneg h0).symm, ?_, ?_⟩
  · have h1 := Int.ceil_lt_add_one x
    have h2 : ((⌈x⌉.toNat : ℤ) : ℝ) = (⌈x⌉ : ℝ) := by rw [Int.toNat_of_nonneg h0]
    have h3 : ((⌈x⌉.toNat : ℕ) : ℝ) = (⌈x⌉ : ℝ) := by rw [← h2, Int.cast_natCast]
    rw [h3]; linarith
  · have h1 := Int.le_ceil x
    have h2 : ((⌈x⌉.toNat : ℤ) : ℝ) = (⌈x⌉ : ℝ) := by rw [Int.toNat_of_nonneg h0]
    have h3 : ((⌈x⌉.toNat : ℕ) : ℝ) = (⌈x⌉ : ℝ) := by rw [← h2, Int.cast_natCast]
    rw [h3]; exact h1

theorem signFFElem_eq {α : ℝ} (h0 : 0 < α) (h1 : α < 1) {j d : ℕ} (hj : 1 ≤ j) (hjd : j ≤ d) :
    signFFElem α j d = .fin (Real.sign (genBinom (α * j) d * (-1) ^ (d + j))) := by
  have hjpos : (0 : ℝ) < j := by exact_mod_cast hj
  have hx : 0 < α * j := mul_pos h0 hjpos
  have hxj : α * j < j := by nlinarith
  unfold signFFElem
  simp only [Int.cast_natCast]
  split_ifs with hint hgt
  · obtain ⟨c, hc, hc1, hc2⟩ := natCast_ceil hx
    have hc2' : α * j < c := by
      refine lt_of_le_of_ne hc2 ?_
      intro h
      apply hint
      rw [h]; simp
    have hcj : c ≤ j := by
      have : (c : ℝ) < j + 1 := by linarith
      have : c < j + 1 := by exact_mod_cast this
      omega
    have hs := falling_sign_pos hc1 hc2' (d - c)
    rw [show c + (d - c) = d by omega] at hs
    have hfac : (0 : ℝ) < d.factorial := by positivity
    rw [hc]
    have e1 : ((-1 : ℝ) ^ ((j : ℤ) - c)) = (-1) ^ (j - c) := by
      rw [← Nat.cast_sub hcj, zpow_natCast]
    rw [e1]
    congr 1
    -- sign of the product
    have e2 : (-1 : ℝ) ^ (d + j) = (-1) ^ (d - c) * (-1) ^ (j - c) := by
      rw [← pow_add, show d + j = (d - c + (j - c)) + 2 * c by omega, pow_add, pow_mul]; simp
    have hpos : 0 < genBinom (α * j) d * (-1) ^ (d - c) := by
      rw [genBinom, div_mul_eq_mul_div, mul_comm]
      exact div_pos hs hfac
    rw [e2, ← mul_assoc]
    rcases neg_one_pow_eq_or ℝ (j - c) with h | h
    · rw [h, mul_one, Real.sign_of_pos hpos]
    · rw [h, mul_neg, mul_one, Real.sign_of_neg (by linarith)]
  · omega
  · push Not at hint
    congr 1
    symm
    rw [genBinom]
    have hfl : 0 ≤ ⌊α * j⌋ := Int.floor_nonneg.mpr hx.le
    obtain ⟨m, hm⟩ := Int.eq_ofNat_of_zero_le hfl
    rw [hm] at hint
    have hm' : α * j = (m : ℝ) := by rw [hint]; simp
    have hmd : m < d := by
      have : (m : ℝ) < d := by
        have : (j : ℝ) ≤ d := by exact_mod_cast hjd
        linarith
      exact_mod_cast this
    rw [prod_eq_zero (mem_range.mpr hmd) (by rw [hm']; ring)]
    simp

/-! ### Sums -/

theorem s1_abs (d j : ℕ) : |(s1 d j : ℝ)| = (-1) ^ (d + j) * (s1 d j : ℝ) := by
  unfold s1
  push_cast
  rw [abs_mul, abs_pow, abs_neg, abs_one, one_pow, one_mul, ← mul_assoc, ← pow_add, ← two_mul,
    pow_mul]
  simp

theorem stirlingFirst_pos {n k : ℕ} (hk : 1 ≤ k) (h : k ≤ n) : 0 < Nat.stirlingFirst n k := by
  induction n generalizing k with
  | zero => omega
  | succ n ih =>
    obtain ⟨k, rfl⟩ : ∃ m, k = m + 1 := ⟨k - 1, by omega⟩
    rw [Nat.stirlingFirst_succ_succ]
    rcases Nat.eq_zero_or_pos n with h0 | h0
    · subst h0
      obtain rfl : k = 0 := by omega
      simp
    rcases Nat.eq_zero_or_pos k with hk0 | hk0
    · subst hk0
      have := Nat.mul_pos h0 (ih (k := 1) le_rfl h0)
      simp only [Nat.zero_add] at *
      omega
    · have := ih (k := k) hk0 (by omega)
      omega

theorem stirlingSecond_pos {n k : ℕ} (hk : 1 ≤ k) (h : k ≤ n) : 0 < Nat.stirlingSecond n k := by
  induction n generalizing k with
  | zero => omega
  | succ n ih =>
    obtain ⟨k, rfl⟩ : ∃ m, k = m + 1 := ⟨k - 1, by omega⟩
    rw [Nat.stirlingSecond_succ_succ]
    rcases Nat.eq_zero_or_pos n with h0 | h0
    · subst h0
      obtain rfl : k = 0 := by omega
      simp
    rcases Nat.eq_zero_or_pos k with hk0 | hk0
    · subst hk0
      have := ih (k := 1) le_rfl h0
      simp only [Nat.zero_add] at *
      omega
    · have := ih (k := k) hk0 (by omega)
      omega

theorem s1_abs_pos {n k : ℕ} (hk : 1 ≤ k) (h : k ≤ n) : 0 < |(s1 n k : ℝ)| := by
  rw [abs_pos]
  have := stirlingFirst_pos hk h
  simp [s1]
  omega

theorem s2_pos {n k : ℕ} (hk : 1 ≤ k) (h : k ≤ n) : (0 : ℝ) < (s2 n k : ℝ) := by
  have := stirlingSecond_pos hk h
  simp [s2]
  omega

theorem gumbelA_shift {d i : ℕ} (α : ℝ) (hi : i < d) :
    gumbelA d α (i + 1) = (-1) ^ (d + i + 1) *
      ∑ m ∈ range (d - i), α ^ (i + m + 1) * (s1 d (i + m + 1) : ℝ) * (s2 (i + m + 1) (i + 1) : ℝ) := by
  unfold gumbelA
  rw [← Nat.add_assoc]
  congr 1
  rw [show d + 1 = (i + 1) + (d - i) by omega, sum_range_add, sum_eq_zero, zero_add]
  · apply sum_congr rfl
    intro m _
    rw [show i + 1 + m = i + m + 1 by ring]
  · intro j hj
    rw [mem_range] at hj
    rw [s2_eq_zero (show j < i + 1 from hj)]; simp

/-- The terms of the alternating sum. -/
noncomputable def coefTerm (d : ℕ) (α : ℝ) (i m : ℕ) : ℝ :=
  α ^ (i + m + 1) * |(s1 d (i + m + 1) : ℝ)| * (s2 (i + m + 1) (i + 1) : ℝ)

theorem gumbelA_alt {d i : ℕ} (α : ℝ) (hi : i < d) :
    gumbelA d α (i + 1) = ∑ m ∈ range (d - i), (-1) ^ m * coefTerm d α i m := by
  rw [gumbelA_shift α hi, mul_sum]
  apply sum_congr rfl
  intro m _
  rw [coefTerm, s1_abs]
  have : (-1 : ℝ) ^ m * (-1) ^ (d + (i + m + 1)) = (-1) ^ (d + i + 1) := by
    rw [← pow_add, show m + (d + (i + m + 1)) = (d + i + 1) + 2 * m by ring, pow_add, pow_mul]
    simp
  rw [← this]; ring

theorem coefTerm_pos {d i m : ℕ} {α : ℝ} (h0 : 0 < α) (hm : m < d - i) : 0 < coefTerm d α i m := by
  unfold coefTerm
  have h1 := s1_abs_pos (n := d) (k := i + m + 1) (by omega) (by omega)
  have h2 := s2_pos (n := i + m + 1) (k := i + 1) (by omega) (by omega)
  positivity

/-- The table of Stirling numbers used by `gumbel_coef`. -/
theorem stirlingTable (d : ℕ) :
    ((List.range d).mapM fun (i : ℕ) => stirlingSecondAll (i + 1))
      = .ok ((List.range d).map fun i => (List.range (i + 1)).map fun k => s2 (i + 1) (k + 1)) := by
  apply mapM_ok
  intro i _
  exact stirlingSecondAll_eq (i + 1)

theorem table_getD {d x i : ℕ} (hx : x < d) (hi : i ≤ x) :
    (((List.range d).map fun i => (List.range (i + 1)).map fun k => s2 (i + 1) (k + 1)).getD x
      []).getD i 0 = s2 (x + 1) (i + 1) := by
  rw [getD_map_range _ _ _ hx, getD_map_range _ _ _ (by omega)]

theorem fl_log_scale {a : ℝ} (ha : 0 ≤ a) (M : ℝ) :
    Fl.log (.fin (a * Real.exp (-M))) + .fin M = Fl.log (.fin a) := by
  rcases ha.eq_or_lt with h | h
  · rw [← h]; simp
  · rw [Fl.log_pos (mul_pos h (Real.exp_pos _)), Fl.log_pos h, Fl.fin_add_fin,
      Real.log_mul h.ne' (Real.exp_ne_zero _), Real.log_exp]
    simp

theorem everyOther_cons {α : Type*} (a : α) (l : List α) :
    everyOther (a :: l) = a :: everyOther l.tail := by
  cases l <;> rfl

theorem everyOther_fin_sum (e : List ℝ) :
    (∃ E, (everyOther (e.map Fl.fin)).sum = .fin E) := by
  have h : ∀ n, ∀ e : List ℝ, e.length ≤ n → ∃ E, (everyOther (e.map Fl.fin)).sum = .fin E := by
    intro n
    induction n with
    | zero =>
      intro e he
      obtain rfl : e = [] := List.eq_nil_of_length_eq_zero (by omega)
      exact ⟨0, rfl⟩
    | succ n ih =>
      intro e he
      cases e with
      | nil => exact ⟨0, rfl⟩
      | cons a l =>
        obtain ⟨E, hE⟩ := ih l.tail (by simp at he ⊢; omega)
        refine ⟨a + E, ?_⟩
        rw [List.map_cons, everyOther_cons, List.sum_cons, ← List.map_tail, hE, Fl.fin_add_fin]
  exact h _ e le_rfl

theorem everyOther_alt (e : List ℝ) :
    (everyOther (e.map Fl.fin)).sum - (everyOther (e.map Fl.fin).tail).sum
      = .fin (∑ m ∈ range e.length, (-1) ^ m * e.getD m 0) := by
  induction e with
  | nil =>
    show Fl.fin 0 - Fl.fin 0 = _
    simp
  | cons a l ih =>
    rw [List.map_cons, everyOther_cons, List.sum_cons, List.tail_cons]
    obtain ⟨E, hE⟩ := everyOther_fin_sum l
    obtain ⟨F, hF⟩ := everyOther_fin_sum l.tail
    rw [List.map_tail] at hF
    rw [hE, hF, Fl.fin_sub_fin] at ih
    rw [hE, hF, Fl.fin_add_fin, Fl.fin_sub_fin]
    simp only [Fl.fin_inj] at ih ⊢
    rw [List.length_cons, sum_range_succ']
    simp only [List.getD_cons_succ, List.getD_cons_zero, pow_zero, one_mul]
    have : ∑ m ∈ range l.length, (-1 : ℝ) ^ (m + 1) * l.getD m 0
        = -∑ m ∈ range l.length, (-1 : ℝ) ^ m * l.getD m 0 := by
      rw [← sum_neg_distrib]
      exact sum_congr rfl fun m _ => by rw [pow_succ]; ring
    rw [this, ← ih]; ring

theorem npMax_fin {l : List ℝ} (h : l ≠ []) : ∃ M, npMax (l.map Fl.fin) = .ok (.fin M) := by
  cases l with
  | nil => exact absurd rfl h
  | cons a l =>
    have hall : ∀ v ∈ l.map Fl.fin, IsLogVal v := by
      intro v hv
      rw [List.mem_map] at hv
      obtain ⟨b, -, rfl⟩ := hv
      simp [IsLogVal]
    obtain ⟨-, h2, -⟩ := foldMax (a := .fin a) (by simp [IsLogVal]) hall
    have := h2 (Or.inl trivial)
    simp only [List.map_cons, npMax]
    cases hm : (l.map Fl.fin).foldl Fl.maximum (.fin a) with
    | fin M => exact ⟨M, rfl⟩
    | _ => rw [hm] at this; exact absurd this (by simp [Fl.isFin])

/-! ### The methods based on Stirling numbers -/

/-- The result of `gumbel_coef` for one coefficient. -/
noncomputable def coefVal (log : Bool) (a : ℝ) : Fl := if log then Fl.log (.fin a) else .fin a

theorem coefSort_eq {d i : ℕ} {α : ℝ} (h0 : 0 < α) (h1 : α ≤ 1) (hi : i < d) (log : Bool) :
    coefSort d α log ((List.range d).map fun k => s1 d (k + 1))
      ((List.range d).map fun i => (List.range (i + 1)).map fun k => s2 (i + 1) (k + 1)) i
      = .ok (coefVal log (gumbelA d α (i + 1))) := by
  unfold coefSort
  have hb : ((List.range' i (d - i)).map fun (x : ℕ) =>
      Fl.fin ((x : ℝ) + 1) * Fl.log (.fin α)
        + Fl.log (.fin |((((List.range d).map fun k => s1 d (k + 1)).getD x 0 : ℤ) : ℝ)|)
        + Fl.log (.fin (((((List.range d).map fun i =>
          (List.range (i + 1)).map fun k => s2 (i + 1) (k + 1)).getD x []).getD i 0 : ℤ) : ℝ)))
      = ((List.range (d - i)).map fun m => Real.log (coefTerm d α i m)).map Fl.fin := by
    rw [List.range'_eq_map_range, List.map_map, List.map_map]
    apply List.map_congr_left
    intro m hm
    rw [List.mem_range] at hm
    simp only [Function.comp]
    rw [getD_map_range _ _ _ (by omega), table_getD (by omega) (by omega)]
    have p1 := s1_abs_pos (n := d) (k := i + m + 1) (by omega) (by omega)
    have p2 := s2_pos (n := i + m + 1) (k := i + 1) (by omega) (by omega)
    rw [Fl.log_pos h0, Fl.log_pos p1, Fl.log_pos p2]
    simp only [Fl.fin_mul_fin, Fl.fin_add_fin, Fl.fin_inj]
    rw [coefTerm, Real.log_mul (by positivity) p2.ne', Real.log_mul (by positivity) p1.ne',
      Real.log_pow]
    push_cast; ring
  simp only [bind, Except.bind, pure, Except.pure]
  rw [hb]
  obtain ⟨M, hM⟩ := npMax_fin (l := (List.range (d - i)).map fun m => Real.log (coefTerm d α i m))
    (by simp; omega)
  rw [hM]
  simp only
  have he : ((List.map (fun m => Real.log (coefTerm d α i m)) (List.range (d - i))).map Fl.fin).map
      (fun v => Fl.exp (v - .fin M))
      = ((List.range (d - i)).map fun m => coefTerm d α i m * Real.exp (-M)).map Fl.fin := by
    rw [List.map_map, List.map_map, List.map_map]
    apply List.map_congr_left
    intro m hm
    rw [List.mem_range] at hm
    simp only [Function.comp, Fl.fin_sub_fin, Fl.exp_fin, Fl.fin_inj]
    rw [sub_eq_add_neg, Real.exp_add, Real.exp_log (coefTerm_pos h0 hm)]
  rw [he, everyOther_alt]
  have hs : ∑ m ∈ range ((List.range (d - i)).map fun m => coefTerm d α i m * Real.exp (-M)).length,
      (-1 : ℝ) ^ m * ((List.range (d - i)).map fun m => coefTerm d α i m * Real.exp (-M)).getD m 0
      = gumbelA d α (i + 1) * Real.exp (-M) := by
    rw [List.length_map, List.length_range, gumbelA_alt α hi, sum_mul]
    apply sum_congr rfl
    intro m hm
    rw [mem_range] at hm
    rw [getD_map_range _ _ _ hm]; ring
  rw [hs, coefVal]
  congr 1
  cases log with
  | true => simp only [if_true]; exact fl_log_scale (gumbelA_nonneg h0 h1 _ _) M
  | false =>
    simp only [Bool.false_eq_true, if_false, Fl.exp_fin, Fl.fin_mul_fin, Fl.fin_inj]
    rw [mul_comm, mul_assoc, ← Real.exp_add]; simp

theorem coefHorner_eq {d i : ℕ} {α : ℝ} (h0 : 0 < α) (h1 : α ≤ 1) (hi : i < d) (log : Bool) :
    coefHorner d α log ((List.range d).map fun k => s1 d (k + 1))
      ((List.range d).map fun i => (List.range (i + 1)).map fun k => s2 (i + 1) (k + 1)) i
      = .ok (coefVal log (gumbelA d α (i + 1))) := by
  unfold coefHorner
  have hb : ((List.range' i (d - i)).map fun (j : ℕ) =>
      Fl.fin (|((((List.range d).map fun k => s1 d (k + 1)).getD j 0 : ℤ) : ℝ)|
        * (((((List.range d).map fun i =>
          (List.range (i + 1)).map fun k => s2 (i + 1) (k + 1)).getD j []).getD i 0 : ℤ) : ℝ)))
      = ((List.range (d - i)).map fun m =>
          |(s1 d (i + m + 1) : ℝ)| * (s2 (i + m + 1) (i + 1) : ℝ)).map Fl.fin := by
    rw [List.range'_eq_map_range, List.map_map, List.map_map]
    apply List.map_congr_left
    intro m hm
    rw [List.mem_range] at hm
    simp only [Function.comp]
    rw [getD_map_range _ _ _ (by omega), table_getD (by omega) (by omega)]
  simp only [bind, Except.bind, pure, Except.pure]
  rw [hb, polynEval_fin _ _ (by simp; omega)]
  simp only
  set pol := ∑ m ∈ range ((List.range (d - i)).map fun m =>
          |(s1 d (i + m + 1) : ℝ)| * (s2 (i + m + 1) (i + 1) : ℝ)).length,
    ((List.range (d - i)).map fun m =>
          |(s1 d (i + m + 1) : ℝ)| * (s2 (i + m + 1) (i + 1) : ℝ)).getD m 0 * (-α) ^ m with hpol
  have hs : pol * α ^ (i + 1) = gumbelA d α (i + 1) := by
    rw [hpol, List.length_map, List.length_range, gumbelA_alt α hi, sum_mul]
    apply sum_congr rfl
    intro m hm
    rw [mem_range] at hm
    rw [getD_map_range _ _ _ hm, coefTerm, neg_pow, show i + m + 1 = m + (i + 1) by ring, pow_add]
    ring
  rw [coefVal, ← hs]
  congr 1
  cases log with
  | true =>
    simp only [if_true]
    have hp : 0 ≤ pol := by
      have h2 := gumbelA_nonneg h0 h1 d (i + 1)
      rw [← hs] at h2
      exact nonneg_of_mul_nonneg_left h2 (by positivity)
    rw [← fl_log_add (p := α ^ (i + 1)) (by positivity) hp, Fl.log_pos h0,
      Fl.log_pos (by positivity : (0 : ℝ) < α ^ (i + 1)), Real.log_pow]
    push_cast
    rfl
  | false => simp

theorem coefDirect_eq {d i : ℕ} {α : ℝ} (h0 : 0 < α) (h1 : α ≤ 1) (hi : i < d) (log : Bool) :
    coefDirect d α log ((List.range d).map fun k => s1 d (k + 1))
      ((List.range d).map fun i => (List.range (i + 1)).map fun k => s2 (i + 1) (k + 1)) i
      = coefVal log (gumbelA d α (i + 1)) := by
  unfold coefDirect
  have hb : ((List.range' i (d - i)).map fun (j : ℕ) =>
      α ^ (j + 1) * ((((List.range d).map fun k => s1 d (k + 1)).getD j 0 : ℤ) : ℝ)
        * (((((List.range d).map fun i =>
          (List.range (i + 1)).map fun k => s2 (i + 1) (k + 1)).getD j []).getD i 0 : ℤ) : ℝ))
      = (List.range (d - i)).map fun m =>
          α ^ (i + m + 1) * (s1 d (i + m + 1) : ℝ) * (s2 (i + m + 1) (i + 1) : ℝ) := by
    rw [List.range'_eq_map_range, List.map_map]
    apply List.map_congr_left
    intro m hm
    rw [List.mem_range] at hm
    simp only [Function.comp]
    rw [getD_map_range _ _ _ (by omega), table_getD (by omega) (by omega)]
  rw [hb, list_sum_range_map]
  have hA := gumbelA_shift α hi
  rw [coefVal, hA]
  cases log with
  | true =>
    simp only [if_true]
    have h2 := gumbelA_nonneg h0 h1 d (i + 1)
    rw [← hA, ← abs_of_nonneg h2, hA, abs_mul, abs_pow, abs_neg, abs_one, one_pow, one_mul]
  | false =>
    simp only [Bool.false_eq_true, if_false, Fl.fin_inj]
    congr 1
    rw [show d + i + 1 = (d - i + 1) + 2 * i by omega, pow_add _ (d - i + 1), pow_mul]
    simp

/-! ### The methods based on Sibuya sums -/

theorem gumbelA_one (d k : ℕ) : gumbelA d 1 k = if k = d then 1 else 0 := by
  induction d generalizing k with
  | zero =>
    cases k with
    | zero => rw [gumbelA_zero_zero]; rfl
    | succ k => rw [gumbelA_eq_zero _ (by omega), if_neg (by omega)]
  | succ d ih =>
    cases k with
    | zero => rw [gumbelA_zero_right _ (by omega), if_neg (by omega)]
    | succ k =>
      rw [gumbelA_succ, ih, ih]
      by_cases h1 : k + 1 = d
      · rw [if_pos h1, if_neg (by omega), if_neg (by omega), ← h1]; push_cast; ring
      · rw [if_neg h1]
        by_cases h2 : k = d
        · rw [if_pos h2, if_pos (by omega)]; ring
        · rw [if_neg h2, if_neg (by omega)]; ring

/-- The probability returned by `dsum_sibuya(d, k, alpha)`. -/
noncomputable def sibuyaVal (d : ℕ) (α : ℝ) (k : ℕ) : ℝ :=
  (k.factorial : ℝ) / (d.factorial : ℝ) * gumbelA d α k

theorem genBinom_zero {d : ℕ} (hd : 1 ≤ d) : genBinom 0 d = 0 := by
  rw [genBinom, prod_eq_zero (mem_range.mpr (show 0 < d by omega))] <;> simp

theorem sibuyaVal_eq {d k : ℕ} (α : ℝ) (hd : 1 ≤ d) :
    sibuyaVal d α k = ∑ j ∈ range k, (k.choose (j + 1) : ℝ) * genBinom (α * ((j : ℝ) + 1)) d
      * (-1) ^ (d + (j + 1)) := by
  have hk : (k.factorial : ℝ) ≠ 0 := by positivity
  have hdf : (d.factorial : ℝ) ≠ 0 := by positivity
  rw [sibuyaVal, gumbelA_sibuya, ← mul_assoc]
  have : (k.factorial : ℝ) / (d.factorial : ℝ) * ((d.factorial : ℝ) / (k.factorial : ℝ)) = 1 := by
    field_simp
  rw [this, one_mul, sum_range_succ']
  simp only [Nat.cast_zero, mul_zero, genBinom_zero hd, zero_mul, add_zero]
  apply sum_congr rfl
  intro j _
  push_cast; rfl

theorem neg_one_zpow_sub {d j : ℕ} : ((-1 : ℝ) ^ ((d : ℤ) - j)) = (-1) ^ (d + j) := by
  rw [zpow_sub₀ (by norm_num), zpow_natCast, zpow_natCast, pow_add, div_eq_mul_inv, ← inv_pow]
  norm_num

theorem sibuyaDirect_eq {d k : ℕ} {α : ℝ} (h0 : 0 < α) (hd : 1 ≤ d) (hk : k ≤ d) :
    sibuyaDirect α d k = .fin (sibuyaVal d α k) := by
  unfold sibuyaDirect
  rw [if_neg (by omega), sibuyaVal_eq α hd, ← Fl.sum_fin, ← list_sum_range_map, Int.toNat_natCast]
  congr 1
  apply List.map_congr_left
  intro j _
  have e1 := comb_eq (x := (k : ℝ)) (Nat.cast_nonneg k) (j + 1)
  have e2 := comb_eq (x := α * ((j : ℝ) + 1)) (by positivity) d
  push_cast at e1
  rw [Int.cast_natCast, Int.cast_natCast, e1, e2, genBinom_nat, Fl.fin_mul_fin, Fl.fin_mul_fin]
  have := neg_one_zpow_sub (d := d) (j := j + 1)
  push_cast at this
  rw [this]

theorem diff1_map (f : ℕ → ℝ) (r : ℕ) :
    diff1 (((List.range (r + 1)).map f).map Fl.fin)
      = ((List.range r).map fun i => f (i + 1) - f i).map Fl.fin := by
  unfold diff1
  rw [List.map_map, List.map_map]
  have : ((List.range (r + 1)).map (Fl.fin ∘ f)).tail
      = (List.range r).map fun i => Fl.fin (f (i + 1)) := by
    rw [List.range_succ_eq_map, List.map_cons, List.tail_cons, List.map_map]
    rfl
  rw [this, List.range_succ, List.map_append]
  apply List.ext_getElem
  · simp
  · intro i h1 h2
    simp at h1
    rw [List.getElem_zipWith, List.getElem_append_left (by simpa using h1)]
    simp

theorem diff_iter (n r : ℕ) (f : ℕ → ℝ) :
    diff1^[n] (((List.range (n + r)).map f).map Fl.fin)
      = ((List.range r).map ((fwdDiff (1 : ℕ))^[n] f)).map Fl.fin := by
  induction n generalizing f with
  | zero => simp
  | succ n ih =>
    rw [Function.iterate_succ_apply, Function.iterate_succ_apply,
      show n + 1 + r = (n + r) + 1 by ring, diff1_map]
    exact ih (fwdDiff 1 f)

theorem sibuyaDiff_eq {d k : ℕ} {α : ℝ} (h0 : 0 < α) (hd : 1 ≤ d) :
    sibuyaDiff α d k = .ok (.fin (sibuyaVal d α k)) := by
  unfold sibuyaDiff
  simp only [Int.toNat_natCast]
  have hdd : ((List.range (k + 1)).map fun (i : ℕ) => comb (((k - i : ℕ) : ℝ) * α) ((d : ℤ) : ℝ) false)
      = ((List.range (k + 1)).map fun i => genBinom (((k - i : ℕ) : ℝ) * α) d).map Fl.fin := by
    rw [List.map_map]
    apply List.map_congr_left
    intro i _
    rw [Int.cast_natCast]
    exact comb_eq (by positivity) d
  rw [hdd, diff_iter k 1]
  simp only [List.range_one, List.map_cons, List.map_nil]
  rw [if_neg (by omega), fwdDiff_iter_eq_sum_shift, zpow_natCast, Fl.fin_mul_fin,
    ← Finset.sum_range_reflect, sibuyaVal_eq α hd, Nat.add_sub_cancel, sum_range_succ']
  congr 2
  have hz : ((k - (0 + (k - 0) • 1) : ℕ) : ℝ) * α = 0 := by simp
  rw [hz, genBinom_zero hd, smul_zero, add_zero, sum_mul]
  apply sum_congr rfl
  intro j hj
  rw [mem_range] at hj
  have e1 : k - (0 + (k - (j + 1)) • 1) = j + 1 := by simp; omega
  have e2 : k - (k - (j + 1)) = j + 1 := by omega
  rw [e1, e2, zsmul_eq_mul, Nat.choose_symm (by omega)]
  push_cast
  rw [mul_comm α, pow_add]
  ring

theorem sibuyaLog_eq {d k : ℕ} {α : ℝ} (h0 : 0 < α) (h1 : α < 1) (hd : 1 ≤ d) (hk1 : 1 ≤ k)
    (hk : k ≤ d) :
    sibuyaLog α (.arr ((List.range d).map fun (j : ℕ) => signFFElem α ((j : ℤ) + 1) d)) d k
      = .ok (Fl.log (.fin (sibuyaVal d α k))) := by
  unfold sibuyaLog
  rw [if_neg (by omega)]
  simp only [Int.toNat_natCast, bind, Except.bind, pure, Except.pure]
  let w : ℕ → ℝ := fun j => (k.choose (j + 1) : ℝ) * genBinom (α * ((j : ℝ) + 1)) d
  have hl : ((List.range k).map fun (j : ℕ) =>
      comb ((k : ℤ) : ℝ) (j + 1) true + comb (α * (j + 1)) ((d : ℤ) : ℝ) true)
      = (List.range k).map fun j => Fl.log (.fin |w j|) := by
    apply List.map_congr_left
    intro j hj
    rw [List.mem_range] at hj
    have e1 := comb_log_eq (x := (k : ℝ)) (Nat.cast_nonneg k) (j + 1)
    have e2 := comb_log_eq (x := α * ((j : ℝ) + 1)) (by positivity) d
    push_cast at e1
    rw [Int.cast_natCast, Int.cast_natCast, e1, e2, genBinom_nat]
    have hc : (0 : ℝ) < (k.choose (j + 1) : ℝ) := by
      exact_mod_cast Nat.choose_pos (by omega)
    rw [abs_of_pos hc, fl_log_add hc (abs_nonneg _)]
    simp only [w]
    rw [abs_mul, abs_of_pos hc, mul_comm]
  rw [hl]
  have hlog : ∀ v ∈ (List.range k).map fun j => Fl.log (.fin |w j|), IsLogVal v := by
    intro v hv
    rw [List.mem_map] at hv
    obtain ⟨j, -, rfl⟩ := hv
    rcases (abs_nonneg (w j)).eq_or_lt with h | h
    · rw [← h]; simp [IsLogVal]
    · rw [Fl.log_pos h]; simp [IsLogVal]
  have hw0 : w 0 ≠ 0 := by
    simp only [w]
    apply mul_ne_zero
    · simp; omega
    · rw [genBinom]
      apply div_ne_zero _ (by positivity)
      rw [prod_ne_zero_iff]
      intro i _ h
      have : α = i := by push_cast at h; linarith
      rcases Nat.eq_zero_or_pos i with hi | hi
      · subst hi; simp at this; linarith
      · have : (1 : ℝ) ≤ i := by exact_mod_cast hi
        linarith
  obtain ⟨M, hM⟩ : ∃ M, npMax ((List.range k).map fun j => Fl.log (.fin |w j|)) = .ok (.fin M) := by
    obtain ⟨k', rfl⟩ : ∃ m, k = m + 1 := ⟨k - 1, by omega⟩
    rw [List.range_succ_eq_map, List.map_cons] at hlog ⊢
    obtain ⟨-, h2, -⟩ := foldMax (hlog _ List.mem_cons_self)
      fun v hv => hlog v (List.mem_cons_of_mem _ hv)
    have := h2 (Or.inl (by rw [Fl.log_pos (abs_pos.mpr hw0)]; trivial))
    simp only [npMax]
    revert this
    generalize List.foldl Fl.maximum _ _ = r
    intro this
    cases r with
    | fin M => exact ⟨M, rfl⟩
    | _ => exact absurd this (by simp [Fl.isFin])
  rw [hM]
  simp only
  have hz : List.zipWith (fun s l => s * Fl.exp (l - .fin M))
      ((List.range d).map fun (j : ℕ) => signFFElem α ((j : ℤ) + 1) d)
      ((List.range k).map fun j => Fl.log (.fin |w j|))
      = (List.range k).map fun j => Fl.fin (w j * (-1) ^ (d + (j + 1)) * Real.exp (-M)) := by
    apply List.ext_getElem
    · simp; omega
    · intro j h1' h2'
      have hj : j < k := by simpa using h2'
      rw [List.getElem_zipWith]
      simp only [List.getElem_map, List.getElem_range]
      have hs := signFFElem_eq h0 h1 (j := j + 1) (d := d) (by omega) (by omega)
      push_cast at hs
      rw [hs]
      have hexp : Fl.exp (Fl.log (.fin |w j|) - .fin M) = .fin (|w j| * Real.exp (-M)) := by
        rcases (abs_nonneg (w j)).eq_or_lt with h | h
        · rw [← h]; simp
        · rw [Fl.log_pos h, Fl.fin_sub_fin, Fl.exp_fin, sub_eq_add_neg, Real.exp_add,
            Real.exp_log h]
      rw [hexp, Fl.fin_mul_fin, ← mul_assoc]
      congr 2
      have hc : (0 : ℝ) < (k.choose (j + 1) : ℝ) := by
        exact_mod_cast Nat.choose_pos (by omega)
      simp only [w]
      rw [abs_mul, abs_of_pos hc]
      set g := genBinom (α * ((j : ℝ) + 1)) d
      have hsg : Real.sign (g * (-1) ^ (d + (j + 1))) * |g| = g * (-1) ^ (d + (j + 1)) := by
        have habs : |g| = |g * (-1) ^ (d + (j + 1))| := by
          rw [abs_mul, abs_pow, abs_neg, abs_one, one_pow, mul_one]
        rw [habs]
        exact real_sign_mul_abs _
      linear_combination (k.choose (j + 1) : ℝ) * hsg
  rw [hz, list_sum_range_map, Fl.sum_fin, ← sum_mul]
  have : ∑ i ∈ range k, w i * (-1) ^ (d + (i + 1)) = sibuyaVal d α k := (sibuyaVal_eq α hd).symm
  rw [this, fl_log_scale]
  have := gumbelA_nonneg h0 h1.le d k
  unfold sibuyaVal
  positivity

end Copulae
