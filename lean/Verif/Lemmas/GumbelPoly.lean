import Verif.Lemmas.PdfGumbel

/-!
The algorithms of `gumbel_poly` compute the Gumbel polynomial.
-/

namespace Copulae

open Finset

theorem exp_log_add {a : ℝ} (ha : 0 ≤ a) (b : ℝ) :
    Fl.exp (Fl.log (.fin a) + .fin b) = .fin (a * Real.exp b) := by
  rcases ha.eq_or_lt with h | h
  · rw [← h]; simp
  · rw [Fl.log_pos h, Fl.fin_add_fin, Fl.exp_fin, Real.exp_add, Real.exp_log h]

/-- The algorithms based on the coefficients. -/
theorem calcGumbelPoly_coef {d : ℕ} (hd : 1 ≤ d) {α : ℝ} (h0 : 0 < α) (h1 : α ≤ 1) (l : ℝ)
    (m : PolyAlg) (hm : m ≠ .pois) (hlog : m = .log → α ≠ 1 ∧ 2 ≤ d) (log : Bool) :
    calcGumbelPoly (.fin l) α d m log = .ok (coefVal log (gumbelP d α (Real.exp l))) := by
  unfold calcGumbelPoly
  rw [if_neg hm, gumbelCoef_methods_partial hd h0 h1 m.coef true]
  · simp only [bind, Except.bind, pure, Except.pure, if_true]
    have hz : (List.zipWith (fun (a : Fl) (k : ℕ) => Fl.exp (a + .fin ((k : ℝ) + 1) * .fin l))
        ((List.range d).map fun i => Fl.log (.fin (gumbelA d α (i + 1)))) (List.range d)).sum
        = .fin (gumbelP d α (Real.exp l)) := by
      rw [List.zipWith_map_left, List.zipWith_self, gumbelP_shift hd, ← Fl.sum_fin,
        ← list_sum_range_map]
      congr 1
      apply List.map_congr_left
      intro k _
      rw [Fl.fin_mul_fin, exp_log_add (gumbelA_nonneg h0 h1 _ _), ← Real.exp_nat_mul]
      push_cast
      rfl
    rw [hz]
    rfl
  · intro h
    right
    cases m <;> simp_all [PolyAlg.coef]
  · intro _ h
    cases m <;> simp_all [PolyAlg.coef]

theorem fl_log_list_sum (d : ℕ) (f : ℕ → ℝ) (hf : ∀ i, 0 ≤ f i) :
    ((List.range d).map fun i => Fl.log (.fin (f i))).sum = Fl.log (.fin (∏ i ∈ range d, f i)) := by
  rw [list_sum_range_map]
  induction d with
  | zero => simp [Fl.log_pos, Fl.zero_def]
  | succ d ih =>
    rw [sum_range_succ, ih, prod_range_succ, fl_log_mul (prod_nonneg fun i _ => hf i) (hf d)]

theorem fl_log_mul_exp {a : ℝ} (ha : 0 ≤ a) (b : ℝ) :
    Fl.log (.fin a) + .fin b = Fl.log (.fin (a * Real.exp b)) := by
  rw [fl_log_mul ha (Real.exp_nonneg b), Fl.log_pos (Real.exp_pos b), Real.log_exp]

/-- Signed summand of method 'pois'. -/
noncomputable def poisW (x α : ℝ) (d k : ℕ) : ℝ :=
  x ^ (k + 1) / ((k + 1).factorial : ℝ) * (∑ l ∈ range (d - (k + 1) + 1), x ^ l / (l.factorial : ℝ))
    * (genBinom (α * ((k : ℝ) + 1)) d * (-1) ^ (d + (k + 1)) * (d.factorial : ℝ))

theorem poisTerms_eq {d : ℕ} {α : ℝ} (l : ℝ) :
    poisTerms (.fin l) α d =
      (List.range d).map fun k => Fl.log (.fin |poisW (Real.exp l) α d k|) := by
  unfold poisTerms
  apply List.map_congr_left
  intro k _
  have hx : 0 < Real.exp l := Real.exp_pos l
  have hS : 0 < ∑ i ∈ range (d - (k + 1) + 1), Real.exp l ^ i / (i.factorial : ℝ) :=
    sum_pos (fun i _ => by positivity) ⟨0, by simp⟩
  have hfac : gammalnFl ((k : ℝ) + 1 + 1) = .fin (Real.log ((k + 1).factorial : ℝ)) := by
    have := gammalnFl_nat (k + 1)
    push_cast at this
    exact this
  have hf : (0 : ℝ) < ((k + 1).factorial : ℝ) := by positivity
  rw [Fl.exp_fin, hfac, poissonLogCdf, if_neg (not_lt.mpr hx.le),
    fl_log_list_sum d (fun i => |α * ((k : ℝ) + 1) - i|) (fun i => abs_nonneg _), Fl.fin_mul_fin,
    show ∀ a : Fl, ∀ b : ℝ, a - Fl.fin b = a + Fl.fin (-b) from fun a b => rfl]
  have hP : 0 ≤ ∏ i ∈ range d, |α * ((k : ℝ) + 1) - i| := prod_nonneg fun i _ => abs_nonneg _
  rw [fl_log_mul_exp hP, add_assoc, fl_log_mul_exp (mul_nonneg hP (Real.exp_nonneg _)),
    add_comm (Fl.fin _), add_assoc, add_comm (Fl.fin _), fl_log_mul_exp (by positivity),
    ← fl_log_mul (by positivity) (by positivity)]
  congr 2
  rw [poisW, abs_mul, abs_mul, abs_mul, abs_mul, abs_pow (-1 : ℝ), abs_neg, abs_one, one_pow, mul_one,
    abs_of_pos hS, abs_of_pos (by positivity : 0 < Real.exp l ^ (k + 1) / ((k + 1).factorial : ℝ)),
    genBinom, abs_div, abs_prod, abs_of_pos (by positivity : (0 : ℝ) < (d.factorial : ℝ)),
    Real.exp_neg (Real.log _), Real.exp_log hf, ← Real.exp_nat_mul, Real.exp_neg]
  have hdf : (d.factorial : ℝ) ≠ 0 := by positivity
  have he := Real.exp_ne_zero (Real.exp l)
  push_cast
  field_simp

theorem poisW_sum {d : ℕ} (hd : 1 ≤ d) (α x : ℝ) :
    ∑ k ∈ range d, poisW x α d k = gumbelP d α x := by
  -- the coefficient of `x ^ m` is a convolution
  have h1 : ∑ k ∈ range d, poisW x α d k = ∑ j ∈ range (d + 1), ∑ l ∈ range (d + 1 - j),
      (genBinom (α * j) d * (-1) ^ (d + j) * (d.factorial : ℝ)) / ((j.factorial : ℝ) * (l.factorial : ℝ))
        * x ^ (j + l) := by
    rw [sum_range_succ' (fun j => ∑ l ∈ range (d + 1 - j), _)]
    have z : ∀ l ∈ range (d + 1 - 0), (genBinom (α * ((0 : ℕ) : ℝ)) d * (-1) ^ (d + 0) * (d.factorial : ℝ))
        / (((0 : ℕ).factorial : ℝ) * (l.factorial : ℝ)) * x ^ (0 + l) = 0 := by
      intro l _
      rw [Nat.cast_zero, mul_zero, genBinom_zero hd]
      ring
    rw [sum_eq_zero z, add_zero]
    apply sum_congr rfl
    intro k hk
    rw [mem_range] at hk
    rw [poisW, show d + 1 - (k + 1) = d - (k + 1) + 1 by omega, mul_comm (_ * ∑ l ∈ _, _), ← mul_assoc,
      mul_sum]
    apply sum_congr rfl
    intro l _
    have f1 : ((k + 1).factorial : ℝ) ≠ 0 := by positivity
    have f2 : (l.factorial : ℝ) ≠ 0 := by positivity
    push_cast
    field_simp
    ring
  have h2 := Finset.sum_sigma' (range (d + 1)) (fun j => range (d + 1 - j)) (fun j l =>
      (genBinom (α * j) d * (-1) ^ (d + j) * (d.factorial : ℝ)) / ((j.factorial : ℝ) * (l.factorial : ℝ))
        * x ^ (j + l))
  have h3 := Finset.sum_sigma' (range (d + 1)) (fun m => range (m + 1)) (fun m j =>
      (genBinom (α * j) d * (-1) ^ (d + j) * (d.factorial : ℝ)) /
        ((j.factorial : ℝ) * ((m - j).factorial : ℝ)) * x ^ m)
  have h4 : ∑ m ∈ range (d + 1), ∑ j ∈ range (m + 1),
      (genBinom (α * j) d * (-1) ^ (d + j) * (d.factorial : ℝ)) /
        ((j.factorial : ℝ) * ((m - j).factorial : ℝ)) * x ^ m = gumbelP d α x := by
    rw [gumbelP]
    apply sum_congr rfl
    intro m _
    rw [gumbelA_sibuya, mul_sum, sum_mul]
    apply sum_congr rfl
    intro j hj
    rw [mem_range] at hj
    have hc : (m.choose j : ℝ) = (m.factorial : ℝ) / ((j.factorial : ℝ) * ((m - j).factorial : ℝ)) := by
      rw [Nat.cast_choose ℝ (by omega)]
    have f1 : (m.factorial : ℝ) ≠ 0 := by positivity
    rw [hc]
    field_simp
  rw [h1, h2, ← h4, h3]
  refine sum_bij' (fun p _ => ⟨p.1 + p.2, p.1⟩) (fun q _ => ⟨q.2, q.1 - q.2⟩) ?_ ?_ ?_ ?_ ?_
  · rintro ⟨j, l⟩ h
    simp only [mem_sigma, mem_range] at h ⊢
    omega
  · rintro ⟨m, j⟩ h
    simp only [mem_sigma, mem_range] at h ⊢
    omega
  · rintro ⟨j, l⟩ h
    simp
  · rintro ⟨m, j⟩ h
    simp only [mem_sigma, mem_range] at h
    simp only [Sigma.mk.injEq, heq_eq_eq, and_true]
    omega
  · rintro ⟨j, l⟩ h
    simp

theorem genBinom_ne_zero_of_lt_one {α : ℝ} (h0 : 0 < α) (h1 : α < 1) (d : ℕ) : genBinom α d ≠ 0 := by
  rw [genBinom]
  apply div_ne_zero _ (by positivity)
  rw [prod_ne_zero_iff]
  intro i _ h
  have : α = i := by linarith
  rcases Nat.eq_zero_or_pos i with hi | hi
  · subst hi; simp at this; linarith
  · have : (1 : ℝ) ≤ i := by exact_mod_cast hi
    linarith

/-- The Poisson based algorithm. -/
theorem calcGumbelPoly_pois {d : ℕ} (hd : 2 ≤ d) {α : ℝ} (h0 : 0 < α) (h1 : α ≤ 1) (l : ℝ)
    (log : Bool) :
    calcGumbelPoly (.fin l) α d .pois log = .ok (coefVal log (gumbelP d α (Real.exp l))) := by
  unfold calcGumbelPoly
  rw [if_pos rfl]
  obtain ⟨r, hr, hrl⟩ := signFF_scalar_d h0 h1 ((List.range d).map fun (k : ℕ) => k + 1) d (by
    intro n hn
    rw [List.mem_map] at hn
    obtain ⟨k, hk, rfl⟩ := hn
    rw [List.mem_range] at hk
    omega)
  have hr' : signFF α (.arr ((List.range d).map fun (k : ℕ) => (k : ℤ) + 1)) (.scalar d) = .ok r := by
    rw [← hr, List.map_map]
    congr 2
  rw [hr']
  have hsg : r = .arr ((List.range d).map fun (k : ℕ) => signSpec α (k + 1) d) := by
    rw [List.map_map] at hrl
    cases r with
    | scalar v =>
      have := congrArg List.length hrl
      simp [FlRes.toList] at this
      omega
    | arr sg =>
      simp only [FlRes.toList] at hrl
      rw [hrl]
      rfl
  rw [hsg]
  simp only [bind, Except.bind, pure, Except.pure, poisSum]
  rw [poisTerms_eq]
  set x := Real.exp l with hx
  have hxp : 0 < x := Real.exp_pos l
  have hlog : ∀ v ∈ (List.range d).map fun k => Fl.log (.fin |poisW x α d k|), IsLogVal v := by
    intro v hv
    rw [List.mem_map] at hv
    obtain ⟨j, -, rfl⟩ := hv
    rcases (abs_nonneg (poisW x α d j)).eq_or_lt with h | h
    · rw [← h]; simp [IsLogVal]
    · rw [Fl.log_pos h]; simp [IsLogVal]
  obtain ⟨k₀, hk₀, hw0⟩ : ∃ k < d, poisW x α d k ≠ 0 := by
    by_contra hcon
    push Not at hcon
    have := poisW_sum (by omega : 1 ≤ d) α x
    rw [sum_eq_zero fun k hk => hcon k (mem_range.mp hk)] at this
    exact (gumbelP_pos h0 h1 hxp).ne this
  obtain ⟨M, hM⟩ : ∃ M, npMax ((List.range d).map fun k => Fl.log (.fin |poisW x α d k|))
      = .ok (.fin M) := by
    have hmem : ∃ v ∈ (List.range d).map fun k => Fl.log (.fin |poisW x α d k|), v.isFin :=
      ⟨_, List.mem_map_of_mem (List.mem_range.mpr hk₀), by
        rw [Fl.log_pos (abs_pos.mpr hw0)]; trivial⟩
    revert hlog hmem
    generalize (List.range d).map (fun k => Fl.log (.fin |poisW x α d k|)) = L
    intro hlog hmem
    cases L with
    | nil => simp at hmem
    | cons a L =>
      obtain ⟨-, h2, -⟩ := foldMax (hlog _ List.mem_cons_self)
        fun v hv => hlog v (List.mem_cons_of_mem _ hv)
      have := h2 (by simpa using hmem)
      simp only [npMax]
      revert this
      generalize List.foldl Fl.maximum _ _ = r
      intro this
      cases r with
      | fin M => exact ⟨M, rfl⟩
      | _ => exact absurd this (by simp [Fl.isFin])
  rw [hM]
  simp only
  have hz : List.zipWith (fun s l => s * Fl.exp (l - .fin M))
      ((List.range d).map fun (k : ℕ) => signSpec α (k + 1) d)
      ((List.range d).map fun k => Fl.log (.fin |poisW x α d k|))
      = (List.range d).map fun k => Fl.fin (poisW x α d k * Real.exp (-M)) := by
    rw [zipWith_map_range]
    apply List.map_congr_left
    intro k _
    have hS : 0 < ∑ i ∈ range (d - (k + 1) + 1), x ^ i / (i.factorial : ℝ) :=
      sum_pos (fun i _ => by positivity) ⟨0, by simp⟩
    have hexp : Fl.exp (Fl.log (.fin |poisW x α d k|) - .fin M)
        = .fin (|poisW x α d k| * Real.exp (-M)) := by
      rw [show Fl.log (.fin |poisW x α d k|) - .fin M = Fl.log (.fin |poisW x α d k|) + .fin (-M)
        from rfl, exp_log_add (abs_nonneg _)]
    rw [hexp, signSpec, Fl.fin_mul_fin, ← mul_assoc]
    congr 2
    push_cast
    set g := genBinom (α * ((k : ℝ) + 1)) d with hg
    have hsgn : Real.sign (g * (-1) ^ (d + (k + 1))) = Real.sign (poisW x α d k) := by
      rw [poisW, ← hg]
      set c := x ^ (k + 1) / ((k + 1).factorial : ℝ) *
        (∑ i ∈ range (d - (k + 1) + 1), x ^ i / (i.factorial : ℝ)) with hc
      have hcp : 0 < c := by positivity
      have hdp : (0 : ℝ) < (d.factorial : ℝ) := by positivity
      rcases lt_trichotomy (g * (-1) ^ (d + (k + 1))) 0 with h | h | h
      · rw [Real.sign_of_neg h, Real.sign_of_neg (mul_neg_of_pos_of_neg hcp
          (mul_neg_of_neg_of_pos h hdp))]
      · rw [h, zero_mul, mul_zero]
      · rw [Real.sign_of_pos h, Real.sign_of_pos (by positivity)]
    rw [hsgn]
    exact real_sign_mul_abs _
  rw [hz, list_sum_range_map, Fl.sum_fin, ← sum_mul, poisW_sum (by omega), fl_log_scale
    (gumbelP_pos h0 h1 hxp).le]
  cases log with
  | true => rfl
  | false =>
    simp only [Bool.false_eq_true, if_false, coefVal]
    rw [Fl.log_pos (gumbelP_pos h0 h1 hxp), Fl.exp_fin, Real.exp_log (gumbelP_pos h0 h1 hxp)]

end Copulae
