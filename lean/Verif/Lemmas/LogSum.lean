import Verif.Lemmas.PolyLog

namespace Copulae

/-- Real value of `exp` of a log-probability: 0 for `-inf`. -/
noncomputable def expVal : Fl → ℝ
  | .fin a => Real.exp a
  | _ => 0

/-- Finite or `-inf`. -/
def IsLogVal (v : Fl) : Prop := v ≠ .nan ∧ v ≠ .pinf

theorem exp_logVal {v : Fl} (h : IsLogVal v) : Fl.exp v = .fin (expVal v) := by
  cases v <;> simp_all [IsLogVal, expVal]

theorem exp_sub_logVal {v : Fl} (h : IsLogVal v) (o : ℝ) :
    Fl.exp (v - .fin o) = .fin (expVal v * Real.exp (-o)) := by
  cases v <;> simp_all [IsLogVal, expVal, ← Real.exp_add, sub_eq_add_neg]

theorem list_sum_fin (l : List ℝ) : (l.map Fl.fin).sum = Fl.fin l.sum := by
  induction l with
  | nil => rfl
  | cons a l ih => rw [List.map_cons, List.sum_cons, ih, List.sum_cons, Fl.fin_add_fin]

theorem sum_exp_logVal {x : List Fl} (h : ∀ v ∈ x, IsLogVal v) :
    (x.map Fl.exp).sum = .fin (x.map expVal).sum := by
  rw [← list_sum_fin, List.map_map]
  congr 1
  exact List.map_congr_left fun v hv => exp_logVal (h v hv)

theorem sum_exp_sub_logVal {x : List Fl} (h : ∀ v ∈ x, IsLogVal v) (o : ℝ) :
    (x.map fun v => Fl.exp (v - .fin o)).sum = .fin ((x.map expVal).sum * Real.exp (-o)) := by
  rw [← List.sum_map_mul_right, ← list_sum_fin, List.map_map]
  congr 1
  exact List.map_congr_left fun v hv => exp_sub_logVal (h v hv) o

theorem expVal_nonneg (v : Fl) : 0 ≤ expVal v := by
  cases v <;> simp [expVal, Real.exp_nonneg]

theorem logSum_some {x : List Fl} (h : ∀ v ∈ x, IsLogVal v) (o : ℝ) :
    logSum x (some (.fin o)) = .ok (Fl.log ((x.map Fl.exp).sum)) := by
  unfold logSum
  simp only
  rw [sum_exp_sub_logVal h, sum_exp_logVal h]
  set S := (x.map expVal).sum with hS
  have h0 : 0 ≤ S := List.sum_nonneg (by
    intro a ha
    rw [List.mem_map] at ha
    obtain ⟨v, -, rfl⟩ := ha
    exact expVal_nonneg v)
  rcases h0.eq_or_lt with h0 | h0
  · rw [← h0]; simp
  · rw [Fl.log_pos (mul_pos h0 (Real.exp_pos _)), Fl.log_pos h0,
      Real.log_mul h0.ne' (Real.exp_ne_zero _), Real.log_exp]
    simp

theorem maximum_logVal {a b : Fl} (ha : IsLogVal a) (hb : IsLogVal b) :
    IsLogVal (Fl.maximum a b) := by
  cases a <;> cases b <;> simp_all [IsLogVal, Fl.maximum]

theorem maximum_isFin {a b : Fl} (ha : IsLogVal a) (hb : IsLogVal b) (h : a.isFin ∨ b.isFin) :
    (Fl.maximum a b).isFin := by
  cases a <;> cases b <;> simp_all [IsLogVal, Fl.maximum, Fl.isFin]

theorem foldMax {l : List Fl} {a : Fl} (ha : IsLogVal a) (h : ∀ v ∈ l, IsLogVal v) :
    IsLogVal (l.foldl Fl.maximum a) ∧
      ((a.isFin ∨ ∃ v ∈ l, v.isFin) → (l.foldl Fl.maximum a).isFin) ∧
      (a = .ninf → (∀ v ∈ l, v = .ninf) → l.foldl Fl.maximum a = .ninf) := by
  induction l generalizing a with
  | nil => exact ⟨ha, by simp, by simp⟩
  | cons b l ih =>
    have hb := h b (by simp)
    have hl : ∀ v ∈ l, IsLogVal v := fun v hv => h v (List.mem_cons_of_mem _ hv)
    obtain ⟨h1, h2, h3⟩ := ih (a := Fl.maximum a b) (maximum_logVal ha hb) hl
    refine ⟨h1, ?_, ?_⟩
    · rintro (h | ⟨v, hv, hf⟩)
      · exact h2 (Or.inl (maximum_isFin ha hb (Or.inl h)))
      · rcases List.mem_cons.mp hv with rfl | hv
        · exact h2 (Or.inl (maximum_isFin ha hb (Or.inr hf)))
        · exact h2 (Or.inr ⟨v, hv, hf⟩)
    · intro ha' hl'
      apply h3
      · rw [ha', hl' b (by simp)]; rfl
      · exact fun v hv => hl' v (List.mem_cons_of_mem _ hv)

theorem logSum_none {x : List Fl} (h : ∀ v ∈ x, IsLogVal v) (hf : ∃ v ∈ x, v.isFin) :
    logSum x none = .ok (Fl.log ((x.map Fl.exp).sum)) := by
  cases x with
  | nil => simp at hf
  | cons a l =>
    obtain ⟨h1, h2, -⟩ := foldMax (h a (by simp)) fun v hv => h v (List.mem_cons_of_mem _ hv)
    have h3 := h2 (by simpa using hf)
    rw [← logSum_some h (match l.foldl Fl.maximum a with | .fin o => o | _ => 0)]
    unfold logSum
    simp only
    cases hm : l.foldl Fl.maximum a <;> simp_all [Fl.isFin]

theorem logSum_ninf {x : List Fl} (hne : x ≠ []) (h : ∀ v ∈ x, v = .ninf) :
    logSum x none = .ok .nan := by
  cases x with
  | nil => exact absurd rfl hne
  | cons a l =>
    have hlog : ∀ v ∈ a :: l, IsLogVal v := fun v hv => by rw [h v hv]; simp [IsLogVal]
    obtain ⟨-, -, h3⟩ := foldMax (hlog a (by simp)) fun v hv => hlog v (List.mem_cons_of_mem _ hv)
    unfold logSum
    simp only
    rw [h3 (h a (by simp)) fun v hv => h v (List.mem_cons_of_mem _ hv), h a (by simp)]
    simp only [List.map_cons, List.sum_cons]
    rw [show Fl.ninf - Fl.ninf = Fl.nan from rfl]
    simp

/-! ### Horner over `Fl` -/

theorem foldl_horner_fin (l : List ℝ) (c x : ℝ) :
    (l.map Fl.fin).foldl (fun r j => j + r * Fl.fin x) (.fin c)
      = .fin (l.foldl (fun r j => j + r * x) c) := by
  induction l generalizing c with
  | nil => rfl
  | cons a l ih => simp only [List.map_cons, List.foldl_cons, Fl.fin_mul_fin, Fl.fin_add_fin, ih]

theorem polynEval_fin (l : List ℝ) (x : ℝ) (h : l ≠ []) :
    polynEval (l.map Fl.fin) (Fl.fin x)
      = .ok (.fin (∑ i ∈ Finset.range l.length, l.getD i 0 * x ^ i)) := by
  have h1 := polynEval_eq l x h
  unfold polynEval at h1 ⊢
  rw [List.getLast?_map]
  cases hl : l.getLast? with
  | none => simp at hl; exact absurd hl h
  | some c =>
    rw [hl] at h1
    simp only [Option.map_some, List.length_map] at h1 ⊢
    split_ifs at h1 ⊢
    · simp only [Except.ok.injEq] at h1 ⊢
      rw [h1]
    · simp only [Except.ok.injEq] at h1 ⊢
      rw [← h1, ← List.map_dropLast, ← List.map_reverse, foldl_horner_fin]

theorem cumProd_eq (n m : ℕ) (acc : ℕ) (hacc : acc = m.factorial) :
    cumProd acc (List.range' (m + 1) n) = (List.range n).map fun k => (m + 1 + k).factorial := by
  induction n generalizing m acc with
  | zero => rfl
  | succ n ih =>
    rw [List.range'_succ, cumProd, List.range_succ_eq_map, List.map_cons, List.map_map]
    have h1 : acc * (m + 1) = (m + 1).factorial := by
      rw [hacc, Nat.factorial_succ, mul_comm]
    rw [ih (m + 1) _ h1, h1]
    congr 1
    apply List.map_congr_left
    intro k _
    simp only [Function.comp]
    congr 1; omega

theorem cumProd_factorials (n : ℕ) :
    cumProd 1 (1 :: List.range' 1 n) = (List.range (n + 1)).map Nat.factorial := by
  rw [cumProd, mul_one, cumProd_eq n 0 1 rfl, List.range_succ_eq_map, List.map_cons,
    List.map_map]
  congr 1
  apply List.map_congr_left
  intro k _
  simp only [Function.comp]
  congr 1; omega

theorem fl_pow_fin (x : ℝ) (n : ℕ) : (Fl.fin x) ^ n = Fl.fin (x ^ n) := by
  induction n with
  | zero => rw [pow_zero, pow_zero, Fl.one_def]
  | succ n ih => rw [pow_succ, pow_succ, ih, Fl.fin_mul_fin]

/-- `log(p) + log(r) = log(r p)` for `p > 0`, `r ≥ 0`. -/
theorem fl_log_add {p r : ℝ} (hp : 0 < p) (hr : 0 ≤ r) :
    Fl.log (.fin p) + Fl.log (.fin r) = Fl.log (.fin (r * p)) := by
  rcases hr.eq_or_lt with h | h
  · rw [← h]; simp [Fl.log_pos hp]
  · rw [Fl.log_pos hp, Fl.log_pos h, Fl.log_pos (mul_pos h hp), Real.log_mul h.ne' hp.ne',
      Fl.fin_add_fin, add_comm]

theorem fl_log_mul {a b : ℝ} (ha : 0 ≤ a) (hb : 0 ≤ b) :
    Fl.log (.fin (a * b)) = Fl.log (.fin a) + Fl.log (.fin b) := by
  rcases ha.eq_or_lt with ha | ha
  · rw [← ha, zero_mul, Fl.log_zero]
    rcases hb.eq_or_lt with hb | hb
    · rw [← hb, Fl.log_zero]; rfl
    · rw [Fl.log_pos hb]; rfl
  · rcases hb.eq_or_lt with hb | hb
    · rw [← hb, mul_zero, Fl.log_zero, Fl.log_pos ha]; rfl
    · rw [Fl.log_pos ha, Fl.log_pos hb, Fl.log_pos (mul_pos ha hb), Fl.fin_add_fin,
        Real.log_mul ha.ne' hb.ne']

end Copulae
