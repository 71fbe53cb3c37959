import Mathlib.RingTheory.Polynomial.Chebyshev
import Verif.Model.SpecFunc
import Verif.Model.FlAlg
import Verif.Props.Threads

/-!
C38: symmetries of the Clausen function.
C60: `cheb_eval` evaluates the Chebyshev series.
C37: a call that overwrites its argument.
-/

namespace Copulae

open Polynomial

/-- The value of a Chebyshev series with first coefficient halved. -/
noncomputable def Spec.chebSeries (c : List ℝ) (y : ℝ) : ℝ :=
  ∑ k : Fin c.length, (if (k : ℕ) = 0 then 1 / 2 else 1) * c[k] * (Chebyshev.T ℝ (k : ℕ)).eval y

theorem cheb_aux (y : ℝ) (cs : List ℝ) (m : ℤ) :
    ∑ k : Fin cs.length, cs[k] * (Chebyshev.T ℝ (m + (k : ℕ))).eval y
      = (Chebyshev.T ℝ m).eval y * (cs.reverse.foldl (chebStep y) (0, 0)).1
        - (Chebyshev.T ℝ (m - 1)).eval y * (cs.reverse.foldl (chebStep y) (0, 0)).2 := by
  induction cs generalizing m with
  | nil => simp
  | cons c cs ih =>
    rw [List.reverse_cons, List.foldl_append]
    have e : ∑ k : Fin (c :: cs).length, (c :: cs)[k] * (Chebyshev.T ℝ (m + (k : ℕ))).eval y
        = c * (Chebyshev.T ℝ m).eval y
          + ∑ k : Fin cs.length, cs[k] * (Chebyshev.T ℝ (m + 1 + (k : ℕ))).eval y := by
      refine (Fin.sum_univ_succ (n := cs.length)
        fun k => (c :: cs)[k] * (Chebyshev.T ℝ (m + (k : ℕ))).eval y).trans ?_
      congr 1
      · simp
      · refine Finset.sum_congr rfl fun k _ => ?_
        have : m + ((k.succ : Fin (cs.length + 1)) : ℕ) = m + 1 + (k : ℕ) := by
          rw [Fin.val_succ]
          push_cast
          ring
        rw [this]
        simp
    rw [e, ih (m + 1)]
    simp only [List.foldl_cons, List.foldl_nil, chebStep]
    rw [add_sub_cancel_right, Chebyshev.T_add_one]
    simp only [eval_sub, eval_mul, eval_X, eval_ofNat]
    ring

/-- C60: `cheb_eval` returns the value of the Chebyshev series at the image of `x` under the affine map
that takes [a, b] to [-1, 1], for every list of coefficients. -/
theorem chebEval_spec (c : List ℝ) (hc : c ≠ []) (x : ℝ) {a b : ℝ} (_hab : a < b) :
    chebEval c x a b = Spec.chebSeries c (2 * (x - a) / (b - a) - 1) := by
  rcases c with _ | ⟨c0, cs⟩
  · exact absurd rfl hc
  have hy : (2 * x - a - b) / (b - a) = 2 * (x - a) / (b - a) - 1 := by
    have : b - a ≠ 0 := by linarith
    field_simp
    ring
  unfold chebEval Spec.chebSeries
  simp only
  rw [hy]
  set y := 2 * (x - a) / (b - a) - 1
  have e := cheb_aux y cs 1
  rw [sub_self, Chebyshev.T_zero, Chebyshev.T_one, eval_X, eval_one, one_mul] at e
  rw [← e]
  refine Eq.trans ?_ (Fin.sum_univ_succ (n := cs.length) fun k =>
    (if (k : ℕ) = 0 then 1 / 2 else 1) * (c0 :: cs)[k] * (Chebyshev.T ℝ (k : ℕ)).eval y).symm
  rw [add_comm]
  congr 1
  · simp
    norm_num
  · refine Finset.sum_congr rfl fun k _ => ?_
    have : (1 : ℤ) + (k : ℕ) = (((k.succ : Fin (cs.length + 1)) : ℕ) : ℤ) := by
      rw [Fin.val_succ]
      push_cast
      ring
    rw [this]
    simp

/-- The series 1/2 * 2 + 3 T₁ + 5 T₂ at 1/2. -/
example : chebEval [2, 3, 5] (1 / 2) (-1) 1 = 0 := by
  rw [chebEval_spec _ (by simp) _ (by norm_num)]
  simp only [Spec.chebSeries, List.length_cons, List.length_nil, Fin.sum_univ_succ,
    Finset.univ_eq_empty, Finset.sum_empty]
  simp [Chebyshev.T_two]
  norm_num

theorem fl_mul_neg (a : Fl) (b : ℝ) : a * .fin (-b) = -(a * .fin b) := by
  have hs : ∀ b : ℝ, Fl.infSign (-b) = -Fl.infSign b := by
    intro b
    unfold Fl.infSign
    rcases lt_trichotomy b 0 with h | h | h
    · rw [if_pos (by linarith), if_neg (by linarith), if_pos h]
      rfl
    · subst h
      simp
    · rw [if_neg (by linarith), if_pos (by linarith), if_pos h]
      rfl
  rcases a with _ | _ | a | _
  · rfl
  · show Fl.infSign (-(-b)) = -Fl.infSign (-b)
    rw [hs (-b)]
  · rw [Fl.fin_mul_fin, Fl.fin_mul_fin, Fl.neg_fin, mul_neg]
  · exact hs b

theorem fl_neg_neg (a : Fl) : - -a = a := by
  rcases a with _ | _ | a | _
  · rfl
  · rfl
  · rw [Fl.neg_fin, Fl.neg_fin, neg_neg]
  · rfl

theorem clausenCore_neg (x : Fl) (s : ℝ) : clausenCore x (-s) = -clausenCore x s := by
  rcases x with _ | _ | x | _
  · rfl
  · rfl
  · simp only [clausenCore]
    split_ifs
    · rw [Fl.neg_fin, neg_zero]
    · rw [fl_mul_neg]
    · rw [fl_mul_neg]
  · rfl

theorem clausenTail_neg (x : Fl) (s : ℝ) : clausenTail x (-s) = -clausenTail x s := by
  unfold clausenTail
  split_ifs with h
  · exact clausenCore_neg _ (-s)
  · exact clausenCore_neg _ s

/-- C38: the Clausen function is odd, for every argument. -/
theorem clausen_odd (x : Fl) : clausenK (-x) = -clausenK x := by
  rcases x with _ | _ | x | _
  · rfl
  · rfl
  · rw [Fl.neg_fin]
    unfold clausenK
    simp only
    rcases lt_trichotomy x 0 with h | h | h
    · rw [if_neg (by linarith), if_pos h, clausenTail_neg, fl_neg_neg]
    · subst h
      rw [neg_zero, if_neg (lt_irrefl _), if_neg (lt_irrefl _)]
      have hP : 0 < cPI := by unfold cPI; norm_num
      have ha : angleRestrict 0 = .fin 0 := by
        unfold angleRestrict
        simp only [zero_div, Int.floor_zero, Int.cast_zero, mul_zero, zero_mul, sub_zero, abs_zero]
        rw [if_neg, if_neg, if_neg (lt_irrefl _)]
        · exact not_lt.mpr (by linarith)
        · unfold cEPS
          norm_num
      rw [ha]
      unfold clausenTail
      rw [if_neg]
      · simp only [clausenCore, if_true, Fl.neg_fin, neg_zero]
      · rw [gt_iff_lt, Fl.fin_lt_fin]
        exact not_lt.mpr hP.le
    · rw [if_pos (by linarith), if_neg (by linarith), neg_neg, clausenTail_neg]
  · rfl

theorem cPI_pos : 0 < cPI := by unfold cPI; norm_num

theorem angleRestrict_lt {x : ℝ} (h0 : 0 ≤ x) (h1 : x < 2 * cPI) : angleRestrict x = .fin x := by
  have hP := cPI_pos
  have hf : ⌊x / (2 * cPI)⌋ = 0 := by
    rw [Int.floor_eq_zero_iff]
    exact ⟨by positivity, by rwa [div_lt_one (by positivity)]⟩
  unfold angleRestrict
  simp only [hf, Int.cast_zero, mul_zero, zero_mul, sub_zero]
  rw [if_neg, if_neg (by linarith), if_neg (by linarith)]
  rw [abs_of_nonneg h0, gt_iff_lt, not_lt]
  refine h1.le.trans ?_
  unfold cPI cEPS
  norm_num

/-- Beyond one period the restriction of the angle subtracts too much: the result is negative, and it is the angle
minus `4⌊x/2π⌋ - 1` full turns instead of `⌊x/2π⌋`. -/
theorem angleRestrict_ge {x : ℝ} (h1 : 2 * cPI ≤ x) :
    angleRestrict x = .nan ∨ ∃ r, r < 0 ∧ angleRestrict x = .fin r ∧
      r = x - (4 * ⌊x / (2 * cPI)⌋ - 1) * (2 * cPI) := by
  have hP := cPI_pos
  have hf : (1 : ℤ) ≤ ⌊x / (2 * cPI)⌋ := by
    rw [Int.le_floor, Int.cast_one, le_div_iff₀ (by positivity)]
    linarith
  have hlt : x < (⌊x / (2 * cPI)⌋ + 1 : ℝ) * (2 * cPI) := by
    rw [← div_lt_iff₀ (by positivity)]
    exact Int.lt_floor_add_one _
  have hf' : (1 : ℝ) ≤ ⌊x / (2 * cPI)⌋ := by exact_mod_cast hf
  unfold angleRestrict
  simp only
  generalize (⌊x / (2 * cPI)⌋ : ℝ) = k at *
  split_ifs with h h2 h3
  · exact Or.inl rfl
  · exfalso
    nlinarith
  · refine Or.inr ⟨_, ?_, rfl, by ring⟩
    nlinarith
  · exfalso
    nlinarith

example := angleRestrict_ge (x := 20 * cPI) (by unfold cPI; norm_num)

theorem clausenCore_fin {x : ℝ} (h : 0 ≤ x) (s : ℝ) : ∃ v, clausenCore (.fin x) s = .fin v := by
  simp only [clausenCore]
  rcases eq_or_lt_of_le h with rfl | h
  · exact ⟨0, by simp⟩
  · rw [if_neg h.ne', Fl.log_pos h]
    split_ifs
    · exact ⟨_, by rw [Fl.fin_sub_fin, Fl.fin_mul_fin, Fl.fin_mul_fin]⟩
    · exact ⟨_, by rw [Fl.fin_sub_fin, Fl.fin_mul_fin, Fl.fin_mul_fin]⟩

/-- C38: within (-2 pi, 2 pi) the value is a finite number. -/
theorem clausen_finite {x : ℝ} (h : |x| < 2 * cPI) : ∃ v, clausenK (.fin x) = .fin v := by
  have key : ∀ y : ℝ, 0 ≤ y → y < 2 * cPI → ∃ v, clausenK (.fin y) = .fin v := by
    intro y h0 h1
    unfold clausenK
    simp only
    rw [if_neg (not_lt.mpr h0), angleRestrict_lt h0 h1]
    unfold clausenTail
    rw [gt_iff_lt, Fl.fin_lt_fin]
    split_ifs with hp
    · rw [Fl.fin_sub_fin, Fl.fin_add_fin]
      refine clausenCore_fin ?_ _
      unfold cPI at h1
      norm_num at h1 ⊢
      linarith
    · exact clausenCore_fin h0 _
  rcases le_total 0 x with h0 | h0
  · exact key x h0 (by rwa [abs_of_nonneg h0] at h)
  · obtain ⟨v, hv⟩ := key (-x) (by linarith) (by rwa [abs_of_nonpos h0] at h)
    have := clausen_odd (.fin (-x))
    rw [Fl.neg_fin, neg_neg, hv] at this
    exact ⟨-v, by rw [this, Fl.neg_fin]⟩

example := clausen_finite (x := -6) (by unfold cPI; norm_num [abs_of_pos])

/-- C38 is violated: from 2 pi on (and up to -2 pi) the function returns NaN, so it is nowhere
periodic. The range reduction subtracts four times the number of periods it should. -/
theorem clausen_nan {x : ℝ} (h : 2 * cPI ≤ |x|) : clausenK (.fin x) = .nan := by
  have hP := cPI_pos
  have key : ∀ y : ℝ, 2 * cPI ≤ y → clausenK (.fin y) = .nan := by
    intro y hy
    unfold clausenK
    simp only
    rw [if_neg (by linarith)]
    rcases angleRestrict_ge hy with e | ⟨r, hr, e, -⟩
    · rw [e]
      unfold clausenTail
      rw [if_neg (by intro h; exact h)]
      rfl
    · rw [e]
      unfold clausenTail
      rw [if_neg (by rw [gt_iff_lt, Fl.fin_lt_fin]; linarith)]
      simp only [clausenCore]
      have hE : 0 < cPI * cEPS := by
        refine mul_pos hP ?_
        unfold cEPS
        norm_num
      rw [if_neg hr.ne, if_pos (by linarith), Fl.log_neg hr]
      rfl
  rcases le_total 0 x with h0 | h0
  · exact key x (by rwa [abs_of_nonneg h0] at h)
  · have := clausen_odd (.fin (-x))
    rw [Fl.neg_fin, neg_neg, key (-x) (by rwa [abs_of_nonpos h0] at h)] at this
    rw [this]
    rfl

example := clausen_nan (x := -7) (by unfold cPI; norm_num [abs_of_pos])

/-- C38, the violation in the form of the claim: for every x in [0, 2 pi) the value at x is finite and
the value at x + 2 pi is NaN. -/
theorem clausen_period_fails {x : ℝ} (h0 : 0 ≤ x) (h1 : x < 2 * cPI) :
    (∃ v, clausenK (.fin x) = .fin v) ∧ clausenK (.fin (x + 2 * cPI)) = .nan := by
  have hP := cPI_pos
  exact ⟨clausen_finite (by rwa [abs_of_nonneg h0]), clausen_nan (by
    rw [abs_of_nonneg (by linarith)]
    linarith)⟩

example := clausen_period_fails (x := 1) (by norm_num) (by unfold cPI; norm_num)

/-- The code's value of 2 pi in the reflection; it exceeds `2 * cPI` by about 1e-23. -/
noncomputable def cTwoPi : ℝ := 6.28125 + 1.9353071795864769253e-03

/-- C38, the part that holds: within one period the function is antisymmetric about pi, as an odd
function with period 2 pi is. -/
theorem clausen_reflect_partial {x : ℝ} (h : cTwoPi - cPI ≤ x) (h1 : x < 2 * cPI) :
    clausenK (.fin x) = -clausenK (.fin (cTwoPi - x)) := by
  have hP := cPI_pos
  have h0 : cPI < x := lt_of_lt_of_le (by unfold cTwoPi cPI; norm_num) h
  have hx0 : 0 < x := by linarith
  have hy : clausenK (.fin x) = clausenCore (.fin (cTwoPi - x)) (-1) := by
    unfold clausenK
    simp only
    rw [if_neg (by linarith), angleRestrict_lt hx0.le h1]
    unfold clausenTail
    rw [if_pos (by rw [gt_iff_lt, Fl.fin_lt_fin]; exact h0), Fl.fin_sub_fin, Fl.fin_add_fin]
    congr 2
    unfold cTwoPi
    ring
  have hz : 0 ≤ cTwoPi - x := by
    unfold cTwoPi
    unfold cPI at h1
    norm_num at h1 ⊢
    linarith
  have hw : clausenK (.fin (cTwoPi - x)) = clausenCore (.fin (cTwoPi - x)) 1 := by
    unfold clausenK
    simp only
    rw [if_neg (by linarith), angleRestrict_lt hz (by linarith)]
    unfold clausenTail
    rw [if_neg (by rw [gt_iff_lt, Fl.fin_lt_fin]; linarith)]
  rw [hy, hw, clausenCore_neg]

example := clausen_reflect_partial (x := 6) (by unfold cTwoPi cPI; norm_num) (by unfold cPI; norm_num)

/-- C37 is violated: `debye_1` of a contiguous array of 64-bit floats with two zeros overwrites the
array with ones. -/
theorem debye1_overwrites {loop : ∀ {n}, (Fin n → Fl) → Fin n → Fl}
    (hl : ∀ {n} (x : Fin n → Fl), LoopRun debye1K x (loop x)) :
    (specCall debye1K loop ⟨[2], [.fin 0, .fin 0], true, true⟩).2 = [.fin 1, .fin 1] := by
  have h := ((specCall_spec debye1K hl ⟨[2], [.fin 0, .fin 0], true, true⟩).2 (by simp)).2.1
    ⟨rfl, rfl⟩
  rw [h]
  have : debye1K (.fin 0) = .fin 1 := by
    unfold debye1K
    simp only
    rw [if_neg (lt_irrefl _), if_pos (by unfold cSQRTEPS; norm_num)]
    norm_num
  simp [this]

example := debye1_overwrites (loop := mapDblS debye1K .nan) (fun _ => LoopRun.serial _)

end Copulae
