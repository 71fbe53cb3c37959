import Verif.Lemmas.Gmc
import Verif.Model.GmcEm

/-!
C48, C49: the steps of expectation maximisation, and what the algorithm returns.
-/

namespace Copulae

open Matrix
open scoped ComplexOrder

/-! ### The expectation step -/

/-- Possible values of a density: a non-negative number, infinity, or NaN. -/
def DensityVal (x : Fl) : Prop := x = .nan ∨ x = .pinf ∨ ∃ r : ℝ, 0 ≤ r ∧ x = .fin r

theorem fl_sum_div_nan {m : ℕ} (k : Fin m → Fl) (c : Fin m) (h : k c = .nan) (c' : Fin m) :
    k c' / ∑ i, k i = .nan := by
  rw [Fl.sum_nan _ _ ⟨c, Finset.mem_univ _, h⟩]
  cases k c' <;> rfl

/-- **C48.** Every row of the matrix computed by `e_step` is either zero or a probability vector; it is the
posterior distribution of the components whenever the densities are finite and not all zero. -/
theorem eStep_rows {n m : ℕ} (p : Fin m → ℝ) (h0 : ∀ c, 0 ≤ p c) (dens : Fin n → Fin m → Fl)
    (hd : ∀ i c, DensityVal (dens i c)) (i : Fin n) :
    (∀ c, eStep (fun c => .fin (p c)) dens i c = .fin 0) ∨
    ∃ f : Fin m → ℝ, (∀ c, dens i c = .fin (f c)) ∧ 0 < ∑ c, p c * f c ∧
      (∀ c, eStep (fun c => .fin (p c)) dens i c = .fin (p c * f c / ∑ c', p c' * f c')) ∧
      (∀ c, p c * f c / ∑ c', p c' * f c' ∈ Set.Icc (0 : ℝ) 1) ∧
      ∑ c, p c * f c / (∑ c', p c' * f c') = 1 := by
  by_cases hfin : ∃ f : Fin m → ℝ, ∀ c, 0 ≤ f c ∧ dens i c = .fin (f c)
  · obtain ⟨f, hf⟩ := hfin
    have hk : ∀ c, Fl.fin (p c) * dens i c = .fin (p c * f c) := fun c => by rw [(hf c).2, Fl.fin_mul_fin]
    have hnn : ∀ c, 0 ≤ p c * f c := fun c => mul_nonneg (h0 c) (hf c).1
    rcases (Finset.sum_nonneg fun c (_ : c ∈ Finset.univ) => hnn c).eq_or_lt with hz | hpos
    · left
      intro c
      have hz' : ∑ c', p c' * f c' = 0 := hz.symm
      have hc : p c * f c = 0 := (Finset.sum_eq_zero_iff_of_nonneg fun c _ => hnn c).mp hz' c (Finset.mem_univ _)
      simp only [eStep, hk, Fl.sum_fin, hz', hc]
      have hi : Fl.infSign 0 = .nan := by simp [Fl.infSign]
      rw [Fl.fin_div_fin, if_pos rfl, hi]
      rfl
    · right
      refine ⟨f, fun c => (hf c).2, hpos, fun c => ?_, fun c => ⟨div_nonneg (hnn c) hpos.le, ?_⟩, ?_⟩
      · simp only [eStep, hk, Fl.sum_fin]
        rw [Fl.fin_div_fin' _ hpos.ne']
        rfl
      · rw [div_le_one hpos]
        exact Finset.single_le_sum (fun c _ => hnn c) (Finset.mem_univ c)
      · rw [← Finset.sum_div, div_self hpos.ne']
  · left
    intro c
    obtain ⟨c1, hc1⟩ : ∃ c1, dens i c1 = .nan ∨ dens i c1 = .pinf := by
      by_contra hcon
      push Not at hcon
      apply hfin
      have : ∀ c, ∃ r : ℝ, 0 ≤ r ∧ dens i c = .fin r := fun c => by
        rcases hd i c with h | h | h
        · exact absurd h (hcon c).1
        · exact absurd h (hcon c).2
        · exact h
      choose f hf using this
      exact ⟨f, hf⟩
    simp only [eStep]
    set k : Fin m → Fl := fun c => Fl.fin (p c) * dens i c with hkdef
    have hkv : ∀ c, DensityVal (k c) := by
      intro c
      rcases hd i c with h | h | ⟨r, hr, h⟩
      · left; simp only [hkdef, h]; rfl
      · simp only [hkdef, h, Fl.fin_mul_pinf]
        rcases (h0 c).eq_or_lt with hz | hz
        · left; rw [← hz]; simp [Fl.infSign]
        · right; left; exact Fl.infSign_pos hz
      · right; right
        exact ⟨p c * r, mul_nonneg (h0 c) hr, by simp only [hkdef, h, Fl.fin_mul_fin]⟩
    by_cases hnan : ∃ c2, k c2 = .nan
    · obtain ⟨c2, hc2⟩ := hnan
      change nanToZero (k c / ∑ c', k c') = _
      rw [fl_sum_div_nan k c2 hc2 c]
      rfl
    · push Not at hnan
      have hk1 : k c1 = .pinf := by
        rcases hc1 with h | h
        · exact absurd (by simp only [hkdef, h]; rfl) (hnan c1)
        · have := hnan c1
          simp only [hkdef, h, Fl.fin_mul_pinf] at this ⊢
          rcases (h0 c1).eq_or_lt with hz | hz
          · exact absurd (by rw [← hz]; simp [Fl.infSign]) this
          · exact Fl.infSign_pos hz
      have hsum : ∑ c', k c' = .pinf := by
        refine Fl.sum_pinf _ _ (fun c _ => ⟨hnan c, ?_⟩) ⟨c1, Finset.mem_univ _, hk1⟩
        rcases hkv c with h | h | ⟨r, _, h⟩ <;> rw [h] <;> exact Fl.noConfusion
      change nanToZero (k c / ∑ c', k c') = _
      rw [hsum]
      rcases hkv c with h | h | ⟨r, _, h⟩
      · exact absurd h (hnan c)
      · rw [h]; rfl
      · rw [h]; rfl

example := eStep_rows (n := 2) (m := 2) ![1 / 4, 3 / 4] (by intro c; fin_cases c <;> norm_num) (fun i c => if i = 0 then .nan else .fin c.val)
  (by
    intro i c
    split_ifs
    · exact .inl rfl
    · exact .inr (.inr ⟨_, by positivity, rfl⟩)) 1

/-! ### The maximisation step -/

section mstep
variable {n m d : ℕ} (q : Fin n → Fin d → ℝ) (w : Fin n → Fin m → ℝ)

/-- Weight of row `i` in component `c`. -/
noncomputable def relWt (i : Fin n) (c : Fin m) : ℝ := w i c / ∑ i', w i' c

/-- Weighted mean of the rows. -/
noncomputable def wMean (c : Fin m) (j : Fin d) : ℝ := ∑ i, relWt w i c * q i j

/-- Weighted covariance matrix of the rows. -/
noncomputable def wCov (c : Fin m) : Matrix (Fin d) (Fin d) ℝ :=
  fun a b => ∑ i, relWt w i c * (q i a - wMean q w c a) * (q i b - wMean q w c b)

theorem relWt_nonneg (h0 : ∀ i c, 0 ≤ w i c) (i : Fin n) (c : Fin m) : 0 ≤ relWt w i c :=
  div_nonneg (h0 i c) (Finset.sum_nonneg fun i' _ => h0 i' c)

theorem relWt_sum (c : Fin m) (h : 0 < ∑ i, w i c) : ∑ i, relWt w i c = 1 := by
  unfold relWt
  rw [← Finset.sum_div, div_self h.ne']

theorem wCov_posSemidef (h0 : ∀ i c, 0 ≤ w i c) (c : Fin m) : (wCov q w c).PosSemidef := by
  have h : wCov q w c = ∑ i, relWt w i c • vecMulVec (fun a => q i a - wMean q w c a)
      (star fun a => q i a - wMean q w c a) := by
    ext a b
    rw [Matrix.sum_apply]
    refine Finset.sum_congr rfl fun i _ => ?_
    simp only [Matrix.smul_apply, vecMulVec_apply, smul_eq_mul, star_trivial]
    ring
  rw [h]
  exact Matrix.posSemidef_sum _ fun i _ => (posSemidef_vecMulVec_self_star _).smul (relWt_nonneg w h0 i c)

theorem mWt_fin (hpos : ∀ c, 0 < ∑ i, w i c) (i : Fin n) (c : Fin m) :
    mWt (fun i c => .fin (w i c)) i c = .fin (relWt w i c) := by
  simp only [mWt, Fl.sum_fin]
  rw [Fl.fin_div_fin' _ (hpos c).ne']
  rfl

theorem mCov_fin (h0 : ∀ i c, 0 ≤ w i c) (hpos : ∀ c, 0 < ∑ i, w i c) (c : Fin m) :
    mCov (fun i j => .fin (q i j)) (fun i c => .fin (w i c)) c = flMat (wCov q w c) := by
  have hwx : ∀ i j, mWx (fun i j => .fin (q i j)) (fun i c => .fin (w i c)) c i j =
      .fin (√(relWt w i c) * (q i j - wMean q w c j)) := by
    intro i j
    have hm : ∑ i', Fl.fin (q i' j) * mWt (fun i c => .fin (w i c)) i' c = .fin (wMean q w c j) := by
      simp only [mWt_fin w hpos, Fl.fin_mul_fin, Fl.sum_fin, wMean]
      congr 1
      exact Finset.sum_congr rfl fun i _ => mul_comm _ _
    rw [mWx, hm, mWt_fin w hpos, Fl.sqrt, if_neg (not_lt.mpr (relWt_nonneg w h0 i c)), Fl.fin_sub_fin, Fl.fin_mul_fin]
  funext a b
  simp only [mCov, hwx, Fl.fin_mul_fin, Fl.sum_fin, flMat, wCov]
  congr 1
  refine Finset.sum_congr rfl fun i _ => ?_
  have := Real.mul_self_sqrt (relWt_nonneg w h0 i c)
  linear_combination (q i a - wMean q w c a) * (q i b - wMean q w c b) * this

/-- **C48.** For real data and non-negative responsibilities with every component responsible for something,
`m_step` succeeds, whatever `cov_nearest` does: the probabilities are the shares of the total responsibility,
non-negative with sum one; the means and covariances are the weighted ones; the covariances are symmetric and
positive semi-definite. -/
theorem mStep_valid (ext : CovNearest) (hm : 1 ≤ m) (h0 : ∀ i c, 0 ≤ w i c) (hpos : ∀ c, 0 < ∑ i, w i c) :
    mStep ext (fun i j => .fin (q i j)) (fun i c => .fin (w i c)) =
      .ok (flParam (fun c => (∑ i, w i c) / ∑ c', ∑ i, w i c') (wMean q w) (wCov q w)) ∧
    (∀ c, 0 < (∑ i, w i c) / ∑ c', ∑ i, w i c') ∧ ∑ c, (∑ i, w i c) / (∑ c', ∑ i, w i c') = 1 ∧
    ∀ c, (wCov q w c).PosSemidef := by
  have htot : 0 < ∑ c', ∑ i, w i c' := Finset.sum_pos (fun c _ => hpos c) ⟨⟨0, hm⟩, Finset.mem_univ _⟩
  have hp : ∀ c, 0 < (∑ i, w i c) / ∑ c', ∑ i, w i c' := fun c => div_pos (hpos c) htot
  have hs : ∑ c, (∑ i, w i c) / (∑ c', ∑ i, w i c') = 1 := by rw [← Finset.sum_div, div_self htot.ne']
  refine ⟨?_, hp, hs, wCov_posSemidef q w h0⟩
  refine mk'_ok ext _ (fun c => (hp c).le) (fun c => ?_) (by rw [hs]; norm_num) _ _ (wCov_posSemidef q w h0) _ ?_ _ ?_
    _ ?_
  · rw [div_le_one htot]
    exact Finset.single_le_sum (fun c _ => (hpos c).le) (Finset.mem_univ c)
  · congr 1
    funext c
    simp only [mProb, Fl.sum_fin]
    rw [Fl.fin_div_fin' _ (by rw [Finset.sum_comm]; exact htot.ne'), Finset.sum_comm (f := fun i c => w i c)]
  · intro c j
    rw [dif_pos ⟨c.2, j.2⟩]
    simp only [mMean, Fl.fin_mul_fin, Fl.sum_fin]
    rw [Fl.fin_div_fin' _ (hpos c).ne', Finset.sum_div]
    congr 1
    refine Finset.sum_congr rfl fun i _ => ?_
    rw [relWt]
    ring
  · intro c a b
    rw [dif_pos ⟨c.2, a.2, b.2⟩]
    have := congrFun (congrFun (mCov_fin q w h0 hpos c) a) b
    exact this

example (ext : CovNearest) := mStep_valid (n := 2) (m := 2) (d := 2) (fun i j => i.val + j.val) (fun i c => if i = c then 3 / 4 else 1 / 4)
  ext (by norm_num) (by intro i c; split_ifs <;> norm_num) (by intro c; fin_cases c <;> norm_num [Fin.sum_univ_two])

end mstep

end Copulae
