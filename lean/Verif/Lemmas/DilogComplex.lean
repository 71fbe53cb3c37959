import Mathlib.Analysis.Complex.ExponentialBounds
import Mathlib.Analysis.SpecificLimits.Normed
import Verif.Lemmas.Li2
import Verif.Model.DilogComplex

/-!
The loops and the expansions of the complex dilogarithm.
-/

namespace Copulae

open Complex Set

/-! ### The loops -/

open Classical in
/-- The common form of the two loops. -/
noncomputable def rotLoop (den : ℕ → ℝ) (r alpha beta : ℝ) : ℕ → ℕ → ℝ → ℝ → ℝ → ℝ → ℝ → ℝ × ℝ
  | 0, _, _, _, _, real, imag => (real, imag)
  | fuel + 1, k, ck, sk, rk, real, imag =>
    let ck' := ck - (alpha * ck + beta * sk)
    let sk' := sk - (alpha * sk - beta * ck)
    let rk := rk * r
    let dr := rk / den k * ck'
    let di := rk / den k * sk'
    let real := real + dr
    let imag := imag + di
    if real ^ 2 + imag ^ 2 ≠ 0 ∧ |(dr ^ 2 + di ^ 2) / (real ^ 2 + imag ^ 2)| < cEPS ^ 2 then (real, imag)
    else rotLoop den r alpha beta fuel (k + 1) ck' sk' rk real imag

theorem dilogcLoop1_eq (r alpha beta : ℝ) (fuel k : ℕ) (ck sk rk real imag : ℝ) :
    dilogcLoop1 r alpha beta fuel k ck sk rk real imag =
      rotLoop (fun k => (k : ℝ) * k) r alpha beta fuel k ck sk rk real imag := by
  induction fuel generalizing k ck sk rk real imag with
  | zero => rfl
  | succ fuel ih => simp only [dilogcLoop1, rotLoop, ih, sq]

theorem dilogcLoop2_eq (r alpha beta : ℝ) (fuel k : ℕ) (ck sk rk real imag : ℝ) :
    dilogcLoop2 r alpha beta fuel k ck sk rk real imag =
      rotLoop (fun k => (k : ℝ) * k * (k + 1)) r alpha beta fuel k ck sk rk real imag := by
  induction fuel generalizing k ck sk rk real imag with
  | zero => rfl
  | succ fuel ih => simp only [dilogcLoop2, rotLoop, ih]

/-- The partial sums of a series with denominators. -/
noncomputable def rotSum (den : ℕ → ℝ) (z : ℂ) (n : ℕ) : ℂ := ∑ j ∈ Finset.range n, z ^ (j + 1) / (den (j + 1) : ℂ)

theorem rotSum_succ (den : ℕ → ℝ) (z : ℂ) (n : ℕ) :
    rotSum den z (n + 1) = rotSum den z n + z ^ (n + 1) / (den (n + 1) : ℂ) := Finset.sum_range_succ _ _

theorem rotLoop_spec {den : ℕ → ℝ} {r c s : ℝ} (fuel k : ℕ) {ck sk rk real imag : ℝ}
    (hu : (⟨ck, sk⟩ : ℂ) = (⟨c, s⟩ : ℂ) ^ k) (hr : rk = r ^ k)
    (hs : (⟨real, imag⟩ : ℂ) = rotSum den (r * ⟨c, s⟩) k) :
    ∃ n, k ≤ n ∧
      (⟨(rotLoop den r (1 - c) s fuel (k + 1) ck sk rk real imag).1,
        (rotLoop den r (1 - c) s fuel (k + 1) ck sk rk real imag).2⟩ : ℂ) = rotSum den (r * ⟨c, s⟩) n ∧
      (n = k + fuel ∨ (1 ≤ n ∧ ‖(r * ⟨c, s⟩ : ℂ) ^ n / (den n : ℂ)‖ ≤ cEPS * ‖rotSum den (r * ⟨c, s⟩) n‖)) := by
  induction fuel generalizing k ck sk rk real imag with
  | zero => exact ⟨k, le_rfl, hs, Or.inl rfl⟩
  | succ fuel ih =>
    have hu' : (⟨ck - ((1 - c) * ck + s * sk), sk - ((1 - c) * sk - s * ck)⟩ : ℂ) = (⟨c, s⟩ : ℂ) ^ (k + 1) := by
      rw [pow_succ, ← hu]
      apply Complex.ext <;> simp only [mul_re, mul_im] <;> ring
    have hr' : rk * r = r ^ (k + 1) := by rw [hr, pow_succ]
    set ck' := ck - ((1 - c) * ck + s * sk)
    set sk' := sk - ((1 - c) * sk - s * ck)
    have ht : (⟨rk * r / den (k + 1) * ck', rk * r / den (k + 1) * sk'⟩ : ℂ) =
        (r * ⟨c, s⟩ : ℂ) ^ (k + 1) / (den (k + 1) : ℂ) := by
      rw [mul_pow, ← hu', hr', ← ofReal_pow, mul_div_right_comm, ← ofReal_div]
      apply Complex.ext
      · rw [re_ofReal_mul]
      · rw [im_ofReal_mul]
    have hs' : (⟨real + rk * r / den (k + 1) * ck', imag + rk * r / den (k + 1) * sk'⟩ : ℂ) =
        rotSum den (r * ⟨c, s⟩) (k + 1) := by
      rw [rotSum_succ, ← ht, ← hs]
      apply Complex.ext <;> simp
    simp only [rotLoop]
    split_ifs with hb
    · refine ⟨k + 1, by omega, hs', Or.inr ⟨by omega, ?_⟩⟩
      rw [← ht, ← hs']
      obtain ⟨hb0, hb1⟩ := hb
      have hpos : 0 < (real + rk * r / den (k + 1) * ck') ^ 2 + (imag + rk * r / den (k + 1) * sk') ^ 2 :=
        lt_of_le_of_ne (by positivity) (Ne.symm hb0)
      rw [abs_of_nonneg (by positivity), div_lt_iff₀ hpos] at hb1
      have he : 0 ≤ cEPS := by unfold cEPS; norm_num
      rw [← pow_le_pow_iff_left₀ (norm_nonneg _) (by positivity) two_ne_zero, mul_pow, ← normSq_eq_norm_sq,
        ← normSq_eq_norm_sq, normSq_mk, normSq_mk]
      nlinarith [hb1]
    · obtain ⟨n, h1, h2, h3⟩ := ih (k + 1) hu' hr' hs'
      exact ⟨n, by omega, h2, h3.imp (fun h => by omega) id⟩

/-- What is left out after `n` terms. -/
theorem rot_tail {den : ℕ → ℝ} {z T : ℂ} (hT : HasSum (fun j => z ^ (j + 1) / (den (j + 1) : ℂ)) T) (hz : ‖z‖ < 1)
    (hp : ∀ k, 1 ≤ k → 0 < den k) (hm : Monotone den) (n : ℕ) :
    ‖rotSum den z n - T‖ ≤ ‖z‖ ^ (n + 1) / den (n + 1) / (1 - ‖z‖) := by
  have h1 : HasSum (fun j => z ^ (j + n + 1) / (den (j + n + 1) : ℂ)) (T - rotSum den z n) :=
    (hasSum_nat_add_iff' (f := fun j => z ^ (j + 1) / (den (j + 1) : ℂ)) n).mpr hT
  have h2 := norm_sub_le_of_geometric_bound_of_hasSum (r := ‖z‖) (C := ‖z‖ ^ (n + 1) / den (n + 1)) hz
    (fun j => ?_) h1 0
  · simpa [norm_sub_rev] using h2
  · have d1 : 0 < den (n + 1) := hp _ (by omega)
    have d2 : den (n + 1) ≤ den (j + n + 1) := hm (by omega)
    rw [norm_div, norm_pow, norm_real, Real.norm_eq_abs, abs_of_pos (d1.trans_le d2), div_mul_eq_mul_div, ← pow_add,
      show n + 1 + j = j + n + 1 by ring]
    gcongr

/-- What is left out when the loop ends at a small term. -/
theorem rot_tail_break {den : ℕ → ℝ} {z T : ℂ} (hT : HasSum (fun j => z ^ (j + 1) / (den (j + 1) : ℂ)) T)
    (hz : ‖z‖ < 1) (hp : ∀ k, 1 ≤ k → 0 < den k) (hm : Monotone den) {n : ℕ} (hn : 1 ≤ n) {B : ℝ}
    (hb : ‖z ^ n / (den n : ℂ)‖ ≤ cEPS * ‖rotSum den z n‖) (hB : ‖rotSum den z n‖ ≤ B) :
    ‖rotSum den z n - T‖ ≤ cEPS * B * (‖z‖ / (1 - ‖z‖)) := by
  refine (rot_tail hT hz hp hm n).trans ?_
  have d1 : 0 < den n := hp n hn
  have d2 : den n ≤ den (n + 1) := hm (by omega)
  have h1 : 0 < 1 - ‖z‖ := by linarith
  rw [norm_div, norm_pow, norm_real, Real.norm_eq_abs, abs_of_pos d1] at hb
  have he : 0 ≤ cEPS := by unfold cEPS; norm_num
  rw [mul_div_assoc']
  gcongr
  calc ‖z‖ ^ (n + 1) / den (n + 1) ≤ ‖z‖ ^ (n + 1) / den n := by gcongr
    _ = ‖z‖ ^ n / den n * ‖z‖ := by rw [pow_succ]; ring
    _ ≤ cEPS * B * ‖z‖ := by
      gcongr
      exact hb.trans (by gcongr)

theorem hasSum_li2_succ {z : ℂ} (h : ‖z‖ ≤ 1) :
    HasSum (fun j : ℕ => z ^ (j + 1) / ((((j + 1 : ℕ) : ℝ) * ((j + 1 : ℕ) : ℝ) : ℝ) : ℂ)) (Spec.li2 z) := by
  have h1 := (hasSum_nat_add_iff' (f := fun n : ℕ => z ^ n / (n : ℂ) ^ 2) 1).mpr (hasSum_li2 h)
  simp only [Finset.range_one, Finset.sum_singleton, Nat.cast_zero] at h1
  rw [pow_zero, zero_pow two_ne_zero, div_zero, sub_zero] at h1
  refine h1.congr_fun fun j => ?_
  push_cast
  ring

theorem den1_pos (k : ℕ) (h : 1 ≤ k) : 0 < (k : ℝ) * k := by
  have : (0 : ℝ) < k := by exact_mod_cast h
  positivity

theorem den1_mono : Monotone fun k : ℕ => (k : ℝ) * k := fun a b h => by
  have : (a : ℝ) ≤ b := by exact_mod_cast h
  simp only
  gcongr

theorem den2_pos (k : ℕ) (h : 1 ≤ k) : 0 < (k : ℝ) * k * (k + 1) := by
  have : (0 : ℝ) < k := by exact_mod_cast h
  positivity

theorem den2_mono : Monotone fun k : ℕ => (k : ℝ) * k * (k + 1) := fun a b h => by
  have : (a : ℝ) ≤ b := by exact_mod_cast h
  simp only
  gcongr

/-- The partial sums of both series are at most one for moduli up to one half, those of the second one for all. -/
theorem rotSum2_le {z : ℂ} (h : ‖z‖ ≤ 1) (n : ℕ) : ‖rotSum (fun k => (k : ℝ) * k * (k + 1)) z n‖ ≤ 1 := by
  have h1 : ‖rotSum (fun k => (k : ℝ) * k * (k + 1)) z n‖ ≤ 1 - 1 / (n + 1) := by
    induction n with
    | zero => simp [rotSum]
    | succ n ih =>
      rw [rotSum_succ]
      refine (norm_add_le _ _).trans ((add_le_add_left ih _).trans ?_)
      rw [norm_div, norm_pow, norm_real, Real.norm_eq_abs, abs_of_pos (den2_pos _ (by omega))]
      have h2 : ‖z‖ ^ (n + 1) ≤ 1 := pow_le_one₀ (norm_nonneg _) h
      have h3 : ‖z‖ ^ (n + 1) / (((n + 1 : ℕ) : ℝ) * ((n + 1 : ℕ) : ℝ) * (((n + 1 : ℕ) : ℝ) + 1)) ≤
          1 / ((((n : ℝ) + 1)) * ((n : ℝ) + 1 + 1)) := by
        push_cast
        have hn : (0 : ℝ) ≤ n := by positivity
        gcongr
        nlinarith
      have h4 : 1 - 1 / ((n : ℝ) + 1) + 1 / (((n : ℝ) + 1) * ((n : ℝ) + 1 + 1)) = 1 - 1 / (((n + 1 : ℕ) : ℝ) + 1) := by
        push_cast
        field_simp
        ring
      linarith
  refine h1.trans ?_
  have : 0 ≤ 1 / ((n : ℝ) + 1) := by positivity
  linarith

theorem rotSum1_le {z : ℂ} (h : ‖z‖ ≤ 1 / 4) (n : ℕ) : ‖rotSum (fun k => (k : ℝ) * k) z n‖ ≤ 1 := by
  have h1 : ‖rotSum (fun k => (k : ℝ) * k) z n‖ ≤ ∑ j ∈ Finset.range n, (1 / 2 : ℝ) ^ (j + 1) := by
    refine (norm_sum_le _ _).trans (Finset.sum_le_sum fun j _ => ?_)
    rw [norm_div, norm_pow, norm_real, Real.norm_eq_abs, abs_of_pos (den1_pos _ (by omega))]
    have h2 : (1 : ℝ) ≤ ((j + 1 : ℕ) : ℝ) * ((j + 1 : ℕ) : ℝ) := by
      push_cast
      have hn : (0 : ℝ) ≤ j := by positivity
      nlinarith
    calc _ ≤ ‖z‖ ^ (j + 1) / 1 := by gcongr
      _ = ‖z‖ ^ (j + 1) := div_one _
      _ ≤ (1 / 2) ^ (j + 1) := by gcongr; linarith
  refine h1.trans ?_
  simp only [pow_succ]
  rw [← Finset.sum_mul, geom_sum_eq (by norm_num)]
  have : (0 : ℝ) ≤ (1 / 2) ^ n := by positivity
  have e : (((1 / 2 : ℝ)) ^ n - 1) / (1 / 2 - 1) * (1 / 2) = 1 - (1 / 2) ^ n := by
    generalize ((1 / 2 : ℝ)) ^ n = q
    ring
  linarith

/-- The polar form of a point, as the loops start from it. -/
theorem polar_pair {r x y : ℝ} (hr : r ≠ 0) : (r * ⟨x / r, y / r⟩ : ℂ) = ⟨x, y⟩ := by
  apply Complex.ext
  · simp
    field_simp
  · simp
    field_simp

theorem norm_pair {r x y : ℝ} (hr : 0 ≤ r) (h : r ^ 2 = x ^ 2 + y ^ 2) : ‖(⟨x, y⟩ : ℂ)‖ = r := by
  rw [← pow_left_inj₀ (norm_nonneg _) hr two_ne_zero, ← normSq_eq_norm_sq, normSq_mk, h]
  ring

theorem dilogcSeries1_close {r x y : ℝ} (h0 : 0 < r) (h1 : r ≤ 1 / 4) (h : r ^ 2 = x ^ 2 + y ^ 2) :
    ‖(⟨(dilogcSeries1 r x y).1, (dilogcSeries1 r x y).2⟩ : ℂ) - Spec.li2 ⟨x, y⟩‖ ≤ 1 / 10 ^ 14 := by
  have hz := norm_pair h0.le h
  have hz4 : ‖(⟨x, y⟩ : ℂ)‖ ≤ 1 / 4 := by rw [hz]; exact h1
  have hT := hasSum_li2_succ (z := ⟨x, y⟩) (by linarith)
  unfold dilogcSeries1
  simp only [dilogcLoop1_eq]
  obtain ⟨n, hn, he, hc⟩ := rotLoop_spec (den := fun k => (k : ℝ) * k) (r := r) (c := x / r) (s := y / r)
    (50 + ⌊-22 / Real.log r⌋₊ - 2) 1 (ck := x / r) (sk := y / r) (rk := r) (real := r * (x / r))
    (imag := r * (y / r)) (by simp) (by simp) (by
      simp only [rotSum, Finset.range_one, Finset.sum_singleton]
      apply Complex.ext <;> simp)
  rw [polar_pair h0.ne'] at he hc
  rw [he]
  rcases hc with hc | ⟨hn1, hc⟩
  · refine (rot_tail (den := fun k => (k : ℝ) * k) hT (by linarith) den1_pos den1_mono n).trans ?_
    have hn49 : 30 ≤ n := by omega
    have d1 : (1 : ℝ) ≤ ((n + 1 : ℕ) : ℝ) * ((n + 1 : ℕ) : ℝ) := by
      push_cast
      have hn : (0 : ℝ) ≤ n := by positivity
      nlinarith
    have hb : ‖(⟨x, y⟩ : ℂ)‖ ^ (n + 1) ≤ (1 / 4) ^ 31 := by
      calc _ ≤ (1 / 4 : ℝ) ^ (n + 1) := by gcongr
        _ ≤ (1 / 4) ^ 31 := pow_le_pow_of_le_one (by norm_num) (by norm_num) (by omega)
    calc _ ≤ (1 / 4 : ℝ) ^ 31 / 1 / (1 - 1 / 4) := by gcongr
      _ ≤ _ := by norm_num
  · refine (rot_tail_break (den := fun k => (k : ℝ) * k) hT (by linarith) den1_pos den1_mono hn1 hc
      (rotSum1_le hz4 n)).trans ?_
    have : ‖(⟨x, y⟩ : ℂ)‖ / (1 - ‖(⟨x, y⟩ : ℂ)‖) ≤ 1 := by
      rw [div_le_one (by linarith)]
      linarith
    have he0 : 0 ≤ cEPS := by unfold cEPS; norm_num
    calc _ ≤ cEPS * 1 * 1 := by gcongr
      _ ≤ _ := by unfold cEPS; norm_num

/-! ### The second series -/

/-- The second series is the first one accelerated. -/
theorem hasSum_li2_second {z : ℂ} (h0 : z ≠ 0) (h : ‖z‖ < 1) :
    HasSum (fun j : ℕ => z ^ (j + 1) /
      ((((j + 1 : ℕ) : ℝ) * ((j + 1 : ℕ) : ℝ) * (((j + 1 : ℕ) : ℝ) + 1) : ℝ) : ℂ))
      (Spec.li2 z - 1 - (1 - z) * Complex.log (1 - z) / z) := by
  have h1 := hasSum_li2_succ h.le
  have hl := hasSum_taylorSeries_neg_log h
  have h2 := (hasSum_nat_add_iff' (f := fun n : ℕ => z ^ n / (n : ℂ)) 1).mpr hl
  have h3 := ((hasSum_nat_add_iff' (f := fun n : ℕ => z ^ n / (n : ℂ)) 2).mpr hl).div_const z
  simp only [Finset.sum_range_succ, Finset.range_zero, Finset.sum_empty, Nat.cast_zero, div_zero, pow_one,
    Nat.cast_one, div_one, zero_add, sub_zero] at h2 h3
  have h4 := (h1.sub h2).add h3
  have e : Spec.li2 z - -Complex.log (1 - z) + (-Complex.log (1 - z) - z) / z =
      Spec.li2 z - 1 - (1 - z) * Complex.log (1 - z) / z := by
    field_simp
    ring
  rw [e] at h4
  refine h4.congr_fun fun j => ?_
  push_cast
  have n1 : (j : ℂ) + 1 ≠ 0 := by exact_mod_cast (Nat.succ_ne_zero j)
  have n2 : (j : ℂ) + 1 + 1 ≠ 0 := by exact_mod_cast (Nat.succ_ne_zero (j + 1))
  have n3 : (j : ℂ) + 2 ≠ 0 := by exact_mod_cast (Nat.succ_ne_zero (j + 1))
  field_simp
  ring

theorem complexLog_eq {zr zi : ℝ} (h : zr ≠ 0 ∨ zi ≠ 0) :
    (⟨(complexLog zr zi).1, (complexLog zr zi).2⟩ : ℂ) = Complex.log ⟨zr, zi⟩ := by
  apply Complex.ext
  · rw [log_re]
    simp only [complexLog]
    have hm : 0 < max |zr| |zi| := by
      rcases h with h | h
      · exact lt_max_of_lt_left (abs_pos.mpr h)
      · exact lt_max_of_lt_right (abs_pos.mpr h)
    have hs : max |zr| |zi| ^ 2 + min |zr| |zi| ^ 2 = zr ^ 2 + zi ^ 2 := by
      rcases le_total |zr| |zi| with hle | hle
      · rw [max_eq_right hle, min_eq_left hle, sq_abs, sq_abs]; ring
      · rw [max_eq_left hle, min_eq_right hle, sq_abs, sq_abs]
    have hn : ‖(⟨zr, zi⟩ : ℂ)‖ ^ 2 = max |zr| |zi| ^ 2 + min |zr| |zi| ^ 2 := by
      rw [hs, ← normSq_eq_norm_sq, normSq_mk]; ring
    have hl : 2 * Real.log ‖(⟨zr, zi⟩ : ℂ)‖ = 2 * Real.log (max |zr| |zi|) +
        Real.log (1 + (min |zr| |zi| / max |zr| |zi|) ^ 2) := by
      have e : max |zr| |zi| ^ 2 + min |zr| |zi| ^ 2 =
          max |zr| |zi| ^ 2 * (1 + (min |zr| |zi| / max |zr| |zi|) ^ 2) := by field_simp
      have := congrArg Real.log (hn.trans e)
      rw [Real.log_pow, Real.log_mul (by positivity) (by positivity), Real.log_pow] at this
      exact_mod_cast this
    norm_num
    linarith
  · rw [log_im]
    rfl

theorem geom_factor {r : ℝ} (h0 : 0 ≤ r) (h1 : r ≤ 1) : (1 - r) * r ^ 13 ≤ 1 / 13 := by
  have h := mul_neg_geom_sum r 13
  have hs : 13 * r ^ 13 ≤ ∑ i ∈ Finset.range 13, r ^ i := by
    have := Finset.sum_le_sum (s := Finset.range 13) (f := fun _ => r ^ 13) (g := fun i => r ^ i) fun i hi =>
      pow_le_pow_of_le_one h0 h1 (by
        have := Finset.mem_range.mp hi
        omega)
    simpa using this
  have hp : 0 ≤ r ^ 13 := by positivity
  have := mul_le_mul_of_nonneg_left hs (by linarith : 0 ≤ 1 - r)
  linarith

/-- The number of terms of the second series is enough. -/
theorem series2_kmax {r : ℝ} (h0 : 0 < r) (h1 : r < 1) {k : ℕ} (hk : 30 + ⌊18 / -Real.log r⌋₊ ≤ k) :
    r ^ k / ((k : ℝ) * k * (k + 1)) / (1 - r) ≤ 3 / 10 ^ 14 := by
  set L := -Real.log r with hL
  have hL0 : 0 < L := by rw [hL]; linarith [Real.log_neg h0 h1]
  have hq : 18 / L < ⌊18 / L⌋₊ + 1 := Nat.lt_floor_add_one _
  have hkr : (30 : ℝ) + ⌊18 / L⌋₊ ≤ k := by exact_mod_cast hk
  have hk1 : 29 + 18 / L ≤ k := by linarith
  have hk2 : 18 / L ≤ k := by linarith
  have hq0 : 0 < 18 / L := by positivity
  have hLr : L * r ≤ 1 - r := by
    have := Real.log_le_sub_one_of_pos (inv_pos.mpr h0)
    rw [Real.log_inv] at this
    calc L * r ≤ (r⁻¹ - 1) * r := by gcongr
      _ = 1 - r := by field_simp
  have hpow : r ^ k ≤ r ^ 29 * Real.exp (-18) := by
    have e1 : r ^ k = Real.exp (-L * k) := by
      rw [hL, neg_neg, mul_comm, Real.exp_nat_mul, Real.exp_log h0]
    have e2 : r ^ 29 = Real.exp (-L * 29) := by
      rw [hL, neg_neg, mul_comm, show (29 : ℝ) = ((29 : ℕ) : ℝ) by norm_num, Real.exp_nat_mul, Real.exp_log h0]
    rw [e1, e2, ← Real.exp_add]
    apply Real.exp_le_exp.mpr
    have : L * (29 + 18 / L) ≤ L * k := by gcongr
    have e3 : L * (29 + 18 / L) = L * 29 + 18 := by field_simp
    linarith
  have hexp : Real.exp (-18) ≤ 1 / (5 * 10 ^ 7) := by
    rw [Real.exp_neg, ← one_div]
    have h2 : (5 : ℝ) * 10 ^ 7 ≤ Real.exp 18 := by
      have := Real.exp_one_gt_d9
      calc (5 : ℝ) * 10 ^ 7 ≤ 2.7 ^ 18 := by norm_num
        _ ≤ Real.exp 1 ^ 18 := by gcongr; linarith
        _ = Real.exp 18 := by rw [← Real.exp_nat_mul]; norm_num
    gcongr
  have hden : (18 / L) ^ 3 ≤ (k : ℝ) * k * (k + 1) := by
    calc (18 / L) ^ 3 ≤ (k : ℝ) ^ 3 := by gcongr
      _ ≤ (k : ℝ) * k * (k + 1) := by nlinarith [sq_nonneg (k : ℝ)]
  have h1r : 0 < 1 - r := by linarith
  have hstep : r ^ k / ((k : ℝ) * k * (k + 1)) / (1 - r) ≤ r ^ 29 * Real.exp (-18) / (18 / L) ^ 3 / (1 - r) := by
    gcongr
  refine hstep.trans ?_
  have e4 : r ^ 29 * Real.exp (-18) / (18 / L) ^ 3 / (1 - r) =
      (L * r) ^ 3 * r ^ 26 * Real.exp (-18) / 5832 / (1 - r) := by
    field_simp
    norm_num
  rw [e4]
  have hg := geom_factor h0.le h1.le
  have hg0 : 0 ≤ (1 - r) * r ^ 13 := by positivity
  calc (L * r) ^ 3 * r ^ 26 * Real.exp (-18) / 5832 / (1 - r)
      ≤ (1 - r) ^ 3 * r ^ 26 * (1 / (5 * 10 ^ 7)) / 5832 / (1 - r) := by gcongr
    _ = ((1 - r) * r ^ 13) ^ 2 * (1 / (5 * 10 ^ 7)) / 5832 := by field_simp
    _ ≤ (1 / 13) ^ 2 * (1 / (5 * 10 ^ 7)) / 5832 := by gcongr
    _ ≤ 3 / 10 ^ 14 := by norm_num

theorem series2c_close {r x y : ℝ} (h0 : 0 < r) (h1 : r ≤ 0.98) (h : r ^ 2 = x ^ 2 + y ^ 2) :
    ‖(⟨(series2c r x y).1, (series2c r x y).2⟩ : ℂ) -
      (Spec.li2 ⟨x, y⟩ - 1 - (1 - ⟨x, y⟩) * Complex.log (1 - ⟨x, y⟩) / ⟨x, y⟩)‖ ≤ 3 / 10 ^ 14 := by
  have hz := norm_pair h0.le h
  have hr1 : r < 1 := by norm_num at h1; linarith
  have hz0 : (⟨x, y⟩ : ℂ) ≠ 0 := by
    rw [← norm_pos_iff, hz]; exact h0
  have hT := hasSum_li2_second hz0 (by rw [hz]; exact hr1)
  unfold series2c
  simp only [dilogcLoop2_eq]
  obtain ⟨n, hn, he, hc⟩ := rotLoop_spec (den := fun k => (k : ℝ) * k * (k + 1)) (r := r) (c := x / r) (s := y / r)
    (30 + ⌊18 / -Real.log r⌋₊ - 2) 1 (ck := x / r) (sk := y / r) (rk := r) (real := 0.5 * r * (x / r))
    (imag := 0.5 * r * (y / r)) (by simp) (by simp) (by
      simp only [rotSum, Finset.range_one, Finset.sum_singleton]
      apply Complex.ext <;> norm_num <;> ring)
  rw [polar_pair h0.ne'] at he hc
  rw [he]
  rcases hc with hc | ⟨hn1, hc⟩
  · refine (rot_tail (den := fun k => (k : ℝ) * k * (k + 1)) hT (by rw [hz]; exact hr1) den2_pos den2_mono n).trans ?_
    rw [hz]
    exact series2_kmax h0 hr1 (by omega)
  · refine (rot_tail_break (den := fun k => (k : ℝ) * k * (k + 1)) hT (by rw [hz]; exact hr1) den2_pos den2_mono hn1 hc
      (rotSum2_le (by rw [hz]; exact hr1.le) n)).trans ?_
    rw [hz]
    have : r / (1 - r) ≤ 49 := by
      rw [div_le_iff₀ (by linarith)]
      norm_num at h1
      linarith
    have he0 : 0 ≤ cEPS := by unfold cEPS; norm_num
    calc _ ≤ cEPS * 1 * 49 := by gcongr
      _ ≤ _ := by unfold cEPS; norm_num

theorem dilogcSeries2_close {r x y : ℝ} (h0 : 0.25 < r) (h1 : r ≤ 0.98) (h : r ^ 2 = x ^ 2 + y ^ 2) :
    ‖(⟨(dilogcSeries2 r x y).1, (dilogcSeries2 r x y).2⟩ : ℂ) - Spec.li2 ⟨x, y⟩‖ ≤ 3 / 10 ^ 14 := by
  have hr0 : 0 < r := by norm_num at h0; linarith
  have hr1 : r < 1 := by norm_num at h1; linarith
  have hz := norm_pair hr0.le h
  have hz0 : (⟨x, y⟩ : ℂ) ≠ 0 := by
    rw [← norm_pos_iff, hz]; exact hr0
  have hs := series2c_close hr0 h1 h
  have hx : 1 - x ≠ 0 := by
    have := (abs_le.mp ((abs_re_le_norm (⟨x, y⟩ : ℂ)).trans hz.le)).2
    simp only at this
    intro h
    linarith
  have hl : (⟨(complexLog (1 - x) (-y)).1, (complexLog (1 - x) (-y)).2⟩ : ℂ) = Complex.log (1 - ⟨x, y⟩) := by
    rw [complexLog_eq (Or.inl hx)]
    congr 1
    apply Complex.ext <;> simp
  unfold dilogcSeries2
  simp only
  rw [if_neg (by
    rw [abs_of_pos hr0]
    unfold cEPS
    norm_num at h0 ⊢
    linarith)]
  convert hs using 2
  rw [← hl]
  set l := complexLog (1 - x) (-y)
  set s := series2c r x y
  have e : (1 - ⟨x, y⟩ : ℂ) * ⟨l.1, l.2⟩ / ⟨x, y⟩ =
      ⟨(1 - x) * ((l.1 * x + l.2 * y) / r ^ 2) + y * ((-l.1 * y + l.2 * x) / r ^ 2),
        (1 - x) * ((-l.1 * y + l.2 * x) / r ^ 2) - y * ((l.1 * x + l.2 * y) / r ^ 2)⟩ := by
    rw [div_eq_iff hz0]
    have hr2 : r ^ 2 ≠ 0 := by positivity
    have hxy : x ^ 2 + y ^ 2 ≠ 0 := by rw [← h]; exact hr2
    apply Complex.ext
    · simp only [mul_re, sub_re, one_re, sub_im, one_im]
      rw [h]
      field_simp
      ring
    · simp only [mul_im, sub_re, one_re, sub_im, one_im]
      rw [h]
      field_simp
      ring
  rw [e]
  apply Complex.ext
  · simp only [sub_re, one_re]
    ring
  · simp only [sub_im, one_im]
    ring

end Copulae
