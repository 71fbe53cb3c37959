import Mathlib.Analysis.PSeries
import Mathlib.Tactic.FieldSimp
import Mathlib.Tactic.Positivity
import Mathlib.Tactic.Linarith

/-!
A numerical enclosure of `ζ(3) = Σ 1/n³`, by telescoping bounds for the tail.
-/

namespace Copulae

/-- Partial sums of `Σ 1/n³`. -/
def zs : ℕ → ℚ
  | 0 => 0
  | n + 1 => zs n + 1 / ((n : ℚ) + 1) ^ 3

theorem zs_cast (N : ℕ) : ((zs N : ℚ) : ℝ) = ∑ n ∈ Finset.range N, 1 / ((n : ℝ) + 1) ^ 3 := by
  induction N with
  | zero => simp [zs]
  | succ n ih => rw [Finset.sum_range_succ, ← ih, zs]; push_cast; rfl

noncomputable def zU (k : ℝ) : ℝ := 1 / (2 * k ^ 2) - 1 / (2 * k ^ 3) + 1 / (4 * k ^ 4)

noncomputable def zL (k : ℝ) : ℝ := zU k - 1 / (10 * k ^ 6)

theorem zU_step {k : ℝ} (hk : 1 ≤ k) : 1 / (k + 1) ^ 3 ≤ zU k - zU (k + 1) := by
  obtain ⟨y, hy, rfl⟩ : ∃ y : ℝ, 0 ≤ y ∧ k = y + 1 := ⟨k - 1, by linarith, by ring⟩
  unfold zU
  rw [← sub_nonneg]
  have e : 1 / (2 * (y + 1) ^ 2) - 1 / (2 * (y + 1) ^ 3) + 1 / (4 * (y + 1) ^ 4) -
      (1 / (2 * (y + 1 + 1) ^ 2) - 1 / (2 * (y + 1 + 1) ^ 3) + 1 / (4 * (y + 1 + 1) ^ 4)) -
      1 / (y + 1 + 1) ^ 3 =
      (2 * (y + 1) ^ 2 * (y + 2) ^ 4 - 2 * (y + 1) * (y + 2) ^ 4 + (y + 2) ^ 4 - 2 * (y + 1) ^ 4 * (y + 2) ^ 2
        + 2 * (y + 1) ^ 4 * (y + 2) - (y + 1) ^ 4 - 4 * (y + 1) ^ 4 * (y + 2)) /
        (4 * (y + 1) ^ 4 * (y + 2) ^ 4) := by
    field_simp
    ring
  rw [e]
  refine div_nonneg ?_ (by positivity)
  ring_nf
  positivity

theorem zL_step {k : ℝ} (hk : 2 ≤ k) : zL k - zL (k + 1) ≤ 1 / (k + 1) ^ 3 := by
  obtain ⟨y, hy, rfl⟩ : ∃ y : ℝ, 0 ≤ y ∧ k = y + 2 := ⟨k - 2, by linarith, by ring⟩
  unfold zL zU
  rw [← sub_nonneg]
  have e : 1 / (y + 2 + 1) ^ 3 - (1 / (2 * (y + 2) ^ 2) - 1 / (2 * (y + 2) ^ 3) + 1 / (4 * (y + 2) ^ 4) -
      1 / (10 * (y + 2) ^ 6) - (1 / (2 * (y + 2 + 1) ^ 2) - 1 / (2 * (y + 2 + 1) ^ 3) +
      1 / (4 * (y + 2 + 1) ^ 4) - 1 / (10 * (y + 2 + 1) ^ 6))) =
      (20 * (y + 2) ^ 6 * (y + 3) ^ 3 - 10 * (y + 2) ^ 4 * (y + 3) ^ 6 + 10 * (y + 2) ^ 3 * (y + 3) ^ 6
        - 5 * (y + 2) ^ 2 * (y + 3) ^ 6 + 2 * (y + 3) ^ 6 + 10 * (y + 2) ^ 6 * (y + 3) ^ 4
        - 10 * (y + 2) ^ 6 * (y + 3) ^ 3 + 5 * (y + 2) ^ 6 * (y + 3) ^ 2 - 2 * (y + 2) ^ 6) /
        (20 * (y + 2) ^ 6 * (y + 3) ^ 6) := by
    field_simp
    ring
  rw [e]
  refine div_nonneg ?_ (by positivity)
  ring_nf
  positivity

theorem zU_bounds {k : ℝ} (hk : 1 ≤ k) : 0 ≤ zU k ∧ zU k ≤ 1 / k := by
  unfold zU
  have e1 : 1 / (2 * k ^ 2) - 1 / (2 * k ^ 3) + 1 / (4 * k ^ 4) = (2 * k ^ 2 - 2 * k + 1) / (4 * k ^ 4) := by
    field_simp
    ring
  rw [e1]
  constructor
  · refine div_nonneg ?_ (by positivity)
    nlinarith
  · rw [div_le_div_iff₀ (by positivity) (by positivity)]
    have h3 : (1 : ℝ) ≤ k ^ 3 := one_le_pow₀ hk
    nlinarith [mul_nonneg (sub_nonneg.mpr hk) (sq_nonneg k), sq_nonneg (k - 1)]

theorem zeta3_between {Z : ℝ} (hZ : HasSum (fun n : ℕ => 1 / ((n : ℝ) + 1) ^ 3) Z) {N : ℕ} (hN : 2 ≤ N) :
    zs N + zL N ≤ Z ∧ Z ≤ zs N + zU N := by
  have hT := (hasSum_nat_add_iff' N).mpr hZ
  rw [← zs_cast] at hT
  have hN2 : (2 : ℝ) ≤ N := by exact_mod_cast hN
  have hup : ∀ M : ℕ, ∑ n ∈ Finset.range M, 1 / (((n + N : ℕ) : ℝ) + 1) ^ 3 ≤ zU N - zU (N + M : ℕ) := by
    intro M
    induction M with
    | zero => simp
    | succ M ih =>
      rw [Finset.sum_range_succ]
      have := zU_step (k := ((N + M : ℕ) : ℝ)) (by push_cast; linarith [(Nat.cast_nonneg M : (0 : ℝ) ≤ M)])
      rw [add_comm M N]
      push_cast at *
      rw [← add_assoc]
      linarith
  have hlo : ∀ M : ℕ, zL N - zL (N + M : ℕ) ≤ ∑ n ∈ Finset.range M, 1 / (((n + N : ℕ) : ℝ) + 1) ^ 3 := by
    intro M
    induction M with
    | zero => simp
    | succ M ih =>
      rw [Finset.sum_range_succ]
      have := zL_step (k := ((N + M : ℕ) : ℝ)) (by push_cast; linarith [(Nat.cast_nonneg M : (0 : ℝ) ≤ M)])
      rw [add_comm M N]
      push_cast at *
      rw [← add_assoc]
      linarith
  constructor
  · have hlim : Filter.Tendsto (fun M : ℕ => zL N - 1 / (M + 1 : ℝ)) Filter.atTop (nhds (zL N - 0)) :=
      tendsto_const_nhds.sub tendsto_one_div_add_atTop_nhds_zero_nat
    have : zL N - 0 ≤ Z - zs N := by
      refine le_of_tendsto hlim (Filter.Eventually.of_forall fun M => ?_)
      have h1 := hlo M
      have h2 : ∑ n ∈ Finset.range M, 1 / (((n + N : ℕ) : ℝ) + 1) ^ 3 ≤ Z - zs N :=
        sum_le_hasSum _ (fun n _ => by positivity) hT
      have h3 : zL (N + M : ℕ) ≤ 1 / (M + 1 : ℝ) := by
        have hM : (0 : ℝ) ≤ M := Nat.cast_nonneg M
        have hk : (1 : ℝ) ≤ ((N + M : ℕ) : ℝ) := by push_cast; linarith
        have h4 := (zU_bounds hk).2
        have h5 : zL ((N + M : ℕ) : ℝ) ≤ zU ((N + M : ℕ) : ℝ) := by
          unfold zL
          have : (0 : ℝ) ≤ 1 / (10 * ((N + M : ℕ) : ℝ) ^ 6) := by positivity
          linarith
        refine (h5.trans h4).trans ?_
        gcongr
        push_cast
        linarith
      linarith
    linarith
  · have : Z - zs N ≤ zU N := by
      refine hasSum_le_of_sum_le hT fun s => ?_
      obtain ⟨M, hM⟩ := s.exists_nat_subset_range
      refine (Finset.sum_le_sum_of_subset_of_nonneg hM fun _ _ _ => by positivity).trans ?_
      have h1 := hup M
      have h2 := (zU_bounds (k := ((N + M : ℕ) : ℝ)) (by
        push_cast; linarith [(Nat.cast_nonneg M : (0 : ℝ) ≤ M)])).1
      linarith
    linarith

set_option maxRecDepth 100000 in
theorem zs_1000 : 1.202056903159594285 ≤ zs 1000 + (1 / (2 * 1000 ^ 2) - 1 / (2 * 1000 ^ 3) + 1 / (4 * 1000 ^ 4)
      - 1 / (10 * 1000 ^ 6)) ∧
    zs 1000 + (1 / (2 * 1000 ^ 2) - 1 / (2 * 1000 ^ 3) + 1 / (4 * 1000 ^ 4)) ≤ 1.202056903159594286 := by
  decide +kernel

/-- `ζ(3)` to 18 decimal places. -/
theorem zeta3_const {Z : ℝ} (hZ : HasSum (fun n : ℕ => 1 / ((n : ℝ) + 1) ^ 3) Z) :
    1.202056903159594285 ≤ Z ∧ Z ≤ 1.202056903159594286 := by
  have h := zeta3_between hZ (N := 1000) (by norm_num)
  have h1 := (Rat.cast_le (K := ℝ)).mpr zs_1000.1
  have h2 := (Rat.cast_le (K := ℝ)).mpr zs_1000.2
  push_cast at h1 h2
  unfold zL zU at h
  push_cast at h
  constructor <;> linarith [h.1, h.2]

end Copulae
