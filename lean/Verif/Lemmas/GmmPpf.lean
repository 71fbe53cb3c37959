import Verif.Lemmas.GmmLaw
import Verif.Model.GmcPpf
import Verif.Lemmas.Stirling
import Mathlib.Analysis.Complex.ExponentialBounds

/-!
Lemmas about `gmm_marginal_ppf`: sorted points, linear interpolation and the grid.
-/

namespace Copulae

open MeasureTheory Set ProbabilityTheory

/-- Piecewise linear interpolation of the inverse of `F` between the points of a sorted list. -/
noncomputable def interpR (F : ℝ → ℝ) : List ℝ → ℝ → ℝ
  | [], _ => 0
  | [a], _ => a
  | a :: b :: r, q => if F b ≤ q then interpR F (b :: r) q else (b - a) / (F b - F a) * (q - F a) + a

theorem interpR_bracket {F : ℝ → ℝ} (hF : StrictMono F) : ∀ (gs : List ℝ) (hne : gs ≠ []) (q : ℝ),
    gs.Pairwise (· ≤ ·) → F (gs.head hne) ≤ q → q ≤ F (gs.getLast hne) →
    ∃ a ∈ gs, ∃ b ∈ gs, (∀ g ∈ gs, g ≤ a ∨ b ≤ g) ∧ F a ≤ q ∧ q ≤ F b ∧
      a ≤ interpR F gs q ∧ interpR F gs q ≤ b
  | [], hne, _, _, _, _ => absurd rfl hne
  | [a], _, q, _, h1, h2 => by
    refine ⟨a, by simp, a, by simp, fun g hg => ?_, h1, h2, le_rfl, le_rfl⟩
    rw [List.mem_singleton] at hg
    exact Or.inl hg.le
  | a :: b :: r, hne, q, hs, h1, h2 => by
    have hs' := List.pairwise_cons.mp hs
    have hs'' := List.pairwise_cons.mp hs'.2
    rw [List.getLast_cons (by simp)] at h2
    rw [List.head_cons] at h1
    unfold interpR
    split_ifs with hb
    · obtain ⟨x, hx, y, hy, hgap, hxq, hqy, hl, hu⟩ :=
        interpR_bracket hF (b :: r) (by simp) q hs'.2 (by simpa using hb) h2
      refine ⟨x, List.mem_cons_of_mem _ hx, y, List.mem_cons_of_mem _ hy, fun g hg => ?_, hxq, hqy, hl, hu⟩
      rcases List.mem_cons.mp hg with rfl | hg
      · exact Or.inl (hs'.1 x hx)
      · exact hgap g hg
    · push Not at hb
      have hab : a < b := hF.lt_iff_lt.mp (h1.trans_lt hb)
      have hFab : F a < F b := hF hab
      refine ⟨a, by simp, b, by simp, fun g hg => ?_, h1, hb.le, ?_, ?_⟩
      · rcases List.mem_cons.mp hg with rfl | hg
        · exact Or.inl le_rfl
        rcases List.mem_cons.mp hg with rfl | hg
        · exact Or.inr le_rfl
        · exact Or.inr (hs''.1 g hg)
      · have := mul_nonneg (div_nonneg (sub_nonneg.mpr hab.le) (sub_nonneg.mpr hFab.le)) (sub_nonneg.mpr h1)
        linarith
      · have : (b - a) / (F b - F a) * (q - F a) ≤ (b - a) / (F b - F a) * (F b - F a) :=
          mul_le_mul_of_nonneg_left (by linarith) (div_nonneg (by linarith) (by linarith))
        rw [div_mul_cancel₀ _ (by linarith)] at this
        linarith

theorem interpR_strict {F : ℝ → ℝ} (hF : StrictMono F) : ∀ (gs : List ℝ) (hne : gs ≠ []) (q q' : ℝ),
    gs.Pairwise (· ≤ ·) → F (gs.head hne) ≤ q → q < q' → q' ≤ F (gs.getLast hne) →
    interpR F gs q < interpR F gs q'
  | [], hne, _, _, _, _, _, _ => absurd rfl hne
  | [a], _, q, q', _, h1, h, h2 => by
    simp only [List.head_cons, List.getLast_singleton] at h1 h2
    linarith
  | a :: b :: r, hne, q, q', hs, h1, h, h2 => by
    have hs' := List.pairwise_cons.mp hs
    rw [List.getLast_cons (by simp)] at h2
    rw [List.head_cons] at h1
    by_cases hb : F b ≤ q
    · have e : ∀ x, F b ≤ x → interpR F (a :: b :: r) x = interpR F (b :: r) x := fun x hx => by
        rw [interpR, if_pos hx]
      rw [e q hb, e q' (hb.trans h.le)]
      exact interpR_strict hF (b :: r) (by simp) q q' hs'.2 (by simpa using hb) h h2
    · push Not at hb
      have hab : a < b := hF.lt_iff_lt.mp (h1.trans_lt hb)
      have hFab : F a < F b := hF hab
      have hsl : 0 < (b - a) / (F b - F a) := div_pos (by linarith) (by linarith)
      have hq : interpR F (a :: b :: r) q = (b - a) / (F b - F a) * (q - F a) + a := by
        rw [interpR, if_neg (not_le.mpr hb)]
      by_cases hb' : F b ≤ q'
      · have : interpR F (a :: b :: r) q' = interpR F (b :: r) q' := by rw [interpR, if_pos hb']
        rw [hq, this]
        have h3 : (b - a) / (F b - F a) * (q - F a) < (b - a) / (F b - F a) * (F b - F a) :=
          mul_lt_mul_of_pos_left (by linarith) hsl
        rw [div_mul_cancel₀ _ (by linarith)] at h3
        obtain ⟨x, hx, y, hy, -, -, -, hl, -⟩ :=
          interpR_bracket hF (b :: r) (by simp) q' hs'.2 (by simpa using hb') h2
        have : b ≤ x := by
          rcases List.mem_cons.mp hx with rfl | hx
          · exact le_rfl
          · exact (List.pairwise_cons.mp hs'.2).1 x hx
        linarith
      · have : interpR F (a :: b :: r) q' = (b - a) / (F b - F a) * (q' - F a) + a := by
          rw [interpR, if_neg hb']
        rw [hq, this]
        have := mul_lt_mul_of_pos_left (sub_lt_sub_right h (F a)) hsl
        linarith

theorem npInterp_fin {F : ℝ → ℝ} (hF : StrictMono F) : ∀ (gs : List ℝ) (hne : gs ≠ []) (q : ℝ),
    gs.Pairwise (· ≤ ·) → F (gs.head hne) ≤ q →
    npInterp (gs.map fun g => (Fl.fin (F g), Fl.fin g)) (.fin q) = .fin (interpR F gs q)
  | [], hne, _, _, _ => absurd rfl hne
  | [a], _, q, _, _ => by
    rw [List.map_cons, List.map_nil, npInterp, if_neg (by simp), interpR]
  | a :: b :: r, hne, q, hs, h1 => by
    have hs' := List.pairwise_cons.mp hs
    rw [List.head_cons] at h1
    have ih := npInterp_fin hF (b :: r) (by simp) q hs'.2
    simp only [List.map_cons, List.head_cons] at ih ⊢
    rw [npInterp, interpR]
    by_cases hb : F b ≤ q
    · rw [if_pos (by simpa using hb), if_pos hb, ih hb]
    · rw [if_neg (by simpa using hb), if_neg hb]
      push Not at hb
      have hFab : F a < F b := h1.trans_lt hb
      by_cases hq : F a = q
      · rw [if_pos (by rw [hq]), ← hq]
        simp
      · rw [if_neg (by simpa using hq), Fl.fin_sub_fin, Fl.fin_sub_fin, Fl.fin_div_fin' _ (by linarith),
          Fl.fin_sub_fin, Fl.fin_mul_fin, Fl.fin_add_fin]

open Classical in
/-- The sorted points are the images of the sorted grid. -/
theorem sorted_points {F : ℝ → ℝ} (hF : StrictMono F) (grid : List ℝ) :
    (grid.map fun g => (Fl.fin (F g), Fl.fin g)).mergeSort (fun a b => decide (a.1 ≤ b.1)) =
      (grid.mergeSort fun a b => decide (a ≤ b)).map fun g => (Fl.fin (F g), Fl.fin g) := by
  refine (List.map_mergeSort fun a _ b _ => ?_).symm
  simp [hF.le_iff_le]

open Classical in
theorem interp1d_fin {F : ℝ → ℝ} (hF : StrictMono F) {grid : List ℝ} (hg : grid ≠ []) :
    ∃ (gs : List ℝ) (hne : gs ≠ []), gs.Perm grid ∧ gs.Pairwise (· ≤ ·) ∧
      ∀ q, interp1d (grid.map fun g => (Fl.fin (F g), Fl.fin g)) (.fin q) =
        if q < F (gs.head hne) ∨ F (gs.getLast hne) < q then .error .valueError else .ok (.fin (interpR F gs q)) := by
  set gs := grid.mergeSort fun a b => decide (a ≤ b) with hgs
  have hp : gs.Perm grid := List.mergeSort_perm _ _
  have hne : gs ≠ [] := fun h => hg (by rw [h] at hp; exact hp.symm.eq_nil)
  have hs : gs.Pairwise (· ≤ ·) := by
    have := List.pairwise_mergeSort (le := fun a b : ℝ => decide (a ≤ b))
      (fun a b c h1 h2 => by simp only [decide_eq_true_eq] at *; exact h1.trans h2)
      (fun a b => by simp [le_total]) grid
    exact this.imp fun h => by simpa using h
  refine ⟨gs, hne, hp, hs, fun q => ?_⟩
  have h1 : (gs.map fun g => (Fl.fin (F g), Fl.fin g)).head? =
      some (Fl.fin (F (gs.head hne)), Fl.fin (gs.head hne)) := by
    rw [List.head?_map, List.head?_eq_some_head hne, Option.map_some]
  have h2 : (gs.map fun g => (Fl.fin (F g), Fl.fin g)).getLast? =
      some (Fl.fin (F (gs.getLast hne)), Fl.fin (gs.getLast hne)) := by
    rw [List.getLast?_map, List.getLast?_eq_some_getLast hne, Option.map_some]
  unfold interp1d
  simp only [sorted_points hF, ← hgs, h1, h2, Fl.fin_lt_fin]
  split_ifs with hc
  · rfl
  · push Not at hc
    rw [npInterp_fin hF gs hne q hs hc.1]

theorem npInterp_nan {F : ℝ → ℝ} : ∀ gs : List ℝ,
    npInterp (gs.map fun g => (Fl.fin (F g), Fl.fin g)) .nan = .nan
  | [] => rfl
  | [a] => by rw [List.map_cons, List.map_nil, npInterp, if_pos rfl]
  | a :: b :: r => by
    rw [List.map_cons, List.map_cons, npInterp, if_neg (show ¬ (Fl.fin (F b) ≤ Fl.nan) from fun h => h), if_neg (by simp),
      Fl.nan_sub, Fl.mul_nan, Fl.nan_add]

open Classical in
theorem interp1d_nan {F : ℝ → ℝ} (hF : StrictMono F) {grid : List ℝ} (hg : grid ≠ []) :
    interp1d (grid.map fun g => (Fl.fin (F g), Fl.fin g)) .nan = .ok .nan := by
  set gs := grid.mergeSort fun a b => decide (a ≤ b) with hgs
  have hp : gs.Perm grid := List.mergeSort_perm _ _
  have hne : gs ≠ [] := fun h => hg (by rw [h] at hp; exact hp.symm.eq_nil)
  have h1 : (gs.map fun g => (Fl.fin (F g), Fl.fin g)).head? =
      some (Fl.fin (F (gs.head hne)), Fl.fin (gs.head hne)) := by
    rw [List.head?_map, List.head?_eq_some_head hne, Option.map_some]
  have h2 : (gs.map fun g => (Fl.fin (F g), Fl.fin g)).getLast? =
      some (Fl.fin (F (gs.getLast hne)), Fl.fin (gs.getLast hne)) := by
    rw [List.getLast?_map, List.getLast?_eq_some_getLast hne, Option.map_some]
  unfold interp1d
  simp only [sorted_points hF, ← hgs, h1, h2]
  rw [if_neg (by rintro (h | h) <;> exact h), npInterp_nan]

variable {m d : ℕ} {p : Fin m → ℝ} {μ : Fin m → Fin d → ℝ} {S : Fin m → Matrix (Fin d) (Fin d) ℝ}

/-- Point `k` of the grid of a cluster. -/
noncomputable def gridPt (μ σ : ℝ) (spread n k : ℕ) : ℝ := μ - spread * σ + k * (2 * (spread * σ) / (n - 1 : ℕ))

/-- The grid of column `j`. -/
noncomputable def gridR (p : Fin m → ℝ) (μ : Fin m → Fin d → ℝ) (S : Fin m → Matrix (Fin d) (Fin d) ℝ)
    (res spread : ℕ) (j : Fin d) : List ℝ :=
  (List.finRange m).flatMap fun c => (List.range (nSamples res (.fin (p c)))).map
    (gridPt (μ c j) √(S c j j) spread (nSamples res (.fin (p c))))

theorem nSamples_two (res : ℕ) (x : Fl) : 2 ≤ nSamples res x := by
  cases x <;> simp only [nSamples] <;> omega

theorem ppfGrid_fin (h : Spec.IsMixture p S) (res spread : ℕ) (j : Fin d) :
    ppfGrid (flParam p μ S) res spread j = (gridR p μ S res spread j).map Fl.fin := by
  unfold ppfGrid gridR
  rw [List.map_flatMap]
  refine List.flatMap_congr fun c _ => ?_
  have hs : Fl.sqrt (.fin (S c j j)) = .fin √(S c j j) := by
    rw [Fl.sqrt, if_neg (not_lt.mpr (h.var c j).le)]
  have hn := nSamples_two res (.fin (p c))
  have hne : ((nSamples res (.fin (p c)) - 1 : ℕ) : ℝ) ≠ 0 := by
    have : 0 < nSamples res (.fin (p c)) - 1 := by omega
    exact_mod_cast this.ne'
  simp only [flParam, flMat, hs, flLinspace, List.map_map, Fl.fin_mul_fin, Fl.fin_sub_fin, Fl.fin_add_fin]
  refine List.map_congr_left fun k _ => ?_
  simp only [Function.comp_apply]
  rw [Fl.fin_div_fin' _ hne, Fl.fin_mul_fin, Fl.fin_add_fin, gridPt]
  congr 3
  ring

theorem gridR_ne (h : Spec.IsMixture p S) (res spread : ℕ) (j : Fin d) : gridR p μ S res spread j ≠ [] := by
  obtain ⟨c, -⟩ := h.exists_pos
  refine List.ne_nil_of_mem (a := gridPt (μ c j) √(S c j j) spread (nSamples res (.fin (p c))) 0) ?_
  refine List.mem_flatMap.mpr ⟨c, List.mem_finRange _, List.mem_map.mpr ⟨0, ?_, rfl⟩⟩
  have := nSamples_two res (.fin (p c))
  rw [List.mem_range]
  omega

theorem gridR_mem {res spread : ℕ} {j : Fin d} {c : Fin m} {k : ℕ} (hk : k < nSamples res (.fin (p c))) :
    gridPt (μ c j) √(S c j j) spread (nSamples res (.fin (p c))) k ∈ gridR p μ S res spread j :=
  List.mem_flatMap.mpr ⟨c, List.mem_finRange _, List.mem_map.mpr ⟨k, List.mem_range.mpr hk, rfl⟩⟩

theorem gridPt_last (a σ : ℝ) (spread : ℕ) {n : ℕ} (hn : 2 ≤ n) :
    gridPt a σ spread n (n - 1) = a + spread * σ := by
  have hne : ((n - 1 : ℕ) : ℝ) ≠ 0 := by
    have : 0 < n - 1 := by omega
    exact_mod_cast this.ne'
  rw [gridPt, mul_div_cancel₀ _ hne]
  ring

/-- Two points without a point of the cluster between them are close or in the tail of the cluster. -/
theorem gridPt_gap {a σ : ℝ} {spread n : ℕ} (hn : 2 ≤ n) {x y : ℝ}
    (hg : ∀ k < n, gridPt a σ spread n k ≤ x ∨ y ≤ gridPt a σ spread n k) :
    y ≤ a - spread * σ ∨ a + spread * σ ≤ x ∨ y - x ≤ 2 * (spread * σ) / (n - 1 : ℕ) := by
  by_cases h0 : y ≤ gridPt a σ spread n 0
  · left
    simpa [gridPt] using h0
  right
  by_cases hl : gridPt a σ spread n (n - 1) ≤ x
  · left
    rwa [gridPt_last _ _ _ hn] at hl
  right
  have key : ∃ k, k + 1 < n ∧ gridPt a σ spread n k ≤ x ∧ y ≤ gridPt a σ spread n (k + 1) := by
    by_contra hk
    push Not at hk
    have : ∀ k, k < n → gridPt a σ spread n k ≤ x := by
      intro k
      induction k with
      | zero =>
        intro hlt
        exact (hg 0 hlt).resolve_right h0
      | succ k ih =>
        intro hlt
        exact (hg (k + 1) hlt).resolve_right (not_le.mpr (hk k hlt (ih (by omega))))
    exact hl (this (n - 1) (by omega))
  obtain ⟨k, -, h1, h2⟩ := key
  unfold gridPt at h1 h2
  push_cast at h2
  linarith

theorem normCdf_lip {x y : ℝ} (hxy : x ≤ y) : normCdf y - normCdf x ≤ 0.4 * (y - x) := by
  refine convex_univ.image_sub_le_mul_sub_of_deriv_le normCdf_continuous.continuousOn ?_ ?_ x trivial y trivial hxy
  · exact fun z _ => (normCdf_hasDerivAt z).differentiableAt.differentiableWithinAt
  · intro z _
    rw [(normCdf_hasDerivAt z).deriv, gaussianPDFReal_std]
    have h1 : Real.exp (-z ^ 2 / 2) ≤ 1 := Real.exp_le_one_iff.mpr (by nlinarith [sq_nonneg z])
    have h2 : (2.5 : ℝ) ≤ √(2 * Real.pi) := by
      refine Real.le_sqrt_of_sq_le ?_
      linarith [Real.pi_gt_d2]
    have h3 : (√(2 * Real.pi))⁻¹ ≤ 0.4 := by
      rw [inv_le_comm₀ (by linarith) (by norm_num)]
      norm_num
      norm_num at h2
      exact h2
    calc _ ≤ 0.4 * 1 := mul_le_mul h3 h1 (Real.exp_pos _).le (by norm_num)
      _ = 0.4 := by norm_num

theorem roundEven_close (x : ℝ) : |(roundEven x : ℝ) - x| ≤ 1 / 2 := by
  have h1 := Int.floor_le x
  have h2 := Int.lt_floor_add_one x
  unfold roundEven
  rw [abs_le]
  split_ifs <;> push_cast <;> constructor <;> linarith

/-- A cluster has at least this many points. -/
theorem nSamples_weight (q : ℝ) :
    q * (4 / ((nSamples 2000 (.fin q) - 1 : ℕ) : ℝ)) ≤ 0.005 := by
  have hn := nSamples_two 2000 (.fin q)
  set n := nSamples 2000 (.fin q) with hnd
  have hpos : (0 : ℝ) < (n - 1 : ℕ) := by
    have : 0 < n - 1 := by omega
    exact_mod_cast this
  have hcast : ((n - 1 : ℕ) : ℝ) = n - 1 := by push_cast [Nat.cast_sub (show 1 ≤ n by omega)]; ring
  rw [← mul_div_assoc, div_le_iff₀ hpos, hcast]
  have hn' : (2 : ℝ) ≤ n := by exact_mod_cast hn
  rcases le_total q 0.00125 with h | h
  · nlinarith
  · have hr : (q * 2000 - 1 / 2 : ℝ) ≤ n := by
      have h3 := (abs_le.mp (roundEven_close (q * (2000 : ℕ)))).1
      have h4 : (roundEven (q * (2000 : ℕ)) : ℤ) ≤ n := by
        rw [hnd]
        simp only [nSamples]
        omega
      have h5 : ((roundEven (q * (2000 : ℕ)) : ℤ) : ℝ) ≤ n := by exact_mod_cast h4
      push_cast at h3 h5
      linarith
    nlinarith

theorem asNdtr_neg5 : asNdtr (-5 / 1.4142136) ≤ 3e-7 := by
  have hz : |(-5 / 1.4142136 : ℝ)| = 5 / 1.4142136 := by
    rw [abs_of_neg (by norm_num)]
    norm_num
  have ht0 : 0 < asT (-5 / 1.4142136) := (asT_mem _).1
  have ht : asT (-5 / 1.4142136) ≤ 0.37549 := by
    rw [asT, hz]
    norm_num
  have hp : asPoly (asT (-5 / 1.4142136)) ≤ 0.158 := by
    unfold asPoly
    nlinarith [mul_nonneg ht0.le ht0.le, pow_le_pow_left₀ ht0.le ht 2, pow_le_pow_left₀ ht0.le ht 3,
      mul_nonneg (mul_nonneg ht0.le ht0.le) (sub_nonneg.mpr ht), mul_nonneg ht0.le (sub_nonneg.mpr ht)]
  have he : (267000 : ℝ) ≤ Real.exp ((5 / 1.4142136) ^ 2) := by
    have h1 : (2.718 : ℝ) ≤ Real.exp 1 := by linarith [Real.exp_one_gt_d9]
    have h2 : (2.718 : ℝ) ^ 12 ≤ Real.exp 12 := by
      rw [show (12 : ℝ) = (12 : ℕ) * 1 by norm_num, Real.exp_nat_mul]
      exact pow_le_pow_left₀ (by norm_num) h1 12
    have h3 : (1.645 : ℝ) ≤ Real.exp 0.4999 := by
      have := Real.sum_le_exp_of_nonneg (x := 0.4999) (by norm_num) 4
      norm_num [Finset.sum_range_succ, Nat.factorial] at this
      norm_num
      linarith
    have h4 : Real.exp (12 + 0.4999) ≤ Real.exp ((5 / 1.4142136) ^ 2) :=
      Real.exp_le_exp.mpr (by norm_num)
    rw [Real.exp_add] at h4
    have h5 : (2.718 : ℝ) ^ 12 * 1.645 ≤ Real.exp 12 * Real.exp 0.4999 :=
      mul_le_mul h2 h3 (by norm_num) (Real.exp_pos _).le
    norm_num at h5 h4 ⊢
    linarith
  rw [asNdtr, if_pos (by norm_num), asErf, hz, Real.exp_neg]
  have hi : (Real.exp ((5 / 1.4142136) ^ 2))⁻¹ ≤ (267000 : ℝ)⁻¹ := inv_anti₀ (by norm_num) he
  have hp0 : 0 ≤ 0.5 * asPoly (asT (-5 / 1.4142136)) := by
    have := asErf_pos (-5 / 1.4142136)
    unfold asErf at this
    exact (pos_of_mul_pos_left this (Real.exp_pos _).le).le
  calc _ ≤ (0.5 * 0.158) * (267000 : ℝ)⁻¹ :=
        mul_le_mul (by linarith) hi (inv_nonneg.mpr (Real.exp_pos _).le) (by norm_num)
    _ ≤ 3e-7 := by norm_num

theorem normCdf_neg5 : normCdf (-5) ≤ 0.00002 := by
  have h1 := (abs_le.mp (asNdtr_normCdf (-5))).1
  have h2 := asNdtr_neg5
  norm_num at h1 h2 ⊢
  linarith

theorem normCdf_mem01 (x : ℝ) : 0 ≤ normCdf x ∧ normCdf x ≤ 1 :=
  ⟨measureReal_nonneg, measureReal_le_one⟩

theorem normCdf_le {x y : ℝ} (h : x ≤ y) : normCdf x ≤ normCdf y :=
  measureReal_mono (Iic_subset_Iic.mpr h)

theorem gmmMargin_gap (h : Spec.IsMixture p S) {j : Fin d} {a b : ℝ} (hab : a ≤ b)
    (hg : ∀ g ∈ gridR p μ S 2000 5 j, g ≤ a ∨ b ≤ g) :
    Spec.gmmMargin p μ S j b - Spec.gmmMargin p μ S j a ≤ 0.005 * m := by
  rw [gmmMargin_eq h, gmmMargin_eq h, ← Finset.sum_sub_distrib]
  have hp1 : ∀ c, p c ≤ 1 := fun c => by
    rw [← h.sum]
    exact Finset.single_le_sum (fun i _ => h.nonneg i) (Finset.mem_univ c)
  calc _ ≤ ∑ _c : Fin m, (0.005 : ℝ) := ?_
    _ = 0.005 * m := by rw [Finset.sum_const, Finset.card_univ, Fintype.card_fin, nsmul_eq_mul, mul_comm]
  refine Finset.sum_le_sum fun c _ => ?_
  have hσ := Real.sqrt_pos.mpr (h.var c j)
  set σ := √(S c j j) with hσd
  have hn := nSamples_two 2000 (.fin (p c))
  have hw := nSamples_weight (p c)
  have hz : ∀ x, (x - μ c j) / σ ≤ -5 ↔ x ≤ μ c j - 5 * σ := fun x => by
    rw [div_le_iff₀ hσ]
    constructor <;> intro h <;> linarith
  have hz' : ∀ x, 5 ≤ (x - μ c j) / σ ↔ μ c j + 5 * σ ≤ x := fun x => by
    rw [le_div_iff₀ hσ]
    constructor <;> intro h <;> linarith
  rw [← mul_sub]
  rcases gridPt_gap (a := μ c j) (σ := σ) (spread := 5) hn (x := a) (y := b)
    (fun k hk => hg _ (gridR_mem hk)) with h1 | h1 | h1
  · push_cast at h1
    have h2 := normCdf_le ((hz b).mpr h1)
    have h3 := (normCdf_mem01 ((a - μ c j) / σ)).1
    have h4 := normCdf_neg5
    calc _ ≤ 1 * (0.00002 : ℝ) :=
          mul_le_mul (hp1 c) (by linarith) (sub_nonneg.mpr (normCdf_le (by gcongr))) zero_le_one
      _ ≤ _ := by norm_num
  · push_cast at h1
    have h2 := normCdf_le ((hz' a).mpr h1)
    have h3 := (normCdf_mem01 ((b - μ c j) / σ)).2
    have h4 := normCdf_neg5
    rw [normCdf_neg] at h4
    calc _ ≤ 1 * (0.00002 : ℝ) :=
          mul_le_mul (hp1 c) (by linarith) (sub_nonneg.mpr (normCdf_le (by gcongr))) zero_le_one
      _ ≤ _ := by norm_num
  · push_cast at h1
    have h2 : normCdf ((b - μ c j) / σ) - normCdf ((a - μ c j) / σ) ≤
        4 / ((nSamples 2000 (.fin (p c)) - 1 : ℕ) : ℝ) := by
      have hnpos : (0 : ℝ) < (nSamples 2000 (.fin (p c)) - 1 : ℕ) := by
        have : 0 < nSamples 2000 (.fin (p c)) - 1 := by omega
        exact_mod_cast this
      refine (normCdf_lip (x := (a - μ c j) / σ) (by gcongr)).trans ?_
      rw [← sub_div, show b - μ c j - (a - μ c j) = b - a by ring]
      rw [le_div_iff₀ hnpos] at h1 ⊢
      have : 0.4 * ((b - a) / σ) * ((nSamples 2000 (.fin (p c)) - 1 : ℕ) : ℝ) =
          0.4 * ((b - a) * ((nSamples 2000 (.fin (p c)) - 1 : ℕ) : ℝ)) / σ := by ring
      rw [this, div_le_iff₀ hσ]
      linarith
    exact (mul_le_mul_of_nonneg_left h2 (h.nonneg c)).trans hw

theorem gmmApprox_low (h : Spec.IsMixture p S) {j : Fin d} {x : ℝ} (hx : ∀ g ∈ gridR p μ S 2000 5 j, x ≤ g) :
    gmmApprox p μ S j x ≤ 3e-7 := by
  have hle : ∀ c, asNdtr ((x - μ c j) / √(S c j j) / 1.4142136) ≤ 3e-7 := fun c => by
    have hσ := Real.sqrt_pos.mpr (h.var c j)
    have h0 := hx _ (gridR_mem (c := c) (k := 0) (by have := nSamples_two 2000 (.fin (p c)); omega))
    refine (asNdtr_strictMono.monotone ?_).trans asNdtr_neg5
    have : (x - μ c j) / √(S c j j) ≤ -5 := by
      rw [div_le_iff₀ hσ]
      unfold gridPt at h0
      push_cast at h0
      linarith
    gcongr
  calc gmmApprox p μ S j x ≤ ∑ c, p c * 3e-7 :=
        Finset.sum_le_sum fun c _ => mul_le_mul_of_nonneg_left (hle c) (h.nonneg c)
    _ = 3e-7 := by rw [← Finset.sum_mul, h.sum, one_mul]

theorem gmmApprox_high (h : Spec.IsMixture p S) {j : Fin d} {x : ℝ} (hx : ∀ g ∈ gridR p μ S 2000 5 j, g ≤ x) :
    1 - 3e-7 ≤ gmmApprox p μ S j x := by
  have hle : ∀ c, 1 - 3e-7 ≤ asNdtr ((x - μ c j) / √(S c j j) / 1.4142136) := fun c => by
    have hσ := Real.sqrt_pos.mpr (h.var c j)
    have hn := nSamples_two 2000 (.fin (p c))
    have h0 := hx _ (gridR_mem (c := c) (k := nSamples 2000 (.fin (p c)) - 1) (by omega))
    rw [gridPt_last _ _ _ hn] at h0
    have h5 := asNdtr_neg5
    rw [neg_div, asNdtr_neg'] at h5
    refine le_trans (by linarith) (asNdtr_strictMono.monotone (a := 5 / 1.4142136) ?_)
    have : 5 ≤ (x - μ c j) / √(S c j j) := by
      rw [le_div_iff₀ hσ]
      push_cast at h0
      linarith
    gcongr
  calc 1 - 3e-7 = ∑ c, p c * (1 - 3e-7) := by rw [← Finset.sum_mul, h.sum, one_mul]
    _ ≤ _ := Finset.sum_le_sum fun c _ => mul_le_mul_of_nonneg_left (hle c) (h.nonneg c)

/-- The quantile function used for column `j`. -/
theorem ppf_quantile (h : Spec.IsMixture p S) (j : Fin d) :
    ∃ Q : ℝ → ℝ, (∀ v, 3e-7 ≤ v → v ≤ 1 - 3e-7 → ppfValue (flParam p μ S) 2000 5 j (.fin v) = .ok (.fin (Q v))) ∧
      StrictMonoOn Q (Icc 3e-7 (1 - 3e-7)) ∧
      (∀ v ∈ Icc (3e-7 : ℝ) (1 - 3e-7), |Spec.gmmMargin p μ S j (Q v) - v| ≤ 0.005 * m + 0.0000125) ∧
      (∀ v, v ≤ 0 ∨ 1 ≤ v → ppfValue (flParam p μ S) 2000 5 j (.fin v) = .error .valueError) ∧
      ∀ v, ppfValue (flParam p μ S) 2000 5 j (.fin v) = .error .valueError ∨
        ppfValue (flParam p μ S) 2000 5 j (.fin v) = .ok (.fin (Q v)) := by
  have hF := gmmApprox_strictMono (μ := μ) h j
  have hgrid := ppfGrid_fin (μ := μ) h 2000 5 j
  have hne' := gridR_ne (μ := μ) h 2000 5 j
  obtain ⟨gs, hne, hp, hs, hi⟩ := interp1d_fin hF hne'
  have hpts : ∀ v, ppfValue (flParam p μ S) 2000 5 j v =
      interp1d ((gridR p μ S 2000 5 j).map fun g => (Fl.fin (gmmApprox p μ S j g), Fl.fin g)) v := fun v => by
    unfold ppfValue
    rw [hgrid, List.map_map]
    congr 1
    refine List.map_congr_left fun g _ => ?_
    simp only [Function.comp_apply, gmmMarginalCdf_fin h]
  have hhead : ∀ g ∈ gs, gs.head hne ≤ g := by
    cases gs with
    | nil => exact absurd rfl hne
    | cons a r =>
      intro g hg
      rcases List.mem_cons.mp hg with rfl | hg
      · exact le_rfl
      · exact (List.pairwise_cons.mp hs).1 g hg
  have hlast : ∀ g ∈ gs, g ≤ gs.getLast hne := by
    have hs2 := hs
    rw [← List.dropLast_append_getLast hne, List.pairwise_append] at hs2
    intro g hg
    rw [← List.dropLast_append_getLast hne, List.mem_append] at hg
    rcases hg with hg | hg
    · exact hs2.2.2 g hg _ (by simp)
    · rw [List.mem_singleton] at hg
      exact hg.le
  have hlow := gmmApprox_low h (x := gs.head hne) fun g hg => hhead g (hp.mem_iff.mpr hg)
  have hhigh := gmmApprox_high h (x := gs.getLast hne) fun g hg => hlast g (hp.mem_iff.mpr hg)
  refine ⟨interpR (gmmApprox p μ S j) gs, fun v h0 h1 => ?_, fun v hv w hw hvw => ?_, fun v hv => ?_, fun v hv => ?_,
    fun v => ?_⟩
  · rw [hpts, hi, if_neg]
    rintro (hc | hc) <;> linarith
  · exact interpR_strict hF gs hne v w hs (hlow.trans hv.1) hvw (hw.2.trans hhigh)
  · obtain ⟨a, ha, b, hb, hg, hav, hvb, hax, hxb⟩ :=
      interpR_bracket hF gs hne v hs (hlow.trans hv.1) (hv.2.trans hhigh)
    have hgap := gmmMargin_gap h (hax.trans hxb) fun g hgm => hg g (hp.mem_iff.mpr hgm)
    have hmono : Monotone (Spec.gmmMargin p μ S j) := fun x y hxy => by
      rw [gmmMargin_eq h, gmmMargin_eq h]
      refine Finset.sum_le_sum fun c _ => mul_le_mul_of_nonneg_left (normCdf_le ?_) (h.nonneg c)
      gcongr
    have h1 := hmono hax
    have h2 := hmono hxb
    have h3 := (abs_le.mp (gmmApprox_close (μ := μ) h j a)).1
    have h4 := (abs_le.mp (gmmApprox_close (μ := μ) h j b)).2
    have h5 := (abs_le.mp (gmmApprox_close (μ := μ) h j a)).2
    have h6 := (abs_le.mp (gmmApprox_close (μ := μ) h j b)).1
    rw [abs_le]
    constructor <;> linarith
  · rw [hpts, hi, if_pos]
    rcases hv with hv | hv
    · exact Or.inl (hv.trans_lt (gmmApprox_mem h j _).1)
    · exact Or.inr ((gmmApprox_mem h j _).2.trans_le hv)
  · rw [hpts, hi]
    split_ifs
    · exact Or.inl rfl
    · exact Or.inr rfl

theorem ppf_nan (h : Spec.IsMixture p S) (j : Fin d) : ppfValue (flParam p μ S) 2000 5 j .nan = .ok .nan := by
  have hF := gmmApprox_strictMono (μ := μ) h j
  have hgrid := ppfGrid_fin (μ := μ) h 2000 5 j
  unfold ppfValue
  rw [hgrid, List.map_map, ← interp1d_nan hF (gridR_ne (μ := μ) h 2000 5 j)]
  congr 1
  refine List.map_congr_left fun g _ => ?_
  simp only [Function.comp_apply, gmmMarginalCdf_fin h]

end Copulae
