import Mathlib.Analysis.Convex.Jensen
import Mathlib.Analysis.Convex.SpecificFunctions.Basic
import Mathlib.Probability.CDF
import Mathlib.Probability.Distributions.Gaussian.Real
import Verif.Model.Gmc

/-!
C93: density and distribution function of the Gaussian mixture copula. C20: its logarithms.
-/

namespace Copulae

open MeasureTheory ProbabilityTheory

variable {m d : ℕ}

theorem gmcPdfRow_value (s : GMCParam m d) {w f : Fin m → ℝ} (hw : s.prob = fun c => .fin (w c))
    (logf : Fin m → Fl) :
    gmcPdfRow s (fun c => .fin (f c)) logf false = .fin (∑ c, w c * f c) := by
  unfold gmcPdfRow
  simp only [hw, Bool.false_eq_true, if_false, Fl.fin_mul_fin, Fl.sum_fin]

theorem gmcPdfRow_log (s : GMCParam m d) {w g : Fin m → ℝ} (hw : s.prob = fun c => .fin (w c))
    (f : Fin m → Fl) :
    gmcPdfRow s f (fun c => .fin (g c)) true = .fin (∑ c, w c * g c) := by
  unfold gmcPdfRow
  simp only [hw, if_true, Fl.fin_mul_fin, Fl.sum_fin]

/-- C20 fails for the Gaussian mixture copula: the value with `log=True` is the weighted mean of the
logarithms. It is strictly below the logarithm of the density as soon as two components have different
densities at the point, and equal to it otherwise. -/
theorem gmcPdf_log_jensen (s : GMCParam m d) {w f : Fin m → ℝ} (hw : s.prob = fun c => .fin (w c))
    (h0 : ∀ c, 0 < w c) (h1 : ∑ c, w c = 1) (hf : ∀ c, 0 < f c) :
    ∃ a b : ℝ, gmcPdfRow s (fun c => .fin (f c)) (fun c => .fin (Real.log (f c))) true = .fin a ∧
      Fl.log (gmcPdfRow s (fun c => .fin (f c)) (fun c => .fin (Real.log (f c))) false) = .fin b ∧
      a ≤ b ∧ (a < b ↔ ∃ c c', f c ≠ f c') := by
  have hpos : 0 < ∑ c, w c * f c := by
    have hm : (Finset.univ : Finset (Fin m)).Nonempty := by
      by_contra hc
      rw [Finset.not_nonempty_iff_eq_empty] at hc
      rw [hc] at h1
      simp at h1
    exact Finset.sum_pos (fun c _ => mul_pos (h0 c) (hf c)) hm
  refine ⟨_, _, gmcPdfRow_log s hw _, by rw [gmcPdfRow_value s hw, Fl.log_pos hpos], ?_, ?_⟩
  · simpa only [smul_eq_mul] using strictConcaveOn_log_Ioi.concaveOn.le_map_sum (t := Finset.univ)
      (w := w) (p := f) (fun c _ => (h0 c).le) h1 fun c _ => hf c
  · have := strictConcaveOn_log_Ioi.lt_map_sum_iff_of_pos (t := Finset.univ)
      (w := w) (p := f) (fun c _ => h0 c) h1 fun c _ => hf c
    simpa only [smul_eq_mul, Finset.mem_univ, true_and] using this

example := gmcPdf_log_jensen (m := 2) (d := 1) ⟨fun c => .fin (![1 / 4, 3 / 4] c), fun _ _ => .fin 0, fun _ _ _ => .fin 1⟩
  (w := ![1 / 4, 3 / 4]) (f := ![1, 2]) rfl (by intro c; fin_cases c <;> norm_num) (by norm_num [Fin.sum_univ_two])
  (by intro c; fin_cases c <;> norm_num)

/-- Two clusters with equal probabilities. -/
noncomputable def twoClusters : GMCParam 2 2 := ⟨fun _ => .fin (1 / 2), fun _ _ => .fin 0, fun _ a b =>
  .fin (if a = b then 1 else 0)⟩

/-- Two clusters with densities 1 and 2 at a point. -/
theorem gmcPdf_log_wrong : gmcPdfRow twoClusters (fun c => .fin (if c = 0 then 1 else 2))
      (fun c => .fin (Real.log (if c = 0 then 1 else 2))) true ≠
    Fl.log (gmcPdfRow twoClusters (fun c => .fin (if c = 0 then 1 else 2))
      (fun c => .fin (Real.log (if c = 0 then 1 else 2))) false) := by
  obtain ⟨a, b, ha, hb, -, h⟩ := gmcPdf_log_jensen twoClusters (w := fun _ => 1 / 2)
    (f := fun c : Fin 2 => if c = 0 then 1 else 2) rfl (fun _ => by norm_num)
    (by rw [Fin.sum_univ_two]; norm_num) (fun c => by split_ifs <;> norm_num)
  rw [ha, hb]
  intro hc
  have := Fl.fin.inj hc
  have := h.mpr ⟨0, 1, by simp⟩
  linarith

/-- C93: the density is a convex combination of the densities of the components: it is finite,
non-negative and lies between the smallest and the largest of them. -/
theorem gmcPdf_mixture_partial (s : GMCParam m d) {w f : Fin m → ℝ} (hw : s.prob = fun c => .fin (w c))
    (h0 : ∀ c, 0 ≤ w c) (h1 : ∑ c, w c = 1) {lo hi : ℝ} (hlo : ∀ c, lo ≤ f c) (hhi : ∀ c, f c ≤ hi)
    (logf : Fin m → Fl) :
    ∃ y, gmcPdfRow s (fun c => .fin (f c)) logf false = .fin y ∧ y = ∑ c, w c * f c ∧ lo ≤ y ∧ y ≤ hi := by
  refine ⟨_, gmcPdfRow_value s hw logf, rfl, ?_, ?_⟩
  · calc lo = ∑ c, w c * lo := by rw [← Finset.sum_mul, h1, one_mul]
      _ ≤ _ := Finset.sum_le_sum fun c _ => mul_le_mul_of_nonneg_left (hlo c) (h0 c)
  · calc _ ≤ ∑ c, w c * hi := Finset.sum_le_sum fun c _ => mul_le_mul_of_nonneg_left (hhi c) (h0 c)
      _ = hi := by rw [← Finset.sum_mul, h1, one_mul]

example (logf : Fin 2 → Fl) := gmcPdf_mixture_partial (m := 2) (d := 1)
  ⟨fun c => .fin (![1 / 4, 3 / 4] c), fun _ _ => .fin 0, fun _ _ _ => .fin 1⟩
  (w := ![1 / 4, 3 / 4]) (f := ![1, 2]) rfl (by intro c; fin_cases c <;> norm_num) (by norm_num [Fin.sum_univ_two])
  (lo := 1) (hi := 2) (by intro c; fin_cases c <;> norm_num) (by intro c; fin_cases c <;> norm_num) logf

/-- C93: the same for the distribution function. -/
theorem gmcCdf_mixture_partial (s : GMCParam m d) {w F : Fin m → ℝ} (hw : s.prob = fun c => .fin (w c))
    (h0 : ∀ c, 0 ≤ w c) (h1 : ∑ c, w c = 1) {lo hi : ℝ} (hlo : ∀ c, lo ≤ F c) (hhi : ∀ c, F c ≤ hi)
    (logF : Fin m → Fl) :
    ∃ y, gmcCdfRow s (fun c => .fin (F c)) logF false = .fin y ∧ y = ∑ c, w c * F c ∧ lo ≤ y ∧ y ≤ hi :=
  gmcPdf_mixture_partial s hw h0 h1 hlo hhi logF

example (logF : Fin 2 → Fl) := gmcCdf_mixture_partial (m := 2) (d := 1)
  ⟨fun c => .fin (![1 / 4, 3 / 4] c), fun _ _ => .fin 0, fun _ _ _ => .fin 1⟩
  (w := ![1 / 4, 3 / 4]) (F := ![0, 1 / 2]) rfl (by intro c; fin_cases c <;> norm_num) (by norm_num [Fin.sum_univ_two])
  (lo := 0) (hi := 1) (by intro c; fin_cases c <;> norm_num) (by intro c; fin_cases c <;> norm_num) logF

/-- C93 fails: if the component distribution functions are strictly between 0 and 1 (as those of normal
distributions are, see `normal_cdf_Ioo`), the distribution function is positive where a coordinate is zero
and below one at (1, ..., 1): it is not a copula. -/
theorem gmcCdf_not_copula (s : GMCParam m d) {w : Fin m → ℝ} {F : Fin m → (Fin d → ℝ) → ℝ}
    (hw : s.prob = fun c => .fin (w c)) (h0 : ∀ c, 0 < w c) (h1 : ∑ c, w c = 1)
    (hF : ∀ c u, 0 < F c u ∧ F c u < 1) (u : Fin d → ℝ) (logF : Fin m → Fl) :
    ∃ y, gmcCdfRow s (fun c => .fin (F c u)) logF false = .fin y ∧ 0 < y ∧ y < 1 := by
  have hm : (Finset.univ : Finset (Fin m)).Nonempty := by
    by_contra hc
    rw [Finset.not_nonempty_iff_eq_empty] at hc
    rw [hc] at h1
    simp at h1
  refine ⟨∑ c, w c * F c u, gmcPdfRow_value s hw logF, ?_, ?_⟩
  · exact Finset.sum_pos (fun c _ => mul_pos (h0 c) (hF c u).1) hm
  · rw [← h1]
    refine Finset.sum_lt_sum_of_nonempty hm fun c _ => ?_
    nlinarith [h0 c, (hF c u).2]

/-- The distribution function of independent normal variables is strictly between 0 and 1. -/
theorem normal_cdf_Ioo (hd : 0 < d) (μ : Fin d → ℝ) {v : NNReal} (hv : v ≠ 0) (x : Fin d → ℝ) :
    0 < ∏ j, cdf (gaussianReal (μ j) v) (x j) ∧ ∏ j, cdf (gaussianReal (μ j) v) (x j) < 1 := by
  have key : ∀ (a t : ℝ), 0 < cdf (gaussianReal a v) t ∧ cdf (gaussianReal a v) t < 1 := by
    intro a t
    have hpos : ∀ s : Set ℝ, volume s ≠ 0 → gaussianReal a v s ≠ 0 := fun s hs h =>
      hs ((gaussianReal_absolutelyContinuous' a hv) h)
    rw [cdf_eq_real]
    constructor
    · refine (measureReal_nonneg).lt_of_ne' ?_
      rw [measureReal_def, ENNReal.toReal_ne_zero]
      exact ⟨hpos _ (by simp), measure_ne_top _ _⟩
    · have h2 : (gaussianReal a v).real (Set.Ioi t) ≠ 0 := by
        rw [measureReal_def, ENNReal.toReal_ne_zero]
        exact ⟨hpos _ (by simp), measure_ne_top _ _⟩
      have h3 := measureReal_add_measureReal_compl (μ := gaussianReal a v) (measurableSet_Iic (a := t))
      rw [Set.compl_Iic] at h3
      simp at h3
      have h4 : 0 < (gaussianReal a v).real (Set.Ioi t) := measureReal_nonneg.lt_of_ne' h2
      linarith
  refine ⟨Finset.prod_pos fun j _ => (key _ _).1, ?_⟩
  calc _ < ∏ _j : Fin d, (1 : ℝ) := Finset.prod_lt_prod_of_nonempty (fun j _ => (key _ _).1)
        (fun j _ => (key _ _).2) ⟨⟨0, hd⟩, Finset.mem_univ _⟩
    _ = 1 := by simp

/-- Two clusters of two independent normal variables: the value at (0, 1) is not zero. -/
example : ∃ y, gmcCdfRow twoClusters (fun c => .fin (∏ j : Fin 2, cdf (gaussianReal (c : ℕ) 1) (![0, 1] j)))
    (fun _ => .nan) false = .fin y ∧ y ≠ 0 := by
  obtain ⟨y, h, h1, -⟩ := gmcCdf_not_copula twoClusters (w := fun _ => 1 / 2)
    (F := fun c u => ∏ j : Fin 2, cdf (gaussianReal (c : ℕ) 1) (u j)) rfl (fun _ => by norm_num)
    (by rw [Fin.sum_univ_two]; norm_num) (fun c u => normal_cdf_Ioo (by norm_num) _ one_ne_zero u) ![0, 1] fun _ => .nan
  exact ⟨y, h, h1.ne'⟩

end Copulae
