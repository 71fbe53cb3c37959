import Verif.Lemmas.GofTest
import Verif.Lemmas.LawsDiffer
import Verif.Props.MarginLaw

/-!
Clayton and Gumbel copulas depend continuously on their parameter; their fits by inversion of Kendall's tau.
-/

namespace Copulae

open MeasureTheory ProbabilityTheory Filter Topology Spec CopulaMeasure

variable {d n : ℕ}

theorem rpow_add_one_le {ι : Type*} [Fintype ι] {w : ι → ℝ} (hw : ∀ j, 0 < w j ∧ w j ≤ 1) {θ : ℝ} (h : 0 < θ) :
    (Fintype.card ι : ℝ) ≤ ∑ j, w j ^ (-θ) := by
  have : ∀ j, 1 ≤ w j ^ (-θ) := fun j => Real.one_le_rpow_of_pos_of_le_one_of_nonpos (hw j).1 (hw j).2 (by linarith)
  calc (Fintype.card ι : ℝ) = ∑ _j : ι, (1 : ℝ) := by simp
    _ ≤ _ := Finset.sum_le_sum fun j _ => this j

theorem copula_continuousAt {F : Family} (hF : F ≠ .frank) {θ : ℝ} (ha : Admissible F θ d) {w : Fin d → ℝ}
    (hw : ∀ j, 0 < w j ∧ w j ≤ 1) : ContinuousAt (fun r => F.copula r w) θ := by
  cases F with
  | frank => exact absurd rfl hF
  | clayton =>
    have h0 : θ ≠ 0 := ha.2.1
    show ContinuousAt (fun r => (max (∑ i, w i ^ (-r) - d + 1) 0) ^ (-1 / r)) θ
    have hb : ContinuousAt (fun r : ℝ => max (∑ i, w i ^ (-r) - d + 1) 0) θ := by
      refine Tendsto.max (((tendsto_finsetSum _ fun i _ => ?_).sub tendsto_const_nhds).add tendsto_const_nhds) tendsto_const_nhds
      exact (Real.continuousAt_const_rpow (hw i).1.ne').comp continuousAt_neg
    have he : ContinuousAt (fun r : ℝ => -1 / r) θ := continuousAt_const.div continuousAt_id h0
    refine hb.rpow he ?_
    rcases lt_or_gt_of_ne h0 with h | h
    · exact Or.inr (div_pos_of_neg_of_neg (by norm_num) h)
    · left
      have := rpow_add_one_le hw h
      rw [Fintype.card_fin] at this
      have h1 : (0 : ℝ) < ∑ i, w i ^ (-θ) - d + 1 := by linarith
      exact (lt_max_of_lt_left h1).ne'
  | gumbel =>
    have h1 : 1 ≤ θ := ha.2
    show ContinuousAt (fun r => Real.exp (-(∑ i, (-Real.log (w i)) ^ r) ^ (1 / r))) θ
    have hb : ContinuousAt (fun r : ℝ => ∑ i, (-Real.log (w i)) ^ r) θ :=
      tendsto_finsetSum _ fun i _ => (continuousAt_const.rpow continuousAt_id (Or.inr (show (0 : ℝ) < θ by linarith)) :
        ContinuousAt (fun r : ℝ => (-Real.log (w i)) ^ r) θ)
    have he : ContinuousAt (fun r : ℝ => 1 / r) θ := continuousAt_const.div continuousAt_id (by linarith)
    exact (hb.rpow he (Or.inr (by positivity))).neg.rexp

theorem distFn_zero {P : Measure (Fin d → ℝ)} [IsProbabilityMeasure P] (hP : Uniform P) {w : Fin d → ℝ} {j : Fin d} (h : w j ≤ 0) :
    distFn P w = 0 := by
  unfold distFn
  rw [measureReal_eq_zero_iff]
  refine measure_mono_null (t := {x | ¬ ∀ j, 0 < x j ∧ x j < 1}) (fun x hx h' => ?_) (ae_iff.mp (uniform_ae' hP))
  linarith [hx j, (h' j).1]

/-- The law of a copula with a close parameter is close, at all points at once. -/
theorem law_near {F : Family} (hF : F ≠ .frank) {θ : ℝ} (ha : Admissible F θ d) {H : Measure (Fin d → ℝ)} (hH : IsLawOf H (F.copula θ))
    {ε : ℝ} (hε : 0 < ε) : ∀ᶠ r in 𝓝 θ, Admissible F r d → ∀ L : Measure (Fin d → ℝ), IsLawOf L (F.copula r) →
      ∀ w : Fin d → ℝ, (∀ j, 0 ≤ w j) → (∀ j, w j ≤ 1) → |distFn L w - distFn H w| < ε := by
  have := hH.prob
  have hu := arch_uniform ha hH
  obtain ⟨m, hm⟩ := exists_nat_gt (2 * (d : ℝ) / ε)
  have hm0 : (0 : ℝ) < m + 1 := by positivity
  have hall : ∀ g : Fin d → Fin (m + 1 + 1), ∀ᶠ r in 𝓝 θ, (∀ j, 0 < cubeGrid (m + 1) g j) →
      |F.copula r (cubeGrid (m + 1) g) - F.copula θ (cubeGrid (m + 1) g)| < ε / 2 := by
    intro g
    by_cases hg : ∀ j, 0 < cubeGrid (m + 1) g j
    · have hc := copula_continuousAt hF ha (w := cubeGrid (m + 1) g) fun j => ⟨hg j, (cubeGrid_mem (Nat.succ_pos m) g j).2⟩
      filter_upwards [Metric.tendsto_nhds.mp hc (ε / 2) (half_pos hε)] with r hr _
      rwa [Real.dist_eq] at hr
    · exact Eventually.of_forall fun r h => absurd h hg
  filter_upwards [eventually_all.mpr hall] with r hr har L hL w h0 h1
  have := hL.prob
  have huL := arch_uniform har hL
  have key := close_of_grid hu (C := distFn L) (fun v w _ hvw _ => distFn_mono L hvw) (Nat.succ_pos m) (ε := ε / 2) (fun g => ?_) h0 h1
  · have h12 : (d : ℝ) / ((m + 1 : ℕ) : ℝ) ≤ ε / 2 := by
      push_cast
      rw [div_le_div_iff₀ hm0 two_pos]
      rw [div_lt_iff₀ hε] at hm
      nlinarith
    linarith
  · by_cases hg : ∀ j, 0 < cubeGrid (m + 1) g j
    · have hgm : ∀ j, 0 < cubeGrid (m + 1) g j ∧ cubeGrid (m + 1) g j ≤ 1 := fun j => ⟨hg j, (cubeGrid_mem (Nat.succ_pos m) g j).2⟩
      rw [hL.dist _ hgm, hH.dist _ hgm]
      exact hr g hg
    · push Not at hg
      obtain ⟨j, hj⟩ := hg
      rw [distFn_zero huL hj, distFn_zero hu hj, sub_zero, abs_zero]
      exact half_pos hε

/-- Parameters inside the range of the family. -/
def Within (F : Family) (θ : ℝ) (d : ℕ) : Prop :=
  Admissible F θ d ∧
  match F with
  | .clayton => -1 < θ
  | .gumbel => 1 < θ
  | .frank => True

theorem inner_near {F : Family} {θ : ℝ} (h : Within F θ d) : ∀ᶠ r in 𝓝 θ, Within F r d := by
  obtain ⟨⟨h2, h⟩, h'⟩ := h
  cases F with
  | clayton =>
    obtain ⟨h0, -, hd⟩ := h
    have h1 : -1 < θ := h'
    have e1 : ∀ᶠ r in 𝓝 θ, -1 < r := lt_mem_nhds h1
    have e2 : ∀ᶠ r in 𝓝 θ, r ≠ 0 := isOpen_ne.mem_nhds h0
    by_cases h3 : d = 2
    · filter_upwards [e1, e2] with r hr1 hr2
      exact ⟨⟨h2, hr2, hr1.le, fun h => absurd h3 h⟩, hr1⟩
    · filter_upwards [e1, e2, lt_mem_nhds (hd h3)] with r hr1 hr2 hr3
      exact ⟨⟨h2, hr2, hr1.le, fun _ => hr3⟩, hr1⟩
  | gumbel =>
    have h1 : 1 < θ := h'
    filter_upwards [lt_mem_nhds h1] with r hr
    exact ⟨⟨h2, hr.le⟩, hr⟩
  | frank =>
    obtain ⟨h0, h1, hd⟩ := h
    have e1 : ∀ᶠ r in 𝓝 θ, -36 < r := lt_mem_nhds h1
    have e2 : ∀ᶠ r in 𝓝 θ, r ≠ 0 := isOpen_ne.mem_nhds h0
    by_cases h3 : d = 2
    · filter_upwards [e1, e2] with r hr1 hr2
      exact ⟨⟨h2, hr2, hr1, fun h => absurd h3 h⟩, trivial⟩
    · filter_upwards [e1, e2, lt_mem_nhds (hd h3)] with r hr1 hr2 hr3
      exact ⟨⟨h2, hr2, hr1, fun _ => hr3⟩, trivial⟩

theorem archTau_near {F : Family} (hF : F ≠ .frank) {θ : ℝ} (h : Within F θ d) {ε : ℝ} (hε : 0 < ε) :
    ∀ᶠ r in 𝓝 θ, |archTau F r - archTau F θ| < ε := by
  have hc : ContinuousAt (archTau F) θ := by
    cases F with
    | frank => exact absurd rfl hF
    | clayton =>
      have h1 : -1 < θ := h.2
      exact continuousAt_id.div (continuousAt_id.add continuousAt_const) (by show θ + 2 ≠ 0; linarith)
    | gumbel =>
      have h1 : 1 < θ := h.2
      exact continuousAt_const.sub (continuousAt_const.div continuousAt_id (by show θ ≠ 0; linarith))
  filter_upwards [Metric.tendsto_nhds.mp hc ε hε] with r hr
  rwa [Real.dist_eq] at hr

theorem setParams_inner {F : Family} {r : ℝ} (h : Within F r d) {st : ArchState} (hdim : st.dim = d) :
    (F.setParams st (.fin r)).2 = none := by
  obtain ⟨⟨h2, h⟩, h'⟩ := h
  cases F with
  | clayton =>
    obtain ⟨h0, h1, hd⟩ := h
    simp only [Family.setParams]
    rw [if_neg (by rw [Fl.fin_lt_fin]; rintro ⟨-, h⟩; linarith)]
    by_cases h3 : d = 2
    · rw [if_neg (by rw [hdim]; omega)]
    · have := hd h3
      rw [if_neg (by rw [Fl.fin_lt_fin]; rintro ⟨-, h⟩; linarith)]
  | gumbel =>
    have h1 : 1 < r := h'
    simp only [Family.setParams]
    rw [if_neg (by rw [Fl.fin_lt_fin]; linarith)]
  | frank =>
    obtain ⟨h0, h1, hd⟩ := h
    simp only [Family.setParams]
    by_cases h3 : d = 2
    · rw [if_neg (by rw [hdim]; omega)]
    · have := hd h3
      rw [if_neg (by rw [Fl.fin_lt_fin]; rintro ⟨-, h⟩; linarith)]

end Copulae
