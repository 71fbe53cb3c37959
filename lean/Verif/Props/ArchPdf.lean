import Mathlib.Data.List.OfFn
import Mathlib.Data.List.FinRange
import Verif.Lemmas.PdfFrank
import Verif.Lemmas.PdfGumbelRow
import Verif.Props.ArchCdf

/-!
Properties C18, C19 and the density parts of C14 and C20: densities of the Archimedean copulas
(`pdf` of `clayton.py`, `frank.py`, `gumbel.py`) and of the independence copula.
-/

namespace Copulae

open Finset Spec

/-- The open unit cube. -/
def cube (d : ℕ) : Set (Fin d → ℝ) := {x | ∀ j, 0 < x j ∧ x j < 1}

/-- `g` is the function computed by `pdf` on `U`, for batches of any size, plain and logarithmic. -/
def PdfComputes (F : Family) (θ : ℝ) (d : ℕ) (U : Set (Fin d → ℝ)) (g : (Fin d → ℝ) → ℝ) : Prop :=
  ∀ (n : ℕ) (x : Fin n → Fin d → ℝ), (∀ i, x i ∈ U) →
    archPdf F θ d (fun i j => .fin (x i j)) false = .ok (fun i => .fin (g (x i))) ∧
    archPdf F θ d (fun i j => .fin (x i j)) true = .ok (fun i => Fl.log (.fin (g (x i))))

theorem cube_pos {d : ℕ} {x : Fin d → ℝ} (h : x ∈ cube d) : ¬ ∃ j, x j = 0 := by
  rintro ⟨j, hj⟩
  exact (h j).1.ne' hj

theorem isOpen_cube (d : ℕ) : IsOpen (cube d) := by
  have : cube d = ⋂ j, {x | 0 < x j ∧ x j < 1} := by ext x; simp [cube]
  rw [this]
  refine isOpen_iInter_of_finite fun j => ?_
  exact (isOpen_lt continuous_const (continuous_apply j)).inter
    (isOpen_lt (continuous_apply j) continuous_const)

/-! ### C18 -/

theorem claytonPhi_pos_eq {θ : ℝ} (h : 0 < θ) (u : ℝ) : claytonPhi θ u = u ^ (-θ) - 1 := by
  rw [claytonPhi, _root_.sign_pos h]
  simp

theorem claytonPhi_neg_eq {θ : ℝ} (h : θ < 0) (u : ℝ) : claytonPhi θ u = 1 - u ^ (-θ) := by
  rw [claytonPhi, _root_.sign_neg h]
  simp

theorem claytonPdf_pos {θ : ℝ} (h : 0 < θ) {d n : ℕ} (x : Fin n → Fin d → ℝ)
    (hx : ∀ i, x i ∈ cube d) (log : Bool) :
    claytonPdf θ d (fun i j => .fin (x i j)) log = .ok fun i =>
      if log then claytonLogPos θ (fun j => Fl.fin (x i j))
      else Fl.exp (claytonLogPos θ (fun j => Fl.fin (x i j))) := by
  unfold claytonPdf
  rw [if_neg (by simp)]
  by_cases hn : ∃ i, validRow fun j => Fl.fin (x i j)
  · rw [if_neg (not_not.mpr hn), if_neg h.ne', if_neg (not_lt.mpr h.le)]
  · rw [if_pos hn]
    refine congrArg Except.ok (funext fun i => ?_)
    exact absurd ⟨i, validRow_fin fun j => ⟨(hx i j).1.le, (hx i j).2.le⟩⟩ hn

theorem clayton_pdfComputes {θ : ℝ} (h : 0 < θ) {d : ℕ} :
    PdfComputes .clayton θ d (cube d) fun x =>
      Real.exp (∑ j ∈ range (d - 1), Real.log (1 + θ * ((j : ℝ) + 1)) -
        (1 + θ) * ∑ j, Real.log (x j) - (d + 1 / θ) * Real.log (1 + ∑ j, (x j ^ (-θ) - 1))) := by
  intro n x hx
  simp only [archPdf]
  rw [claytonPdf_pos h x hx, claytonPdf_pos h x hx]
  refine ⟨congrArg Except.ok (funext fun i => ?_), congrArg Except.ok (funext fun i => ?_)⟩
  · simp only [Bool.false_eq_true, if_false]
    rw [claytonLogPos_fin h (hx i), Fl.exp_fin]
  · simp only [if_true]
    rw [claytonLogPos_fin h (hx i), Fl.log_pos (Real.exp_pos _), Real.log_exp]

/-- **C18** Clayton with a positive parameter, any dimension: the density returned is the mixed
derivative of the function returned by `cdf`, on the whole open cube. -/
theorem clayton_pdf_mixed {θ : ℝ} (h : 0 < θ) {d : ℕ} (hd : 2 ≤ d) :
    ∃ C g, Computes .clayton θ d C ∧ PdfComputes .clayton θ d (cube d) g ∧
      IsDensityOn (cube d) C g ∧ ∀ x ∈ cube d, 0 < g x := by
  have hadm : Admissible .clayton θ d := ⟨hd, h.ne', by linarith, fun _ => h⟩
  refine ⟨_, fun x => Real.exp (∑ j ∈ range (d - 1), Real.log (1 + θ * ((j : ℝ) + 1)) -
      (1 + θ) * ∑ j, Real.log (x j) - (d + 1 / θ) * Real.log (1 + ∑ j, (x j ^ (-θ) - 1))),
    computes_genC hadm, ?_, ?_, fun x _ => Real.exp_pos _⟩
  · exact clayton_pdfComputes h
  · have hden := isDensityOn_gen (d := d) (I := Set.Ioo 0 1) (T := Set.Ioi (-1))
      (φ := fun u => u ^ (-θ) - 1) (φ' := fun u => -θ * u ^ (-θ - 1))
      (ψ := fun k s => ((1 : ℝ) ^ k * ∏ i ∈ range k, (-1 / θ - (i : ℝ))) * (1 + 1 * s) ^ (-1 / θ - k))
      (C := genC (Family.phi .clayton θ) (Family.psiR .clayton θ))
      (fun u hu => ((Real.hasDerivAt_rpow_const (Or.inl hu.1.ne')).sub_const 1))
      (fun k s hs => by
        refine hasDerivAt_power 1 (-1 / θ) k ?_
        have : -1 < s := hs
        linarith)
      (fun x hx hs => by
        have hz : ¬ ∃ j, x j = 0 := by
          rintro ⟨j, hj⟩
          exact (hx j).1.ne' hj
        have hs' : -1 < ∑ j, (x j ^ (-θ) - 1) := hs
        rw [genC, if_neg hz]
        simp only [Family.phi, Family.psiR, claytonPsiR, claytonPhi_pos_eq h, _root_.sign_pos h,
          SignType.coe_one, one_mul, pow_zero, range_zero, prod_empty, mul_one, Nat.cast_zero,
          sub_zero]
        rw [max_eq_left (by linarith)])
    refine isDensityOn_congr (isDensityOn_mono hden ?_) ?_
    · intro x hx
      refine ⟨fun j => ⟨(hx j).1, (hx j).2⟩, ?_⟩
      have := clayton_sum_pos h hx
      exact lt_of_lt_of_le (by norm_num : (-1 : ℝ) < 0) this
    · intro x hx
      exact (clayton_density_pos h (by omega) hx).symm

example := clayton_pdf_mixed (θ := 2) (by norm_num) (d := 4) (by norm_num)

/-- The part of the open square where a Clayton copula with negative parameter is positive. -/
def claytonSupport (θ : ℝ) : Set (Fin 2 → ℝ) := {x | x ∈ cube 2 ∧ 1 < x 0 ^ (-θ) + x 1 ^ (-θ)}

/-- The interior of the part where it vanishes. -/
def claytonZero (θ : ℝ) : Set (Fin 2 → ℝ) := {x | x ∈ cube 2 ∧ x 0 ^ (-θ) + x 1 ^ (-θ) < 1}

theorem isOpen_claytonSupport (θ : ℝ) : IsOpen (claytonSupport θ) ∧ IsOpen (claytonZero θ) := by
  have hc : ContinuousOn (fun x : Fin 2 → ℝ => x 0 ^ (-θ) + x 1 ^ (-θ)) (cube 2) := by
    refine ContinuousOn.add ?_ ?_
    · exact ContinuousOn.rpow_const (continuous_apply 0).continuousOn fun x hx => Or.inl (hx 0).1.ne'
    · exact ContinuousOn.rpow_const (continuous_apply 1).continuousOn fun x hx => Or.inl (hx 1).1.ne'
  constructor
  · exact hc.isOpen_inter_preimage (isOpen_cube 2) (isOpen_Ioi (a := 1))
  · exact hc.isOpen_inter_preimage (isOpen_cube 2) (isOpen_Iio (a := 1))

theorem claytonPdf_neg {θ : ℝ} (h : θ < 0) {n : ℕ} (x : Fin n → Fin 2 → ℝ)
    (hx : ∀ i, x i ∈ cube 2) (log : Bool) :
    claytonPdf θ 2 (fun i j => .fin (x i j)) log = .ok fun i =>
      if log then (if ¬ (∑ j, (1 - x i j ^ (-θ))) < 1 then .ninf
        else claytonLogNeg θ (fun j => Fl.fin (x i j)))
      else Fl.exp (if ¬ (∑ j, (1 - x i j ^ (-θ))) < 1 then .ninf
        else claytonLogNeg θ (fun j => Fl.fin (x i j))) := by
  unfold claytonPdf
  rw [if_neg (by simp)]
  by_cases hn : ∃ i, validRow fun j => Fl.fin (x i j)
  · rw [if_neg (not_not.mpr hn), if_neg h.ne, if_pos h]
    refine congrArg Except.ok (funext fun i => ?_)
    have hv : validRow fun j => Fl.fin (x i j) :=
      validRow_fin fun j => ⟨(hx i j).1.le, (hx i j).2.le⟩
    have e : ∑ j, claytonIpsi θ (Fl.fin (x i j)) = .fin (∑ j, (1 - x i j ^ (-θ))) := by
      rw [← Fl.sum_fin]
      refine sum_congr rfl fun j _ => ?_
      rw [claytonIpsi_fin (hx i j).1, claytonPhi_neg_eq h]
    simp only [hv, not_true_eq_false, if_false, e, Fl.fin_lt_fin]
  · rw [if_pos hn]
    refine congrArg Except.ok (funext fun i => ?_)
    exact absurd ⟨i, validRow_fin fun j => ⟨(hx i j).1.le, (hx i j).2.le⟩⟩ hn

/-- **C18** Clayton with a negative parameter (dimension two), on the two open sets where the
distribution function is differentiable; `theta = -1` is included. -/
theorem clayton_pdf_mixed_neg {θ : ℝ} (h1 : -1 ≤ θ) (h : θ < 0) :
    ∃ C g, Computes .clayton θ 2 C ∧
      PdfComputes .clayton θ 2 (claytonSupport θ) g ∧ IsDensityOn (claytonSupport θ) C g ∧
      PdfComputes .clayton θ 2 (claytonZero θ) (fun _ => 0) ∧
      IsDensityOn (claytonZero θ) C (fun _ => 0) ∧ ∀ x ∈ claytonSupport θ, 0 ≤ g x := by
  have hadm : Admissible .clayton θ 2 := ⟨le_rfl, h.ne, h1, fun h => absurd rfl h⟩
  have hφ : ∀ u ∈ Set.Ioo (0 : ℝ) 1, HasDerivAt (fun u : ℝ => 1 - u ^ (-θ)) (θ * u ^ (-θ - 1)) u := by
    intro u hu
    refine ((Real.hasDerivAt_rpow_const (p := -θ) (Or.inl hu.1.ne')).const_sub 1).congr_deriv ?_
    ring
  have hgen : ∀ x : Fin 2 → ℝ, (∀ j, x j ∈ Set.Ioo (0 : ℝ) 1) →
      genC (Family.phi .clayton θ) (Family.psiR .clayton θ) x =
        (max (1 - ∑ j, (1 - x j ^ (-θ))) 0) ^ (-1 / θ) := by
    intro x hx
    have hz : ¬ ∃ j, x j = 0 := by
      rintro ⟨j, hj⟩
      exact (hx j).1.ne' hj
    rw [genC, if_neg hz]
    simp only [Family.phi, Family.psiR, claytonPsiR, claytonPhi_neg_eq h, _root_.sign_neg h,
      SignType.coe_neg, SignType.coe_one]
    congr 2
    ring
  have hsum : ∀ x : Fin 2 → ℝ, ∑ j, (1 - x j ^ (-θ)) = 2 - (x 0 ^ (-θ) + x 1 ^ (-θ)) := by
    intro x
    rw [Fin.sum_univ_two]
    ring
  -- the density on the support
  have hden := isDensityOn_gen (d := 2) (I := Set.Ioo 0 1) (T := Set.Iio 1)
    (φ := fun u => 1 - u ^ (-θ)) (φ' := fun u => θ * u ^ (-θ - 1))
    (ψ := fun k s => ((-1 : ℝ) ^ k * ∏ i ∈ range k, (-1 / θ - (i : ℝ))) * (1 + (-1) * s) ^ (-1 / θ - k))
    (C := genC (Family.phi .clayton θ) (Family.psiR .clayton θ)) hφ
    (fun k s hs => by
      refine hasDerivAt_power (-1) (-1 / θ) k ?_
      have : s < 1 := hs
      linarith)
    (fun x hx hs => by
      have hs' : ∑ j, (1 - x j ^ (-θ)) < 1 := hs
      rw [hgen x hx, max_eq_left (by linarith)]
      simp only [pow_zero, range_zero, prod_empty, mul_one, Nat.cast_zero, sub_zero, one_mul]
      congr 1
      ring)
  refine ⟨_, fun x => ((-1 : ℝ) ^ 2 * ∏ i ∈ range 2, (-1 / θ - (i : ℝ))) *
      (1 + (-1) * ∑ j, (1 - x j ^ (-θ))) ^ (-1 / θ - (2 : ℕ)) * ∏ j, (θ * x j ^ (-θ - 1)),
    computes_genC hadm, ?_, ?_, ?_, ?_, ?_⟩
  · intro n x hx
    have hcube : ∀ i, x i ∈ cube 2 := fun i => (hx i).1
    have hlt : ∀ i, ∑ j, (1 - x i j ^ (-θ)) < 1 := by
      intro i
      rw [hsum]
      linarith [(hx i).2]
    simp only [archPdf]
    rw [claytonPdf_neg h x hcube, claytonPdf_neg h x hcube]
    simp only [hlt, not_true_eq_false, if_false, if_true, Bool.false_eq_true]
    rcases h1.eq_or_lt with he | hl
    · subst he
      have hz : ∏ i ∈ range 2, (-1 / (-1 : ℝ) - (i : ℝ)) = 0 := by
        rw [prod_range_succ, prod_range_succ]; norm_num
      refine ⟨congrArg Except.ok (funext fun i => ?_), congrArg Except.ok (funext fun i => ?_)⟩
      · rw [claytonLogNeg_one (hcube i) (hlt i), hz]
        simp
      · rw [claytonLogNeg_one (hcube i) (hlt i), hz]
        simp
    · refine ⟨congrArg Except.ok (funext fun i => ?_), congrArg Except.ok (funext fun i => ?_)⟩
      · rw [claytonLogNeg_fin hl h (hcube i) (hlt i), Fl.exp_fin,
          clayton_density_neg hl h (hcube i) (hlt i)]
      · rw [claytonLogNeg_fin hl h (hcube i) (hlt i), ← clayton_density_neg hl h (hcube i) (hlt i),
          Fl.log_pos (Real.exp_pos _), Real.log_exp]
  · refine isDensityOn_mono hden ?_
    rintro x ⟨hx, hs⟩
    refine ⟨fun j => ⟨(hx j).1, (hx j).2⟩, ?_⟩
    simp only [Set.mem_Iio]
    rw [hsum]
    linarith
  · intro n x hx
    have hcube : ∀ i, x i ∈ cube 2 := fun i => (hx i).1
    have hlt : ∀ i, ¬ ∑ j, (1 - x i j ^ (-θ)) < 1 := by
      intro i
      rw [hsum]
      linarith [(hx i).2]
    simp only [archPdf]
    rw [claytonPdf_neg h x hcube, claytonPdf_neg h x hcube]
    simp only [hlt, not_false_eq_true, if_true, Bool.false_eq_true, if_false, Fl.exp_ninf,
      Fl.log_zero, and_self]
  · have hden0 := isDensityOn_gen (d := 2) (I := Set.Ioo 0 1) (T := Set.Ioi 1)
      (φ := fun u => 1 - u ^ (-θ)) (φ' := fun u => θ * u ^ (-θ - 1)) (ψ := fun _ _ => 0)
      (C := genC (Family.phi .clayton θ) (Family.psiR .clayton θ)) hφ
      (fun k s hs => hasDerivAt_const s 0)
      (fun x hx hs => by
        have hs' : 1 < ∑ j, (1 - x j ^ (-θ)) := hs
        rw [hgen x hx, max_eq_right (by linarith), Real.zero_rpow]
        exact (div_pos_of_neg_of_neg (by norm_num) h).ne')
    refine isDensityOn_congr (isDensityOn_mono hden0 ?_) fun x _ => zero_mul _
    rintro x ⟨hx, hs⟩
    refine ⟨fun j => ⟨(hx j).1, (hx j).2⟩, ?_⟩
    simp only [Set.mem_Ioi]
    rw [hsum]
    linarith
  · rintro x ⟨hx, hs⟩
    have hlt : ∑ j, (1 - x j ^ (-θ)) < 1 := by rw [hsum]; linarith
    rcases h1.eq_or_lt with he | hl
    · subst he
      have hz : ∏ i ∈ range 2, (-1 / (-1 : ℝ) - (i : ℝ)) = 0 := by
        rw [prod_range_succ, prod_range_succ]; norm_num
      simp only [hz]
      simp
    · simp only
      rw [← clayton_density_neg hl h hx hlt]
      exact (Real.exp_pos _).le

example := clayton_pdf_mixed_neg (θ := -1 / 2) (by norm_num) (by norm_num)

theorem gumbel_pdfComputes {θ : ℝ} (h : 1 ≤ θ) {d : ℕ} (hd : 2 ≤ d) :
    PdfComputes .gumbel θ d (cube d) (gumbelDensity θ) := by
  have hθ : 0 < θ := by linarith
  intro n x hx
  simp only [archPdf, gumbelPdf]
  rcases h.eq_or_lt with he | hl
  · subst he
    simp only [ne_eq, not_true_eq_false, if_false, if_true]
    refine ⟨congrArg Except.ok (funext fun i => ?_), congrArg Except.ok (funext fun i => ?_)⟩
    · rw [if_pos (validRow_fin fun j => ⟨(hx i j).1.le, (hx i j).2.le⟩),
        gumbelDensity_one (by omega) (hx i)]
      rfl
    · rw [if_pos (validRow_fin fun j => ⟨(hx i j).1.le, (hx i j).2.le⟩),
        gumbelDensity_one (by omega) (hx i), Fl.log_pos one_pos, Real.log_one]
  · have hrows : rowsM (gumbelLogRow θ) (fun i j => Fl.fin (x i j)) =
        .ok fun i => .fin (Real.log (gumbelDensity θ (x i))) :=
      rowsM_ok fun i => gumbelLogRow_fin hl hd (hx i)
    have hα : 0 < 1 / θ ∧ 1 / θ ≤ 1 := ⟨by positivity, by rw [div_le_one hθ]; exact h⟩
    simp only [ne_eq, not_true_eq_false, if_false, hl.ne', hθ.ne', hα, and_self, hrows, bind,
      Except.bind, pure, Except.pure, if_true, Bool.false_eq_true]
    refine ⟨congrArg Except.ok (funext fun i => ?_), congrArg Except.ok (funext fun i => ?_)⟩
    · rw [Fl.exp_fin, Real.exp_log (gumbelDensity_pos h (by omega) (hx i))]
    · rw [Fl.log_pos (gumbelDensity_pos h (by omega) (hx i))]

/-- **C18** Gumbel, any admissible parameter and dimension. -/
theorem gumbel_pdf_mixed {θ : ℝ} (h : 1 ≤ θ) {d : ℕ} (hd : 2 ≤ d) :
    ∃ C g, Computes .gumbel θ d C ∧ PdfComputes .gumbel θ d (cube d) g ∧
      IsDensityOn (cube d) C g ∧ ∀ x ∈ cube d, 0 < g x := by
  have hadm : Admissible .gumbel θ d := ⟨hd, h⟩
  have hθ : 0 < θ := by linarith
  refine ⟨_, gumbelDensity θ, computes_genC hadm, ?_, ?_, fun x hx =>
    gumbelDensity_pos h (by omega) hx⟩
  · exact gumbel_pdfComputes h hd
  · have hden := isDensityOn_gen (d := d) (I := Set.Ioo 0 1) (T := Set.Ioi 0)
      (φ := gumbelPhi θ) (φ' := gumbelPhi' θ) (ψ := gumbelPsiK (1 / θ))
      (C := genC (Family.phi .gumbel θ) (Family.psiR .gumbel θ))
      (fun u hu => gumbelPhi_hasDerivAt hu.1 hu.2)
      (fun k s hs => gumbelPsiK_hasDerivAt (1 / θ) k hs)
      (fun x hx hs => by
        have hz : ¬ ∃ j, x j = 0 := by
          rintro ⟨j, hj⟩
          exact (hx j).1.ne' hj
        rw [genC, if_neg hz, gumbelPsiK_zero]
        rfl)
    refine isDensityOn_mono hden ?_
    intro x hx
    exact ⟨fun j => ⟨(hx j).1, (hx j).2⟩, gumbel_sum_pos (by omega) hx⟩

example := gumbel_pdf_mixed (θ := 5 / 2) (by norm_num) (d := 4) (by norm_num)

theorem frankPdf_ok {θ : ℝ} {d n : ℕ} {x : Fin n → Fin d → Fl} {v : Fin n → Fl}
    (h : ∀ i, frankRow θ (x i) = .ok (v i)) (log : Bool) :
    frankPdf θ d x log = .ok fun i => if log then v i else Fl.exp (v i) := by
  unfold frankPdf
  have hrows : rowsM (frankRow θ) x = .ok v := rowsM_ok h
  rw [if_neg (by simp), hrows]
  rfl

theorem frank_pdfComputes {θ : ℝ} (h : 0 < θ) {d : ℕ} (hd : 2 ≤ d) :
    PdfComputes .frank θ d (cube d) (frankDensity θ) := by
  intro n x hx
  have hrow : ∀ i, frankRow θ (fun j => Fl.fin (x i j)) =
      .ok (.fin (Real.log (frankDensity θ (x i)))) := by
    intro i
    rw [frankRow, if_pos (validRow_fin fun j => ⟨(hx i j).1.le, (hx i j).2.le⟩),
      frankLogRow_fin h (by omega) (hx i)]
  simp only [archPdf]
  rw [frankPdf_ok hrow, frankPdf_ok hrow]
  refine ⟨congrArg Except.ok (funext fun i => ?_), congrArg Except.ok (funext fun i => ?_)⟩
  · simp only [Bool.false_eq_true, if_false]
    rw [Fl.exp_fin, Real.exp_log (frankDensity_pos h (by omega) (hx i))]
  · simp only [if_true]
    rw [Fl.log_pos (frankDensity_pos h (by omega) (hx i))]

/-- **C18** Frank (partial: `theta > 0`, see `frank_pdf_negative`; the relation to the code's own
`cdf` only where that is right, `u > 0.01`): `pdf` is the mixed derivative of the Frank copula on the
whole open cube. -/
theorem frank_pdf_mixed_partial {θ : ℝ} (h : 0 < θ) {d : ℕ} (hd : 2 ≤ d) :
    ∃ g, PdfComputes .frank θ d (cube d) g ∧ IsDensityOn (cube d) (Spec.frank θ) g ∧
      (∀ x ∈ cube d, 0 < g x) ∧
      ∃ C, Computes .frank θ d C ∧ IsDensityOn {x | ∀ j, 1 / 100 < x j ∧ x j < 1} C g := by
  have hadm : Admissible .frank θ d := ⟨hd, h.ne', by linarith, fun _ => h⟩
  have key : ∀ C : (Fin d → ℝ) → ℝ, (∀ x, (∀ j, x j ∈ Set.Ioo (0 : ℝ) 1) →
      C x = frankPsiR θ (∑ j, frankPhi θ (x j))) → IsDensityOn (cube d) C (frankDensity θ) := by
    intro C hC
    have hden := isDensityOn_gen (d := d) (I := Set.Ioo 0 1) (T := Set.Ioi 0)
      (φ := frankPhi θ) (φ' := frankPhi' θ) (ψ := frankPsiK θ) (C := C)
      (fun u hu => frankPhi_hasDerivAt h.ne' hu.1)
      (fun k s hs => frankPsiK_hasDerivAt θ k (le_of_lt hs))
      (fun x hx _ => hC x hx)
    refine isDensityOn_mono hden ?_
    intro x hx
    exact ⟨fun j => ⟨(hx j).1, (hx j).2⟩, sum_pos (fun j _ => frankPhi_pos h.ne' (hx j).1 (hx j).2)
      ⟨⟨0, by omega⟩, mem_univ _⟩⟩
  refine ⟨frankDensity θ, ?_, ?_, fun x hx => frankDensity_pos h (by omega) hx, _, computes_genC hadm,
    ?_⟩
  · exact frank_pdfComputes h hd
  · exact key _ fun x hx => (frank_closed_aux h.ne' (by omega) x fun j => (hx j).1).symm
  · refine isDensityOn_mono (key _ fun x hx => ?_) ?_
    · have hz : ¬ ∃ j, x j = 0 := by
        rintro ⟨j, hj⟩
        exact (hx j).1.ne' hj
      rw [genC, if_neg hz]
      rfl
    · intro x hx j
      exact ⟨by linarith [(hx j).1], (hx j).2⟩

example := frank_pdf_mixed_partial (θ := 5 / 2) (by norm_num) (d := 4) (by norm_num)

theorem polyLog_ok (z : Fl) (n : ℕ) (log : Bool) : ∃ v, polyLog z (-n) .negStirling log = .ok v := by
  unfold polyLog
  rw [if_neg (by omega), if_neg (by omega)]
  simp only [Int.natAbs_neg, Int.natAbs_natCast]
  rw [stirlingSecondAll_eq]
  simp only [bind, Except.bind, pure, Except.pure]
  set l := List.zipWith (fun (a : ℕ) (b : ℤ) => Fl.fin ((a : ℝ) * (b : ℝ)))
    (cumProd 1 (1 :: List.range' 1 n)) ((List.range (n + 1)).map fun k => s2 (n + 1) (k + 1)) with hl
  have hne : l ≠ [] := by
    rw [hl, cumProd, List.range_succ_eq_map, List.map_cons, List.zipWith_cons_cons]
    exact List.cons_ne_nil _ _
  obtain ⟨p, hp⟩ : ∃ p, polynEval l (z / (Fl.fin 1 - z)) = .ok p := by
    unfold polynEval
    rw [List.getLast?_eq_some_getLast hne]
    simp only
    by_cases h1 : l.length = 1
    · rw [if_pos h1]; exact ⟨_, rfl⟩
    · rw [if_neg h1]; exact ⟨_, rfl⟩
  rw [hp]
  exact ⟨_, rfl⟩

theorem frankLogRow_ok (θ : ℝ) {d : ℕ} (hd : 1 ≤ d) (u : Fin d → Fl) :
    ∃ v, frankLogRow θ u = .ok v ∧ (θ < 0 → v = .nan) := by
  obtain ⟨n, rfl⟩ : ∃ n, d = n + 1 := ⟨d - 1, by omega⟩
  unfold frankLogRow
  obtain ⟨v, hv⟩ := polyLog_ok (Fl.exp (log1mexp (.fin θ) +
    ∑ j, (log1mexp (.fin θ * u j) - log1mexp (.fin θ)))) n true
  rw [show (1 : ℤ) - ((n + 1 : ℕ) : ℤ) = -(n : ℤ) by push_cast; ring]
  simp only [hv, bind, Except.bind, pure, Except.pure]
  refine ⟨_, rfl, fun hθ => ?_⟩
  rw [Fl.log_neg hθ]
  simp

/-- **C18**, violation: for negative parameters, which the constructor accepts in dimension two,
`pdf` is NaN everywhere, although the copula has a density. -/
theorem frank_pdf_negative {θ : ℝ} (h : θ < 0) {n : ℕ} (x : Fin n → Fin 2 → ℝ)
    (log : Bool) :
    archPdf .frank θ 2 (fun i j => .fin (x i j)) log = .ok (fun _ => .nan) ∧
    IsDensityOn (cube 2) (Spec.frank θ) (frankDensity θ) := by
  constructor
  · have hrow : ∀ i : Fin n, frankRow θ (fun j => Fl.fin (x i j)) = .ok .nan := by
      intro i
      unfold frankRow
      by_cases hv : validRow fun j => Fl.fin (x i j)
      · rw [if_pos hv]
        obtain ⟨v, h1, h2⟩ := frankLogRow_ok θ (by omega : 1 ≤ 2) fun j => Fl.fin (x i j)
        rw [h1, h2 h]
      · rw [if_neg hv]
    simp only [archPdf]
    rw [frankPdf_ok hrow]
    simp
  · have hden := isDensityOn_gen (d := 2) (I := Set.Ioo 0 1) (T := Set.Ioi 0)
      (φ := frankPhi θ) (φ' := frankPhi' θ) (ψ := frankPsiK θ) (C := Spec.frank θ)
      (fun u hu => frankPhi_hasDerivAt h.ne hu.1)
      (fun k s hs => frankPsiK_hasDerivAt θ k (le_of_lt hs))
      (fun x hx _ => (frank_closed_aux h.ne (by omega) x fun j => (hx j).1).symm)
    refine isDensityOn_mono hden ?_
    intro x hx
    exact ⟨fun j => ⟨(hx j).1, (hx j).2⟩, sum_pos (fun j _ => frankPhi_pos h.ne (hx j).1 (hx j).2)
      ⟨⟨0, by omega⟩, mem_univ _⟩⟩

example := frank_pdf_negative (θ := -5 / 2) (by norm_num) (fun (_ : Fin 1) => ![1 / 2, 1 / 3]) false

/-- **C18** Independence copula. -/
theorem indep_pdf_mixed {d : ℕ} : ∃ C g : (Fin d → ℝ) → ℝ,
    (∀ (n : ℕ) (x : Fin n → Fin d → ℝ),
      indepCdf d (fun i j => .fin (x i j)) false = .ok (fun i => .fin (C (x i))) ∧
      indepPdf d (fun i j => .fin (x i j)) false = .ok (fun i => .fin (g (x i)))) ∧
    IsDensityOn (cube d) C g := by
  refine ⟨fun x => ∏ j, x j, fun _ => 1, fun n x => ⟨?_, ?_⟩, ?_⟩
  · unfold indepCdf
    rw [if_neg (by simp)]
    simp only [Bool.false_eq_true, if_false]
    refine congrArg Except.ok (funext fun i => ?_)
    rw [Fl.prod_fin]
  · unfold indepPdf
    rw [if_neg (by simp)]
    simp
  · have hden := isDensityOn_gen (d := d) (I := Set.Ioo 0 1) (T := Set.univ)
      (φ := fun u => -Real.log u) (φ' := fun u => -u⁻¹)
      (ψ := fun k s => (-1) ^ k * Real.exp (-s)) (C := fun x => ∏ j, x j)
      (fun u hu => (Real.hasDerivAt_log hu.1.ne').neg)
      (fun k s hs => by
        have := ((hasDerivAt_neg s).exp).const_mul ((-1 : ℝ) ^ k)
        refine this.congr_deriv ?_
        rw [pow_succ]
        ring)
      (fun x hx _ => by
        rw [pow_zero, one_mul, sum_neg_distrib, neg_neg, exp_sum_log univ x fun j _ => (hx j).1])
    refine isDensityOn_congr (isDensityOn_mono hden ?_) ?_
    · intro x hx
      exact ⟨fun j => ⟨(hx j).1, (hx j).2⟩, trivial⟩
    · intro x hx
      rw [sum_neg_distrib, neg_neg, exp_sum_log univ x fun j _ => (hx j).1, prod_neg_one_mul hx]
where
  prod_neg_one_mul {d : ℕ} {x : Fin d → ℝ} (hx : x ∈ cube d) :
      ((-1) ^ d * ∏ j, x j) * ∏ j, -(x j)⁻¹ = 1 := by
    have e : ∀ j, -(x j)⁻¹ = -1 * (x j)⁻¹ := fun j => by ring
    simp only [e]
    rw [prod_mul_distrib, prod_const, card_univ, Fintype.card_fin, prod_inv_distrib]
    have hp : ∏ j, x j ≠ 0 := prod_ne_zero_iff.mpr fun j _ => (hx j).1.ne'
    have h3 : ((-1 : ℝ) ^ d) * (-1) ^ d = 1 := by rw [← mul_pow]; simp
    calc _ = ((-1 : ℝ) ^ d * (-1) ^ d) * ((∏ j, x j) * (∏ j, x j)⁻¹) := by ring
      _ = 1 := by rw [h3, mul_inv_cancel₀ hp, one_mul]

/-- A concrete value: Clayton with parameter 1 at (1/2, 1/2) has density 32/27. -/
example : archPdf .clayton 1 2 (fun (_ : Fin 1) (_ : Fin 2) => .fin (1 / 2)) false =
    .ok fun _ => .fin (32 / 27) := by
  have hx : ∀ i : Fin 1, (fun (_ : Fin 1) (_ : Fin 2) => (1 / 2 : ℝ)) i ∈ cube 2 := by
    intro i j; norm_num
  simp only [archPdf]
  rw [claytonPdf_pos one_pos (fun (_ : Fin 1) (_ : Fin 2) => (1 / 2 : ℝ)) hx]
  refine congrArg Except.ok (funext fun i => ?_)
  simp only [Bool.false_eq_true, if_false]
  rw [claytonLogPos_fin one_pos (hx i), Fl.exp_fin, clayton_density_pos one_pos (by norm_num) (hx i)]
  simp only [prod_range_succ, prod_range_zero, Fin.sum_univ_two, Fin.prod_univ_two]
  rw [show (-1 : ℝ) - 1 = ((-2 : ℤ) : ℝ) by norm_num,
    show -1 / 1 - ((2 : ℕ) : ℝ) = ((-3 : ℤ) : ℝ) by norm_num, show (-1 : ℝ) = ((-1 : ℤ) : ℝ) by norm_num]
  simp only [Real.rpow_intCast]
  norm_num

end Copulae
