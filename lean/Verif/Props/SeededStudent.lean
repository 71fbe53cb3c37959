import Verif.Lemmas.IdealGen
import Verif.Props.SampleLaw
import Mathlib.MeasureTheory.Function.JacobianOneDim

/-!
C121: with a seed, `StudentCopula.random` computes the chi-square and the normal variates from the same state of the
generator. However good the generator is, the rows need not have the law of the copula.
-/

namespace Copulae

open MeasureTheory ProbabilityTheory Set Spec

/-- The square of a standard normal variate has the chi-square law with one degree of freedom. -/
theorem gaussian_sq_law : (gaussianReal 0 1).map (fun x => x ^ 2) = gammaMeasure (1 / 2) (1 / 2) := by
  have hm : Measurable fun x : ℝ => x ^ 2 := by fun_prop
  ext A hA
  rw [Measure.map_apply hm hA, gammaMeasure, withDensity_apply _ hA,
    gaussianReal_of_var_ne_zero 0 one_ne_zero, withDensity_apply _ (hm hA)]
  have hφ : ∀ x : ℝ, gaussianPDF 0 1 x = ENNReal.ofReal ((√(2 * Real.pi))⁻¹ * Real.exp (-(x ^ 2) / 2)) := fun x => by
    simp [gaussianPDF, gaussianPDFReal]
  -- the two half lines
  have hsym : ∫⁻ x in (fun x : ℝ => x ^ 2) ⁻¹' A, gaussianPDF 0 1 x =
      ∫⁻ x in Ioi 0, ENNReal.ofReal 2 * ((fun x : ℝ => x ^ 2) ⁻¹' A).indicator (gaussianPDF 0 1) x := by
    rw [← lintegral_indicator (hm hA)]
    set F : ℝ → ENNReal := ((fun x : ℝ => x ^ 2) ⁻¹' A).indicator (gaussianPDF 0 1) with hF
    have hFm : Measurable F := (measurable_gaussianPDF 0 1).indicator (hm hA)
    have heven : ∀ x, F (-x) = F x := fun x => by
      have : (-x ∈ (fun x : ℝ => x ^ 2) ⁻¹' A) ↔ (x ∈ (fun x : ℝ => x ^ 2) ⁻¹' A) := by simp only [mem_preimage, neg_sq]
      by_cases h : x ∈ (fun x : ℝ => x ^ 2) ⁻¹' A
      · rw [hF, indicator_of_mem (this.mpr h), indicator_of_mem h, hφ, hφ, neg_sq]
      · rw [hF, indicator_of_notMem (mt this.mp h), indicator_of_notMem h]
    have hsplit : ∫⁻ x, F x = (∫⁻ x in Iic 0, F x) + ∫⁻ x in Ioi 0, F x := by
      rw [← compl_Iic, lintegral_add_compl _ measurableSet_Iic]
    have hneg : ∫⁻ x in Iic 0, F x = ∫⁻ x in Ioi 0, F x := by
      rw [Measure.restrict_congr_set Iio_ae_eq_Iic.symm, ← lintegral_indicator measurableSet_Iio, ← lintegral_indicator measurableSet_Ioi,
        ← lintegral_neg_eq_self]
      refine lintegral_congr fun x => ?_
      by_cases hx : 0 < x
      · rw [indicator_of_mem (by simpa using hx), indicator_of_mem (by simpa using hx), heven]
      · rw [indicator_of_notMem (by simpa using hx), indicator_of_notMem (by simpa using hx)]
    rw [hsplit, hneg, lintegral_const_mul _ hFm, ENNReal.ofReal_ofNat, two_mul]
  rw [hsym]
  have himg : (fun x : ℝ => x ^ 2) '' Ioi 0 = Ioi 0 := by
    ext y
    constructor
    · rintro ⟨x, hx, rfl⟩
      exact pow_pos (mem_Ioi.mp hx) 2
    · intro hy
      exact ⟨√y, Real.sqrt_pos.mpr hy, Real.sq_sqrt (mem_Ioi.mp hy).le⟩
  have hcv := lintegral_image_eq_lintegral_abs_deriv_mul (s := Ioi (0 : ℝ)) (f := fun x => x ^ 2) (f' := fun x => 2 * x)
    measurableSet_Ioi (fun x _ => by simpa using ((hasDerivAt_pow 2 x).hasDerivWithinAt)) (fun x hx y hy hxy =>
      (pow_left_inj₀ (mem_Ioi.mp hx).le (mem_Ioi.mp hy).le two_ne_zero).mp hxy) (A.indicator (gammaPDF (1 / 2) (1 / 2)))
  rw [himg] at hcv
  have hzero : ∫⁻ x in A, gammaPDF (1 / 2) (1 / 2) x = ∫⁻ x in Ioi 0, A.indicator (gammaPDF (1 / 2) (1 / 2)) x := by
    rw [← lintegral_indicator hA, ← lintegral_add_compl _ (measurableSet_Ioi (a := (0 : ℝ)))]
    have : ∫⁻ x in (Ioi (0 : ℝ))ᶜ, A.indicator (gammaPDF (1 / 2) (1 / 2)) x = 0 := by
      rw [compl_Ioi, Measure.restrict_congr_set Iio_ae_eq_Iic.symm]
      refine (setLIntegral_congr_fun measurableSet_Iio fun x hx => ?_).trans (by simp : ∫⁻ _ in Iio (0 : ℝ), (0 : ENNReal) = 0)
      have : gammaPDF (1 / 2) (1 / 2) x = 0 := gammaPDF_of_neg hx
      simp only [indicator, this, ite_self]
    rw [this, add_zero]
  rw [hzero, hcv]
  refine setLIntegral_congr_fun measurableSet_Ioi fun x hx => ?_
  have hx : 0 < x := hx
  by_cases hxA : x ^ 2 ∈ A
  · have hd : gammaPDF (1 / 2) (1 / 2) (x ^ 2) =
        ENNReal.ofReal ((√(2 * Real.pi))⁻¹ * x⁻¹ * Real.exp (-(x ^ 2) / 2)) := by
      rw [gammaPDF_of_nonneg (sq_nonneg x)]
      congr 1
      have e1 : (x ^ 2) ^ ((1 : ℝ) / 2 - 1) = x⁻¹ := by
        rw [← Real.rpow_natCast, ← Real.rpow_mul hx.le]
        norm_num
        exact Real.rpow_neg_one x
      have e2 : ((1 : ℝ) / 2) ^ ((1 : ℝ) / 2) / Real.Gamma (1 / 2) = (√(2 * Real.pi))⁻¹ := by
        rw [Real.Gamma_one_half_eq, ← Real.sqrt_eq_rpow, Real.sqrt_mul (by norm_num), Real.sqrt_div (by norm_num), Real.sqrt_one]
        field_simp
      rw [e1, e2]
      congr 2
      ring
    have hmem : x ∈ (fun x : ℝ => x ^ 2) ⁻¹' A := hxA
    rw [indicator_of_mem hmem, indicator_of_mem hxA, hd, hφ, ← ENNReal.ofReal_mul (by norm_num),
      ← ENNReal.ofReal_mul (abs_nonneg _), abs_of_pos (by positivity)]
    congr 1
    field_simp
  · have hmem : x ∉ (fun x : ℝ => x ^ 2) ⁻¹' A := hxA
    rw [indicator_of_notMem hmem, indicator_of_notMem hxA, mul_zero, mul_zero]

/-- An ideal generator whose chi-square variates with one degree of freedom are the squares of its normal variates, as they
may be when both are made from the same stream of normal numbers. -/
noncomputable def squareGen (seeded : ℕ → ℕ → Answers) : Gen where
  __ := idealGen seeded
  chisq ν n s := by
    classical
    exact if ν = 1 then
      (fun i => ((s 0 (.mvn n 2 (fun _ => 0) 1 Matrix.PosSemidef.one) : Fin n → Fin 2 → ℝ) i 0) ^ 2, fun k => s (k + 1))
    else (idealGen seeded).chisq ν n s

noncomputable instance (seeded : ℕ → ℕ → Answers) : MeasurableSpace (squareGen seeded).S :=
  inferInstanceAs (MeasurableSpace (ℕ → Answers))

theorem squareGen_chisq (seeded : ℕ → ℕ → Answers) (ν : ℝ) (hν : 0 < ν) (n : ℕ) :
    Draws (G := squareGen seeded) streamLaw (Rnd.draw ((squareGen seeded).chisq ν n)) id
      (iid n (gammaMeasure (ν / 2) (1 / 2))) := by
  by_cases h1 : ν = 1
  · subst h1
    have hf : Measurable fun z : Fin 2 → ℝ => z 0 ^ 2 := by fun_prop
    have hl : (normalLaw (fun _ : Fin 2 => 0) 1).map (fun z => z 0 ^ 2) = gammaMeasure (1 / 2) (1 / 2) := by
      have e : ((gauss (1 : Matrix (Fin 2) (Fin 2) ℝ)).map fun z => z 0).map (fun x => x ^ 2) =
          (gauss (1 : Matrix (Fin 2) (Fin 2) ℝ)).map fun z => z 0 ^ 2 :=
        Measure.map_map (by fun_prop) (measurable_pi_apply 0)
      rw [normalLaw_zero, ← e, gauss_margin Matrix.PosSemidef.one]
      simp only [Matrix.one_apply_eq, Real.toNNReal_one]
      exact gaussian_sq_law
    have hmap := stream_request (.mvn n 2 (fun _ => 0) 1 Matrix.PosSemidef.one)
    have hF : Measurable fun (r : Fin n → Fin 2 → ℝ) i => r i 0 ^ 2 := by fun_prop
    have hreq : Measurable fun s : ℕ → Answers =>
        (s 0 (.mvn n 2 (fun _ => 0) 1 Matrix.PosSemidef.one) : Fin n → Fin 2 → ℝ) := measurable_request _
    refine draws_request (X := fun s : ℕ → Answers =>
      fun i => ((s 0 (.mvn n 2 (fun _ => 0) 1 Matrix.PosSemidef.one) : Fin n → Fin 2 → ℝ) i 0) ^ 2)
      (nx := fun s : ℕ → Answers => fun k => s (k + 1)) (hF.comp hreq) measurable_tail (fun s => if_pos rfl) ?_
    have e : (streamLaw.map fun s => ((s 0 (.mvn n 2 (fun _ => 0) 1 Matrix.PosSemidef.one) : Fin n → Fin 2 → ℝ),
        fun k => s (k + 1))).map (Prod.map (fun (r : Fin n → Fin 2 → ℝ) i => r i 0 ^ 2) id) =
        streamLaw.map fun s => (fun i => ((s 0 (.mvn n 2 (fun _ => 0) 1 Matrix.PosSemidef.one) : Fin n → Fin 2 → ℝ) i 0) ^ 2,
          fun k => s (k + 1)) :=
      Measure.map_map (hF.prodMap measurable_id) (hreq.prodMk measurable_tail)
    have hmap' : streamLaw.map (fun s => ((s 0 (.mvn n 2 (fun _ => 0) 1 Matrix.PosSemidef.one) : Fin n → Fin 2 → ℝ),
        fun k => s (k + 1))) = (iid n (normalLaw (fun _ : Fin 2 => 0) 1)).prod streamLaw := hmap
    refine e.symm.trans ?_
    rw [hmap', ← Measure.map_prod_map _ _ hF measurable_id, Measure.map_id]
    have := iid_map (n := n) (L := normalLaw (fun _ : Fin 2 => 0) 1) hf
    rw [this, hl]
    rfl
  · refine draws_request (X := fun s : ℕ → Answers => (s 0 (.chisq ν hν n) : Fin n → ℝ))
      (nx := fun s : ℕ → Answers => fun k => s (k + 1)) (measurable_request _) measurable_tail (fun s => ?_)
      (stream_request (.chisq ν hν n))
    exact (if_neg h1).trans (dif_pos hν)

theorem squareGen_isIdeal (seeded : ℕ → ℕ → Answers) : IsIdeal (squareGen seeded) streamLaw where
  prob := inferInstanceAs (IsProbabilityMeasure streamLaw)
  uniform n d := draws_request (measurable_request _) measurable_tail (fun _ => rfl) (stream_request (.uniform n d))
  uniform1 n := draws_request (measurable_request _) measurable_tail (fun _ => rfl) (stream_request (.uniform1 n))
  gamma a h n := draws_request (measurable_request _) measurable_tail (fun _ => dif_pos h) (stream_request (.gamma a h n))
  expo n := draws_request (measurable_request _) measurable_tail (fun _ => rfl) (stream_request (.expo n))
  chisq ν h n := squareGen_chisq seeded ν h n
  randint m n h := draws_request (measurable_request _) measurable_tail (fun _ => dif_pos h) (stream_request (.randint m n h))
  choice k n p h0 h1 := draws_request (measurable_request _) measurable_tail (fun _ => dif_pos ⟨h0, h1⟩)
    (stream_request (.choice k n p h0 h1))
  normal n := draws_request (measurable_request _) measurable_tail (fun _ => rfl) (stream_request (.normal n))
  mvn n d mean S h := draws_request (measurable_request _) measurable_tail (fun _ => dif_pos h) (stream_request (.mvn n d mean S h))

/-- **C121 is violated.** There is an ideal generator, with which unseeded samples of the bivariate Student copula with one degree
of freedom and identity matrix are independent draws from the copula, and yet for every seed and sample size the first
coordinates of all rows are among three numbers. -/
theorem student_seeded_law_fails :
    ∃ (G : Gen) (_ : MeasurableSpace G.S) (P : Measure G.S), IsIdeal G P ∧
      (∀ n, Draws P ((Sampler.student (fun x => .fin ((tLine 1).real (Iic x))) (1 : Matrix (Fin 2) (Fin 2) ℝ) 1).random n none)
        matFl (iid n (studentLaw (1 : Matrix (Fin 2) (Fin 2) ℝ) 1))) ∧
      ∃ a b c : ℝ, ∀ (seed : ℤ), 0 ≤ seed → seed < 2 ^ 32 → ∀ (n : ℕ) (s : G.S), ∃ x : Fin n → Fin 2 → ℝ,
        (((Sampler.student (fun x => .fin ((tLine 1).real (Iic x))) (1 : Matrix (Fin 2) (Fin 2) ℝ) 1).random n
          (some seed)).exec s).1 = .ok (matFl x) ∧ ∀ i, x i 0 = a ∨ x i 0 = b ∨ x i 0 = c := by
  have hne : Nonempty Answers := by
    have : (answerLaw : Measure Answers) ≠ 0 := IsProbabilityMeasure.ne_zero _
    by_contra hcon
    rw [not_nonempty_iff] at hcon
    exact this (Measure.eq_zero_of_isEmpty _)
  obtain ⟨a0⟩ := hne
  let G := squareGen fun _ _ => a0
  have hI : IsIdeal G streamLaw := squareGen_isIdeal _
  refine ⟨G, inferInstance, streamLaw, hI, fun n => student_random_iid_partial hI Matrix.PosSemidef.one one_pos (by norm_num) n,
    (tLine 1).real (Iic 1), (tLine 1).real (Iic (-1)), (tLine 1).real (Iic 0), fun seed h0 h1 n s => ?_⟩
  have hs : checkSeed G seed = .ok (G.ofSeed seed.toNat) := if_pos ⟨h0, h1⟩
  refine ⟨_, student_same_stream _ _ 1 one_pos (by norm_num) n seed _ hs s, fun i => ?_⟩
  set τ := G.ofSeed seed.toNat
  have e1 : (G.mvn n 2 (fun _ => 0) (1 : Matrix (Fin 2) (Fin 2) ℝ) τ).1 =
      ((τ : ℕ → Answers) 0 (.mvn n 2 (fun _ => 0) 1 Matrix.PosSemidef.one) : Fin n → Fin 2 → ℝ) :=
    congrArg Prod.fst (dif_pos Matrix.PosSemidef.one)
  have e2 : (G.chisq 1 n τ).1 = fun i =>
      (((τ : ℕ → Answers) 0 (.mvn n 2 (fun _ => 0) 1 Matrix.PosSemidef.one) : Fin n → Fin 2 → ℝ) i 0) ^ 2 :=
    congrArg Prod.fst (if_pos rfl)
  simp only [e1, e2, div_one, Real.sqrt_sq_eq_abs]
  generalize ((τ : ℕ → Answers) 0 (.mvn n 2 (fun _ => 0) 1 Matrix.PosSemidef.one) : Fin n → Fin 2 → ℝ) i 0 = z
  rcases lt_trichotomy z 0 with hz | hz | hz
  · exact Or.inr (Or.inl (by rw [abs_of_neg hz, div_neg, div_self hz.ne]))
  · exact Or.inr (Or.inr (by rw [hz, zero_div]))
  · exact Or.inl (by rw [abs_of_pos hz, div_self hz.ne'])

end Copulae
