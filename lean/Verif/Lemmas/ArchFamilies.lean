import Mathlib.Analysis.Convex.SpecificFunctions.Basic
import Mathlib.Analysis.Convex.SpecificFunctions.Pow
import Mathlib.Analysis.Convex.Deriv
import Mathlib.Analysis.SpecialFunctions.Log.Deriv
import Mathlib.Analysis.SpecialFunctions.ExpDeriv
import Mathlib.Analysis.SpecialFunctions.Pow.Deriv
import Verif.Lemmas.ArchGen

/-!
The three families are instances of `IsGen`.
-/

namespace Copulae

open Finset

theorem convexOn_exp_comp {s : Set ℝ} {f : ℝ → ℝ} (hf : ConvexOn ℝ s f) :
    ConvexOn ℝ s fun x => Real.exp (f x) :=
  ⟨hf.1, fun _ hx _ hy _ _ ha hb hab =>
    le_trans (Real.exp_le_exp.mpr (hf.2 hx hy ha hb hab))
      (convexOn_exp.2 (Set.mem_univ _) (Set.mem_univ _) ha hb hab)⟩

/-! ### Clayton -/

/-- Inverse generator of the Clayton copula. -/
noncomputable def claytonPhi (θ u : ℝ) : ℝ := SignType.sign θ * (u ^ (-θ) - 1)

/-- Generator of the Clayton copula. -/
noncomputable def claytonPsiR (θ s : ℝ) : ℝ := (max (1 + SignType.sign θ * s) 0) ^ (-1 / θ)

theorem fl_sign (θ : ℝ) : Fl.sign (.fin θ) = .fin ((SignType.sign θ : SignType) : ℝ) := by
  rcases lt_trichotomy θ 0 with h | h | h
  · rw [Fl.sign_neg h, sign_neg h]; simp
  · rw [h]; simp
  · rw [Fl.sign_pos h, sign_pos h]; simp

theorem claytonIpsi_fin {θ u : ℝ} (hu : 0 < u) :
    claytonIpsi θ (.fin u) = .fin (claytonPhi θ u) := by
  rw [claytonIpsi, Fl.pow_pos hu, fl_sign, Fl.fin_sub_fin, Fl.fin_mul_fin, claytonPhi]

theorem claytonPsi_ok {θ : ℝ} (h : θ ≠ 0) : claytonPsi θ = .ok fun s =>
    Fl.maximum (.fin 1 + Fl.sign (.fin θ) * s) (.fin 0) ^ Fl.fin (-1 / θ) := by
  rw [claytonPsi, if_neg h]

theorem convex_one_add_rpow {p : ℝ} (hp : 0 ≤ p) :
    ConvexOn ℝ (Set.Ici 0) fun s : ℝ => (1 + s) ^ (-p) := by
  have h1 : ConvexOn ℝ (Set.Ici (0 : ℝ)) fun s : ℝ => -p * Real.log (1 + s) := by
    refine ⟨convex_Ici 0, fun x hx y hy a b ha hb hab => ?_⟩
    have hx' : (0 : ℝ) < 1 + x := by have := Set.mem_Ici.mp hx; linarith
    have hy' : (0 : ℝ) < 1 + y := by have := Set.mem_Ici.mp hy; linarith
    have := strictConcaveOn_log_Ioi.concaveOn.2 (Set.mem_Ioi.mpr hx') (Set.mem_Ioi.mpr hy')
      ha hb hab
    simp only [smul_eq_mul] at this ⊢
    have e : a * (1 + x) + b * (1 + y) = 1 + (a * x + b * y) := by
      calc _ = (a + b) + (a * x + b * y) := by ring
        _ = _ := by rw [hab]
    rw [e] at this
    nlinarith
  refine (convexOn_exp_comp h1).congr ?_
  intro s hs
  have hs' : (0 : ℝ) < 1 + s := by have := Set.mem_Ici.mp hs; linarith
  simp only
  rw [Real.rpow_def_of_pos hs']
  ring_nf

theorem clayton_isGen_pos {θ : ℝ} (h : 0 < θ) :
    IsGen (fun s => Fl.maximum (.fin 1 + Fl.sign (.fin θ) * s) (.fin 0) ^ Fl.fin (-1 / θ))
      (claytonIpsi θ) 0 (claytonPhi θ) (claytonPsiR θ) := by
  have hφ : ∀ u, claytonPhi θ u = u ^ (-θ) - 1 := by
    intro u; rw [claytonPhi, sign_pos h]; simp
  have hψ : ∀ s, 0 ≤ s → claytonPsiR θ s = (1 + s) ^ (-1 / θ) := by
    intro s hs
    rw [claytonPsiR, sign_pos h]
    simp only [SignType.coe_one, one_mul]
    rw [max_eq_left (by linarith)]
  have hexp : -1 / θ < 0 := by rw [neg_div]; have : 0 < 1 / θ := by positivity
                               linarith
  refine ⟨le_rfl, one_pos, fun u hu _ => claytonIpsi_fin hu, fun _ => Or.inl ⟨?_, ?_⟩, ?_, ?_, ?_,
    ?_, ?_, ?_, ?_⟩
  · rw [claytonIpsi, Fl.zero_pow_neg (by linarith), Fl.sign_pos h, Fl.pinf_sub_fin,
      Fl.fin_mul_pinf, Fl.infSign_pos one_pos]
  · rw [Fl.sign_pos h, Fl.fin_mul_pinf, Fl.infSign_pos one_pos, Fl.fin_add_pinf,
      Fl.maximum_pinf _ (by simp), Fl.pinf_pow_neg hexp]
  · intro s hs
    rw [Fl.sign_pos h, Fl.fin_mul_fin, Fl.fin_add_fin, Fl.maximum_fin, one_mul,
      max_eq_left (by linarith), Fl.pow_pos (by linarith), hψ s hs]
  · rw [hφ]; simp
  · intro u v hu huv _
    rw [hφ, hφ]
    have := Real.rpow_le_rpow_of_nonpos hu huv (by linarith : -θ ≤ 0)
    linarith
  · intro s t hs hst
    rw [hψ s hs, hψ t (by linarith)]
    exact Real.rpow_le_rpow_of_nonpos (by linarith) (by linarith) hexp.le
  · intro s hs
    rw [hψ s hs]
    exact Real.rpow_nonneg (by linarith) _
  · intro u hu hu1
    have : 0 ≤ u ^ (-θ) - 1 := by
      have := Real.one_le_rpow_of_pos_of_le_one_of_nonpos hu hu1 (by linarith : -θ ≤ 0)
      linarith
    rw [hφ, hψ _ this, add_sub_cancel, ← Real.rpow_mul hu.le]
    rw [show -θ * (-1 / θ) = 1 by field_simp, Real.rpow_one]
  · refine (convex_one_add_rpow (p := 1 / θ) (by positivity)).congr ?_
    intro s hs
    simp only
    rw [hψ s hs, neg_div]

theorem clayton_isGen_neg {θ : ℝ} (h1 : -1 ≤ θ) (h : θ < 0) :
    IsGen (fun s => Fl.maximum (.fin 1 + Fl.sign (.fin θ) * s) (.fin 0) ^ Fl.fin (-1 / θ))
      (claytonIpsi θ) 0 (claytonPhi θ) (claytonPsiR θ) := by
  have hφ : ∀ u, claytonPhi θ u = 1 - u ^ (-θ) := by
    intro u; rw [claytonPhi, sign_neg h]; simp
  have hψ : ∀ s, claytonPsiR θ s = (max (1 - s) 0) ^ (-1 / θ) := by
    intro s
    rw [claytonPsiR, sign_neg h]
    simp only [SignType.coe_neg_one, neg_mul, one_mul, sub_eq_add_neg]
  have hexp : 1 ≤ -1 / θ := by rw [le_div_iff_of_neg h]; linarith
  refine ⟨le_rfl, one_pos, fun u hu _ => claytonIpsi_fin hu, fun _ => Or.inr ⟨1, by norm_num, ?_, ?_⟩,
    ?_, ?_, ?_, ?_, ?_, ?_, ?_⟩
  · rw [claytonIpsi, Fl.zero_pow_pos (by linarith), Fl.sign_neg h, Fl.fin_sub_fin, Fl.fin_mul_fin]
    norm_num
  · intro s hs
    rw [hψ, max_eq_right (by linarith), Real.zero_rpow (by linarith)]
  · intro s _
    rw [Fl.sign_neg h, Fl.fin_mul_fin, Fl.fin_add_fin, Fl.maximum_fin, hψ]
    rw [show 1 + -1 * s = 1 - s by ring]
    rcases (le_max_right (1 - s) 0).eq_or_lt with h0 | h0
    · rw [← h0, Fl.zero_pow_pos (by linarith), Real.zero_rpow (by linarith)]
    · rw [Fl.pow_pos h0]
  · rw [hφ]; simp
  · intro u v hu huv _
    rw [hφ, hφ]
    have := Real.rpow_le_rpow hu.le huv (by linarith : 0 ≤ -θ)
    linarith
  · intro s t _ hst
    rw [hψ, hψ]
    exact Real.rpow_le_rpow (le_max_right _ _) (max_le_max (by linarith) le_rfl) (by linarith)
  · intro s _
    rw [hψ]
    exact Real.rpow_nonneg (le_max_right _ _) _
  · intro u hu _
    rw [hφ, hψ, show 1 - (1 - u ^ (-θ)) = u ^ (-θ) by ring,
      max_eq_left (Real.rpow_nonneg hu.le _), ← Real.rpow_mul hu.le]
    rw [show -θ * (-1 / θ) = 1 by rw [mul_div_assoc', mul_neg_one, neg_neg, div_self h.ne],
      Real.rpow_one]
  · have hc := convexOn_rpow hexp
    refine ⟨convex_Ici 0, fun x _ y _ a b ha hb hab => ?_⟩
    simp only [hψ, smul_eq_mul]
    have := hc.2 (Set.mem_Ici.mpr (le_max_right (1 - x) 0)) (Set.mem_Ici.mpr (le_max_right (1 - y) 0))
      ha hb hab
    simp only [smul_eq_mul] at this
    refine le_trans (Real.rpow_le_rpow (le_max_right _ _) ?_ (by linarith)) this
    apply max_le
    · have e : 1 - (a * x + b * y) = a * (1 - x) + b * (1 - y) := by
        calc _ = (a + b) - (a * x + b * y) := by rw [hab]
          _ = _ := by ring
      rw [e]
      gcongr <;> exact le_max_left _ _
    · have := le_max_right (1 - x) 0
      have := le_max_right (1 - y) 0
      positivity

/-! ### Gumbel -/

/-- Inverse generator of the Gumbel copula. -/
noncomputable def gumbelPhi (θ u : ℝ) : ℝ := (-Real.log u) ^ θ

/-- Generator of the Gumbel copula. -/
noncomputable def gumbelPsiR (θ s : ℝ) : ℝ := Real.exp (-s ^ (1 / θ))

theorem gumbelIpsi_fin {θ u : ℝ} (hθ : 0 < θ) (hu : 0 < u) (hu1 : u ≤ 1) :
    gumbelIpsi θ (.fin u) = .fin (gumbelPhi θ u) := by
  rw [gumbelIpsi, Fl.log_pos hu, Fl.neg_fin, gumbelPhi]
  have : 0 ≤ -Real.log u := by have := Real.log_nonpos hu.le hu1; linarith
  rcases this.eq_or_lt with h0 | h0
  · rw [← h0, Fl.zero_pow_pos hθ, Real.zero_rpow hθ.ne']
  · rw [Fl.pow_pos h0]

theorem gumbelPsi_ok {θ : ℝ} (h : θ ≠ 0) : gumbelPsi θ = .ok fun s =>
    Fl.exp (-(s ^ Fl.fin (1 / θ))) := by
  rw [gumbelPsi, if_neg h]

theorem gumbel_isGen {θ : ℝ} (h : 1 ≤ θ) :
    IsGen (fun s => Fl.exp (-(s ^ Fl.fin (1 / θ)))) (gumbelIpsi θ) 0 (gumbelPhi θ)
      (gumbelPsiR θ) := by
  have h0 : 0 < θ := by linarith
  have hp : 0 < 1 / θ := by positivity
  have hp1 : 1 / θ ≤ 1 := by rw [div_le_one h0]; exact h
  have hnl : ∀ {u : ℝ}, 0 < u → u ≤ 1 → 0 ≤ -Real.log u := by
    intro u hu hu1; have := Real.log_nonpos hu.le hu1; linarith
  refine ⟨le_rfl, one_pos, fun u hu hu1 => gumbelIpsi_fin h0 hu hu1, fun _ => Or.inl ⟨?_, ?_⟩, ?_, ?_,
    ?_, ?_, ?_, ?_, ?_⟩
  · rw [gumbelIpsi, Fl.log_zero, Fl.neg_ninf, Fl.pinf_pow_pos h0]
  · rw [Fl.pinf_pow_pos hp, Fl.neg_pinf, Fl.exp_ninf]
  · intro s hs
    rw [gumbelPsiR]
    rcases hs.eq_or_lt with hs | hs
    · rw [← hs, Fl.zero_pow_pos hp, Real.zero_rpow hp.ne', Fl.neg_fin, Fl.exp_fin]
    · rw [Fl.pow_pos hs, Fl.neg_fin, Fl.exp_fin]
  · rw [gumbelPhi, Real.log_one, neg_zero, Real.zero_rpow h0.ne']
  · intro u v hu huv hv
    rw [gumbelPhi, gumbelPhi]
    refine Real.rpow_le_rpow (hnl (lt_of_lt_of_le hu huv) hv) ?_ h0.le
    have := Real.log_le_log hu huv
    linarith
  · intro s t hs hst
    rw [gumbelPsiR, gumbelPsiR, Real.exp_le_exp, neg_le_neg_iff]
    exact Real.rpow_le_rpow hs hst hp.le
  · intro s _; exact (Real.exp_pos _).le
  · intro u hu hu1
    rw [gumbelPsiR, gumbelPhi, ← Real.rpow_mul (hnl hu hu1), mul_one_div_cancel h0.ne',
      Real.rpow_one, neg_neg, Real.exp_log hu]
  · have := (Real.concaveOn_rpow hp.le hp1).neg
    exact convexOn_exp_comp this

/-! ### Frank -/

/-- Inverse generator of the Frank copula. -/
noncomputable def frankPhi (θ u : ℝ) : ℝ :=
  -Real.log ((Real.exp (-θ * u) - 1) / (Real.exp (-θ) - 1))

/-- Generator of the Frank copula. -/
noncomputable def frankPsiR (θ s : ℝ) : ℝ :=
  -Real.log (1 + Real.exp (-s) * (Real.exp (-θ) - 1)) / θ

theorem frank_ratio_pos {θ u : ℝ} (hθ : θ ≠ 0) (hu : 0 < u) :
    0 < (Real.exp (-θ * u) - 1) / (Real.exp (-θ) - 1) := by
  rcases lt_or_gt_of_ne hθ with h | h
  · apply div_pos
    · have : 0 < -θ * u := mul_pos (by linarith) hu
      have := Real.one_lt_exp_iff.mpr this
      linarith
    · have := Real.one_lt_exp_iff.mpr (by linarith : 0 < -θ)
      linarith
  · apply div_pos_of_neg_of_neg
    · have : -θ * u < 0 := mul_neg_of_neg_of_pos (by linarith) hu
      have := Real.exp_lt_one_iff.mpr this
      linarith
    · have := Real.exp_lt_one_iff.mpr (by linarith : -θ < 0)
      linarith

theorem exp_neg_ne {θ : ℝ} (hθ : θ ≠ 0) : Real.exp (-θ) - 1 ≠ 0 := by
  intro h
  have : Real.exp (-θ) = 1 := by linarith
  rw [Real.exp_eq_one_iff] at this
  exact hθ (by linarith)

theorem frankIpsi_fin {θ u : ℝ} (hθ : θ ≠ 0) (hu : 1 / 100 < u) :
    frankIpsi θ (.fin u) = .fin (frankPhi θ u) := by
  have hem := exp_neg_ne hθ
  have hr := frank_ratio_pos hθ (by linarith : 0 < u)
  have habs : 0 < |θ| := abs_pos.mpr hθ
  unfold frankIpsi
  simp only [Fl.fin_mul_fin, Fl.abs_fin, Fl.exp_fin, Fl.expm1_fin, Fl.neg_fin, Fl.fin_sub_fin,
    Fl.fin_lt_fin]
  rw [if_pos (by rw [abs_mul, abs_of_pos (by linarith : 0 < u)]; nlinarith)]
  have key : (Real.exp (-θ * u) - Real.exp (-θ)) / (Real.exp (-θ) - 1)
      = (Real.exp (-θ * u) - 1) / (Real.exp (-θ) - 1) - 1 := by
    field_simp; ring
  have e1 : Real.exp (-(u * θ)) = Real.exp (-θ * u) := by congr 1; ring
  have e2 : Real.exp (-θ) * (Real.exp (θ - u * θ) - 1) = Real.exp (-θ * u) - Real.exp (-θ) := by
    rw [mul_sub, ← Real.exp_add, mul_one]; congr 2; ring
  have fin : -(Fl.log1p (.fin ((Real.exp (-θ * u) - Real.exp (-θ)) / (Real.exp (-θ) - 1))))
      = .fin (frankPhi θ u) := by
    rw [key, Fl.log1p_pos (by linarith), Fl.neg_fin, frankPhi, add_sub_cancel]
  split_ifs
  · rw [Fl.fin_div_fin' _ hem, e2, fin]
  · rw [Fl.fin_div_fin' _ hem, e1, fin]

theorem frank_one_add_pos {θ s : ℝ} (hs : 0 ≤ s) :
    0 < 1 + Real.exp (-s) * (Real.exp (-θ) - 1) := by
  have h1 : Real.exp (-s) ≤ 1 := Real.exp_le_one_iff.mpr (by linarith)
  have h2 := Real.exp_pos (-s)
  have h3 := Real.exp_pos (-θ)
  nlinarith [mul_pos h2 h3]

theorem log1mexp_fin {x : ℝ} (h : 0 < x) : log1mexp (.fin x) = .fin (Real.log (1 - Real.exp (-x))) := by
  rw [log1mexp, Fl.neg_fin, Fl.exp_fin, Fl.fin_sub_fin, Fl.log_pos]
  have := Real.exp_lt_one_iff.mpr (by linarith : -x < 0)
  linarith

theorem frankPsi_fin {θ s : ℝ} (hθ : θ ≠ 0) (h36 : -36 < θ) (hs : 0 ≤ s) :
    frankPsi θ (.fin s) = .fin (frankPsiR θ s) := by
  have hpos := frank_one_add_pos (θ := θ) hs
  unfold frankPsi
  rw [if_neg (by linarith)]
  by_cases hn : θ < 0
  · rw [if_pos hn, Fl.neg_fin, Fl.exp_fin, Fl.expm1_fin, Fl.fin_mul_fin, Fl.log1p_pos (by linarith),
      Fl.neg_fin, Fl.fin_div_fin' _ hθ, frankPsiR]
  · have h0 : 0 < θ := lt_of_le_of_ne (not_lt.mp hn) (Ne.symm hθ)
    have he : Real.exp (-θ) < 1 := Real.exp_lt_one_iff.mpr (by linarith)
    have hlog : Real.log (1 - Real.exp (-θ)) < 0 :=
      Real.log_neg (by linarith) (by linarith [Real.exp_pos (-θ)])
    rw [if_neg hn, if_neg hθ, log1mexp_fin h0, if_neg (by rw [Fl.fin_lt_fin]; linarith),
      Fl.fin_sub_fin, log1mexp_fin (by linarith), Fl.neg_fin, Fl.fin_div_fin' _ hθ, frankPsiR]
    congr 3
    rw [neg_sub, sub_eq_add_neg (Real.log _), Real.exp_add, Real.exp_log (by linarith)]
    congr 1
    ring

theorem frank_psi_phi {θ u : ℝ} (hθ : θ ≠ 0) (hu : 0 < u) : frankPsiR θ (frankPhi θ u) = u := by
  have hem := exp_neg_ne hθ
  rw [frankPsiR, frankPhi, neg_neg, Real.exp_log (frank_ratio_pos hθ hu), div_mul_cancel₀ _ hem,
    add_sub_cancel, Real.log_exp]
  field_simp

theorem frankPsiR_hasDerivAt {θ s : ℝ} (hs : 0 ≤ s) :
    HasDerivAt (frankPsiR θ)
      ((Real.exp (-θ) - 1) / θ * (Real.exp (-s) / (1 + Real.exp (-s) * (Real.exp (-θ) - 1)))) s := by
  have hpos := frank_one_add_pos (θ := θ) hs
  have h1 : HasDerivAt (fun s : ℝ => Real.exp (-s)) (-Real.exp (-s)) s := by
    simpa using (hasDerivAt_neg s).exp
  have h2 := ((h1.mul_const (Real.exp (-θ) - 1)).const_add 1).log hpos.ne'
  have h3 := h2.neg.div_const θ
  refine h3.congr_deriv ?_
  field_simp

theorem frank_frac_anti {K s t : ℝ} (hK : -1 < K) (hs : 0 ≤ s) (hst : s ≤ t) :
    Real.exp (-t) / (1 + Real.exp (-t) * K) ≤ Real.exp (-s) / (1 + Real.exp (-s) * K) := by
  have e : ∀ s : ℝ, 0 ≤ s → Real.exp (-s) / (1 + Real.exp (-s) * K) = 1 / (Real.exp s + K) := by
    intro s hs
    have := Real.one_le_exp hs
    have h2 : Real.exp s + K ≠ 0 := by linarith
    have h3 : 1 + Real.exp (-s) * K ≠ 0 := by
      have : Real.exp (-s) * (Real.exp s + K) = 1 + Real.exp (-s) * K := by
        rw [mul_add, ← Real.exp_add]; simp
      rw [← this]
      exact mul_ne_zero (Real.exp_ne_zero _) h2
    rw [div_eq_div_iff h3 h2, mul_add, ← Real.exp_add]
    simp
  rw [e s hs, e t (by linarith)]
  apply one_div_le_one_div_of_le
  · have := Real.one_le_exp hs
    linarith
  · have := Real.exp_le_exp.mpr hst
    linarith

theorem frank_coef_neg {θ : ℝ} (hθ : θ ≠ 0) : (Real.exp (-θ) - 1) / θ < 0 := by
  rcases lt_or_gt_of_ne hθ with h | h
  · apply div_neg_of_pos_of_neg _ h
    have := Real.one_lt_exp_iff.mpr (by linarith : 0 < -θ)
    linarith
  · apply div_neg_of_neg_of_pos _ h
    have := Real.exp_lt_one_iff.mpr (by linarith : -θ < 0)
    linarith

theorem frankPsiR_zero {θ : ℝ} (hθ : θ ≠ 0) : frankPsiR θ 0 = 1 := by
  rw [frankPsiR]
  simp only [neg_zero, Real.exp_zero, one_mul, add_sub_cancel, Real.log_exp]
  field_simp

theorem frankPsiR_deriv_nonpos {θ s : ℝ} (hθ : θ ≠ 0) (hs : 0 ≤ s) :
    (Real.exp (-θ) - 1) / θ * (Real.exp (-s) / (1 + Real.exp (-s) * (Real.exp (-θ) - 1))) ≤ 0 :=
  mul_nonpos_of_nonpos_of_nonneg (frank_coef_neg hθ).le
    (div_nonneg (Real.exp_pos _).le (frank_one_add_pos hs).le)

theorem frankPsiR_anti {θ s t : ℝ} (hθ : θ ≠ 0) (hs : 0 ≤ s) (hst : s ≤ t) :
    frankPsiR θ t ≤ frankPsiR θ s := by
  have : AntitoneOn (frankPsiR θ) (Set.Ici 0) := by
    apply antitoneOn_of_deriv_nonpos (convex_Ici 0)
    · intro x hx
      exact (frankPsiR_hasDerivAt hx).continuousAt.continuousWithinAt
    · intro x hx
      rw [interior_Ici] at hx
      exact (frankPsiR_hasDerivAt (Set.mem_Ioi.mp hx).le).differentiableAt.differentiableWithinAt
    · intro x hx
      rw [interior_Ici] at hx
      rw [(frankPsiR_hasDerivAt (Set.mem_Ioi.mp hx).le).deriv]
      exact frankPsiR_deriv_nonpos hθ (Set.mem_Ioi.mp hx).le
  exact this (Set.mem_Ici.mpr hs) (Set.mem_Ici.mpr (by linarith)) hst

theorem frankPsiR_nonneg {θ s : ℝ} (hθ : θ ≠ 0) (hs : 0 ≤ s) : 0 ≤ frankPsiR θ s := by
  rw [frankPsiR]
  have hpos := frank_one_add_pos (θ := θ) hs
  have h2 := Real.exp_pos (-s)
  rcases lt_or_gt_of_ne hθ with h | h
  · have := Real.one_lt_exp_iff.mpr (by linarith : 0 < -θ)
    apply div_nonneg_of_nonpos _ h.le
    have : 0 ≤ Real.log (1 + Real.exp (-s) * (Real.exp (-θ) - 1)) := Real.log_nonneg (by nlinarith)
    linarith
  · have := Real.exp_lt_one_iff.mpr (by linarith : -θ < 0)
    apply div_nonneg _ h.le
    have : Real.log (1 + Real.exp (-s) * (Real.exp (-θ) - 1)) ≤ 0 :=
      Real.log_nonpos hpos.le (by nlinarith)
    linarith

theorem frankPsiR_convex {θ : ℝ} (hθ : θ ≠ 0) : ConvexOn ℝ (Set.Ici 0) (frankPsiR θ) := by
  apply MonotoneOn.convexOn_of_deriv (convex_Ici 0)
  · intro x hx
    exact (frankPsiR_hasDerivAt hx).continuousAt.continuousWithinAt
  · intro x hx
    rw [interior_Ici] at hx
    exact (frankPsiR_hasDerivAt (Set.mem_Ioi.mp hx).le).differentiableAt.differentiableWithinAt
  · intro x hx y hy hxy
    rw [interior_Ici] at hx hy
    rw [(frankPsiR_hasDerivAt (Set.mem_Ioi.mp hx).le).deriv,
      (frankPsiR_hasDerivAt (Set.mem_Ioi.mp hy).le).deriv]
    have := frank_frac_anti (K := Real.exp (-θ) - 1) (by linarith [Real.exp_pos (-θ)])
      (Set.mem_Ioi.mp hx).le hxy
    exact mul_le_mul_of_nonpos_left this (frank_coef_neg hθ).le

theorem frankPhi_anti {θ u v : ℝ} (hθ : θ ≠ 0) (hu : 0 < u) (huv : u ≤ v) :
    frankPhi θ v ≤ frankPhi θ u := by
  rw [frankPhi, frankPhi, neg_le_neg_iff]
  apply Real.log_le_log (frank_ratio_pos hθ hu)
  rcases lt_or_gt_of_ne hθ with h | h
  · have := Real.one_lt_exp_iff.mpr (by linarith : 0 < -θ)
    apply div_le_div_of_nonneg_right _ (by linarith)
    have : Real.exp (-θ * u) ≤ Real.exp (-θ * v) := Real.exp_le_exp.mpr (by nlinarith)
    linarith
  · have := Real.exp_lt_one_iff.mpr (by linarith : -θ < 0)
    apply div_le_div_of_nonpos_of_le (by linarith)
    have : Real.exp (-θ * v) ≤ Real.exp (-θ * u) := Real.exp_le_exp.mpr (by nlinarith)
    linarith

theorem frank_isGen {θ : ℝ} (hθ : θ ≠ 0) (h36 : -36 < θ) :
    IsGen (frankPsi θ) (frankIpsi θ) (1 / 100) (frankPhi θ) (frankPsiR θ) where
  lo_nonneg := by norm_num
  lo_lt := by norm_num
  ipsi_fin u hu _ := frankIpsi_fin hθ hu
  zero h := by norm_num at h
  psi_fin s hs := frankPsi_fin hθ h36 hs
  phi_one := by
    rw [frankPhi, mul_one, div_self (exp_neg_ne hθ), Real.log_one, neg_zero]
  phi_anti u v hu huv _ := frankPhi_anti hθ (by linarith) huv
  psi_anti s t hs hst := frankPsiR_anti hθ hs hst
  psi_nonneg s hs := frankPsiR_nonneg hθ hs
  psi_phi u hu _ := frank_psi_phi hθ (by linarith)
  convex := frankPsiR_convex hθ

end Copulae
