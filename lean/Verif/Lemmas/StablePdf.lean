import Mathlib.Analysis.Complex.ExponentialBounds
import Mathlib.Analysis.Real.Pi.Bounds
import Verif.Model.StablePdf
import Verif.Props.StableLaw
import Verif.Props.FindRoot

/-!
The function in the exponent of the density of the stable laws as the code computes it, and its root searches.
-/

namespace Copulae

open MeasureTheory Set Real Topology

theorem pyPI2_lt : pyPI2 < π / 2 := by
  have := pi_gt_d20
  unfold pyPI2
  norm_num at *
  linarith

theorem pi_lt_pyPI2 : π / 2 < pyPI2 + 62 / 10 ^ 18 := by
  have := pi_lt_d20
  unfold pyPI2
  norm_num at *
  linarith

theorem pyPI2_gt : 1.57 < pyPI2 := by unfold pyPI2; norm_num

/-- What is assumed of `scipy.optimize.brentq`: on an interval where the function does not raise and is not NaN and
with values of different signs at the ends it returns a point of the interval where the function is zero or which has
points of both signs in every neighbourhood. -/
def IsBracketing (brentq : PyFun → ℝ → ℝ → Except PyErr ℝ) : Prop :=
  ∀ (f : ℝ → Fl) (a b : ℝ), a ≤ b → (∀ x ∈ Icc a b, f x ≠ .nan) → f a * f b < .fin 0 →
    ∃ r ∈ Icc a b, brentq (fun x => .ok (f x)) a b = .ok r ∧
      (f r = .fin 0 ∨ ∀ ε > 0, ∃ p ∈ Icc a b, ∃ q ∈ Icc a b, |p - r| < ε ∧ |q - r| < ε ∧ f p < .fin 0 ∧ .fin 0 < f q)

/-- What is assumed of `scipy.integrate.quad`: the integral of a function that is finite on the interval. -/
def IsQuad (quad : (ℝ → Fl) → ℝ → ℝ → Fl) : Prop :=
  ∀ (f : ℝ → Fl) (h : ℝ → ℝ) (a b : ℝ), (∀ x ∈ uIcc a b, f x = .fin (h x)) → IntervalIntegrable h volume a b →
    quad f a b = .fin (∫ x in a..b, h x)

/-- Such a quadrature exists. -/
theorem exists_quad : ∃ quad, IsQuad quad := by
  classical
  refine ⟨fun f a b => .fin (∫ x in a..b, match f x with | .fin v => v | _ => 0), fun f h a b hf _ => ?_⟩
  refine congrArg Fl.fin (intervalIntegral.integral_congr fun x hx => ?_)
  simp only [hf x hx]

theorem Fl.neg_cases {a b : Fl} (h : a * b < .fin 0) :
    (a < .fin 0 ∧ .fin 0 < b) ∨ (.fin 0 < a ∧ b < .fin 0) := by
  cases a with
  | nan => rw [Fl.nan_mul] at h; exact absurd h Fl.not_nan_lt
  | fin u =>
    cases b with
    | nan => rw [Fl.mul_nan] at h; exact absurd h Fl.not_nan_lt
    | fin v =>
      rw [Fl.fin_mul_fin, Fl.fin_lt_fin] at h
      rcases mul_neg_iff.mp h with h | h
      · exact Or.inr h
      · exact Or.inl h
    | pinf =>
      rcases lt_trichotomy u 0 with hu | hu | hu
      · exact Or.inl ⟨hu, trivial⟩
      · rw [hu, Fl.fin_mul_pinf, Fl.infSign_zero] at h; exact absurd h Fl.not_nan_lt
      · rw [Fl.fin_mul_pinf, Fl.infSign_pos hu] at h; exact absurd h Fl.not_pinf_lt_fin
    | ninf =>
      rcases lt_trichotomy u 0 with hu | hu | hu
      · rw [Fl.fin_mul_ninf, Fl.infSign_pos (by linarith)] at h; exact absurd h Fl.not_pinf_lt_fin
      · rw [hu, Fl.fin_mul_ninf, neg_zero, Fl.infSign_zero] at h; exact absurd h Fl.not_nan_lt
      · exact Or.inr ⟨hu, trivial⟩
  | pinf =>
    cases b with
    | nan => exact absurd h Fl.not_nan_lt
    | fin v =>
      rcases lt_trichotomy v 0 with hu | hu | hu
      · exact Or.inr ⟨trivial, hu⟩
      · rw [hu, Fl.pinf_mul_fin, Fl.infSign_zero] at h; exact absurd h Fl.not_nan_lt
      · rw [Fl.pinf_mul_fin, Fl.infSign_pos hu] at h; exact absurd h Fl.not_pinf_lt_fin
    | pinf => exact absurd h Fl.not_pinf_lt_fin
    | ninf => exact Or.inr ⟨trivial, trivial⟩
  | ninf =>
    cases b with
    | nan => exact absurd h Fl.not_nan_lt
    | fin v =>
      rcases lt_trichotomy v 0 with hu | hu | hu
      · rw [Fl.ninf_mul_fin, Fl.infSign_pos (by linarith)] at h; exact absurd h Fl.not_pinf_lt_fin
      · rw [hu, Fl.ninf_mul_fin, neg_zero, Fl.infSign_zero] at h; exact absurd h Fl.not_nan_lt
      · exact Or.inl ⟨trivial, hu⟩
    | pinf => exact Or.inl ⟨trivial, trivial⟩
    | ninf => exact absurd h Fl.not_pinf_lt_fin

theorem Fl.mul_neg_of {a b : Fl} (h : (a < .fin 0 ∧ .fin 0 < b) ∨ (.fin 0 < a ∧ b < .fin 0)) : a * b < .fin 0 := by
  cases a <;> cases b <;>
    first
    | (rcases h with ⟨h1, h2⟩ | ⟨h1, h2⟩ <;> first | exact absurd h1 id | exact absurd h2 id)
    | skip
  · rename_i v
    rcases h with ⟨h1, h2⟩ | ⟨h1, h2⟩
    · have h2 : 0 < v := h2
      rw [Fl.ninf_mul_fin, Fl.infSign_neg (by linarith)]
      trivial
    · exact absurd h1 id
  · trivial
  · rename_i v
    rcases h with ⟨h1, h2⟩ | ⟨h1, h2⟩
    · exact absurd h2 id
    · have h1 : 0 < v := h1
      rw [Fl.fin_mul_ninf, Fl.infSign_neg (by linarith)]
      trivial
  · rename_i u v
    rcases h with ⟨h1, h2⟩ | ⟨h1, h2⟩
    · exact mul_neg_of_neg_of_pos (show u < 0 from h1) (show 0 < v from h2)
    · exact mul_neg_of_pos_of_neg (show 0 < u from h1) (show v < 0 from h2)
  · rename_i u
    rcases h with ⟨h1, h2⟩ | ⟨h1, h2⟩
    · have h1 : u < 0 := h1
      rw [Fl.fin_mul_pinf, Fl.infSign_neg h1]
      trivial
    · exact absurd h2 id
  · trivial
  · rename_i v
    rcases h with ⟨h1, h2⟩ | ⟨h1, h2⟩
    · exact absurd h1 id
    · have h2 : v < 0 := h2
      rw [Fl.pinf_mul_fin, Fl.infSign_neg h2]
      trivial

/-- A point where a function with values of both signs at the ends of an interval is zero or changes its sign. -/
theorem exists_sign_change (f : ℝ → Fl) {a b : ℝ} (hab : a ≤ b) (hf : ∀ x ∈ Icc a b, f x ≠ .nan)
    (hs : f a * f b < .fin 0) :
    ∃ r ∈ Icc a b, f r = .fin 0 ∨
      ∀ ε > 0, ∃ p ∈ Icc a b, ∃ q ∈ Icc a b, |p - r| < ε ∧ |q - r| < ε ∧ f p < .fin 0 ∧ .fin 0 < f q := by
  by_cases hz : ∃ r ∈ Icc a b, f r = .fin 0
  · obtain ⟨r, hr, e⟩ := hz
    exact ⟨r, hr, Or.inl e⟩
  have hz' : ∀ x ∈ Icc a b, f x < .fin 0 ∨ .fin 0 < f x := fun x hx => by
    have h1 := hf x hx
    have h2 : f x ≠ .fin 0 := fun h => hz ⟨x, hx, h⟩
    cases h : f x with
    | nan => exact absurd h h1
    | ninf => exact Or.inl trivial
    | pinf => exact Or.inr trivial
    | fin v =>
      rw [h] at h2
      rcases lt_trichotomy v 0 with hv | hv | hv
      · exact Or.inl hv
      · exact absurd (by rw [hv]) h2
      · exact Or.inr hv
  have main : ∀ P Q : ℝ → Prop, P a → Q b → (∀ x ∈ Icc a b, P x ∨ Q x) →
      ∃ r ∈ Icc a b, ∀ ε > 0, ∃ p ∈ Icc a b, ∃ q ∈ Icc a b, |p - r| < ε ∧ |q - r| < ε ∧ P p ∧ Q q := by
    intro P Q hP hQ hPQ
    have hne : {x ∈ Icc a b | P x}.Nonempty := ⟨a, ⟨le_rfl, hab⟩, hP⟩
    have hbdd : BddAbove {x ∈ Icc a b | P x} := ⟨b, fun x hx => hx.1.2⟩
    obtain ⟨r, hr⟩ : ∃ r, r = sSup {x ∈ Icc a b | P x} := ⟨_, rfl⟩
    have hra : a ≤ r := hr ▸ le_csSup hbdd ⟨⟨le_rfl, hab⟩, hP⟩
    have hrb : r ≤ b := hr ▸ csSup_le hne fun x hx => hx.1.2
    refine ⟨r, ⟨hra, hrb⟩, fun ε hε => ?_⟩
    obtain ⟨p, hp, hpr⟩ := exists_lt_of_lt_csSup hne (show r - ε < sSup _ by rw [← hr]; linarith)
    have hpr' : p ≤ r := hr ▸ le_csSup hbdd hp
    have hq : ∃ q ∈ Icc a b, |q - r| < ε ∧ Q q := by
      rcases eq_or_lt_of_le hrb with e | h
      · exact ⟨b, ⟨hab, le_rfl⟩, by rw [← e, sub_self, abs_zero]; exact hε, hQ⟩
      · refine ⟨min b (r + ε / 2), ⟨le_min hab (by linarith), min_le_left _ _⟩, ?_, ?_⟩
        · rw [abs_of_nonneg (by rw [sub_nonneg]; exact le_min hrb (by linarith))]
          linarith [min_le_right b (r + ε / 2)]
        · rcases hPQ (min b (r + ε / 2)) ⟨le_min hab (by linarith), min_le_left _ _⟩ with h' | h'
          · have : min b (r + ε / 2) ≤ r := by
              rw [hr]
              exact le_csSup hbdd ⟨⟨le_min hab (by rw [← hr]; linarith), min_le_left _ _⟩, by rw [← hr]; exact h'⟩
            exact absurd this (not_le.mpr (lt_min h (by linarith)))
          · exact h'
    obtain ⟨q, hqm, hqr, hqQ⟩ := hq
    exact ⟨p, hp.1, q, hqm, by rw [abs_sub_comm, abs_of_nonneg (by linarith)]; linarith, hqr, hp.2, hqQ⟩
  rcases Fl.neg_cases hs with ⟨h1, h2⟩ | ⟨h1, h2⟩
  · obtain ⟨r, hr, h⟩ := main (fun x => f x < .fin 0) (fun x => .fin 0 < f x) h1 h2 hz'
    exact ⟨r, hr, Or.inr h⟩
  · obtain ⟨r, hr, h⟩ := main (fun x => .fin 0 < f x) (fun x => f x < .fin 0) h1 h2 fun x hx => (hz' x hx).symm
    refine ⟨r, hr, Or.inr fun ε hε => ?_⟩
    obtain ⟨p, hp, q, hq, h3, h4, h5, h6⟩ := h ε hε
    exact ⟨q, hq, p, hp, h4, h3, h6, h5⟩

/-- Such a solver exists. -/
theorem exists_bracketing : ∃ brentq, IsBracketing brentq := by
  classical
  refine ⟨fun f a b => if h : ∃ r ∈ Icc a b, f r = .ok (.fin 0) ∨ ∀ ε > 0, ∃ p ∈ Icc a b, ∃ q ∈ Icc a b,
    |p - r| < ε ∧ |q - r| < ε ∧ (∃ v, f p = .ok v ∧ v < .fin 0) ∧ ∃ v, f q = .ok v ∧ .fin 0 < v then .ok h.choose
    else .error .runtimeError, fun f a b hab hf hs => ?_⟩
  have h : ∃ r ∈ Icc a b, (.ok (f r) : Except PyErr Fl) = .ok (.fin 0) ∨ ∀ ε > 0, ∃ p ∈ Icc a b, ∃ q ∈ Icc a b,
      |p - r| < ε ∧ |q - r| < ε ∧ (∃ v, (.ok (f p) : Except PyErr Fl) = .ok v ∧ v < .fin 0) ∧
        ∃ v, (.ok (f q) : Except PyErr Fl) = .ok v ∧ .fin 0 < v := by
    obtain ⟨r, hr, h⟩ := exists_sign_change f hab hf hs
    refine ⟨r, hr, h.imp (fun e => by rw [e]) fun h ε hε => ?_⟩
    obtain ⟨p, hp, q, hq, h1, h2, h3, h4⟩ := h ε hε
    exact ⟨p, hp, q, hq, h1, h2, ⟨_, rfl, h3⟩, _, rfl, h4⟩
  refine ⟨h.choose, h.choose_spec.1, dif_pos h, h.choose_spec.2.imp (fun e => Except.ok.inj e) fun h' ε hε => ?_⟩
  obtain ⟨p, hp, q, hq, h1, h2, ⟨v, e1, h3⟩, v', e2, h4⟩ := h' ε hε
  refine ⟨p, hp, q, hq, h1, h2, ?_, ?_⟩
  · rw [Except.ok.inj e1]; exact h3
  · rw [Except.ok.inj e2]; exact h4

theorem findRoot_bracketing {brentq : PyFun → ℝ → ℝ → Except PyErr ℝ} (hB : IsBracketing brentq) {f : ℝ → Fl}
    {a b : ℝ} (hab : a ≤ b) (hf : ∀ x ∈ Icc a b, f x ≠ .nan)
    (hs : (f a < .fin 0 ∧ .fin 0 < f b) ∨ (.fin 0 < f a ∧ f b < .fin 0)) (delta : ℝ) (n : ℕ) :
    ∃ r ∈ Icc a b, findRoot brentq (fun x => .ok (f x)) (.fin a) (.fin b) delta n = .ok r ∧
      (f r = .fin 0 ∨ ∀ ε > 0, ∃ p ∈ Icc a b, ∃ q ∈ Icc a b,
        |p - r| < ε ∧ |q - r| < ε ∧ f p < .fin 0 ∧ .fin 0 < f q) := by
  have hs' := Fl.mul_neg_of hs
  obtain ⟨r, hr, e, h⟩ := hB f a b hab hf hs'
  refine ⟨r, hr, ?_, h⟩
  rw [findRoot_unchanged, min_eq_left hab, max_eq_right hab, e]
  rw [min_eq_left hab, max_eq_right hab]
  exact ⟨_, _, rfl, rfl, hs'⟩

/-! ## The function in the exponent -/

section
variable {α t y : ℝ} (ok : AngleOk α t) (hy : 0 < y)

include ok hy in
theorem stableG1_fin {θ : ℝ} (h1 : -t < θ) (h2 : θ < π / 2)
    (hc : 14 / 10 ^ 15 < |pyPI2 - SignType.sign (α - 1) * θ|) :
    stableG1 α (.fin y) t θ = .fin (Spec.stableV α t y θ) := by
  have hs := ok.sin_pos h1 h2
  have hθ := cos_pos_of_mem_Ioo (show θ ∈ Ioo (-(π / 2)) (π / 2) from ⟨by linarith [ok.le.2], h2⟩)
  have hct := ok.cosT
  unfold stableG1
  rw [if_neg (not_le.mpr hc)]
  simp only []
  rw [mul_comm (θ + t) α, Fl.fin_div_fin' _ hs.ne', Fl.pow_pos (div_pos hy hs), Fl.fin_mul_fin, Fl.fin_mul_fin,
    Fl.pow_pos (by positivity), Fl.fin_mul_fin]
  rfl

include ok hy in
/-- At the lower end. -/
theorem stableG1_start (h2 : |t| < π / 2) (hc : 14 / 10 ^ 15 < |pyPI2 - SignType.sign (α - 1) * (-t)|) :
    stableG1 α (.fin y) t (-t) = if 1 < α then .pinf else .fin 0 := by
  have ht := abs_lt.mp h2
  have hθ := cos_pos_of_mem_Ioo (show -t ∈ Ioo (-(π / 2)) (π / 2) from ⟨by linarith, by linarith⟩)
  have hd := ok.cosD (-t) ⟨by linarith, by linarith⟩
  have hct := ok.cosT
  unfold stableG1
  rw [if_neg (not_le.mpr hc)]
  simp only []
  rw [neg_add_cancel, zero_mul, sin_zero, Fl.fin_div_fin, if_pos rfl, Fl.infSign_pos hy, Fl.pinf_pow_pos ok.pos,
    Fl.fin_mul_fin, Fl.fin_mul_pinf, Fl.infSign_pos (by positivity)]
  rw [neg_add_cancel, mul_zero] at hd
  by_cases h : 1 < α
  · rw [if_pos h, Fl.pinf_pow_pos (by rw [one_div_pos]; linarith), Fl.fin_mul_pinf, Fl.infSign_pos hd]
  · have h' : α < 1 := lt_of_le_of_ne (not_lt.mp h) ok.ne
    rw [if_neg h, Fl.pinf_pow_neg (by rw [one_div_neg]; linarith), Fl.fin_mul_fin, mul_zero]

omit hy in
theorem stableG1_cut (h1 : 1 < α) (xm : Fl) {θ : ℝ} (h : |pyPI2 - θ| ≤ 14 / 10 ^ 15) :
    stableG1 α xm t θ = .fin 0 := by
  unfold stableG1
  rw [sign_pos (sub_pos.mpr h1), if_pos (by simpa using h)]

include ok in
/-- The factor of the function in the exponent that does not vanish at the lower end. -/
theorem stableV_factor {θ : ℝ} (hy : 0 < y) (h1 : -t < θ) (h2 : θ < π / 2) :
    Spec.stableV α t y θ = cos (α * (θ + t) - θ) * (cos (α * t) * cos θ * y ^ α) ^ (1 / (α - 1)) *
      sin (α * (θ + t)) ^ (-(α / (α - 1))) := by
  have hs := ok.sin_pos h1 h2
  have hθ := cos_pos_of_mem_Ioo (show θ ∈ Ioo (-(π / 2)) (π / 2) from ⟨by linarith [ok.le.2], h2⟩)
  have hct := ok.cosT
  rw [Spec.stableV, div_rpow hy.le hs.le, ← mul_div_assoc, div_rpow (by positivity) (by positivity), ← rpow_mul hs.le,
    mul_one_div, rpow_neg hs.le]
  ring

include ok hy in
theorem stableV_continuousAt {θ : ℝ} (h1 : -t < θ) (h2 : θ < π / 2) :
    ContinuousAt (fun θ => Spec.stableV α t y θ) θ := by
  have hs := ok.sin_pos h1 h2
  have hθ := cos_pos_of_mem_Ioo (show θ ∈ Ioo (-(π / 2)) (π / 2) from ⟨by linarith [ok.le.2], h2⟩)
  have hct := ok.cosT
  unfold Spec.stableV
  have c1 : ContinuousAt (fun θ => (y / sin (α * (θ + t))) ^ α) θ :=
    ContinuousAt.rpow_const (ContinuousAt.div continuousAt_const (by fun_prop) hs.ne') (Or.inl (by positivity))
  have c2 : ContinuousAt (fun θ => cos (α * t) * cos θ * (y / sin (α * (θ + t))) ^ α) θ :=
    ContinuousAt.mul (by fun_prop) c1
  exact ContinuousAt.mul (by fun_prop) (c2.rpow_const (Or.inl (by positivity)))

include ok hy in
/-- Near the lower end the function in the exponent is large for an index above one and small for one below. -/
theorem stableV_near_start (h2 : |t| < π / 2) :
    ∃ ε > 0, ∀ θ, -t < θ → θ < -t + ε → θ < π / 2 ∧
      if 1 < α then 1 < Spec.stableV α t y θ else Spec.stableV α t y θ < 1 := by
  have ht := abs_lt.mp h2
  have hθ := cos_pos_of_mem_Ioo (show -t ∈ Ioo (-(π / 2)) (π / 2) from ⟨by linarith, by linarith⟩)
  have hd := ok.cosD (-t) ⟨by linarith, by linarith⟩
  have hct := ok.cosT
  have ha1 : α - 1 ≠ 0 := sub_ne_zero.mpr ok.ne
  have cA : ContinuousAt (fun θ => cos (α * (θ + t) - θ) * (cos (α * t) * cos θ * y ^ α) ^ (1 / (α - 1))) (-t) :=
    ContinuousAt.mul (by fun_prop) (ContinuousAt.rpow_const (by fun_prop) (Or.inl (by positivity)))
  have h3 : ∀ᶠ θ in 𝓝 (-t), θ < π / 2 := Iio_mem_nhds (by linarith)
  by_cases h : 1 < α
  · have hp : 0 < α / (α - 1) := div_pos ok.pos (by linarith)
    have cs : ContinuousAt (fun θ => sin (α * (θ + t)) ^ (α / (α - 1))) (-t) :=
      ContinuousAt.rpow_const (by fun_prop) (Or.inr hp.le)
    have h0 : (fun θ => sin (α * (θ + t)) ^ (α / (α - 1))) (-t) <
        (fun θ => cos (α * (θ + t) - θ) * (cos (α * t) * cos θ * y ^ α) ^ (1 / (α - 1))) (-t) := by
      simp only [neg_add_cancel, mul_zero, sin_zero]
      rw [zero_rpow hp.ne']
      rw [neg_add_cancel, mul_zero] at hd
      positivity
    obtain ⟨ε, hε, hh⟩ := Metric.eventually_nhds_iff.mp ((cs.eventually_lt cA h0).and h3)
    refine ⟨ε, hε, fun θ h1 h2 => ?_⟩
    obtain ⟨hlt, hpi⟩ := hh (show dist θ (-t) < ε by rw [Real.dist_eq, abs_of_pos (by linarith)]; linarith)
    refine ⟨hpi, ?_⟩
    have hs := ok.sin_pos h1 hpi
    rw [if_pos h, stableV_factor ok hy h1 hpi, rpow_neg hs.le, ← div_eq_mul_inv, lt_div_iff₀ (by positivity), one_mul]
    exact hlt
  · have h' : α < 1 := lt_of_le_of_ne (not_lt.mp h) ok.ne
    have hp : 0 < -(α / (α - 1)) := by
      rw [neg_pos]
      exact div_neg_of_pos_of_neg ok.pos (by linarith)
    have cs : ContinuousAt (fun θ => sin (α * (θ + t)) ^ (-(α / (α - 1)))) (-t) :=
      ContinuousAt.rpow_const (by fun_prop) (Or.inr hp.le)
    have h0 : (fun θ => cos (α * (θ + t) - θ) * (cos (α * t) * cos θ * y ^ α) ^ (1 / (α - 1)) *
        sin (α * (θ + t)) ^ (-(α / (α - 1)))) (-t) < 1 := by
      simp only [neg_add_cancel, mul_zero, sin_zero]
      rw [zero_rpow hp.ne', mul_zero]
      exact one_pos
    obtain ⟨ε, hε, hh⟩ := Metric.eventually_nhds_iff.mp (((cA.mul cs).eventually_lt continuousAt_const h0).and h3)
    refine ⟨ε, hε, fun θ h1 h2 => ?_⟩
    obtain ⟨hlt, hpi⟩ := hh (show dist θ (-t) < ε by rw [Real.dist_eq, abs_of_pos (by linarith)]; linarith)
    refine ⟨hpi, ?_⟩
    rw [if_neg h, stableV_factor ok hy h1 hpi]
    exact hlt

end

/-! ## The root searches -/

/-- A value of the function in the exponent: infinite or not negative. -/
def NonNegFl (v : Fl) : Prop := v = .pinf ∨ ∃ x, v = .fin x ∧ 0 ≤ x

theorem NonNegFl.sub {v : Fl} (h : NonNegFl v) : (v - .fin 1 ≠ .nan) ∧ (v - .fin 1 < .fin 0 ↔ v < .fin 1) ∧
    (.fin 0 < v - .fin 1 ↔ .fin 1 < v) ∧ (v - .fin 1 = .fin 0 ↔ v = .fin 1) := by
  rcases h with rfl | ⟨x, rfl, hx⟩
  · refine ⟨by simp, ?_, ?_, ?_⟩ <;> simp
  · refine ⟨by simp, ?_, ?_, ?_⟩ <;> simp [sub_eq_zero]

theorem NonNegFl.log {v : Fl} (h : NonNegFl v) : (Fl.log v ≠ .nan) ∧ (Fl.log v < .fin 0 ↔ v < .fin 1) ∧
    (.fin 0 < Fl.log v ↔ .fin 1 < v) ∧ (Fl.log v = .fin 0 ↔ v = .fin 1) := by
  rcases h with rfl | ⟨x, rfl, hx⟩
  · refine ⟨by simp, ?_, ?_, ?_⟩ <;> simp
  · rcases eq_or_lt_of_le hx with rfl | hx
    · rw [Fl.log_zero]
      refine ⟨by simp, ?_, ?_, ?_⟩ <;> simp
    · rw [Fl.log_pos hx]
      refine ⟨by simp, ?_, ?_, ?_⟩
      · rw [Fl.fin_lt_fin, Fl.fin_lt_fin]; exact Real.log_neg_iff hx
      · rw [Fl.fin_lt_fin, Fl.fin_lt_fin]; exact Real.log_pos_iff hx.le
      · rw [Fl.fin_inj, Fl.fin_inj]
        exact ⟨fun h => Real.eq_one_of_pos_of_log_eq_zero hx h, fun h => by rw [h, Real.log_one]⟩

/-- What the root searches need of a function on an interval. -/
structure CrossesOne (g : ℝ → Fl) (a b : ℝ) : Prop where
  le : a ≤ b
  nonneg : ∀ θ ∈ Icc a b, NonNegFl (g θ)
  ends : (g a < .fin 1 ∧ .fin 1 < g b) ∨ (.fin 1 < g a ∧ g b < .fin 1)
  loc : ∀ r ∈ Icc a b, g r = .fin 1 ∨ ∃ ε > 0, (∀ θ ∈ Icc a b, |θ - r| < ε → g θ < .fin 1) ∨
    ∀ θ ∈ Icc a b, |θ - r| < ε → .fin 1 < g θ

theorem Fl.not_lt_of_lt {a b : Fl} (h : a < b) : ¬ b < a := by
  cases a <;> cases b <;> first | exact fun h' => h' | exact absurd h id | exact fun h' => lt_asymm (Fl.fin_lt_fin.mp h) (Fl.fin_lt_fin.mp h')

theorem CrossesOne.find {g : ℝ → Fl} {a b : ℝ} (h : CrossesOne g a b) {brentq : PyFun → ℝ → ℝ → Except PyErr ℝ}
    (hB : IsBracketing brentq) {F : Fl → Fl}
    (hF : ∀ v, NonNegFl v → F v ≠ .nan ∧ (F v < .fin 0 ↔ v < .fin 1) ∧ (.fin 0 < F v ↔ .fin 1 < v) ∧
      (F v = .fin 0 ↔ v = .fin 1)) (delta : ℝ) (n : ℕ) :
    ∃ r ∈ Icc a b, findRoot brentq (fun x => .ok (F (g x))) (.fin a) (.fin b) delta n = .ok r ∧ g r = .fin 1 := by
  have ha := hF _ (h.nonneg a ⟨le_rfl, h.le⟩)
  have hb := hF _ (h.nonneg b ⟨h.le, le_rfl⟩)
  obtain ⟨r, hr, e, hz⟩ := findRoot_bracketing hB (f := fun x => F (g x)) h.le
    (fun x hx => (hF _ (h.nonneg x hx)).1) (by
      rcases h.ends with ⟨h1, h2⟩ | ⟨h1, h2⟩
      · exact Or.inl ⟨ha.2.1.mpr h1, hb.2.2.1.mpr h2⟩
      · exact Or.inr ⟨ha.2.2.1.mpr h1, hb.2.1.mpr h2⟩) delta n
  refine ⟨r, hr, e, ?_⟩
  rcases hz with hz | hz
  · exact (hF _ (h.nonneg r hr)).2.2.2.mp hz
  · rcases h.loc r hr with h1 | ⟨ε, hε, h1 | h1⟩
    · exact h1
    · obtain ⟨p, hp, q, hq, hpr, hqr, hp', hq'⟩ := hz ε hε
      exact absurd ((hF _ (h.nonneg q hq)).2.2.1.mp hq') (Fl.not_lt_of_lt (h1 q hq hqr))
    · obtain ⟨p, hp, q, hq, hpr, hqr, hp', hq'⟩ := hz ε hε
      exact absurd ((hF _ (h.nonneg p hp)).2.1.mp hp') (Fl.not_lt_of_lt (h1 p hp hpr))

theorem stableCentre_ok {brentq : PyFun → ℝ → ℝ → Except PyErr ℝ} (hB : IsBracketing brentq) {α t ll uu : ℝ} {xm : Fl}
    (h : CrossesOne (stableG1 α xm t) ll uu) :
    ∃ θ ∈ Icc ll uu, ∃ mid, stableCentre brentq α xm t ll uu = .ok (θ, mid) ∧ stableG1 α xm t θ = .fin 1 := by
  obtain ⟨r1, hr1, e1, g1⟩ := h.find hB (F := fun v => v - .fin 1) (fun v hv => hv.sub) (1 / 10 ^ 6) 1000
  obtain ⟨r2, hr2, e2, g2⟩ := h.find hB (F := Fl.log) (fun v hv => hv.log) (1 / 10 ^ 6) 1000
  unfold stableCentre
  simp only [e1, e2, bind, Except.bind, pure, Except.pure]
  split_ifs
  · exact ⟨r1, hr1, _, rfl, g1⟩
  · exact ⟨r2, hr2, _, rfl, g2⟩

/-! ## The integrals -/

/-- The integrand as the code computes it, where the function in the exponent is finite. -/
noncomputable def g2Real (α y t θ : ℝ) : ℝ :=
  match stableG2 α (.fin y) t θ with
  | .fin v => v
  | _ => 0

theorem xexp_nonneg {v : Fl} (h : NonNegFl v) : ∃ x, xexp v = .fin x ∧ 0 ≤ x ∧ x ≤ 1 := by
  rcases h with rfl | ⟨x, rfl, hx⟩
  · exact ⟨0, by rw [xexp, if_pos Fl.fin_lt_pinf], le_rfl, zero_le_one⟩
  · rw [xexp]
    split_ifs
    · exact ⟨0, rfl, le_rfl, zero_le_one⟩
    · exact ⟨x * exp (-x), rfl, by positivity, mul_exp_neg_le x⟩

theorem stableG2_eq {α y t θ : ℝ} (h : NonNegFl (stableG1 α (.fin y) t θ)) :
    stableG2 α (.fin y) t θ = .fin (g2Real α y t θ) ∧ 0 ≤ g2Real α y t θ ∧ g2Real α y t θ ≤ 1 := by
  obtain ⟨x, e, h0, h1⟩ := xexp_nonneg h
  have e' : g2Real α y t θ = x := by
    unfold g2Real stableG2
    rw [e]
  rw [e']
  exact ⟨e, h0, h1⟩

theorem xexp_one : xexp (.fin 1) = .fin (exp (-1)) := by
  rw [xexp, if_neg (by rw [Fl.fin_lt_fin, largeExpPow]; norm_num)]
  simp

theorem stableInt_ok {brentq : PyFun → ℝ → ℝ → Except PyErr ℝ} (hB : IsBracketing brentq)
    {quad : (ℝ → Fl) → ℝ → ℝ → Fl} (hQ : IsQuad quad) {α y t θ : ℝ} (hθ : θ ∈ Icc (-t) pyPI2)
    (hn : ∀ θ ∈ Icc (-t) pyPI2, NonNegFl (stableG1 α (.fin y) t θ)) (h1 : stableG1 α (.fin y) t θ = .fin 1)
    (hi : IntervalIntegrable (g2Real α y t) volume (-t) pyPI2) (mid : Fl) :
    stableInt brentq quad α (.fin y) t θ mid = .ok (.fin (∫ x in (-t)..pyPI2, g2Real α y t x)) := by
  have hg : stableG2 α (.fin y) t θ = .fin (exp (-1)) := by rw [stableG2, h1, xexp_one]
  have he : (1 : ℝ) / 10 ^ 4 < exp (-1) := by
    have : exp (-1 : ℝ) = 1 / exp 1 := by rw [exp_neg, one_div]
    rw [this]
    have := exp_one_lt_d9
    exact one_div_lt_one_div_of_lt (exp_pos 1) (by norm_num at *; linarith)
  have hq : ∀ a ∈ Icc (-t) pyPI2, ∀ b ∈ Icc (-t) pyPI2,
      quad (stableG2 α (.fin y) t) a b = .fin (∫ x in a..b, g2Real α y t x) ∧
        IntervalIntegrable (g2Real α y t) volume a b := fun a ha b hb => by
    have hsub : uIcc a b ⊆ Icc (-t) pyPI2 := uIcc_subset_Icc ha hb
    have hint : IntervalIntegrable (g2Real α y t) volume a b :=
      hi.mono_set (by rw [uIcc_of_le (hθ.1.trans hθ.2)]; exact hsub)
    exact ⟨hQ _ _ a b (fun x hx => (stableG2_eq (hn x (hsub hx))).1) hint, hint⟩
  have hf : ∀ x ∈ Icc (-t) pyPI2, stableG2 α (.fin y) t x - .fin (1 / 10 ^ 4) ≠ .nan := fun x hx => by
    rw [(stableG2_eq (hn x hx)).1]
    simp
  have hm1 : -t ∈ Icc (-t) pyPI2 := ⟨le_rfl, hθ.1.trans hθ.2⟩
  have hm2 : pyPI2 ∈ Icc (-t) pyPI2 := ⟨hθ.1.trans hθ.2, le_rfl⟩
  have hpos : Fl.fin 0 < stableG2 α (.fin y) t θ - .fin (1 / 10 ^ 4) := by
    rw [hg, Fl.fin_sub_fin, Fl.fin_lt_fin]
    linarith
  have hneg : ∀ x ∈ Icc (-t) pyPI2, stableG2 α (.fin y) t x < .fin (1 / 10 ^ 4) →
      stableG2 α (.fin y) t x - .fin (1 / 10 ^ 4) < .fin 0 := fun x hx h => by
    rw [(stableG2_eq (hn x hx)).1] at h ⊢
    rw [Fl.fin_lt_fin] at h
    rw [Fl.fin_sub_fin, Fl.fin_lt_fin]
    linarith
  have lo : ∃ a b : ℝ, stableLower brentq quad α (.fin y) t θ mid = .ok (.fin a, .fin b) ∧
      a + b = ∫ x in (-t)..θ, g2Real α y t x := by
    unfold stableLower
    simp only []
    split_ifs with hc
    · obtain ⟨r, hr, e, -⟩ := findRoot_bracketing hB (f := fun th => stableG2 α (.fin y) t th - .fin (1 / 10 ^ 4)) hθ.1
        (fun x hx => hf x ⟨hx.1, hx.2.trans hθ.2⟩) (Or.inl ⟨hneg _ hm1 hc.2, hpos⟩) (1 / 10 ^ 6) 1000
      have hrm : r ∈ Icc (-t) pyPI2 := ⟨hr.1, hr.2.trans hθ.2⟩
      rw [e]
      simp only [bind, Except.bind, pure, Except.pure]
      rw [(hq _ hm1 r hrm).1, (hq r hrm θ hθ).1]
      exact ⟨_, _, rfl,
        intervalIntegral.integral_add_adjacent_intervals (hq _ hm1 r hrm).2 (hq r hrm θ hθ).2⟩
    · rw [(hq _ hm1 θ hθ).1]
      exact ⟨_, _, rfl, zero_add _⟩
  have hi' : ∃ a b : ℝ, stableUpper brentq quad α (.fin y) t θ mid = .ok (.fin a, .fin b) ∧
      a + b = ∫ x in θ..pyPI2, g2Real α y t x := by
    unfold stableUpper
    simp only []
    split_ifs with hc
    · obtain ⟨r, hr, e, -⟩ := findRoot_bracketing hB (f := fun th => stableG2 α (.fin y) t th - .fin (1 / 10 ^ 4)) hθ.2
        (fun x hx => hf x ⟨hθ.1.trans hx.1, hx.2⟩) (Or.inr ⟨hpos, hneg _ hm2 hc.2⟩) (1 / 10 ^ 6) 1000
      have hrm : r ∈ Icc (-t) pyPI2 := ⟨hθ.1.trans hr.1, hr.2⟩
      rw [e]
      simp only [bind, Except.bind, pure, Except.pure]
      rw [(hq θ hθ r hrm).1, (hq r hrm _ hm2).1]
      exact ⟨_, _, rfl,
        intervalIntegral.integral_add_adjacent_intervals (hq θ hθ r hrm).2 (hq r hrm _ hm2).2⟩
    · rw [(hq θ hθ _ hm2).1]
      exact ⟨_, _, rfl, add_zero _⟩
  obtain ⟨a, b, e1, s1⟩ := lo
  obtain ⟨c, d, e2, s2⟩ := hi'
  unfold stableInt
  rw [e1, e2]
  simp only [bind, Except.bind, pure, Except.pure, Fl.fin_add_fin]
  rw [← intervalIntegral.integral_add_adjacent_intervals (hq _ hm1 θ hθ).2 (hq θ hθ _ hm2).2, ← s1, ← s2]
  congr 2
  ring

end Copulae
