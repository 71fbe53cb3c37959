import Verif.Model.ArchRandom
import Verif.Lemmas.Sampler
import Verif.Lemmas.ArchFamilies
import Verif.Spec.Copula
import Mathlib.Data.Fin.VecNotation

/-!
C25: the bivariate samplers of Clayton and Frank invert the conditional distribution, so that the
pairs they return have the copula as their distribution function. The two uniforms are the
coordinates of a point of the open unit square with Lebesgue measure.
-/

namespace Copulae

open MeasureTheory Set

/-- `V u w`, built from independent uniforms `u` and `w`, samples from the copula `C`: it lies in (0, 1),
is the inverse of the conditional distribution at `q w` and the pair `(u, V u w)` has distribution
function `C`. -/
structure IsPairSampler (C : ℝ → ℝ → ℝ) (q : ℝ → ℝ) (V : ℝ → ℝ → ℝ) : Prop where
  meas : Measurable fun p : ℝ × ℝ => V p.1 p.2
  mem : ∀ u ∈ Ioo (0 : ℝ) 1, ∀ w ∈ Ioo (0 : ℝ) 1, V u w ∈ Ioo (0 : ℝ) 1
  cond : ∀ u ∈ Ioo (0 : ℝ) 1, ∀ w ∈ Ioo (0 : ℝ) 1, HasDerivAt (fun t => C t (V u w)) (q w) u
  dist : ∀ a b : ℝ, 0 < a → a ≤ 1 → 0 < b → b ≤ 1 →
    volume {p : ℝ × ℝ | p.1 ∈ Ioo (0 : ℝ) 1 ∧ p.2 ∈ Ioo (0 : ℝ) 1 ∧ p.1 ≤ a ∧ V p.1 p.2 ≤ b}
      = ENNReal.ofReal (C a b)

/-- The rows sampled: the first uniform is kept, the second coordinate is `V`. -/
def pairRows (V : ℝ → ℝ → ℝ) {n : ℕ} (r : Fin n → Fin 2 → ℝ) : Fin n → Fin 2 → Fl :=
  fun i => ![.fin (r i 0), .fin (V (r i 0) (r i 1))]

theorem claytonPair_fin {θ u w : ℝ} (h0 : θ ≠ 0) (hu : u ∈ Ioo (0 : ℝ) 1)
    (hw : w ∈ Ioo (0 : ℝ) 1) : claytonPair θ (.fin u) (.fin w) = .fin (claytonV θ (u, w)) := by
  have hB := claytonBase_pos h0 hu hw
  simp only [claytonPair, Fl.pow_pos hu.1, Fl.pow_pos hw.1, Fl.fin_sub_fin, Fl.fin_mul_fin,
    Fl.fin_add_fin, Fl.pow_pos hB]
  rfl

/-- C25, Clayton: for every parameter above -1 that is not within 1e-7 of zero, and all uniforms in
(0, 1), `random` of a bivariate Clayton copula returns the pairs of an exact conditional inversion. -/
theorem clayton_random_pair {θ : ℝ} (h1 : -1 < θ) (h0 : 1 / 10 ^ 7 ≤ |θ|) :
    ∃ V : ℝ → ℝ → ℝ, IsPairSampler (fun u v => Spec.clayton θ ![u, v]) (fun w => w) V ∧
      ∀ (n : ℕ) (r : Fin n → Fin 2 → ℝ) (gam : Fin n → Fl), (∀ i j, r i j ∈ Ioo (0 : ℝ) 1) →
        claytonRandom θ (fun i j => .fin (r i j)) gam = .ok (pairRows V r) := by
  have hθ : θ ≠ 0 := by
    rintro rfl
    rw [abs_zero] at h0
    norm_num at h0
  have hC : ∀ u v : ℝ, Spec.clayton θ ![u, v] = (max (u ^ (-θ) + v ^ (-θ) - 1) 0) ^ (-1 / θ) := by
    intro u v
    simp only [Spec.clayton, Fin.sum_univ_two, Matrix.cons_val_zero, Matrix.cons_val_one]
    congr 2
    push_cast
    ring
  refine ⟨fun u w => claytonV θ (u, w), ⟨claytonV_measurable θ, fun u hu w hw => claytonV_mem h1 hθ hu hw,
    fun u hu w hw => ?_, fun a b ha ha1 hb hb1 => ?_⟩, fun n r gam hr => ?_⟩
  · simp only [hC]
    refine (clayton_hasDerivAt hθ hu.1 ?_).congr_deriv (claytonD_V h1 hθ hu hw)
    rw [claytonV_rpow hθ hu hw]
    exact mul_pos (Real.rpow_pos_of_pos hu.1 _) (Real.rpow_pos_of_pos hw.1 _)
  · simp only [hC]
    exact clayton_pair_distribution h1 hθ ha ha1 hb hb1
  · unfold claytonRandom
    rw [if_neg (not_lt.mpr h0), dif_pos rfl, if_neg (by linarith)]
    refine congrArg Except.ok (funext fun i => funext fun j => ?_)
    fin_cases j
    · simp [pairRows]
    · simp only [pairRows]
      exact claytonPair_fin hθ (hr i 0) (hr i 1)

example : ∃ V : ℝ → ℝ → ℝ,
    IsPairSampler (fun u v => Spec.clayton (-1 / 2) ![u, v]) (fun w => w) V :=
  let ⟨V, h, _⟩ := clayton_random_pair (θ := -1 / 2) (by norm_num) (by norm_num [abs_div])
  ⟨V, h⟩

theorem frankV_fin {a u w : ℝ} (ha : a < 0) (hu : u ∈ Ioo (0 : ℝ) 1) (hw : w ∈ Ioo (0 : ℝ) 1) :
    frankV a (.fin u) (.fin w) = .fin (frankVR a (u, w)) := by
  obtain ⟨e, hp, hden⟩ := frankV_arg ha hu hw
  have hne : Real.exp (-a * u) * (w - 1) - w ≠ 0 := by
    have : Real.exp (-a * u) * (w - 1) - w = -(Real.exp (-a * u) * (1 - w) + w) := by ring
    rw [this]
    exact neg_ne_zero.mpr hden.ne'
  have hgt : -1 < -w * (Real.exp (-a) - 1) / (Real.exp (-a * u) * (w - 1) - w) := by
    rw [e]; linarith
  simp only [frankV, Fl.expm1_fin, Fl.fin_mul_fin, Fl.exp_fin, Fl.fin_sub_fin, Fl.neg_fin,
    Fl.fin_div_fin' _ hne, Fl.log1p_pos hgt]
  rfl

theorem frankPair_fin {θ u w : ℝ} (hθ : θ ≠ 0) (hu : u ∈ Ioo (0 : ℝ) 1) (hw : w ∈ Ioo (0 : ℝ) 1) :
    frankPair θ (.fin u) (.fin w) = .fin (frankPairR θ (u, w)) := by
  have ha : -|θ| < 0 := by
    have := abs_pos.mpr hθ
    linarith
  unfold frankPair frankPairR
  rw [frankV_fin ha hu hw]
  by_cases h : θ > 0
  · rw [if_pos h, if_pos h, abs_of_pos h, Fl.fin_sub_fin]
  · rw [if_neg h, if_neg h, abs_of_nonpos (not_lt.mp h), neg_neg]

/-- C25, Frank: for every parameter not within 1e-7 of zero. With a positive parameter the second
uniform is used as `1 - w`. -/
theorem frank_random_pair {θ : ℝ} (h0 : 1 / 10 ^ 7 ≤ |θ|) :
    ∃ V : ℝ → ℝ → ℝ,
      IsPairSampler (fun u v => Spec.frank θ ![u, v]) (fun w => if θ > 0 then 1 - w else w) V ∧
      ∀ (n : ℕ) (r : Fin n → Fin 2 → ℝ) (fr : Fin n → Fl), (∀ i j, r i j ∈ Ioo (0 : ℝ) 1) →
        frankRandom θ (fun i j => .fin (r i j)) fr = pairRows V r := by
  have hθ : θ ≠ 0 := by
    rintro rfl
    rw [abs_zero] at h0
    norm_num at h0
  have hC : ∀ u v : ℝ, Spec.frank θ ![u, v] = frankC2 θ u v := by
    intro u v
    simp [Spec.frank, Fin.prod_univ_two, frankC2]
  refine ⟨fun u w => frankPairR θ (u, w), ⟨frankPairR_measurable θ, fun u hu w hw => frankPairR_mem hθ hu hw,
    fun u hu w hw => ?_, fun a b ha ha1 hb hb1 => ?_⟩, fun n r gam hr => ?_⟩
  · simp only [hC]
    have hm := frankPairR_mem hθ hu hw
    exact (frankC2_hasDerivAt hθ hu.1.le hu.2.le hm.1.le hm.2.le).congr_deriv
      (frankD_pair hθ hu hw)
  · simp only [hC]
    exact frank_pair_distribution hθ ha.le ha1 hb.le hb1
  · unfold frankRandom
    rw [if_neg (not_lt.mpr h0), dif_pos rfl]
    refine funext fun i => funext fun j => ?_
    fin_cases j
    · simp [pairRows]
    · simp only [pairRows]
      exact frankPair_fin hθ (hr i 0) (hr i 1)

example : ∃ V : ℝ → ℝ → ℝ,
    IsPairSampler (fun u v => Spec.frank 5 ![u, v]) (fun w => if (5 : ℝ) > 0 then 1 - w else w) V :=
  let ⟨V, h, _⟩ := frank_random_pair (θ := 5) (by norm_num)
  ⟨V, h⟩

/-- Parameters within 1e-7 of zero: both samplers return the uniforms unchanged, in any dimension. -/
theorem random_near_zero {θ : ℝ} (h : |θ| < 1 / 10 ^ 7) {dim n : ℕ} (r : Fin n → Fin dim → Fl)
    (g : Fin n → Fl) : claytonRandom θ r g = .ok r ∧ frankRandom θ r g = r :=
  ⟨if_pos h, if_pos h⟩

example := random_near_zero (θ := -1 / 10 ^ 8) (by norm_num) (dim := 3) (n := 1) (fun _ _ => .fin (1 / 2)) (fun _ => .fin 1)

/-- A bivariate Clayton copula at the lower bound -1 cannot be sampled: ZeroDivisionError. -/
theorem clayton_random_lower {n : ℕ} (r : Fin n → Fin 2 → Fl) (g : Fin n → Fl) :
    claytonRandom (-1) r g = .error .zeroDivision := by
  unfold claytonRandom
  rw [if_neg (by norm_num), dif_pos rfl, if_pos (by norm_num)]

end Copulae
