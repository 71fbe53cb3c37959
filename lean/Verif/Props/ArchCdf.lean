import Mathlib.Data.Fin.VecNotation
import Verif.Spec.Copula
import Verif.Lemmas.ArchFamilies
import Verif.Lemmas.LogSum

/-!
Properties C11–C17 and the distribution function part of C20: generators and distribution
functions of the Archimedean copulas and of the independence copula.

The Frank copula violates several of these properties for coordinates `u ≤ 0.01` (the result of the
dedicated branch is thrown away); the violations are stated as theorems at the end, and the
positive theorems carry the restriction in `CdfDomain`.
-/

namespace Copulae

open Finset

/-- Parameters for which the family is a copula of dimension `d`. `theta = 0` (Clayton, Frank) is
the subject of `claytonCdf_theta_zero` and `frankCdf_theta_zero`; Frank with `theta ≤ -36` is computed
by an approximation, see `frank_approx_cdf`. -/
def Admissible (F : Family) (θ : ℝ) (d : ℕ) : Prop :=
  2 ≤ d ∧
  match F with
  | .clayton => θ ≠ 0 ∧ -1 ≤ θ ∧ (d ≠ 2 → 0 < θ)
  | .frank => θ ≠ 0 ∧ -36 < θ ∧ (d ≠ 2 → 0 < θ)
  | .gumbel => 1 ≤ θ

/-- Coordinates where the implementation is right: the whole unit interval, except that Frank
needs `u > 0.01`. -/
def CdfDomain (F : Family) (u : ℝ) : Prop :=
  match F with
  | .frank => 1 / 100 < u ∧ u ≤ 1
  | _ => 0 ≤ u ∧ u ≤ 1

/-- `C` is the function computed by `cdf` on its domain, for batches of any size. -/
def Computes (F : Family) (θ : ℝ) (d : ℕ) (C : (Fin d → ℝ) → ℝ) : Prop :=
  ∀ (n : ℕ) (x : Fin n → Fin d → ℝ), (∀ i j, CdfDomain F (x i j)) →
    archCdf F θ d (fun i j => .fin (x i j)) false = .ok fun i => .fin (C (x i))

/-- Lower end of the domain. -/
noncomputable def Family.lo : Family → ℝ
  | .frank => 1 / 100
  | _ => 0

/-- Real inverse generator. -/
noncomputable def Family.phi : Family → ℝ → ℝ → ℝ
  | .clayton => claytonPhi
  | .frank => frankPhi
  | .gumbel => gumbelPhi

/-- Real generator. -/
noncomputable def Family.psiR : Family → ℝ → ℝ → ℝ
  | .clayton => claytonPsiR
  | .frank => frankPsiR
  | .gumbel => gumbelPsiR

theorem cdfDomain_iff (F : Family) (u : ℝ) : CdfDomain F u ↔ GenDom F.lo u := by
  cases F with
  | frank =>
    simp only [CdfDomain, GenDom, Family.lo]
    constructor
    · rintro ⟨h1, h2⟩; exact ⟨Or.inl h1, h2⟩
    · rintro ⟨h1 | h1, h2⟩
      · exact ⟨h1, h2⟩
      · norm_num at h1
  | clayton =>
    simp only [CdfDomain, GenDom, Family.lo, true_and]
    rw [le_iff_lt_or_eq, eq_comm (a := (0 : ℝ))]
  | gumbel =>
    simp only [CdfDomain, GenDom, Family.lo, true_and]
    rw [le_iff_lt_or_eq, eq_comm (a := (0 : ℝ))]

theorem admissible_gen {F : Family} {θ : ℝ} {d : ℕ} (h : Admissible F θ d) :
    ∃ p, F.psi θ = .ok p ∧ IsGen p (F.ipsi θ) F.lo (F.phi θ) (F.psiR θ) := by
  cases F with
  | clayton =>
    obtain ⟨_, h0, h1, _⟩ := h
    refine ⟨_, claytonPsi_ok h0, ?_⟩
    rcases lt_or_gt_of_ne h0 with hn | hp
    · exact clayton_isGen_neg h1 hn
    · exact clayton_isGen_pos hp
  | frank => exact ⟨_, rfl, frank_isGen h.2.1 h.2.2.1⟩
  | gumbel =>
    have h1 : 1 ≤ θ := h.2
    exact ⟨_, gumbelPsi_ok (by linarith), gumbel_isGen h1⟩

theorem computes_genC {F : Family} {θ : ℝ} {d : ℕ} (h : Admissible F θ d) :
    Computes F θ d (genC (F.phi θ) (F.psiR θ)) := by
  obtain ⟨p, hp, hg⟩ := admissible_gen h
  intro n x hx
  unfold archCdf
  rw [if_neg (by simp), hp]
  simp only [bind, Except.bind, pure, Except.pure]
  congr 1
  funext i
  simp only [Bool.false_eq_true, if_false]
  exact hg.cdf_val (x i) fun j => (cdfDomain_iff F _).mp (hx i j)

/-! ### C11 -/

/-- **C11** (partial: Frank needs `u > 0.01` and `theta > -36`, see `frank_psi_ipsi_zero` and
`frank_approx_psi`) The generator inverts the inverse generator. -/
theorem psi_ipsi_partial {F : Family} {θ : ℝ} {d : ℕ} (h : Admissible F θ d) {u : ℝ}
    (hu : CdfDomain F u) :
    ∃ p, F.psi θ = .ok p ∧ p (F.ipsi θ (.fin u)) = .fin u := by
  obtain ⟨p, hp, hg⟩ := admissible_gen h
  refine ⟨p, hp, ?_⟩
  have hd := (cdfDomain_iff F u).mp hu
  by_cases h0 : u = 0
  · have hlo : F.lo = 0 := by
      rcases hd.1 with h1 | h1
      · rw [h0] at h1; linarith [hg.lo_nonneg]
      · exact h1.1
    rw [h0]
    rcases hg.zero hlo with ⟨h1, h2⟩ | ⟨z, hz, h1, h2⟩
    · rw [h1, h2]
    · rw [h1, hg.psi_fin z hz, h2 z le_rfl]
  · have hlt := hg.pos_of_dom hd h0
    rw [hg.ipsi_fin u hlt hd.2, hg.psi_fin _ (hg.phi_nonneg hlt hd.2), hg.psi_phi u hlt hd.2]

example : Admissible .clayton (-1 / 2) 2 ∧ CdfDomain .clayton 0 ∧
    Admissible .frank (-5) 2 ∧ CdfDomain .frank (1 / 2) ∧
    Admissible .gumbel (3 / 2) 7 ∧ CdfDomain .gumbel 0 := by
  refine ⟨⟨le_rfl, ?_⟩, ?_, ⟨le_rfl, ?_⟩, ?_, ⟨by norm_num, ?_⟩, ?_⟩ <;>
    norm_num [CdfDomain]

/-! ### C12 -/

/-- **C12** (partial: Frank needs `u > 0.01`, see `frankCdf_not_grounded`) Uniform margins. -/
theorem cdf_margin_partial {F : Family} {θ : ℝ} {d : ℕ} (h : Admissible F θ d) :
    ∃ C, Computes F θ d C ∧ ∀ (k : Fin d) (u : ℝ), CdfDomain F u →
      C (Function.update (fun _ => 1) k u) = u := by
  refine ⟨_, computes_genC h, fun k u hu => ?_⟩
  obtain ⟨p, hp, hg⟩ := admissible_gen h
  exact hg.genC_margin k ((cdfDomain_iff F u).mp hu)

example := cdf_margin_partial (F := .frank) (θ := 4) (d := 3) ⟨by norm_num, by norm_num⟩

/-- **C12** for the independence copula. -/
theorem indepCdf_margin {d n : ℕ} (k : Fin n → Fin d) (u : Fin n → ℝ) :
    indepCdf d (fun i j => .fin (Function.update (fun _ => (1 : ℝ)) (k i) (u i) j)) false
      = .ok fun i => .fin (u i) := by
  unfold indepCdf
  rw [if_neg (by simp)]
  congr 1
  funext i
  simp only [Bool.false_eq_true, if_false]
  rw [Fl.prod_fin, Finset.prod_eq_single (k i)]
  · rw [Function.update_self]
  · intro j _ hj; rw [Function.update_of_ne hj]
  · intro hk; exact absurd (mem_univ _) hk

/-! ### C13 -/

/-- **C13** (partial: false for Frank, see `frankCdf_not_grounded`) The distribution function
vanishes when one coordinate does. -/
theorem cdf_grounded_partial {F : Family} (hF : F ≠ .frank) {θ : ℝ} {d n : ℕ}
    (h : Admissible F θ d) (x : Fin n → Fin d → ℝ) (hx : ∀ i j, 0 ≤ x i j ∧ x i j ≤ 1)
    (hz : ∀ i, ∃ j, x i j = 0) :
    archCdf F θ d (fun i j => .fin (x i j)) false = .ok fun _ => .fin 0 := by
  rw [computes_genC h n x fun i j => by cases F <;> first | exact absurd rfl hF | exact hx i j]
  congr 1
  funext i
  obtain ⟨j, hj⟩ := hz i
  rw [IsGen.genC_zero hj]

/-- **C13** for the independence copula. -/
theorem indepCdf_grounded {d n : ℕ} (x : Fin n → Fin d → ℝ) (hz : ∀ i, ∃ j, x i j = 0) :
    indepCdf d (fun i j => .fin (x i j)) false = .ok fun _ => .fin 0 := by
  unfold indepCdf
  rw [if_neg (by simp)]
  congr 1
  funext i
  simp only [Bool.false_eq_true, if_false]
  obtain ⟨j, hj⟩ := hz i
  rw [Fl.prod_fin, Finset.prod_eq_zero (mem_univ j) hj]

example : archCdf .clayton 2 3 (fun (_ : Fin 1) j => .fin (![0, 1 / 2, 1] j)) false
    = .ok fun _ => .fin 0 :=
  cdf_grounded_partial (by simp) ⟨by norm_num, by norm_num⟩ (fun _ => ![0, 1 / 2, 1])
    (by intro i j; fin_cases j <;> norm_num) (fun _ => ⟨0, rfl⟩)

/-! ### C14 -/

/-- **C14** (distribution functions) The coordinates of every row can be permuted; any parameter,
any values including NaN and infinities. -/
theorem archCdf_exchangeable (F : Family) (θ : ℝ) (dim : ℕ) {n k : ℕ} (x : Fin n → Fin k → Fl)
    (log : Bool) (σ : Fin n → Equiv.Perm (Fin k)) :
    archCdf F θ dim (fun i j => x i (σ i j)) log = archCdf F θ dim x log := by
  unfold archCdf
  by_cases hk : k ≠ dim
  · rw [if_pos hk, if_pos hk]
  · rw [if_neg hk, if_neg hk]
    congr 1
    funext p
    congr 1
    funext i
    rw [Equiv.sum_comp (σ i) fun j => F.ipsi θ (x i j)]

/-- **C14** for the independence copula. -/
theorem indepCdf_exchangeable (dim : ℕ) {n k : ℕ} (x : Fin n → Fin k → Fl)
    (log : Bool) (σ : Fin n → Equiv.Perm (Fin k)) :
    indepCdf dim (fun i j => x i (σ i j)) log = indepCdf dim x log := by
  unfold indepCdf
  by_cases hk : k ≠ dim
  · rw [if_pos hk, if_pos hk]
  · rw [if_neg hk, if_neg hk]
    congr 1
    funext i
    rw [Equiv.sum_comp (σ i) fun j => Fl.log (x i j), Equiv.prod_comp (σ i) fun j => x i j]

/-! ### C15 -/

/-- **C15** (partial: Frank needs `u > 0.01`, see `frankCdf_not_monotone`) Monotone in every
coordinate, values in [0, 1], bounded by every coordinate. -/
theorem cdf_mono_frechet_partial {F : Family} {θ : ℝ} {d : ℕ} (h : Admissible F θ d) :
    ∃ C, Computes F θ d C ∧ ∀ x y : Fin d → ℝ, (∀ j, CdfDomain F (x j)) → (∀ j, CdfDomain F (y j)) →
      (∀ j, x j ≤ y j) → 0 ≤ C x ∧ C x ≤ C y ∧ C y ≤ 1 ∧ ∀ j, C x ≤ x j := by
  refine ⟨_, computes_genC h, fun x y hx hy hxy => ?_⟩
  obtain ⟨p, hp, hg⟩ := admissible_gen h
  have hx' := fun j => (cdfDomain_iff F _).mp (hx j)
  have hy' := fun j => (cdfDomain_iff F _).mp (hy j)
  have hd : 0 < d := by have := h.1; omega
  exact ⟨hg.genC_nonneg hx', hg.genC_mono hx' hy' hxy,
    le_trans (hg.genC_le hy' ⟨0, hd⟩) (hy' ⟨0, hd⟩).2, fun j => hg.genC_le hx' j⟩

example := cdf_mono_frechet_partial (F := .gumbel) (θ := 4) (d := 3) ⟨by norm_num, by norm_num⟩

/-- **C15** for the independence copula. -/
theorem indepCdf_mono_frechet {d : ℕ} :
    ∃ C : (Fin d → ℝ) → ℝ, (∀ (n : ℕ) (x : Fin n → Fin d → ℝ),
      indepCdf d (fun i j => .fin (x i j)) false = .ok fun i => .fin (C (x i))) ∧
      ∀ x y : Fin d → ℝ, (∀ j, 0 ≤ x j) → (∀ j, y j ≤ 1) → (∀ j, x j ≤ y j) →
        0 ≤ C x ∧ C x ≤ C y ∧ C y ≤ 1 ∧ ∀ j, C x ≤ x j := by
  refine ⟨fun x => ∏ j, x j, fun n x => ?_, fun x y hx hy hxy => ⟨?_, ?_, ?_, ?_⟩⟩
  · unfold indepCdf
    rw [if_neg (by simp)]
    congr 1
    funext i
    simp only [Bool.false_eq_true, if_false]
    rw [Fl.prod_fin]
  · exact Finset.prod_nonneg fun j _ => hx j
  · exact Finset.prod_le_prod (fun j _ => hx j) fun j _ => hxy j
  · exact Finset.prod_le_one (fun j _ => (hx j).trans (hxy j)) fun j _ => hy j
  · intro j
    simp only
    rw [← Finset.mul_prod_erase _ _ (mem_univ j)]
    apply mul_le_of_le_one_right (hx j)
    exact Finset.prod_le_one (fun j _ => hx j) fun j _ => (hxy j).trans (hy j)

/-! ### C16 -/

/-- **C16** (partial: Frank needs `u > 0.01`) Every rectangle has non-negative probability. -/
theorem cdf_rectangle_partial {F : Family} {θ : ℝ} (h : Admissible F θ 2) :
    ∃ C, Computes F θ 2 C ∧ ∀ a a' b b' : ℝ, CdfDomain F a → CdfDomain F b → a ≤ a' → b ≤ b' →
      a' ≤ 1 → b' ≤ 1 → 0 ≤ C ![a', b'] - C ![a, b'] - C ![a', b] + C ![a, b] := by
  refine ⟨_, computes_genC h, fun a a' b b' ha hb h1 h2 h3 h4 => ?_⟩
  obtain ⟨p, hp, hg⟩ := admissible_gen h
  exact hg.rectangle ((cdfDomain_iff F _).mp ha) ((cdfDomain_iff F _).mp hb) h1 h2 h3 h4

example := cdf_rectangle_partial (F := .clayton) (θ := -1 / 2) ⟨le_rfl, by norm_num⟩

/-- **C16** for the independence copula. -/
theorem indepCdf_rectangle :
    ∃ C : (Fin 2 → ℝ) → ℝ, (∀ (n : ℕ) (x : Fin n → Fin 2 → ℝ),
      indepCdf 2 (fun i j => .fin (x i j)) false = .ok fun i => .fin (C (x i))) ∧
      ∀ a a' b b' : ℝ, a ≤ a' → b ≤ b' →
        0 ≤ C ![a', b'] - C ![a, b'] - C ![a', b] + C ![a, b] := by
  refine ⟨fun x => ∏ j, x j, fun n x => ?_, fun a a' b b' h1 h2 => ?_⟩
  · unfold indepCdf
    rw [if_neg (by simp)]
    refine congrArg Except.ok (funext fun i => ?_)
    simp only [Bool.false_eq_true, if_false]
    rw [Fl.prod_fin]
  · simp only [Fin.prod_univ_two, Matrix.cons_val_zero, Matrix.cons_val_one]
    have := mul_nonneg (sub_nonneg.mpr h1) (sub_nonneg.mpr h2)
    linarith

/-! ### C17 -/

theorem cdf_val_pos {F : Family} {θ : ℝ} {d : ℕ} (h : Admissible F θ d) {n : ℕ}
    (x : Fin n → Fin d → ℝ) (hx : ∀ i j, F.lo < x i j ∧ x i j ≤ 1) :
    archCdf F θ d (fun i j => .fin (x i j)) false
      = .ok fun i => .fin (F.psiR θ (∑ j, F.phi θ (x i j))) := by
  obtain ⟨p, hp, hg⟩ := admissible_gen h
  rw [computes_genC h n x fun i j => (cdfDomain_iff F _).mpr ⟨Or.inl (hx i j).1, (hx i j).2⟩]
  congr 1
  funext i
  rw [hg.genC_pos fun j => (hx i j).1]

/-- **C17** Clayton: the closed form of the documentation. -/
theorem claytonCdf_closed {θ : ℝ} {d n : ℕ} (h : Admissible .clayton θ d)
    (x : Fin n → Fin d → ℝ) (hx : ∀ i j, 0 < x i j ∧ x i j ≤ 1) :
    archCdf .clayton θ d (fun i j => .fin (x i j)) false
      = .ok fun i => .fin (Spec.clayton θ (x i)) := by
  rw [cdf_val_pos h x hx]
  congr 1
  funext i
  congr 1
  show claytonPsiR θ (∑ j, claytonPhi θ (x i j)) = _
  have h0 : θ ≠ 0 := h.2.1
  simp only [claytonPsiR, claytonPhi, Spec.clayton]
  congr 2
  rw [← Finset.mul_sum, ← mul_assoc]
  have : ((SignType.sign θ : SignType) : ℝ) * ((SignType.sign θ : SignType) : ℝ) = 1 := by
    rcases lt_or_gt_of_ne h0 with h | h
    · rw [sign_neg h]; simp
    · rw [sign_pos h]; simp
  rw [this, one_mul, Finset.sum_sub_distrib]
  simp only [sum_const, card_univ, Fintype.card_fin, nsmul_eq_mul, mul_one]
  ring

/-- **C17** Gumbel. -/
theorem gumbelCdf_closed {θ : ℝ} {d n : ℕ} (h : Admissible .gumbel θ d)
    (x : Fin n → Fin d → ℝ) (hx : ∀ i j, 0 < x i j ∧ x i j ≤ 1) :
    archCdf .gumbel θ d (fun i j => .fin (x i j)) false
      = .ok fun i => .fin (Spec.gumbel θ (x i)) :=
  cdf_val_pos h x hx

example := gumbelCdf_closed (θ := 2) (d := 3) ⟨by norm_num, by norm_num⟩
  (fun (_ : Fin 1) => ![1 / 2, 1 / 3, 1]) (by intro i j; fin_cases j <;> norm_num)

theorem frank_closed_aux {θ : ℝ} (hθ : θ ≠ 0) {d : ℕ} (hd : 1 ≤ d) (x : Fin d → ℝ)
    (hx : ∀ j, 0 < x j) : frankPsiR θ (∑ j, frankPhi θ (x j)) = Spec.frank θ x := by
  rw [frankPsiR, Spec.frank]
  have e : Real.exp (-∑ j, frankPhi θ (x j)) * (Real.exp (-θ) - 1)
      = (∏ i, (Real.exp (-θ * x i) - 1)) / (Real.exp (-θ) - 1) ^ (d - 1) := by
    rw [← Finset.sum_neg_distrib, Real.exp_sum]
    have : ∀ j, Real.exp (-frankPhi θ (x j)) = (Real.exp (-θ * x j) - 1) / (Real.exp (-θ) - 1) := by
      intro j
      rw [frankPhi, neg_neg, Real.exp_log (frank_ratio_pos hθ (hx j))]
    rw [Finset.prod_congr rfl fun j _ => this j, Finset.prod_div_distrib]
    simp only [prod_const, card_univ, Fintype.card_fin]
    have hem := exp_neg_ne hθ
    obtain ⟨m, rfl⟩ : ∃ m, d = m + 1 := ⟨d - 1, by omega⟩
    rw [Nat.add_sub_cancel, pow_succ]
    field_simp
  rw [e]
  ring

/-- **C17** Frank (partial: `u > 0.01` and `theta > -36`; see `frank_approx_cdf` for the rest of
the parameters). -/
theorem frankCdf_closed_partial {θ : ℝ} {d n : ℕ} (h : Admissible .frank θ d)
    (x : Fin n → Fin d → ℝ) (hx : ∀ i j, 1 / 100 < x i j ∧ x i j ≤ 1) :
    archCdf .frank θ d (fun i j => .fin (x i j)) false
      = .ok fun i => .fin (Spec.frank θ (x i)) := by
  rw [cdf_val_pos h x hx]
  congr 1
  funext i
  congr 1
  exact frank_closed_aux h.2.1 (by have := h.1; omega) (x i) fun j => by
    have := (hx i j).1
    linarith

example := frankCdf_closed_partial (θ := -2) (d := 2) ⟨by norm_num, by norm_num⟩
  (fun (_ : Fin 1) => ![1 / 2, 1 / 3]) (by intro i j; fin_cases j <;> norm_num)

example : archCdf .clayton (-1) 2 (fun (_ : Fin 1) (_ : Fin 2) => .fin (3 / 4)) false
    = .ok fun _ => .fin (1 / 2) := by
  rw [claytonCdf_closed ⟨le_rfl, by norm_num⟩ (fun (_ : Fin 1) _ => 3 / 4) (by norm_num)]
  congr 1
  funext i
  norm_num [Spec.clayton]

/-! ### Frank with a strongly negative parameter -/

theorem frank_approx_bound {θ s : ℝ} (hθ : θ ≤ -36) (hs : 0 ≤ s) :
    |-(Real.log (1 + Real.exp (-s - θ))) / θ - frankPsiR θ s| ≤ Real.exp θ / |θ| := by
  have hneg : θ < 0 := by linarith
  have hpos := frank_one_add_pos (θ := θ) hs
  have e : 1 + Real.exp (-s - θ)
      = (1 + Real.exp (-s) * (Real.exp (-θ) - 1)) + Real.exp (-s) := by
    rw [show -s - θ = -s + -θ by ring, Real.exp_add]; ring
  set A := 1 + Real.exp (-s) * (Real.exp (-θ) - 1) with hA
  have hx := Real.exp_pos (-s)
  have hx1 : Real.exp (-s) ≤ 1 := Real.exp_le_one_iff.mpr (by linarith)
  have h1 : 0 ≤ Real.log (A + Real.exp (-s)) - Real.log A := by
    have := Real.log_le_log hpos (by linarith : A ≤ A + Real.exp (-s))
    linarith
  have h2 : Real.log (A + Real.exp (-s)) - Real.log A ≤ Real.exp θ := by
    rw [← Real.log_div (by linarith) hpos.ne']
    have h3 : (A + Real.exp (-s)) / A = 1 + Real.exp (-s) / A := by field_simp
    rw [h3]
    have h4 : 0 < Real.exp (-s) / A := by positivity
    have h5 := Real.log_le_sub_one_of_pos (by linarith : 0 < 1 + Real.exp (-s) / A)
    have h6 : Real.exp (-s) / A ≤ Real.exp θ := by
      rw [div_le_iff₀ hpos, hA]
      have : Real.exp θ * Real.exp (-θ) = 1 := by rw [← Real.exp_add]; simp
      have h7 := Real.exp_pos θ
      nlinarith
    linarith
  rw [e, frankPsiR]
  rw [show -(Real.log (A + Real.exp (-s))) / θ - -Real.log A / θ
      = (Real.log (A + Real.exp (-s)) - Real.log A) / (-θ) by field_simp; ring]
  rw [abs_of_nonneg (div_nonneg h1 (by linarith)), abs_of_neg hneg]
  exact div_le_div_of_nonneg_right h2 (by linarith)

theorem frankPsi_approx {θ s : ℝ} (hθ : θ ≤ -36) :
    frankPsi θ (.fin s) = .fin (-(Real.log (1 + Real.exp (-s - θ))) / θ) := by
  rw [frankPsi, if_pos hθ, Fl.neg_fin, Fl.fin_sub_fin, log1pexp, Fl.exp_fin, Fl.fin_add_fin,
    Fl.log_pos (by positivity), Fl.neg_fin, Fl.fin_div_fin' _ (by linarith)]

/-- **C11**, Frank with `theta ≤ -36`: the implementation drops a summand; the round trip is off by
at most `e^theta / |theta|` (less than `10^-17`). -/
theorem frank_approx_psi {θ u : ℝ} (hθ : θ ≤ -36) (hu : 1 / 100 < u) (hu1 : u ≤ 1) :
    ∃ v, frankPsi θ (frankIpsi θ (.fin u)) = .fin v ∧ |v - u| ≤ Real.exp θ / |θ| := by
  have h0 : θ ≠ 0 := by linarith
  have hφ : 0 ≤ frankPhi θ u := by
    have h1 : frankPhi θ 1 = 0 := by
      rw [frankPhi, mul_one, div_self (exp_neg_ne h0), Real.log_one, neg_zero]
    rw [← h1]
    exact frankPhi_anti h0 (by linarith) hu1
  refine ⟨_, by rw [frankIpsi_fin h0 hu, frankPsi_approx hθ], ?_⟩
  have := frank_approx_bound hθ hφ
  rwa [frank_psi_phi h0 (by linarith)] at this

/-- **C17**, Frank with `theta ≤ -36`: distance to the closed form. -/
theorem frank_approx_cdf {θ : ℝ} (hθ : θ ≤ -36) {n : ℕ}
    (x : Fin n → Fin 2 → ℝ) (hx : ∀ i j, 1 / 100 < x i j ∧ x i j ≤ 1) :
    ∃ c : Fin n → ℝ, archCdf .frank θ 2 (fun i j => .fin (x i j)) false = .ok (fun i => .fin (c i)) ∧
      ∀ i, |c i - Spec.frank θ (x i)| ≤ Real.exp θ / |θ| := by
  have h0 : θ ≠ 0 := by linarith
  have h1 : frankPhi θ 1 = 0 := by
    rw [frankPhi, mul_one, div_self (exp_neg_ne h0), Real.log_one, neg_zero]
  refine ⟨fun i => -(Real.log (1 + Real.exp (-(∑ j, frankPhi θ (x i j)) - θ))) / θ, ?_, fun i => ?_⟩
  · unfold archCdf
    rw [if_neg (by simp)]
    simp only [Family.psi, bind, Except.bind, pure, Except.pure]
    congr 1
    funext i
    simp only [Bool.false_eq_true, if_false, Family.ipsi]
    rw [Finset.sum_congr rfl fun j _ => frankIpsi_fin h0 (hx i j).1, Fl.sum_fin, frankPsi_approx hθ]
  · rw [← frank_closed_aux h0 (by norm_num) (x i) fun j => by have := (hx i j).1; linarith]
    apply frank_approx_bound hθ
    apply Finset.sum_nonneg
    intro j _
    rw [← h1]
    exact frankPhi_anti h0 (by have := (hx i j).1; linarith) (hx i j).2

example : ∃ v, frankPsi (-40) (frankIpsi (-40) (.fin (1 / 2))) = .fin v ∧
    |v - 1 / 2| ≤ Real.exp (-40) / |(-40 : ℝ)| :=
  frank_approx_psi (by norm_num) (by norm_num) (by norm_num)

/-! ### Violations -/

theorem frankIpsi_small {θ u : ℝ} (h0 : 0 ≤ u) (hu : u ≤ 1 / 100) :
    frankIpsi θ (.fin u) = .fin (u * θ) := by
  unfold frankIpsi
  simp only [Fl.fin_mul_fin, Fl.abs_fin, Fl.fin_lt_fin]
  rw [if_neg]
  rw [abs_mul, abs_of_nonneg h0, not_lt]
  exact mul_le_mul_of_nonneg_right hu (abs_nonneg _)

/-- Violation of **C11**: for Frank `psi(ipsi(0)) = 1`. -/
theorem frank_psi_ipsi_zero {θ : ℝ} (hθ : θ ≠ 0) (h36 : -36 < θ) :
    frankPsi θ (frankIpsi θ (.fin 0)) = .fin 1 := by
  rw [frankIpsi_small le_rfl (by norm_num), zero_mul, frankPsi_fin hθ h36 le_rfl, frankPsiR_zero hθ]

example := frank_psi_ipsi_zero (θ := 5) (by norm_num) (by norm_num)

/-- Violation of the documented interface behind **C11**: `ipsi` of a single number raises. -/
theorem frankIpsi_scalar_fails (θ : ℝ) (u : Fl) :
    frankIpsiCall θ (.scalar u) = .error .typeError := rfl

/-- Violation of **C12**, **C13**: a Frank copula returns `v` instead of 0 at `(0, v)`. -/
theorem frankCdf_not_grounded {θ : ℝ} (hθ : θ ≠ 0) (h36 : -36 < θ) {v : ℝ} (hv : 1 / 100 < v)
    (hv1 : v ≤ 1) :
    archCdf .frank θ 2 (fun (_ : Fin 1) j => .fin (![0, v] j)) false = .ok fun _ => .fin v := by
  unfold archCdf
  rw [if_neg (by simp)]
  simp only [Family.psi, bind, Except.bind, pure, Except.pure]
  congr 1
  funext i
  simp only [Bool.false_eq_true, if_false, Family.ipsi, Fin.sum_univ_two, Matrix.cons_val_zero,
    Matrix.cons_val_one]
  have hg := frank_isGen hθ h36
  rw [frankIpsi_small le_rfl (by norm_num), zero_mul, frankIpsi_fin hθ hv, Fl.fin_add_fin, zero_add,
    frankPsi_fin hθ h36 (hg.phi_nonneg hv hv1), frank_psi_phi hθ (by linarith)]

example := frankCdf_not_grounded (θ := 5) (by norm_num) (by norm_num) (v := 1 / 2) (by norm_num) (by norm_num)

/-- Violation of **C15**: increasing the first coordinate from 0 to 1/2 decreases the value
returned by a Frank copula. -/
theorem frankCdf_not_monotone {θ : ℝ} (hθ : θ ≠ 0) (h36 : -36 < θ) :
    ∃ a b : ℝ, archCdf .frank θ 2 (fun (i : Fin 2) j => .fin (![![0, 1], ![1 / 2, 1]] i j)) false
      = .ok (fun i => .fin (![a, b] i)) ∧ b < a := by
  refine ⟨1, 1 / 2, ?_, by norm_num⟩
  have hg := frank_isGen hθ h36
  have h1 : frankPhi θ 1 = 0 := hg.phi_one
  have hone : frankIpsi θ (.fin 1) = .fin 0 := by rw [frankIpsi_fin hθ (by norm_num), h1]
  unfold archCdf
  rw [if_neg (by simp)]
  simp only [Family.psi, bind, Except.bind, pure, Except.pure]
  congr 1
  funext i
  simp only [Bool.false_eq_true, if_false, Family.ipsi, Fin.sum_univ_two]
  fin_cases i
  · simp only [Fin.zero_eta, Matrix.cons_val_zero, Matrix.cons_val_one]
    rw [frankIpsi_small le_rfl (by norm_num), zero_mul, hone, Fl.fin_add_fin, zero_add,
      frankPsi_fin hθ h36 le_rfl, frankPsiR_zero hθ]
  · simp only [Fin.mk_one, Matrix.cons_val_zero, Matrix.cons_val_one]
    rw [frankIpsi_fin hθ (by norm_num), hone, Fl.fin_add_fin, add_zero,
      frankPsi_fin hθ h36 (hg.phi_nonneg (by norm_num) (by norm_num)), frank_psi_phi hθ (by norm_num)]

example := frankCdf_not_monotone (θ := 5) (by norm_num) (by norm_num)

/-- At `theta = 0` (accepted by constructor and setter) the Frank distribution function is
constantly one. -/
theorem frankCdf_theta_zero {d n : ℕ} (x : Fin n → Fin d → ℝ) :
    archCdf .frank 0 d (fun i j => .fin (x i j)) false = .ok fun _ => .fin 1 := by
  unfold archCdf
  rw [if_neg (by simp)]
  simp only [Family.psi, bind, Except.bind, pure, Except.pure]
  congr 1
  funext i
  simp only [Bool.false_eq_true, if_false, Family.ipsi]
  have : ∀ j, frankIpsi 0 (.fin (x i j)) = .fin 0 := by
    intro j
    unfold frankIpsi
    simp
  rw [Finset.sum_congr rfl fun j _ => this j, Fl.sum_fin, frankPsi]
  norm_num

/-- At `theta = 0` the Clayton distribution function raises `ZeroDivisionError`. -/
theorem claytonCdf_theta_zero {d n : ℕ} (x : Fin n → Fin d → Fl) (log : Bool) :
    archCdf .clayton 0 d x log = .error .zeroDivision := by
  unfold archCdf
  rw [if_neg (by simp)]
  simp [Family.psi, claytonPsi, bind, Except.bind]

/-- A batch whose number of columns is not the dimension is rejected. -/
theorem archCdf_wrong_dim (F : Family) (θ : ℝ) (dim : ℕ) {n k : ℕ} (h : k ≠ dim)
    (x : Fin n → Fin k → Fl) (log : Bool) : archCdf F θ dim x log = .error .valueError := by
  rw [archCdf, if_pos h]

example := archCdf_wrong_dim .gumbel 2 3 (n := 1) (k := 2) (by norm_num) (fun _ _ => .fin (1 / 2)) false

/-! ### C20, distribution functions -/

/-- **C20** (cdf) `log=True` returns the logarithm of the plain result, for any input. -/
theorem archCdf_log (F : Family) (θ : ℝ) (dim : ℕ) {n k : ℕ} (x : Fin n → Fin k → Fl) :
    archCdf F θ dim x true = (archCdf F θ dim x false).map fun c i => Fl.log (c i) := by
  unfold archCdf
  by_cases hk : k ≠ dim
  · rw [if_pos hk, if_pos hk]; rfl
  · rw [if_neg hk, if_neg hk]
    cases F.psi θ <;> rfl

/-- **C20** (independence copula) The sum of logarithms is the logarithm of the product, also at
zero. -/
theorem indepCdf_log (dim : ℕ) {n k : ℕ} (x : Fin n → Fin k → ℝ) (hx : ∀ i j, 0 ≤ x i j) :
    indepCdf dim (fun i j => .fin (x i j)) true
      = (indepCdf dim (fun i j => .fin (x i j)) false).map fun c i => Fl.log (c i) := by
  unfold indepCdf
  by_cases hk : k ≠ dim
  · rw [if_pos hk, if_pos hk]; rfl
  · rw [if_neg hk, if_neg hk]
    simp only [if_true, Bool.false_eq_true, if_false, Except.map]
    congr 1
    funext i
    rw [Fl.prod_fin]
    have : ∀ s : Finset (Fin k), ∑ j ∈ s, Fl.log (.fin (x i j)) = Fl.log (.fin (∏ j ∈ s, x i j)) := by
      classical
      intro s
      induction s using Finset.induction_on with
      | empty => rw [Finset.sum_empty, Finset.prod_empty, Fl.log_pos one_pos, Real.log_one]; rfl
      | insert a s ha ih =>
        rw [Finset.sum_insert ha, Finset.prod_insert ha, ih,
          fl_log_mul (hx i a) (Finset.prod_nonneg fun j _ => hx i j)]
    exact this univ

example := indepCdf_log 2 (n := 1) (fun _ => ![1 / 2, 0]) (by intro i j; fin_cases j <;> norm_num)

/-- **C20** (independence copula, density) -/
theorem indepPdf_log (dim : ℕ) {n k : ℕ} (x : Fin n → Fin k → Fl) :
    indepPdf dim x true = (indepPdf dim x false).map fun c i => Fl.log (c i) := by
  unfold indepPdf
  by_cases hk : k ≠ dim
  · rw [if_pos hk, if_pos hk]; rfl
  · rw [if_neg hk, if_neg hk]
    simp only [if_true, Bool.false_eq_true, if_false, Except.map]
    rw [Fl.log_pos one_pos, Real.log_one]

end Copulae
