import Mathlib.Data.Fin.VecNotation
import Mathlib.Tactic.FinCases
import Verif.Lemmas.Volume
import Verif.Lemmas.PdfClayton
import Verif.Lemmas.PdfGumbel
import Verif.Lemmas.PdfFrank
import Verif.Props.ArchCdf

/-!
Property C77: the distribution functions of the Archimedean copulas and of the independence copula give
every box of every dimension a non-negative volume, and C78: they are 1-Lipschitz in every coordinate.
-/

namespace Copulae

open Finset

theorem clayton_alt {θ : ℝ} (h : 0 < θ) (d : ℕ) : Alt (fun s => 0 ≤ s) d (claytonPsiR θ) := by
  have hψ : ∀ s : ℝ, 0 ≤ s → claytonPsiR θ s = (1 + 1 * s) ^ (-1 / θ) := by
    intro s hs
    rw [claytonPsiR, sign_pos h]
    simp only [SignType.coe_one, one_mul]
    rw [max_eq_left (by linarith)]
  have key : Alt (fun s => 0 ≤ s) d fun s : ℝ => (1 + 1 * s) ^ (-1 / θ) := by
    apply alt_closure
    · apply ContinuousOn.rpow_const
      · fun_prop
      · intro x hx
        have : (0 : ℝ) ≤ x := hx
        left
        linarith
    · have := alt_of_deriv (n := d) (ψ := fun k s => ((1 : ℝ) ^ k * ∏ i ∈ range k, (-1 / θ - i)) *
          (1 + 1 * s) ^ (-1 / θ - k)) (fun k s hs => hasDerivAt_power 1 (-1 / θ) k (by linarith)) ?_
      · simpa using this
      · intro k _ s hs
        have hp := prod_clayton h.ne' k
        have h1 : 0 ≤ ∏ i ∈ range k, (1 + θ * (i : ℝ)) := prod_nonneg fun i _ => by positivity
        rw [← hp, neg_eq_neg_one_mul θ, mul_pow] at h1
        have h2 : 0 ≤ (-1 : ℝ) ^ k * ∏ i ∈ range k, (-1 / θ - (i : ℝ)) := by
          have : 0 < θ ^ k := by positivity
          by_contra hc
          push Not at hc
          have := mul_neg_of_neg_of_pos hc this
          linarith
        have h3 : 0 ≤ (1 + 1 * s) ^ (-1 / θ - (k : ℝ)) := Real.rpow_nonneg (by linarith) _
        have := mul_nonneg h2 h3
        simp only [one_pow, one_mul] at this ⊢
        linarith
  have tr : ∀ (n : ℕ) (f g : ℝ → ℝ), (∀ s, 0 ≤ s → f s = g s) → Alt (fun s => 0 ≤ s) n g →
      Alt (fun s => 0 ≤ s) n f := by
    intro n
    induction n with
    | zero => exact fun f g hfg hg s hs => (hfg s hs) ▸ hg s hs
    | succ n ih =>
      intro f g hfg hg
      refine ⟨ih f g hfg hg.1, fun k hk => ih _ _ (fun s hs => ?_) (hg.2 k hk)⟩
      rw [hfg s hs, hfg (s + k) (by linarith)]
  exact tr d _ _ hψ key

theorem gumbel_alt {θ : ℝ} (h : 1 ≤ θ) (d : ℕ) : Alt (fun s => 0 ≤ s) d (gumbelPsiR θ) := by
  have h0 : 0 < 1 / θ := by positivity
  have h1 : 1 / θ ≤ 1 := by rw [div_le_one (by linarith)]; exact h
  have e : gumbelPsiR θ = gumbelPsiK (1 / θ) 0 := by
    funext s
    rw [gumbelPsiK_zero, gumbelPsiR]
  apply alt_closure
  · unfold gumbelPsiR
    apply Continuous.continuousOn
    exact Real.continuous_exp.comp (Real.continuous_rpow_const h0.le).neg
  · rw [e]
    refine alt_of_deriv (fun k s hs => gumbelPsiK_hasDerivAt _ k hs) fun k _ s hs => ?_
    have hp := gumbelP_pos h0 h1 (d := k) (Real.rpow_pos_of_pos hs (1 / θ))
    rw [gumbelPsiK]
    have : (-1 : ℝ) ^ k * ((-1) ^ k * Real.exp (-s ^ (1 / θ)) * gumbelP k (1 / θ) (s ^ (1 / θ)) / s ^ k) =
        ((-1) * (-1)) ^ k * (Real.exp (-s ^ (1 / θ)) * gumbelP k (1 / θ) (s ^ (1 / θ)) / s ^ k) := by
      rw [mul_pow]; ring
    rw [this]
    simp only [neg_mul, one_mul, neg_neg, one_pow]
    positivity

theorem frank_alt {θ : ℝ} (h : 0 < θ) (d : ℕ) : Alt (fun s => 0 ≤ s) d (frankPsiR θ) := by
  apply alt_closure
  · exact fun x hx => (frankPsiR_hasDerivAt hx).continuousAt.continuousWithinAt
  · refine alt_of_deriv (ψ := frankPsiK θ) (fun k s hs => frankPsiK_hasDerivAt θ k hs.le) fun k _ s hs => ?_
    cases k with
    | zero => simpa [frankPsiK] using frankPsiR_nonneg h.ne' hs.le
    | succ n =>
      have hz : 0 < (1 - Real.exp (-θ)) * Real.exp (-s) := by
        have : Real.exp (-θ) < 1 := by rw [Real.exp_lt_one_iff]; linarith
        have h2 := Real.exp_pos (-s)
        nlinarith
      have hp := frankL_pos n hz (frank_z_lt hs.le)
      simp only [frankPsiK]
      rw [← mul_assoc, ← mul_assoc, ← mul_pow]
      simp only [neg_mul, one_mul, neg_neg, one_pow]
      positivity

theorem admissible_alt {F : Family} {θ : ℝ} {d : ℕ} (h : Admissible F θ d) :
    Alt (fun s => 0 ≤ s) d (F.psiR θ) := by
  obtain ⟨p, hp, hg⟩ := admissible_gen h
  by_cases hd : d = 2
  · subst hd
    exact hg.alt_two
  · cases F with
    | clayton => exact clayton_alt (h.2.2.2 hd) d
    | frank => exact frank_alt (h.2.2.2 hd) d
    | gumbel => exact gumbel_alt h.2 d

/-- **C77** (partial: Frank needs `u > 0.01` and `theta > -36`, as everywhere) Every box of any
dimension has a non-negative volume under the function that `cdf` computes. -/
theorem cdf_volume_partial {F : Family} {θ : ℝ} {d : ℕ} (h : Admissible F θ d) :
    ∃ C, Computes F θ d C ∧ ∀ a b : Fin d → ℝ, (∀ j, CdfDomain F (a j)) → (∀ j, a j ≤ b j) → (∀ j, b j ≤ 1) →
      0 ≤ Spec.volume C a b := by
  refine ⟨_, computes_genC h, fun a b ha hab hb => ?_⟩
  obtain ⟨p, hp, hg⟩ := admissible_gen h
  exact hg.volume_nonneg (admissible_alt h) (fun j => (cdfDomain_iff F _).mp (ha j)) hab hb

/-- **C77** for the independence copula: the volume of a box is the product of its sides. -/
theorem indepCdf_volume {d : ℕ} :
    ∃ C : (Fin d → ℝ) → ℝ, (∀ (n : ℕ) (x : Fin n → Fin d → ℝ),
      indepCdf d (fun i j => .fin (x i j)) false = .ok fun i => .fin (C (x i))) ∧
      ∀ a b : Fin d → ℝ, Spec.volume C a b = ∏ j, (b j - a j) := by
  refine ⟨fun x => ∏ j, x j, fun n x => ?_, fun a b => ?_⟩
  · unfold indepCdf
    rw [if_neg (by simp)]
    refine congrArg Except.ok (funext fun i => ?_)
    simp only [Bool.false_eq_true, if_false]
    rw [Fl.prod_fin]
  · simp only [sub_eq_neg_add, Spec.volume]
    rw [prod_add, powerset_univ]
    refine sum_congr rfl fun S _ => ?_
    have : ∏ j, (if j ∈ S then a j else b j) = (∏ j ∈ S, a j) * ∏ j ∈ univ \ S, b j := by
      rw [← prod_sdiff (subset_univ S), mul_comm]
      congr 1
      · exact prod_congr rfl fun j hj => if_pos hj
      · exact prod_congr rfl fun j hj => if_neg (mem_sdiff.mp hj).2
    rw [this, prod_neg, mul_assoc]

/-- In two dimensions the volume is the usual expression. -/
theorem volume_two (C : (Fin 2 → ℝ) → ℝ) (a b : Fin 2 → ℝ) :
    Spec.volume C a b = C ![b 0, b 1] - C ![a 0, b 1] - C ![b 0, a 1] + C ![a 0, a 1] := by
  have e : (univ : Finset (Finset (Fin 2))) = {∅, {0}, {1}, {0, 1}} := by decide
  unfold Spec.volume
  rw [e, sum_insert (by decide), sum_insert (by decide), sum_insert (by decide), sum_singleton]
  have v : ∀ S : Finset (Fin 2), (fun j => if j ∈ S then a j else b j) =
      ![if (0 : Fin 2) ∈ S then a 0 else b 0, if (1 : Fin 2) ∈ S then a 1 else b 1] := by
    intro S
    funext j
    fin_cases j <;> rfl
  rw [v, v, v, v]
  simp
  ring

/-- The hypotheses are met by a proper box in five dimensions with a corner at the origin. -/
example : Admissible .clayton (1 / 2) 5 ∧ (∀ j : Fin 5, CdfDomain .clayton ((j : ℝ) / 10)) ∧
    ∀ j : Fin 5, (j : ℝ) / 10 ≤ (j : ℝ) / 10 + 1 / 2 ∧ (j : ℝ) / 10 + 1 / 2 ≤ 1 := by
  refine ⟨⟨by norm_num, by norm_num⟩, fun j => ⟨by positivity, ?_⟩, fun j => ⟨by linarith, ?_⟩⟩
  all_goals
    have : ((j : ℕ) : ℝ) ≤ 4 := by exact_mod_cast Nat.le_of_lt_succ j.2
    linarith

/-! ### C78 -/

/-- Moving one coordinate up raises the generated function by at most that much. -/
theorem IsGen.genC_lipschitz_up {psi ipsi : Fl → Fl} {lo : ℝ} {φ ψ : ℝ → ℝ} (h : IsGen psi ipsi lo φ ψ)
    {d : ℕ} {x : Fin d → ℝ} (hx : ∀ j, GenDom lo (x j)) (k : Fin d) {v : ℝ} (hv : x k ≤ v) (hv1 : v ≤ 1) :
    genC φ ψ (Function.update x k v) - genC φ ψ x ≤ v - x k := by
  classical
  by_cases hz : ∃ j, j ≠ k ∧ x j = 0
  · obtain ⟨j, hj, h0⟩ := hz
    rw [genC_zero (k := j) (by rw [Function.update_of_ne hj, h0]), genC_zero (k := j) h0]
    linarith
  push Not at hz
  have hxk : 0 ≤ x k := by
    rcases (hx k).1 with h1 | h1
    · linarith [h.lo_nonneg]
    · exact h1.2.ge
  by_cases hv0 : v = 0
  · have : x k = 0 := le_antisymm (hv0 ▸ hv) hxk
    rw [genC_zero (k := k) (by rw [Function.update_self, hv0]), genC_zero (k := k) this, hv0, this]
  have hvlo : lo < v := by
    rcases (hx k).1 with h1 | h1
    · linarith
    · rw [h1.1]; exact lt_of_le_of_ne (by linarith) (Ne.symm hv0)
  have hpos : ∀ j, j ≠ k → lo < x j := fun j hj => h.pos_of_dom (hx j) (hz j hj)
  have hs : 0 ≤ ∑ j ∈ univ.erase k, φ (x j) := Finset.sum_nonneg fun j hj =>
    h.phi_nonneg (hpos j (ne_of_mem_erase hj)) (hx j).2
  have eu : genC φ ψ (Function.update x k v) = ψ (φ v + ∑ j ∈ univ.erase k, φ (x j)) := by
    rw [genC, if_neg]
    · rw [← add_sum_erase _ _ (mem_univ k), Function.update_self]
      congr 2
      exact sum_congr rfl fun j hj => by rw [Function.update_of_ne (ne_of_mem_erase hj)]
    · rintro ⟨j, hj⟩
      by_cases hjk : j = k
      · subst hjk
        rw [Function.update_self] at hj
        exact hv0 hj
      · rw [Function.update_of_ne hjk] at hj
        exact hz j hjk hj
  have hφv := h.phi_nonneg hvlo hv1
  by_cases h0 : x k = 0
  · rw [genC_zero (k := k) h0, eu, h0, sub_zero, sub_zero]
    calc ψ (φ v + ∑ j ∈ univ.erase k, φ (x j)) ≤ ψ (φ v) := h.psi_anti _ _ hφv (by linarith)
      _ = v := h.psi_phi v hvlo hv1
  · have hklo := h.pos_of_dom (hx k) h0
    have ex : genC φ ψ x = ψ (φ (x k) + ∑ j ∈ univ.erase k, φ (x j)) := by
      rw [genC, if_neg]
      · rw [← add_sum_erase _ _ (mem_univ k)]
      · rintro ⟨j, hj⟩
        by_cases hjk : j = k
        · exact h0 (hjk ▸ hj)
        · exact hz j hjk hj
    have hmono := h.phi_anti _ _ hklo hv hv1
    have h2 := h.alt_two.2 (φ (x k) - φ v) (by linarith)
    have h3 := h2.2 (∑ j ∈ univ.erase k, φ (x j)) hs (φ v) hφv
    simp only at h3
    rw [show φ v + (φ (x k) - φ v) = φ (x k) by ring,
      show φ v + ∑ j ∈ univ.erase k, φ (x j) + (φ (x k) - φ v) = φ (x k) + ∑ j ∈ univ.erase k, φ (x j) by ring,
      h.psi_phi v hvlo hv1, h.psi_phi _ hklo (hx k).2] at h3
    rw [eu, ex]
    linarith

/-- **C78** (partial: Frank needs `u > 0.01` and `theta > -36`) Two points of the domain have values no
further apart than the sum of the distances of their coordinates. -/
theorem cdf_lipschitz_partial {F : Family} {θ : ℝ} {d : ℕ} (h : Admissible F θ d) :
    ∃ C, Computes F θ d C ∧ ∀ x y : Fin d → ℝ, (∀ j, CdfDomain F (x j)) → (∀ j, CdfDomain F (y j)) →
      |C x - C y| ≤ ∑ j, |x j - y j| := by
  refine ⟨_, computes_genC h, fun x y hx hy => ?_⟩
  obtain ⟨p, hp, hg⟩ := admissible_gen h
  have hx' : ∀ j, GenDom F.lo (x j) := fun j => (cdfDomain_iff F _).mp (hx j)
  have hy' : ∀ j, GenDom F.lo (y j) := fun j => (cdfDomain_iff F _).mp (hy j)
  have step : ∀ (z : Fin d → ℝ), (∀ j, GenDom F.lo (z j)) → ∀ (k : Fin d) (v : ℝ), GenDom F.lo v →
      |genC (F.phi θ) (F.psiR θ) (Function.update z k v) - genC (F.phi θ) (F.psiR θ) z| ≤ |v - z k| := by
    intro z hz k v hv
    have hu : ∀ j, GenDom F.lo (Function.update z k v j) := by
      intro j
      by_cases hj : j = k
      · subst hj; rw [Function.update_self]; exact hv
      · rw [Function.update_of_ne hj]; exact hz j
    rcases le_total (z k) v with hle | hle
    · have h1 := hg.genC_lipschitz_up hz k hle hv.2
      have h2 := hg.genC_mono (x := z) (y := Function.update z k v) hz hu (by
        intro j
        by_cases hj : j = k
        · subst hj; rw [Function.update_self]; exact hle
        · rw [Function.update_of_ne hj])
      rw [abs_of_nonneg (by linarith), abs_of_nonneg (by linarith)]
      exact h1
    · have h1 := hg.genC_lipschitz_up hu k (v := z k) (by rw [Function.update_self]; exact hle) (hz k).2
      have h2 := hg.genC_mono (x := Function.update z k v) (y := z) hu hz (by
        intro j
        by_cases hj : j = k
        · subst hj; rw [Function.update_self]; exact hle
        · rw [Function.update_of_ne hj])
      rw [Function.update_idem, Function.update_eq_self, Function.update_self] at h1
      rw [abs_of_nonpos (by linarith), abs_of_nonpos (by linarith)]
      linarith
  have ind : ∀ T : Finset (Fin d), |genC (F.phi θ) (F.psiR θ) (fun j => if j ∈ T then x j else y j) -
      genC (F.phi θ) (F.psiR θ) y| ≤ ∑ j ∈ T, |x j - y j| := by
    intro T
    induction T using Finset.induction_on with
    | empty => simp
    | insert k T hk ih =>
      have e : (fun j => if j ∈ insert k T then x j else y j) =
          Function.update (fun j => if j ∈ T then x j else y j) k (x k) := by
        funext j
        by_cases hj : j = k
        · subst hj; simp
        · rw [Function.update_of_ne hj]; simp [hj]
      rw [e, sum_insert hk]
      have h1 := step (fun j => if j ∈ T then x j else y j) (by
        intro j
        by_cases hj : j ∈ T
        · rw [if_pos hj]; exact hx' j
        · rw [if_neg hj]; exact hy' j) k (x k) (hx' k)
      rw [if_neg hk] at h1
      have := abs_sub_le (genC (F.phi θ) (F.psiR θ)
        (Function.update (fun j => if j ∈ T then x j else y j) k (x k)))
        (genC (F.phi θ) (F.psiR θ) (fun j => if j ∈ T then x j else y j)) (genC (F.phi θ) (F.psiR θ) y)
      linarith
  simpa using ind univ

example : Admissible .gumbel 2 3 ∧ (∀ j : Fin 3, CdfDomain .gumbel (![0, 1 / 2, 1] j)) ∧
    ∀ j : Fin 3, CdfDomain .gumbel (![1 / 3, 1 / 4, 1 / 5] j) := by
  refine ⟨⟨by norm_num, by norm_num⟩, fun j => ?_, fun j => ?_⟩ <;> fin_cases j <;> norm_num [CdfDomain]

end Copulae
