import Verif.Props.Empirical
import Verif.Props.Special
import Verif.Lemmas.Mixed

/-!
C61: the density of the empirical beta copula is the mixed derivative of its distribution function.
-/

namespace Copulae

open Spec

/-- Density of the beta distribution on (0, 1). -/
noncomputable def Spec.betaPdf (a b x : ℝ) : ℝ :=
  x ^ (a - 1) * (1 - x) ^ (b - 1) / ProbabilityTheory.beta a b

/-- Assumption on `scipy.stats.beta.pdf` and `logpdf`. -/
def IsBetaPdf (bpdf blogpdf : Fl → ℝ → ℝ → Fl) : Prop :=
  ∀ a b x : ℝ, 1 ≤ a → 1 ≤ b → 0 < x → x < 1 → bpdf (.fin x) a b = .fin (Spec.betaPdf a b x) ∧
    blogpdf (.fin x) a b = .fin (Real.log (Spec.betaPdf a b x))

theorem exists_betaPdf : ∃ f g, IsBetaPdf f g :=
  ⟨fun x a b => match x with
    | .fin x => .fin (Spec.betaPdf a b x)
    | _ => .nan, fun x a b => match x with
    | .fin x => .fin (Real.log (Spec.betaPdf a b x))
    | _ => .nan, fun _ _ _ _ _ _ _ => ⟨rfl, rfl⟩⟩

/-- Mixed derivative of an average of products. -/
theorem hasMixed_sum_prod {n d : ℕ} {U : Set (Fin d → ℝ)} (g g' : Fin n → Fin d → ℝ → ℝ) (c : ℝ)
    (h : ∀ i j, ∀ x ∈ U, HasDerivAt (g i j) (g' i j (x j)) (x j)) (l : List (Fin d)) (hl : l.Nodup) :
    HasMixed U (fun x => (∑ i, ∏ j, g i j (x j)) / c) l
      fun x => (∑ i, ∏ j, if j ∈ l then g' i j (x j) else g i j (x j)) / c := by
  induction l with
  | nil => exact fun x _ => by simp
  | cons k l ih =>
    have hn := List.nodup_cons.mp hl
    refine ⟨_, ih hn.2, fun x hx => ?_⟩
    refine HasDerivAt.div_const (HasDerivAt.fun_sum fun i _ => ?_) _
    have e : ∀ t, ∏ j, (if j ∈ l then g' i j (Function.update x k t j)
          else g i j (Function.update x k t j))
        = g i k t * ∏ j ∈ Finset.univ.erase k, if j ∈ l then g' i j (x j) else g i j (x j) := by
      intro t
      rw [← Finset.mul_prod_erase _ _ (Finset.mem_univ k)]
      congr 1
      · rw [if_neg hn.1, Function.update_self]
      · refine Finset.prod_congr rfl fun j hj => ?_
        rw [Function.update_of_ne (Finset.ne_of_mem_erase hj)]
    simp only [e]
    have e2 : ∏ j, (if j ∈ k :: l then g' i j (x j) else g i j (x j))
        = g' i k (x k) * ∏ j ∈ Finset.univ.erase k, if j ∈ l then g' i j (x j) else g i j (x j) := by
      rw [← Finset.mul_prod_erase _ _ (Finset.mem_univ k)]
      congr 1
      · rw [if_pos List.mem_cons_self]
      · refine Finset.prod_congr rfl fun j hj => ?_
        simp only [List.mem_cons, Finset.ne_of_mem_erase hj, false_or]
    rw [e2]
    exact (h i k x hx).mul_const _

/-- C61: with beta smoothing, `pdf` returns at every point of the open unit cube the mixed derivative of
the function `cdf` returns (or its logarithm); without beta smoothing it raises. -/
theorem empPdf_density {btdtr : ℝ → ℝ → Fl → Fl} (hb : IsBtdtr btdtr)
    {bpdf blogpdf : Fl → ℝ → ℝ → Fl} (hp : IsBetaPdf bpdf blogpdf) {n d : ℕ} (hn : 0 < n)
    (data : Fin n → Fin d → ℝ) {ties : String} {m : TieMethod}
    (ht : parseTies ties = .ok m) {offset : ℝ} (ho : 0 ≤ offset) :
    ∃ C c : (Fin d → ℝ) → ℝ,
      (∀ (k : ℕ) (u : Fin k → Fin d → ℝ), (∀ i j, 0 ≤ u i j) → (∀ i j, u i j ≤ 1) →
        empCdf btdtr data .beta ties offset (fun i j => .fin (u i j)) false
          = .ok (fun i => .fin (C (u i)))) ∧
      (∀ (k : ℕ) (u : Fin k → Fin d → ℝ), (∀ i j, 0 < u i j) → (∀ i j, u i j < 1) →
        empPdf bpdf blogpdf data .beta ties offset (fun i j => .fin (u i j)) false
          = .ok (fun i => .fin (c (u i))) ∧
        empPdf bpdf blogpdf data .beta ties offset (fun i j => .fin (u i j)) true
          = .ok (fun i => .fin (Real.log (c (u i))))) ∧
      IsDensityOn {x | ∀ j, 0 < x j ∧ x j < 1} C c ∧ ∀ x, (∀ j, 0 < x j ∧ x j < 1) → 0 < c x := by
  have hn' : (0 : ℝ) < n := by exact_mod_cast hn
  have hpos : 0 < (n : ℝ) + offset := by linarith
  set r : Fin n → Fin d → ℝ := fun i j => ((rankdata m (fun k => data k j) i : ℚ) : ℝ) with hr
  have hr1 : ∀ i j, 1 ≤ r i j := fun i j => (rank_real_mem data m i j).1
  have hrn : ∀ i j, r i j ≤ n := fun i j => (rank_real_mem data m i j).2
  have hrn' : ∀ i j, 1 ≤ (n : ℝ) + 1 - r i j := fun i j => by linarith [hrn i j]
  have hbp : ∀ i j {x : ℝ}, 0 < x → x < 1 → 0 < Spec.betaPdf (r i j) (n + 1 - r i j) x := by
    intro i j x h0 h1
    have := ProbabilityTheory.beta_pos (lt_of_lt_of_le one_pos (hr1 i j))
      (lt_of_lt_of_le one_pos (hrn' i j))
    unfold Spec.betaPdf
    have h2 : 0 < 1 - x := by linarith
    positivity
  have hcpos : ∀ x : Fin d → ℝ, (∀ j, 0 < x j ∧ x j < 1) →
      0 < ∑ i, ∏ j, Spec.betaPdf (r i j) (n + 1 - r i j) (x j) := by
    intro x hx
    have : Nonempty (Fin n) := ⟨⟨0, hn⟩⟩
    exact Finset.sum_pos (fun i _ => Finset.prod_pos fun j _ => hbp i j (hx j).1 (hx j).2)
      Finset.univ_nonempty
  refine ⟨empReal .beta r offset,
    fun x => (∑ i, ∏ j, Spec.betaPdf (r i j) (n + 1 - r i j) (x j)) / (n + offset), ?_, ?_, ?_,
    fun x hx => div_pos (hcpos x hx) hpos⟩
  · intro k u h0 h1
    rw [empCdf_value hb data .beta ht hpos.ne' h0 h1]
    rfl
  · intro k u h0 h1
    have e1 : ∀ i a j, bpdf (.fin (u i j)) (r a j) (n + 1 - r a j)
        = .fin (Spec.betaPdf (r a j) (n + 1 - r a j) (u i j)) := fun i a j =>
      (hp _ _ _ (hr1 a j) (hrn' a j) (h0 i j) (h1 i j)).1
    have e2 : ∀ i a j, blogpdf (.fin (u i j)) (r a j) (n + 1 - r a j)
        = .fin (Real.log (Spec.betaPdf (r a j) (n + 1 - r a j) (u i j))) := fun i a j =>
      (hp _ _ _ (hr1 a j) (hrn' a j) (h0 i j) (h1 i j)).2
    unfold empPdf
    simp only [ne_eq, not_true_eq_false, if_false, ht, bind, Except.bind, pure, Except.pure]
    constructor
    · rw [if_neg (by decide)]
      congr 1
      funext i
      simp only [← hr] at *
      have : ∀ a j, bpdf (.fin (u i j)) ((rankdata m (fun k => data k j) a : ℚ) : ℝ)
          (n + 1 - ((rankdata m (fun k => data k j) a : ℚ) : ℝ))
          = .fin (Spec.betaPdf (r a j) (n + 1 - r a j) (u i j)) := fun a j => e1 i a j
      simp only [this, Fl.prod_fin, Fl.sum_fin]
      rw [Fl.fin_div_fin' _ hpos.ne']
    · rw [if_pos trivial]
      have hv : (List.finRange k).mapM (fun i => logSum ((List.finRange n).map fun a =>
            ∑ j, blogpdf (.fin (u i j)) ((rankdata m (fun k => data k j) a : ℚ) : ℝ)
              (n + 1 - ((rankdata m (fun k => data k j) a : ℚ) : ℝ))) none)
          = .ok ((List.finRange k).map fun i => Fl.fin (Real.log
              (∑ a, ∏ j, Spec.betaPdf (r a j) (n + 1 - r a j) (u i j)))) := by
        refine mapM_ok _ _ _ fun i _ => ?_
        have : ∀ a, ∑ j, blogpdf (.fin (u i j)) ((rankdata m (fun k => data k j) a : ℚ) : ℝ)
              (n + 1 - ((rankdata m (fun k => data k j) a : ℚ) : ℝ))
            = .fin (∑ j, Real.log (Spec.betaPdf (r a j) (n + 1 - r a j) (u i j))) := by
          intro a
          rw [← Fl.sum_fin]
          exact Finset.sum_congr rfl fun j _ => e2 i a j
        simp only [this]
        have hm : (List.finRange n).map (fun a =>
              Fl.fin (∑ j, Real.log (Spec.betaPdf (r a j) (n + 1 - r a j) (u i j))))
            = ((List.finRange n).map fun a =>
              ∑ j, Real.log (Spec.betaPdf (r a j) (n + 1 - r a j) (u i j))).map Fl.fin := by
          rw [List.map_map]
          rfl
        rw [hm, logSum_real (by
          intro h
          have := congrArg List.length h
          simp at this
          omega)]
        congr 3
        rw [List.map_map, ← Fin.sum_univ_def]
        refine Finset.sum_congr rfl fun a _ => ?_
        simp only [Function.comp]
        rw [Real.exp_sum]
        exact Finset.prod_congr rfl fun j _ => Real.exp_log (hbp a j (h0 i j) (h1 i j))
      simp only [hv]
      congr 1
      funext i
      rw [Fl.log_pos hpos]
      have hg : (List.finRange k)[(i : ℕ)]? = some i := by
        rw [List.getElem?_eq_getElem (by simp)]
        simp
      simp only [List.getD_eq_getElem?_getD, List.getElem?_map, hg, Option.map_some,
        Option.getD_some, Fl.fin_sub_fin]
      rw [Real.log_div (hcpos _ fun j => ⟨h0 i j, h1 i j⟩).ne' hpos.ne']
  · intro l hl hmem
    refine hasMixed_congr (hasMixed_sum_prod (fun i j => Spec.betaCdf (r i j) (n + 1 - r i j))
      (fun i j => Spec.betaPdf (r i j) (n + 1 - r i j)) (n + offset)
      (fun i j x _ => betaCdf_hasDerivAt (hr1 i j) (hrn' i j) (x j)) l hl) fun x _ => ?_
    simp only [hmem, if_true]

example := empPdf_density exists_btdtr.choose_spec exists_betaPdf.choose_spec.choose_spec (n := 3) (d := 2) (by norm_num)
  (fun i j => i.val * j.val) (ties := "max") (m := .max) (by decide) (offset := 1) (by norm_num)

/-- C61: the other kinds of smoothing have no density. -/
theorem empPdf_rejects (bpdf blogpdf : Fl → ℝ → ℝ → Fl) {n d : ℕ} (data : Fin n → Fin d → ℝ)
    {s : Smoothing} (hs : s ≠ .beta) (ties : String) (offset : ℝ) {k : ℕ} (u : Fin k → Fin d → Fl)
    (log : Bool) : empPdf bpdf blogpdf data s ties offset u log = .error .assertionError := by
  unfold empPdf
  rw [if_pos hs]

example (bpdf blogpdf : Fl → ℝ → ℝ → Fl) := empPdf_rejects bpdf blogpdf (n := 3) (d := 2) (fun i j => i.val * j.val)
  (s := .checkerboard) (by simp) "max" 1 (k := 1) (fun _ _ => .fin (1 / 2)) true

end Copulae
