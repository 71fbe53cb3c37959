import Verif.Spec.Margin
import Verif.Lemmas.MixedComp
import Verif.Lemmas.Ranks
import Verif.Props.ArchVolume
import Verif.Props.ArchPdf

/-!
Properties C79–C82: the joint distribution, density and sample of a `MarginalCopula`.
-/

namespace Copulae

open Finset Spec

/-- A concrete margin: the uniform distribution on `[0, 2]`. -/
noncomputable def uniTwo : Margin where
  cdf := fun v => match v with
    | .fin x => .fin (max 0 (min (x / 2) 1))
    | .pinf => .fin 1
    | .ninf => .fin 0
    | .nan => .nan
  pdf := fun v => match v with
    | .fin x => .fin (if 0 ≤ x ∧ x ≤ 2 then 1 / 2 else 0)
    | .nan => .nan
    | _ => .fin 0
  logpdf := fun v => match v with
    | .fin x => Fl.log (.fin (if 0 ≤ x ∧ x ≤ 2 then 1 / 2 else 0))
    | .nan => .nan
    | _ => .ninf
  ppf := fun v => match v with
    | .fin u => if 0 ≤ u ∧ u ≤ 1 then .fin (2 * u) else .nan
    | _ => .nan

/-- Its distribution function. -/
noncomputable def uniTwoG : Fl → ℝ
  | .fin x => max 0 (min (x / 2) 1)
  | .pinf => 1
  | _ => 0

theorem uniTwo_dist : IsDistFn uniTwo.cdf uniTwoG where
  val v hv := by cases v <;> first | rfl | exact absurd rfl hv
  mono v w h := by
    have h0 : ∀ x : ℝ, 0 ≤ max 0 (min (x / 2) 1) := fun x => le_max_left _ _
    have h1 : ∀ x : ℝ, max 0 (min (x / 2) 1) ≤ 1 := fun x => max_le zero_le_one (min_le_right _ _)
    cases v with
    | nan => exact absurd h Fl.not_nan_le
    | ninf => cases w with
      | nan => exact absurd h Fl.not_le_nan
      | ninf => exact le_rfl
      | fin x => exact h0 x
      | pinf => exact zero_le_one
    | fin x => cases w with
      | nan => exact absurd h Fl.not_le_nan
      | ninf => exact absurd h Fl.not_fin_le_ninf
      | fin y =>
        have : x ≤ y := h
        exact max_le_max le_rfl (min_le_min (by linarith) le_rfl)
      | pinf => exact h1 x
    | pinf => cases w with
      | nan => exact absurd h Fl.not_le_nan
      | ninf => exact absurd h (by simp [LE.le, Fl.le])
      | fin y => exact absurd h Fl.not_pinf_le_fin
      | pinf => exact le_rfl
  top := rfl
  bot := rfl

theorem uniTwo_quantile : IsQuantile uniTwo.ppf uniTwoG := by
  intro u h0 h1 v hv
  have e : uniTwo.ppf (.fin u) = .fin (2 * u) := if_pos ⟨h0.le, h1.le⟩
  rw [e]
  cases v with
  | nan => exact absurd rfl hv
  | ninf => simp only [Fl.not_fin_le_ninf, uniTwoG, false_iff, not_le]; exact h0
  | pinf => simp only [Fl.fin_le_pinf, uniTwoG, true_iff]; exact h1.le
  | fin x =>
    simp only [Fl.fin_le_fin, uniTwoG, le_max_iff, le_min_iff]
    constructor
    · intro h; right; exact ⟨by linarith, h1.le⟩
    · rintro (h | h)
      · linarith
      · linarith [h.1]

theorem uniTwo_smooth : IsSmooth uniTwo (fun x => x / 2) (fun _ => 1 / 2) (Set.Ioo 0 2) where
  cdf x hx := by
    show Fl.fin _ = _
    rw [min_eq_left (by linarith [hx.2]), max_eq_right (by linarith [hx.1])]
  pdf x hx := by
    show Fl.fin _ = _
    rw [if_pos ⟨hx.1.le, hx.2.le⟩]
  logpdf x hx := by
    show Fl.log (Fl.fin _) = _
    rw [if_pos ⟨hx.1.le, hx.2.le⟩]
  nonneg x _ := by norm_num
  deriv x _ := by simpa using (hasDerivAt_id x).div_const 2

/-! ### C79 -/

/-- The value of `cdf` for an inner copula whose `cdf` computes `C` on `D`. -/
theorem margCdf_value {d : ℕ} {inner : Inner d} {D : ℝ → Prop} {C : (Fin d → ℝ) → ℝ}
    (hC : ∀ (n : ℕ) (u : Fin n → Fin d → ℝ), (∀ i j, D (u i j)) →
      inner.cdf (fun i j => .fin (u i j)) false = .ok fun i => .fin (C (u i)))
    {m : Fin d → Margin} {G : Fin d → Fl → ℝ} (hm : ∀ j, IsDistFn (m j).cdf (G j)) {n : ℕ}
    {x : Fin n → Fin d → Fl} (hx : ∀ i j, x i j ≠ .nan) (hD : ∀ i j, D (G j (x i j))) :
    margCdf inner m .float x false = .ok fun i => .fin (C fun j => G j (x i j)) := by
  unfold margCdf
  rw [show marginU m .float x = fun i j => Fl.fin (G j (x i j)) from
    funext fun i => funext fun j => (hm j).val _ (hx i j)]
  exact hC n _ hD

theorem volume_comp {d : ℕ} (C : (Fin d → ℝ) → ℝ) (G : Fin d → ℝ → ℝ) (a b : Fin d → ℝ) :
    Spec.volume (fun x => C fun j => G j (x j)) a b =
      Spec.volume C (fun j => G j (a j)) (fun j => G j (b j)) := by
  unfold Spec.volume
  refine sum_congr rfl fun S _ => ?_
  congr 1
  refine congrArg C (funext fun j => ?_)
  by_cases h : j ∈ S <;> simp [h]

/-- **C79** (partial: an inner Frank copula needs marginal probabilities above 0.01 and `theta > -36`)
`cdf` is a joint distribution function with the prescribed margins: letting all other coordinates go to
infinity leaves the margin, a coordinate at minus infinity gives zero, and every box has a non-negative
probability. -/
theorem margCdf_sklar_partial {F : Family} {θ : ℝ} {d : ℕ} (h : Admissible F θ d) {m : Fin d → Margin}
    {G : Fin d → Fl → ℝ} (hm : ∀ j, IsDistFn (m j).cdf (G j)) :
    ∃ H : (Fin d → Fl) → ℝ,
      (∀ (n : ℕ) (x : Fin n → Fin d → Fl), (∀ i j, x i j ≠ .nan) → (∀ i j, CdfDomain F (G j (x i j))) →
        margCdf (archInner F θ d) m .float x false = .ok fun i => .fin (H (x i))) ∧
      (∀ k v, CdfDomain F (G k v) → H (Function.update (fun _ => .pinf) k v) = G k v) ∧
      (CdfDomain F 0 → ∀ x k, x k = .ninf → H x = 0) ∧
      (∀ a b : Fin d → ℝ, (∀ j, a j ≤ b j) → (∀ j, CdfDomain F (G j (.fin (a j)))) →
        0 ≤ Spec.volume (fun x => H fun j => .fin (x j)) a b) := by
  obtain ⟨p, hp, hg⟩ := admissible_gen h
  refine ⟨fun x => genC (F.phi θ) (F.psiR θ) fun j => G j (x j), fun n x hx hD => ?_, fun k v hv => ?_,
    fun _ x k hk => ?_, fun a b hab ha => ?_⟩
  · exact margCdf_value (inner := archInner F θ d) (D := CdfDomain F) (computes_genC h) hm hx hD
  · have e : (fun j => G j (Function.update (fun _ => Fl.pinf) k v j)) =
        Function.update (fun _ => (1 : ℝ)) k (G k v) := by
      funext j
      by_cases hj : j = k
      · subst hj; simp
      · rw [Function.update_of_ne hj, Function.update_of_ne hj, (hm j).top]
    simp only [e]
    exact hg.genC_margin k ((cdfDomain_iff F _).mp hv)
  · exact IsGen.genC_zero (k := k) (by rw [hk, (hm k).bot])
  · rw [volume_comp (genC (F.phi θ) (F.psiR θ)) fun j y => G j (.fin y)]
    refine hg.volume_nonneg (admissible_alt h) (fun j => (cdfDomain_iff F _).mp (ha j))
      (fun j => (hm j).mono _ _ (hab j)) fun j => ?_
    rw [← (hm j).top]
    exact (hm j).mono _ _ Fl.fin_le_pinf

example := margCdf_sklar_partial (F := .gumbel) (θ := 2) (d := 3) ⟨by norm_num, by norm_num⟩ (m := fun _ => uniTwo)
  fun _ => uniTwo_dist

/-- **C79** for the independence copula: the product of the marginal probabilities. -/
theorem margCdf_indep {d : ℕ} {m : Fin d → Margin} {G : Fin d → Fl → ℝ} (hm : ∀ j, IsDistFn (m j).cdf (G j))
    {n : ℕ} {x : Fin n → Fin d → Fl} (hx : ∀ i j, x i j ≠ .nan) :
    margCdf (indepInner d) m .float x false = .ok fun i => .fin (∏ j, G j (x i j)) := by
  refine margCdf_value (D := fun _ => True) (C := fun u => ∏ j, u j) (fun n u _ => ?_) hm hx fun _ _ => trivial
  show indepCdf d _ false = _
  unfold indepCdf
  rw [if_neg (by simp)]
  refine congrArg Except.ok (funext fun i => ?_)
  simp only [Bool.false_eq_true, if_false]
  rw [Fl.prod_fin]

example := margCdf_indep (d := 3) (m := fun _ => uniTwo) (G := fun _ => uniTwoG) (fun _ => uniTwo_dist)
  (n := 1) (x := fun _ => ![.fin (1 / 2), .pinf, .ninf]) (by intro i j; fin_cases j <;> simp)

/-- With the logarithm: an inner copula whose logarithmic `cdf` is the logarithm of its `cdf` gives a joint
`cdf` with the same relation. -/
theorem margCdf_log {F : Family} {θ : ℝ} {d : ℕ} {m : Fin d → Margin} {dt : DType} {n : ℕ}
    {x : Fin n → Fin d → Fl} {v : Fin n → Fl} (h : margCdf (archInner F θ d) m dt x false = .ok v) :
    margCdf (archInner F θ d) m dt x true = .ok fun i => Fl.log (v i) := by
  unfold margCdf archInner archCdf at h ⊢
  simp only [ne_eq, not_true_eq_false, if_false] at h ⊢
  cases hp : F.psi θ with
  | error e => rw [hp] at h; cases h
  | ok p =>
    rw [hp] at h
    simp only [bind, Except.bind, pure, Except.pure, Bool.false_eq_true, if_false, if_true,
      Except.ok.injEq] at h ⊢
    funext i
    rw [← h]

/-- A joint distribution in three dimensions with uniform margins meeting the hypotheses. -/
example : Admissible .gumbel 2 3 ∧ (∀ j : Fin 3, IsDistFn ((fun _ => uniTwo) j).cdf ((fun _ => uniTwoG) j)) ∧
    ∀ j : Fin 3, CdfDomain .gumbel (uniTwoG (![.fin (1 / 2), .pinf, .ninf] j)) := by
  refine ⟨⟨by norm_num, by norm_num⟩, fun _ => uniTwo_dist, fun j => ?_⟩
  fin_cases j <;> norm_num [CdfDomain, uniTwoG]

/-- **C79**, the violation: for an array of integers the marginal probabilities are cut off to integers, so
the joint probability is zero wherever no marginal probability is one. -/
theorem margCdf_int {F : Family} {θ : ℝ} {d : ℕ} (h : Admissible F θ d) (hF : F ≠ .frank) {m : Fin d → Margin}
    {G : Fin d → Fl → ℝ} (hm : ∀ j, IsDistFn (m j).cdf (G j)) {n : ℕ} (x : Fin n → Fin d → ℤ)
    (hx : ∀ i j, G j (.fin (x i j)) < 1) :
    margCdf (archInner F θ d) m .int (fun i j => .fin (x i j)) false = .ok fun _ => .fin 0 := by
  obtain ⟨p, hp, hg⟩ := admissible_gen h
  have e : marginU m .int (fun i j => Fl.fin (x i j)) = fun i j => Fl.fin 0 := by
    funext i j
    have h0 : 0 ≤ G j (.fin (x i j)) := by
      rw [← (hm j).bot]
      exact (hm j).mono _ _ Fl.ninf_le_fin
    unfold marginU
    rw [(hm j).val _ (by simp)]
    simp only [DType.store]
    rw [if_pos h0, Int.floor_eq_zero_iff.mpr ⟨h0, hx i j⟩, Int.cast_zero]
  have hlo : ∀ i : Fin n, ∀ j : Fin d, CdfDomain F ((fun (_ : Fin n) (_ : Fin d) => (0 : ℝ)) i j) := by
    intro i j
    cases F with
    | frank => exact absurd rfl hF
    | clayton => exact ⟨le_rfl, zero_le_one⟩
    | gumbel => exact ⟨le_rfl, zero_le_one⟩
  have := computes_genC h n _ hlo
  unfold margCdf
  rw [e]
  refine this.trans (congrArg Except.ok (funext fun i => ?_))
  rw [IsGen.genC_zero (k := ⟨0, by have := h.1; omega⟩) rfl]

example := margCdf_int (F := .clayton) (θ := 2) (d := 2) ⟨by norm_num, by norm_num⟩ (by simp) (m := fun _ => uniTwo)
  (G := fun _ => uniTwoG) (fun _ => uniTwo_dist) (n := 2) (fun i _ => i.val) (by intro i j; fin_cases i <;> norm_num [uniTwoG])

/-- **C79**, the violation on one point: two uniform margins on `[0, 2]` and a Clayton copula at the
point `(1, 1)`. With floats the probability is `1 / 3`, with the same numbers as integers it is `0`. -/
theorem margCdf_int_differs :
    margCdf (archInner .clayton 1 2) (fun _ => uniTwo) .float (n := 1) (fun _ _ => .fin 1) false
        = .ok (fun _ => .fin (1 / 3)) ∧
    margCdf (archInner .clayton 1 2) (fun _ => uniTwo) .int (n := 1) (fun _ _ => .fin 1) false
        = .ok (fun _ => .fin 0) := by
  have hadm : Admissible .clayton 1 2 := ⟨le_rfl, by norm_num, by norm_num, fun _ => by norm_num⟩
  have hG : uniTwoG (.fin 1) = 1 / 2 := by norm_num [uniTwoG]
  constructor
  · have := margCdf_value (inner := archInner .clayton 1 2) (D := CdfDomain .clayton) (computes_genC hadm)
      (m := fun _ => uniTwo) (G := fun _ => uniTwoG) (fun _ => uniTwo_dist) (n := 1) (x := fun _ _ => .fin 1)
      (fun _ _ => by simp) (fun _ _ => by rw [hG]; norm_num [CdfDomain])
    rw [this]
    refine congrArg Except.ok (funext fun i => ?_)
    have : genC (Family.phi .clayton 1) (Family.psiR .clayton 1) (fun _ : Fin 2 => uniTwoG (.fin 1)) = 1 / 3 := by
      rw [genC, if_neg (by simp [hG])]
      simp only [hG, sum_const, card_univ, Fintype.card_fin, Family.phi, Family.psiR, claytonPhi, claytonPsiR,
        sign_one]
      norm_num
    rw [this]
  · have := margCdf_int hadm (by simp) (m := fun _ => uniTwo) (G := fun _ => uniTwoG) (fun _ => uniTwo_dist)
      (n := 1) (fun _ _ => 1) (fun _ _ => by push_cast; rw [hG]; norm_num)
    simpa using this

/-! ### C80 -/

theorem Fl.log_mul_fin {a b : ℝ} (ha : 0 ≤ a) (hb : 0 ≤ b) :
    Fl.log (.fin a) + Fl.log (.fin b) = Fl.log (.fin (a * b)) := by
  rcases ha.eq_or_lt with rfl | ha
  · rw [zero_mul, Fl.log_zero]
    rcases hb.eq_or_lt with rfl | hb
    · rw [Fl.log_zero]; rfl
    · rw [Fl.log_pos hb]; rfl
  · rcases hb.eq_or_lt with rfl | hb
    · rw [mul_zero, Fl.log_zero, Fl.log_pos ha]; rfl
    · rw [Fl.log_pos ha, Fl.log_pos hb, Fl.log_pos (mul_pos ha hb), Real.log_mul ha.ne' hb.ne', Fl.fin_add_fin]

theorem densityMargin_value {d : ℕ} {m : Fin d → Margin} {f : Fin d → ℝ → ℝ} {n : ℕ} {x : Fin n → Fin d → ℝ}
    {i : Fin n} (hp : ∀ j, (m j).pdf (.fin (x i j)) = .fin (f j (x i j)))
    (hl : ∀ j, (m j).logpdf (.fin (x i j)) = Fl.log (.fin (f j (x i j)))) (hf : ∀ j, 0 ≤ f j (x i j)) :
    densityMargin m (fun i j => .fin (x i j)) false i = .fin (∏ j, f j (x i j)) ∧
    densityMargin m (fun i j => .fin (x i j)) true i = Fl.log (.fin (∏ j, f j (x i j))) := by
  have key : ∀ l : List (Fin d), ∀ a : ℝ, 0 ≤ a →
      l.foldl (fun acc j => acc * (m j).pdf (.fin (x i j))) (.fin a) =
        .fin (a * (l.map fun j => f j (x i j)).prod) ∧
      l.foldl (fun acc j => acc + (m j).logpdf (.fin (x i j))) (Fl.log (.fin a)) =
        Fl.log (.fin (a * (l.map fun j => f j (x i j)).prod)) := by
    intro l
    induction l with
    | nil => intro a _; simp
    | cons k l ih =>
      intro a ha
      simp only [List.foldl_cons, List.map_cons, List.prod_cons]
      rw [hp k, hl k, Fl.fin_mul_fin, Fl.log_mul_fin ha (hf k), ← mul_assoc]
      exact ih _ (mul_nonneg ha (hf k))
  have e : ((List.finRange d).map fun j => f j (x i j)).prod = ∏ j, f j (x i j) :=
    prod_list_univ _ (List.nodup_finRange d) (fun j => List.mem_finRange j) _
  have := key (List.finRange d) 1 zero_le_one
  rw [e, one_mul] at this
  refine ⟨?_, ?_⟩
  · unfold densityMargin
    simp only [Bool.false_eq_true, if_false]
    exact this.1
  · unfold densityMargin
    simp only [if_true]
    have h0 : Fl.log (.fin 1) = .fin 0 := by rw [Fl.log_pos one_pos, Real.log_one]
    rw [← h0]
    exact this.2

/-- The value of `pdf`, plain and logarithmic, and its relation to the joint distribution function, for any
inner copula whose `pdf` computes a density `g` of `C` on `U`. -/
theorem margPdf_value {d : ℕ} {inner : Inner d} {U : Set (Fin d → ℝ)} {C g : (Fin d → ℝ) → ℝ}
    (hpdf : ∀ (n : ℕ) (u : Fin n → Fin d → ℝ), (∀ i, u i ∈ U) →
      inner.pdf (fun i j => .fin (u i j)) false = .ok (fun i => .fin (g (u i))) ∧
      inner.pdf (fun i j => .fin (u i j)) true = .ok (fun i => Fl.log (.fin (g (u i)))))
    (hg : ∀ u ∈ U, 0 ≤ g u) (hden : IsDensityOn U C g)
    {m : Fin d → Margin} {G f : Fin d → ℝ → ℝ} {S : Fin d → Set ℝ} (hm : ∀ j, IsSmooth (m j) (G j) (f j) (S j)) :
    ∃ h : (Fin d → ℝ) → ℝ,
      (∀ (n : ℕ) (x : Fin n → Fin d → ℝ), (∀ i j, x i j ∈ S j) → (∀ i, (fun j => G j (x i j)) ∈ U) →
        margPdf inner m .float (fun i j => .fin (x i j)) false = .ok (fun i => .fin (h (x i))) ∧
        margPdf inner m .float (fun i j => .fin (x i j)) true = .ok (fun i => Fl.log (.fin (h (x i))))) ∧
      IsDensityOn {x | (∀ j, x j ∈ S j) ∧ (fun j => G j (x j)) ∈ U} (fun x => C fun j => G j (x j)) h ∧
      ∀ x, h x = g (fun j => G j (x j)) * ∏ j, f j (x j) := by
  refine ⟨fun x => g (fun j => G j (x j)) * ∏ j, f j (x j), fun n x hS hU => ?_, ?_, fun _ => rfl⟩
  · have e : marginU m .float (fun i j => Fl.fin (x i j)) = fun i j => Fl.fin (G j (x i j)) :=
      funext fun i => funext fun j => (hm j).cdf _ (hS i j)
    have hd := fun i => densityMargin_value (m := m) (f := f) (x := x) (i := i)
      (fun j => (hm j).pdf _ (hS i j)) (fun j => (hm j).logpdf _ (hS i j)) (fun j => (hm j).nonneg _ (hS i j))
    have hi := hpdf n (fun i j => G j (x i j)) hU
    unfold margPdf
    rw [e, hi.1, hi.2]
    simp only [bind, Except.bind, pure, Except.pure, Bool.false_eq_true, if_false, if_true]
    refine ⟨congrArg Except.ok (funext fun i => ?_), congrArg Except.ok (funext fun i => ?_)⟩
    · rw [(hd i).1, Fl.fin_mul_fin]
    · rw [(hd i).2, Fl.log_mul_fin (hg _ (hU i)) (prod_nonneg fun j _ => (hm j).nonneg _ (hS i j))]
  · exact isDensityOn_comp (fun x hx => hx.2) (fun x hx j => (hm j).deriv _ (hx.1 j)) hden

/-- The inner copulas and parameters covered by `margPdf_density_partial`. -/
def PdfCovered (F : Family) (θ : ℝ) : Prop :=
  match F with
  | .clayton => 0 < θ
  | .frank => 0 < θ
  | .gumbel => 1 ≤ θ

/-- **C80** (partial: Clayton and Frank copulas with positive parameter; marginal probabilities strictly between
zero, for Frank 0.01, and one) `pdf` of a marginal copula is the mixed derivative of its `cdf`, and `log=True`
gives the logarithm of the same number. -/
theorem margPdf_density_partial {F : Family} {θ : ℝ} (hθ : PdfCovered F θ) {d : ℕ} (hd : 2 ≤ d) {m : Fin d → Margin}
    {G f : Fin d → ℝ → ℝ} {S : Fin d → Set ℝ} (hm : ∀ j, IsSmooth (m j) (G j) (f j) (S j)) :
    ∃ H h : (Fin d → ℝ) → ℝ,
      (∀ (n : ℕ) (x : Fin n → Fin d → ℝ), (∀ i j, x i j ∈ S j ∧ F.lo < G j (x i j) ∧ G j (x i j) < 1) →
        margCdf (archInner F θ d) m .float (fun i j => .fin (x i j)) false = .ok (fun i => .fin (H (x i))) ∧
        margPdf (archInner F θ d) m .float (fun i j => .fin (x i j)) false = .ok (fun i => .fin (h (x i))) ∧
        margPdf (archInner F θ d) m .float (fun i j => .fin (x i j)) true
          = .ok (fun i => Fl.log (.fin (h (x i))))) ∧
      IsDensityOn {x | ∀ j, x j ∈ S j ∧ F.lo < G j (x j) ∧ G j (x j) < 1} H h := by
  have key : ∀ (U : Set (Fin d → ℝ)) (C g : (Fin d → ℝ) → ℝ), Computes F θ d C → PdfComputes F θ d U g →
      IsDensityOn U C g → (∀ u ∈ U, 0 ≤ g u) → (∀ u : Fin d → ℝ, (∀ j, F.lo < u j ∧ u j < 1) → u ∈ U) →
      (∀ v, F.lo < v → v < 1 → CdfDomain F v) → ∃ H h : (Fin d → ℝ) → ℝ,
      (∀ (n : ℕ) (x : Fin n → Fin d → ℝ), (∀ i j, x i j ∈ S j ∧ F.lo < G j (x i j) ∧ G j (x i j) < 1) →
        margCdf (archInner F θ d) m .float (fun i j => .fin (x i j)) false = .ok (fun i => .fin (H (x i))) ∧
        margPdf (archInner F θ d) m .float (fun i j => .fin (x i j)) false = .ok (fun i => .fin (h (x i))) ∧
        margPdf (archInner F θ d) m .float (fun i j => .fin (x i j)) true
          = .ok (fun i => Fl.log (.fin (h (x i))))) ∧
      IsDensityOn {x | ∀ j, x j ∈ S j ∧ F.lo < G j (x j) ∧ G j (x j) < 1} H h := by
    intro U C g hC hp hden hg hU hdom
    obtain ⟨h, h1, h2, -⟩ := margPdf_value (inner := archInner F θ d) hp hg hden hm
    refine ⟨fun x => C fun j => G j (x j), h, fun n x hx => ⟨?_, ?_⟩, isDensityOn_mono h2 ?_⟩
    · unfold margCdf
      rw [show marginU m .float (fun i j => Fl.fin (x i j)) = fun i j => Fl.fin (G j (x i j)) from
        funext fun i => funext fun j => (hm j).cdf _ (hx i j).1]
      exact hC n _ fun i j => hdom _ (hx i j).2.1 (hx i j).2.2
    · exact h1 n x (fun i j => (hx i j).1) fun i => hU _ fun j => (hx i j).2
    · exact fun x hx => ⟨fun j => (hx j).1, hU _ fun j => (hx j).2⟩
  cases F with
  | clayton =>
    obtain ⟨C, g, h1, h2, h3, h4⟩ := clayton_pdf_mixed (θ := θ) hθ hd
    exact key _ C g h1 h2 h3 (fun u hu => (h4 u hu).le) (fun u hu => hu) fun v h0 h1 => ⟨le_of_lt h0, h1.le⟩
  | gumbel =>
    obtain ⟨C, g, h1, h2, h3, h4⟩ := gumbel_pdf_mixed (θ := θ) hθ hd
    exact key _ C g h1 h2 h3 (fun u hu => (h4 u hu).le) (fun u hu => hu) fun v h0 h1 => ⟨le_of_lt h0, h1.le⟩
  | frank =>
    obtain ⟨g, h1, -, h4, C, h2, h3⟩ := frank_pdf_mixed_partial (θ := θ) hθ hd
    have hsub : ∀ u : Fin d → ℝ, u ∈ {x : Fin d → ℝ | ∀ j, 1 / 100 < x j ∧ x j < 1} → u ∈ cube d :=
      fun u hu j => ⟨by linarith [(hu j).1], (hu j).2⟩
    exact key _ C g h2 (fun n x hx => h1 n x fun i => hsub _ (hx i)) h3 (fun u hu => (h4 u (hsub u hu)).le)
      (fun u hu => hu) fun v h0 h1 => ⟨h0, h1.le⟩

/-- Three uniform margins meet the hypotheses. -/
example : PdfCovered .clayton (1 / 2) ∧
    (∀ j : Fin 3, IsSmooth ((fun _ => uniTwo) j) (fun x => x / 2) (fun _ => 1 / 2) (Set.Ioo 0 2)) ∧
    (1 : ℝ) ∈ Set.Ioo (0 : ℝ) 2 ∧ Family.lo .clayton < (1 : ℝ) / 2 := by
  refine ⟨by norm_num [PdfCovered], fun _ => uniTwo_smooth, by norm_num, by norm_num [Family.lo]⟩

/-! ### C81 -/

/-- **C81** The independence copula gives the density zero outside the support of a margin. -/
theorem margPdf_outside_indep {d : ℕ} {m : Fin d → Margin} {n : ℕ} {x : Fin n → Fin d → Fl} {f : Fin d → Fl → ℝ}
    (hf : ∀ i j, (m j).pdf (x i j) = .fin (f j (x i j))) (h0 : ∀ i, ∃ k, f k (x i k) = 0) :
    margPdf (indepInner d) m .float x false = .ok fun _ => .fin 0 := by
  unfold margPdf indepInner
  simp only
  unfold indepPdf
  rw [if_neg (by simp)]
  simp only [bind, Except.bind, pure, Except.pure, Bool.false_eq_true, if_false]
  refine congrArg Except.ok (funext fun i => ?_)
  have key : ∀ l : List (Fin d), ∀ a : ℝ, l.foldl (fun acc j => acc * (m j).pdf (x i j)) (.fin a) =
        .fin (a * (l.map fun j => f j (x i j)).prod) := by
    intro l
    induction l with
    | nil => intro a; simp
    | cons k l ih =>
      intro a
      simp only [List.foldl_cons, List.map_cons, List.prod_cons]
      rw [hf i k, Fl.fin_mul_fin, ← mul_assoc]
      exact ih _
  unfold densityMargin
  simp only [Bool.false_eq_true, if_false]
  rw [key, prod_list_univ _ (List.nodup_finRange d) (fun j => List.mem_finRange j)]
  obtain ⟨k, hk⟩ := h0 i
  rw [prod_eq_zero (mem_univ k) hk]
  simp

example := margPdf_outside_indep (d := 2) (m := fun _ => uniTwo) (n := 1) (x := fun _ => ![.fin 1, .fin 3])
  (f := fun _ v => match v with
    | .fin x => if 0 ≤ x ∧ x ≤ 2 then 1 / 2 else 0
    | _ => 0) (by intro i j; fin_cases j <;> rfl) (fun _ => ⟨1, by norm_num⟩)

/-- **C81**, the violation: a Clayton copula with positive parameter gives NaN instead of zero where exactly one
margin is below its support. -/
theorem margPdf_outside_nan {θ : ℝ} (hθ : 0 < θ) {m : Fin 2 → Margin} {a b : Fl} {v : ℝ}
    (h0 : (m 0).cdf a = .fin 0) (h1 : (m 1).cdf b = .fin v) (hv : 0 < v ∧ v < 1) :
    margPdf (archInner .clayton θ 2) m .float (n := 1) (fun _ => ![a, b]) false = .ok fun _ => .nan := by
  have hz : claytonIpsi θ (.fin 0) = .pinf := by
    rw [claytonIpsi, Fl.zero_pow_neg (by linarith), Fl.sign_pos hθ, Fl.pinf_sub_fin,
      Fl.fin_mul_pinf, Fl.infSign_pos one_pos]
  have hu : ∀ i : Fin 1, marginU m .float (fun _ : Fin 1 => ![a, b]) i = ![.fin 0, .fin v] := by
    intro i
    funext j
    fin_cases j
    · exact h0
    · exact h1
  have hL : claytonLogPos θ ![Fl.fin 0, Fl.fin v] = .nan := by
    unfold claytonLogPos
    simp only [Fin.sum_univ_two, Matrix.cons_val_zero, Matrix.cons_val_one, hz, claytonIpsi_fin hv.1, Fl.log_zero,
      Fl.log_pos hv.1, Fl.ninf_add_fin, Fl.pinf_add_fin, Fl.log1p, Fl.fin_add_pinf, Fl.log_pinf]
    rw [Fl.fin_mul_ninf, Fl.infSign_neg (by linarith), Fl.fin_mul_pinf, Fl.infSign_pos (by positivity)]
    rw [show (Nat.succ 0).succ - 1 = 1 from rfl, Finset.sum_range_one]
    simp only [Fl.fin_add_fin]
    rw [Fl.log_pos (by positivity), Fl.fin_sub_ninf]
    rfl
  unfold margPdf archInner archPdf claytonPdf
  simp only [ne_eq, not_true_eq_false, if_false]
  rw [if_neg (not_not.mpr ⟨0, by
    rw [hu 0]
    intro j
    fin_cases j
    · exact ⟨by simp, by simp, by simp⟩
    · exact ⟨by simp, by simpa using hv.1.le, by simpa using hv.2.le⟩⟩), if_neg hθ.ne', if_neg (by linarith)]
  simp only [bind, Except.bind, pure, Except.pure, Bool.false_eq_true, if_false]
  refine congrArg Except.ok (funext fun i => ?_)
  rw [hu i, hL, Fl.exp_nan, Fl.nan_mul]

/-- Uniform margins on `[0, 2]` at the point `(-1, 1)`. -/
example : uniTwo.cdf (.fin (-1)) = .fin 0 ∧ uniTwo.cdf (.fin 1) = .fin (1 / 2) ∧
    uniTwo.pdf (.fin (-1)) = .fin 0 := by
  refine ⟨?_, ?_, ?_⟩
  · show Fl.fin _ = _
    norm_num
  · show Fl.fin _ = _
    norm_num
  · show Fl.fin _ = _
    norm_num

/-! ### C82 -/

/-- **C82** Sampling: the rows of a sample below a threshold are exactly the rows of the inner copula's sample
below the marginal probabilities of the threshold. -/
theorem margRandom_counts {d : ℕ} {m : Fin d → Margin} {G : Fin d → Fl → ℝ}
    (hq : ∀ j, IsQuantile (m j).ppf (G j)) {n : ℕ} (u : Fin n → Fin d → ℝ) (hu : ∀ i j, 0 < u i j ∧ u i j < 1) :
    ∃ X, margRandom m (.mat n fun i j => .fin (u i j)) = .ok (.mat n X) ∧
      ∀ t : Fin d → Fl, (∀ j, t j ≠ .nan) → ∀ i, (∀ j, X i j ≤ t j) ↔ ∀ j, u i j ≤ G j (t j) :=
  ⟨_, rfl, fun _ ht i => forall_congr' fun j => hq j _ (hu i j).1 (hu i j).2 _ (ht j)⟩

example := margRandom_counts (d := 2) (m := fun _ => uniTwo) (G := fun _ => uniTwoG) (fun _ => uniTwo_quantile) (n := 2)
  (fun i j => (i.val + j.val + 1) / 4) (by intro i j; fin_cases i <;> fin_cases j <;> norm_num)

/-- **C82** Sampling keeps the ranks of every column when the quantile functions increase strictly. -/
theorem margRandom_ranks {d : ℕ} {m : Fin d → Margin} {Q : Fin d → ℝ → ℝ}
    (hQ : ∀ j, StrictMonoOn (Q j) (Set.Ioo 0 1)) (hm : ∀ j u, 0 < u → u < 1 → (m j).ppf (.fin u) = .fin (Q j u))
    {n : ℕ} (u : Fin n → Fin d → ℝ) (hu : ∀ i j, 0 < u i j ∧ u i j < 1) :
    ∃ X : Fin n → Fin d → ℝ, margRandom m (.mat n fun i j => .fin (u i j)) = .ok (.mat n fun i j => .fin (X i j)) ∧
      ∀ (t : TieMethod) (j : Fin d) (i : Fin n),
        rankdata t (fun k => X k j) i = rankdata t (fun k => u k j) i := by
  refine ⟨fun i j => Q j (u i j), ?_, fun t j i => ?_⟩
  · unfold margRandom
    refine congrArg Except.ok (congrArg _ (funext fun i => funext fun j => ?_))
    exact hm j _ (hu i j).1 (hu i j).2
  · refine rankdata_congr t _ _ (fun a b => ?_) i
    exact (hQ j).lt_iff_lt ⟨(hu a j).1, (hu a j).2⟩ ⟨(hu b j).1, (hu b j).2⟩

/-- The uniform margin meets both contracts. -/
example : IsQuantile uniTwo.ppf uniTwoG ∧ StrictMonoOn (fun u : ℝ => 2 * u) (Set.Ioo 0 1) ∧
    ∀ u : ℝ, 0 < u → u < 1 → uniTwo.ppf (.fin u) = .fin (2 * u) :=
  ⟨uniTwo_quantile, fun a _ b _ h => by simpa using h, fun u h0 h1 => if_pos ⟨h0.le, h1.le⟩⟩

/-- **C82**, the violation: one observation of a marginal copula over a Gaussian or Student copula cannot be
drawn. -/
theorem margRandom_one_fails {d : ℕ} (m : Fin d → Margin) (u : Fin 1 → Fin d → Fl) :
    margRandom m (rvsShape u) = .error .indexError := rfl

/-- Two or more observations can. -/
theorem margRandom_many {d n : ℕ} (hn : n ≠ 1) (m : Fin d → Margin) (u : Fin n → Fin d → Fl) :
    margRandom m (rvsShape u) = .ok (.mat n fun i j => (m j).ppf (u i j)) := by
  unfold rvsShape
  rw [dif_neg hn]
  rfl

example := margRandom_many (d := 2) (n := 5) (by norm_num) (fun _ => uniTwo) (fun _ _ => .fin (1 / 3))

end Copulae
