import Verif.Props.StablePdfZero

/-!
C124: changing the sign of the skewness mirrors the density at the location.
-/

namespace Copulae

open Real

theorem zetaTol_neg (α β b : ℝ) : zetaTol α (-β) (-b) = zetaTol α β b := by
  unfold zetaTol
  simp only [abs_neg, neg_eq_zero]

theorem fZeta_neg (α ζ t : ℝ) (log : Bool) : fZeta α (-ζ) (-t) log = fZeta α ζ t log := by
  unfold fZeta
  rw [cos_neg, neg_sq]

theorem min_max_neg {p : ℝ} (hp : 0 ≤ p) (a : ℝ) : min (max (-p) (-a)) p = -min (max (-p) a) p := by
  rcases le_total a p with h1 | h1
  · rcases le_total (-p) a with h2 | h2
    · rw [max_eq_right (by linarith), max_eq_right h2, min_eq_left (by linarith), min_eq_left h1]
    · rw [max_eq_right (by linarith), max_eq_left h2, min_eq_right (by linarith), min_eq_left (by linarith), neg_neg]
  · rw [max_eq_left (by linarith), max_eq_right (by linarith), min_eq_left (by linarith), min_eq_right h1]

theorem auxF1Main_x {brentq : PyFun → ℝ → ℝ → Except PyErr ℝ} {quad : (ℝ → Fl) → ℝ → ℝ → Fl} {α t : ℝ}
    {x xm fz : Fl} {log : Bool} : auxF1Main brentq quad α (-x) xm t fz log = auxF1Main brentq quad α x xm t fz log := by
  unfold auxF1Main
  have : Fl.abs (-x) = Fl.abs x := by
    cases x <;> simp [Fl.abs]
  rw [this]

/-- One value of the standardised density. -/
theorem auxF1_mirror (brentq : PyFun → ℝ → ℝ → Except PyErr ℝ) (quad : (ℝ → Fl) → ℝ → ℝ → Fl) {α β : ℝ} {x : Fl}
    (hx : x ≠ .nan) (log : Bool) : auxF1 brentq quad (-x) α β log = auxF1 brentq quad x α (-β) log := by
  have hp : 0 ≤ pyPI2 := by linarith [pyPI2_gt, show (0 : ℝ) ≤ 1.57 by norm_num]
  set b := β * Real.tan (α * π / 2) with hb
  have hb' : -β * Real.tan (α * π / 2) = -b := by rw [hb]; ring
  have hth : min (max (-pyPI2) (Real.arctan (-b) / α)) pyPI2 = -min (max (-pyPI2) (Real.arctan b / α)) pyPI2 := by
    rw [arctan_neg, neg_div, min_max_neg hp]
  have habs : Fl.abs (-x) = Fl.abs x := by cases x <;> simp [Fl.abs]
  have hxm : Fl.abs (-x - .fin (-b)) = Fl.abs (x - .fin (- -b)) := by
    cases x with
    | nan => exact absurd rfl hx
    | pinf => rfl
    | ninf => rfl
    | fin x =>
      rw [Fl.neg_fin, Fl.fin_sub_fin, Fl.fin_sub_fin, Fl.abs_fin, Fl.abs_fin, ← abs_neg]
      congr 2
      ring
  have hfin : (-x).isFin ↔ x.isFin := by cases x <;> rfl
  unfold auxF1
  simp only []
  rw [← hb, hb', hth, hxm, zetaTol_neg, habs, abs_neg (-b), fZeta_neg]
  by_cases hc : x.isFin ∧ Fl.abs (x - .fin (- -b)) ≤
      .fin (zetaTol α β b) * (.fin (zetaTol α β b) + Fl.maximum (Fl.abs x) (.fin |-b|))
  · rw [if_pos hc, if_pos ⟨hfin.mpr hc.1, hc.2⟩]
  rw [if_neg hc, if_neg fun h => hc ⟨hfin.mp h.1, h.2⟩]
  have hside : (-x < .fin (-b)) ↔ ¬ (x < .fin (- -b)) := by
    cases x with
    | nan => exact absurd rfl hx
    | pinf => exact ⟨fun _ h => h, fun _ => trivial⟩
    | ninf => exact ⟨fun h => absurd h (fun h => h), fun h => absurd trivial h⟩
    | fin x =>
      rw [Fl.neg_fin, Fl.fin_lt_fin, Fl.fin_lt_fin, neg_neg, neg_lt_neg_iff]
      refine ⟨fun h => not_lt.mpr h.le, fun h => lt_of_le_of_ne (not_lt.mp h) ?_⟩
      rintro rfl
      refine hc ⟨trivial, ?_⟩
      rw [neg_neg, Fl.fin_sub_fin, sub_self, Fl.abs_fin, abs_zero, Fl.abs_fin, Fl.maximum_fin, Fl.fin_add_fin,
        Fl.fin_mul_fin, Fl.fin_le_fin]
      have h1 := (zetaTol_le α β b).1
      have h2 : (0 : ℝ) ≤ max |b| |-b| := (abs_nonneg b).trans (le_max_left _ _)
      positivity
  by_cases hs : x < .fin (- -b)
  · have hs' : ¬ (-x < .fin (-b)) := fun h => hside.mp h hs
    rw [if_neg hs', if_neg hs', if_neg hs', if_pos hs, if_pos hs, if_pos hs, neg_neg β, neg_neg (min _ _), auxF1Main_x]
  · have hs' := hside.mpr hs
    rw [if_pos hs', if_pos hs', if_pos hs', if_neg hs, if_neg hs, if_neg hs, auxF1Main_x]
    have : - -x = x := by cases x <;> simp
    rw [this]

example (brentq : PyFun → ℝ → ℝ → Except PyErr ℝ) (quad : (ℝ → Fl) → ℝ → ℝ → Fl) :=
  auxF1_mirror brentq quad (α := 3 / 2) (β := 1 / 2) (x := .fin 2) (by simp) true

theorem stablePareto_mirror {α β : ℝ} {x : Fl} (hx : x ≠ .nan) (h0 : x ≠ .fin 0 ∨ (|β| < 1 ∧ 0 < α ∧ α < 2))
    (log : Bool) : stablePareto (-x) α β log = stablePareto x α (-β) log := by
  have hnn : - -x = x := by cases x <;> simp
  by_cases hz : x = .fin 0
  · obtain ⟨hb, ha0, ha2⟩ := h0.resolve_left (not_not.mpr hz)
    rw [hz, Fl.neg_fin, neg_zero]
    have hn : ¬ (Fl.fin 0 < Fl.fin 0) := by rw [Fl.fin_lt_fin]; exact lt_irrefl 0
    have hp1 := pyPI2_lt
    have hp3 := pyPI2_gt
    have hp := pi_pos
    norm_num at hp3
    have hT : 0 < Real.Gamma α / π * sin (α * pyPI2) := by
      have h1 := Real.Gamma_pos_of_pos ha0
      have h2 : 0 < sin (α * pyPI2) := sin_pos_of_pos_of_lt_pi (by positivity) (by nlinarith)
      positivity
    rw [abs_lt] at hb
    unfold stablePareto stableTail
    simp only [if_neg hn, if_neg ha0.ne', if_neg ha2.ne]
    cases log
    · simp only [Bool.false_eq_true, if_false]
      have h1 : 0 < α * (1 + β) * (Real.Gamma α / π * sin (α * pyPI2)) :=
        mul_pos (mul_pos ha0 (by linarith [hb.1])) hT
      have h2 : 0 < α * (1 + -β) * (Real.Gamma α / π * sin (α * pyPI2)) :=
        mul_pos (mul_pos ha0 (by linarith [hb.2])) hT
      rw [Fl.zero_pow_neg (by linarith), Fl.fin_mul_fin, Fl.fin_mul_fin, Fl.fin_mul_pinf, Fl.fin_mul_pinf,
        Fl.infSign_pos h1, Fl.infSign_pos h2]
    · simp only [if_true]
      rw [Fl.log_zero, Fl.log_pos hT, Fl.log1p_pos hb.1, Fl.log1p_pos (by linarith [hb.2]), Fl.fin_mul_ninf,
        Fl.infSign_neg (by linarith)]
      rfl
  · have hs : (-x < .fin 0) ↔ ¬ (x < .fin 0) := by
      cases x with
      | nan => exact absurd rfl hx
      | pinf => exact ⟨fun _ h => h, fun _ => trivial⟩
      | ninf => exact ⟨fun h => absurd h (fun h => h), fun h => absurd trivial h⟩
      | fin x =>
        rw [Fl.neg_fin, Fl.fin_lt_fin, Fl.fin_lt_fin]
        refine ⟨fun h => not_lt.mpr (by linarith), fun h => ?_⟩
        have := lt_of_le_of_ne (not_lt.mp h) fun e => hz (by rw [e])
        linarith
    unfold stablePareto
    by_cases h : x < .fin 0
    · have h' : ¬ (-x < .fin 0) := fun h' => hs.mp h' h
      simp only [if_neg h', if_pos h, neg_neg]
    · simp only [if_pos (hs.mpr h), if_neg h, hnn]

theorem Fl.pinf_div_pos {c : ℝ} (h : 0 < c) : Fl.pinf / Fl.fin c = .pinf := if_pos h.le

theorem Fl.ninf_div_pos {c : ℝ} (h : 0 < c) : Fl.ninf / Fl.fin c = .ninf := if_pos h.le

theorem normPdf_neg (x : Fl) : normPdfTwo (-x) = normPdfTwo x := by
  cases x <;> simp [normPdfTwo]

theorem cauchyPdf_neg (x : Fl) : cauchyPdf (-x) = cauchyPdf x := by
  cases x <;> simp [cauchyPdf]

theorem mapRun_congr {f g : Fl → Option (Except PyErr Fl)} {h : Fl → Fl} :
    ∀ {l : List Fl}, (∀ e ∈ l, f (h e) = g e) → mapRun f (l.map h) = mapRun g l
  | [], _ => rfl
  | a :: l, hl => by
    rw [List.map_cons, mapRun, mapRun, hl a List.mem_cons_self,
      mapRun_congr (l := l) fun e he => hl e (List.mem_cons_of_mem a he)]

theorem zipWith_congr_left {α β γ : Type} {f g : α → β → γ} :
    ∀ {l : List α} {m : List β}, (∀ x ∈ l, ∀ y, f x y = g x y) → List.zipWith f l m = List.zipWith g l m
  | [], _, _ => by simp
  | _ :: _, [], _ => by simp
  | x :: l, y :: m, h => by
    rw [List.zipWith_cons_cons, List.zipWith_cons_cons, h x List.mem_cons_self,
      zipWith_congr_left (l := l) (m := m) fun x hx => h x (List.mem_cons_of_mem _ hx)]

/-- **C124** Changing the sign of the skewness mirrors the density, and its logarithm, at the location. Missing: the
index one with a skewness. -/
theorem stable_pdf_mirror_partial (brentq : PyFun → ℝ → ℝ → Except PyErr ℝ) (quad : (ℝ → Fl) → ℝ → ℝ → Fl)
    (auxF2 : Fl → ℝ → Bool → Option (Except PyErr Fl)) (mode : ℝ → ℝ → Except PyErr Fl) {α β γ δ : ℝ}
    (h0 : 0 < α) (h2 : α ≤ 2) (h1 : α ≠ 1 ∨ β = 0) (hβ : |β| ≤ 1) (hγ : 0 < γ) (log : Bool) {xs : List Fl}
    (hx : ∀ e ∈ xs, e ≠ .nan ∧ (e ≠ .fin δ ∨ (|β| < 1 ∧ α < 2))) :
    stablePdf brentq quad auxF2 mode xs α (-β) (.fin γ) (.fin δ) 0 log =
      stablePdf brentq quad auxF2 mode (xs.map fun e => .fin (2 * δ) - e) α β (.fin γ) (.fin δ) 0 log := by
  unfold stablePdf
  rw [stableCheck_ok h0 h2 (by rwa [abs_neg]) (by simpa using hγ.le) (by omega),
    stableCheck_ok h0 h2 hβ (by simpa using hγ.le) (by omega)]
  have hpar : ∀ b, stableParam mode α (.fin δ) (.fin γ) b 0 = .ok (.fin δ, .fin γ) := fun b => by simp [stableParam]
  simp only [hpar, bind, Except.bind]
  have hz : (xs.map fun e => Fl.fin (2 * δ) - e).map (fun e => (e - .fin δ) / .fin γ) =
      (xs.map fun e => (e - .fin δ) / .fin γ).map fun z => -z := by
    rw [List.map_map, List.map_map]
    refine List.map_congr_left fun e _ => ?_
    cases e with
    | nan => rfl
    | pinf => simp [Fl.pinf_div_pos hγ, Fl.ninf_div_pos hγ]
    | ninf => simp [Fl.pinf_div_pos hγ, Fl.ninf_div_pos hγ]
    | fin x =>
      simp only [Function.comp_apply, Fl.fin_sub_fin, Fl.fin_div_fin' _ hγ.ne', Fl.neg_fin]
      congr 1
      ring
  rw [hz]
  have hzs : ∀ z ∈ xs.map (fun e => (e - .fin δ) / .fin γ), z ≠ .nan ∧ (z ≠ .fin 0 ∨ (|β| < 1 ∧ α < 2)) := by
    intro z hz
    obtain ⟨e, he, rfl⟩ := List.mem_map.mp hz
    obtain ⟨a, b⟩ := hx e he
    cases e with
    | nan => exact absurd rfl a
    | pinf => simp [Fl.pinf_div_pos hγ]
    | ninf => simp [Fl.ninf_div_pos hγ]
    | fin x =>
      rw [Fl.fin_sub_fin, Fl.fin_div_fin' _ hγ.ne']
      refine ⟨by simp, b.imp_left fun b h => b ?_⟩
      rw [Fl.fin_inj, div_eq_zero_iff] at h
      have := h.resolve_right hγ.ne'
      rw [sub_eq_zero.mp this]
  generalize xs.map (fun e => (e - .fin δ) / .fin γ) = zs at hzs
  have hstd : stableStd brentq quad auxF2 α β log (zs.map fun z => -z) = stableStd brentq quad auxF2 α (-β) log zs := by
    unfold stableStd
    by_cases h2 : α = 2
    · rw [if_pos h2, if_pos h2, List.map_map]
      simp only [Function.comp_def, normPdf_neg]
    rw [if_neg h2, if_neg h2]
    by_cases hc : α = 1 ∧ β = 0
    · rw [if_pos hc, if_pos ⟨hc.1, by rw [hc.2, neg_zero]⟩, List.map_map]
      simp only [Function.comp_def, cauchyPdf_neg]
    · have hc' : ¬ (α = 1 ∧ -β = 0) := fun h => hc ⟨h.1, neg_eq_zero.mp h.2⟩
      rw [if_neg hc, if_neg hc']
      have hne : α ≠ 1 := by
        rcases h1 with h | h
        · exact h
        · exact fun h' => hc ⟨h', h⟩
      rw [if_neg hne, if_neg hne]
      exact mapRun_congr fun e he => auxF1_mirror brentq quad (hzs e he).1 log
  rw [hstd]
  cases stableStd brentq quad auxF2 α (-β) log zs with
  | none => rfl
  | some r =>
    cases r with
    | error e => rfl
    | ok ans =>
      simp only []
      refine congrArg some (congrArg Except.ok ?_)
      unfold stableFinish
      simp only []
      rw [List.zipWith_map_left]
      refine zipWith_congr_left fun e he a => ?_
      rw [stablePareto_mirror (hzs e he).1 ((hzs e he).2.imp_right fun h => ⟨h.1, h0, h.2⟩) log]

/-- Both sides are computed: a point of the law of index one half with a negative skewness. -/
example (brentq : PyFun → ℝ → ℝ → Except PyErr ℝ) (quad : (ℝ → Fl) → ℝ → ℝ → Fl)
    (auxF2 : Fl → ℝ → Bool → Option (Except PyErr Fl)) (mode : ℝ → ℝ → Except PyErr Fl) :
    stablePdf brentq quad auxF2 mode [.fin 5] (1 / 2) (-(1 / 3)) (.fin 2) (.fin 4) 0 false =
      stablePdf brentq quad auxF2 mode [.fin 3] (1 / 2) (1 / 3) (.fin 2) (.fin 4) 0 false := by
  have := stable_pdf_mirror_partial brentq quad auxF2 mode (α := 1 / 2) (β := 1 / 3) (γ := 2) (δ := 4) (by norm_num)
    (by norm_num) (Or.inl (by norm_num)) (by rw [abs_of_pos] <;> norm_num) (by norm_num) false (xs := [.fin 5]) (by
      intro e he
      rw [List.mem_singleton.mp he]
      refine ⟨by simp, Or.inl fun h => ?_⟩
      rw [Fl.fin_inj] at h
      norm_num at h)
  rw [this, List.map_cons, List.map_nil, Fl.fin_sub_fin]
  norm_num

/-! ## The parametrisation with the mode -/

section
variable (minScalar : (ℝ → Option (Except PyErr (List Fl))) → ℝ → ℝ → Except PyErr Fl)
  (brentq : PyFun → ℝ → ℝ → Except PyErr ℝ) (quad : (ℝ → Fl) → ℝ → ℝ → Fl)
  (auxF2 : Fl → ℝ → Bool → Option (Except PyErr Fl))

/-- The mode computed does not depend on the skewness, as long as it is not zero and not almost one. -/
theorem stableMode_skew {α β β' : ℝ} (h0 : 0 < α) (hβ : β ≠ 0) (hβ' : β' ≠ 0) (h1 : |β| ≤ 1) (h1' : |β'| ≤ 1)
    (h2 : β ≤ 1 - 1 / 10 ^ 11) (h2' : β' ≤ 1 - 1 / 10 ^ 11) :
    stableMode minScalar brentq quad auxF2 α β = stableMode minScalar brentq quad auxF2 α β' := by
  have hc : stableCheck α β (.fin 1) 1 = stableCheck α β' (.fin 1) 1 := by
    unfold stableCheck
    rw [if_pos h1, if_pos h1']
  unfold stableMode
  rw [hc, if_neg (mul_ne_zero h0.ne' hβ), if_neg (mul_ne_zero h0.ne' hβ'), max_eq_right h2, max_eq_right h2']

example (brentq : PyFun → ℝ → ℝ → Except PyErr ℝ) (quad : (ℝ → Fl) → ℝ → ℝ → Fl)
    (auxF2 : Fl → ℝ → Bool → Option (Except PyErr Fl)) :=
  stableMode_skew minScalar (brentq := brentq) (quad := quad) auxF2 (α := 3 / 2) (β := 1 / 2) (β' := -1) (by norm_num)
    (by norm_num) (by norm_num) (by norm_num [abs_of_pos]) (by norm_num) (by norm_num) (by norm_num)

/-- The value for one number with the parametrisation with the mode. -/
theorem stablePdf_mode {α β γ δ m : ℝ} (h0 : 0 < α) (h2 : α ≤ 2) (hβ : |β| ≤ 1) (hγ : 0 < γ)
    {mode : ℝ → ℝ → Except PyErr Fl} (hm : mode α β = .ok (.fin m)) (xs : List Fl) (log : Bool) :
    stablePdf brentq quad auxF2 mode xs α β (.fin γ) (.fin δ) 2 log =
      stablePdf brentq quad auxF2 mode xs α β (.fin (γ * α ^ (-1 / α))) (.fin (δ - γ * α ^ (-1 / α) * m)) 0 log := by
  have hg : 0 < γ * α ^ (-1 / α) := mul_pos hγ (rpow_pos_of_pos h0 _)
  unfold stablePdf
  rw [stableCheck_ok h0 h2 hβ (by simpa using hγ.le) (by omega),
    stableCheck_ok h0 h2 hβ (by simpa using hg.le) (by omega)]
  have e1 : stableParam mode α (.fin δ) (.fin γ) β 2 =
      .ok (.fin (δ - γ * α ^ (-1 / α) * m), .fin (γ * α ^ (-1 / α))) := by
    unfold stableParam
    rw [if_neg (by norm_num), if_pos rfl, hm, Fl.pow_pos h0]
    simp [bind, Except.bind, pure, Except.pure]
  have e2 : stableParam mode α (.fin (δ - γ * α ^ (-1 / α) * m)) (.fin (γ * α ^ (-1 / α))) β 0 =
      .ok (.fin (δ - γ * α ^ (-1 / α) * m), .fin (γ * α ^ (-1 / α))) := by
    simp [stableParam]
  rw [e1, e2]

/-- **C127** Without skewness the density with `pm=2` is symmetric about `delta`. Missing: a skewness
(`stable_mode_violation`). -/
theorem stable_mode_partial {α γ δ : ℝ} (h0 : 0 < α) (h2 : α ≤ 2) (hγ : 0 < γ) {xs : List Fl} (log : Bool)
    (hx : ∀ e ∈ xs, e ≠ .nan ∧ (e ≠ .fin δ ∨ α < 2)) :
    stablePdf brentq quad auxF2 (stableMode minScalar brentq quad auxF2) xs α 0 (.fin γ) (.fin δ) 2 log =
      stablePdf brentq quad auxF2 (stableMode minScalar brentq quad auxF2) (xs.map fun e => .fin (2 * δ) - e) α 0
        (.fin γ) (.fin δ) 2 log := by
  have hm : stableMode minScalar brentq quad auxF2 α 0 = .ok (.fin 0) := by
    unfold stableMode
    rw [stableCheck_ok h0 h2 (by simp) (by simp) (by omega), mul_zero, if_pos rfl]
    rfl
  have hg : 0 < γ * α ^ (-1 / α) := mul_pos hγ (rpow_pos_of_pos h0 _)
  rw [stablePdf_mode brentq quad auxF2 h0 h2 (by simp) hγ hm, stablePdf_mode brentq quad auxF2 h0 h2 (by simp) hγ hm]
  rw [mul_zero, sub_zero]
  have := stable_pdf_mirror_partial brentq quad auxF2 (stableMode minScalar brentq quad auxF2) h0 h2 (Or.inr rfl)
    (by simp) hg log (xs := xs) (δ := δ) (by
      intro e he
      exact ⟨(hx e he).1, (hx e he).2.imp_right fun h => ⟨by simp, h⟩⟩)
  rwa [neg_zero] at this

example (brentq : PyFun → ℝ → ℝ → Except PyErr ℝ) (quad : (ℝ → Fl) → ℝ → ℝ → Fl)
    (auxF2 : Fl → ℝ → Bool → Option (Except PyErr Fl)) :=
  stable_mode_partial minScalar (brentq := brentq) (quad := quad) auxF2 (α := 3 / 2) (γ := 2) (δ := 1) (by norm_num)
    (by norm_num) (by norm_num) (xs := [.fin 1, .pinf, .fin 4]) true (by
      intro e he
      refine ⟨?_, .inr (by norm_num)⟩
      rintro rfl
      simp at he)

/-- **C127 fails** in general: the densities for opposite skewnesses are mirrored at a point other than `delta`, if the
search for the mode returns a number other than zero, so `delta` cannot be the only mode of both. -/
theorem stable_mode_violation {α β γ δ m : ℝ} (h0 : 0 < α) (h1 : α ≠ 1) (h2 : α < 2) (hβ : 0 < β)
    (hβ1 : β ≤ 1 - 1 / 10 ^ 11) (hγ : 0 < γ) (hm : stableMode minScalar brentq quad auxF2 α β = .ok (.fin m))
    (hm0 : m ≠ 0) :
    ∃ c, c ≠ δ ∧ ∀ x : ℝ,
      stablePdf brentq quad auxF2 (stableMode minScalar brentq quad auxF2) [.fin x] α (-β) (.fin γ) (.fin δ) 2 false =
        stablePdf brentq quad auxF2 (stableMode minScalar brentq quad auxF2) [.fin (2 * c - x)] α β (.fin γ) (.fin δ) 2
          false := by
  have hb : |β| < 1 := by
    rw [abs_of_pos hβ]
    refine lt_of_le_of_lt hβ1 ?_
    norm_num
  have hb' : |-β| ≤ 1 := by
    rw [abs_neg]
    exact hb.le
  have hm' : stableMode minScalar brentq quad auxF2 α (-β) = .ok (.fin m) := by
    rw [← hm]
    refine stableMode_skew minScalar brentq quad auxF2 h0 (neg_ne_zero.mpr hβ.ne') hβ.ne' hb' hb.le ?_ hβ1
    have : (0 : ℝ) ≤ 1 - 1 / 10 ^ 11 := by norm_num
    linarith
  have hg : 0 < γ * α ^ (-1 / α) := mul_pos hγ (rpow_pos_of_pos h0 _)
  refine ⟨δ - γ * α ^ (-1 / α) * m, fun h => ?_, fun x => ?_⟩
  · exact (mul_ne_zero hg.ne' hm0) (by linarith)
  · rw [stablePdf_mode brentq quad auxF2 h0 h2.le hb' hγ hm',
      stable_pdf_mirror_partial brentq quad auxF2 _ h0 h2.le (Or.inl h1) hb.le hg false (by
        intro e he
        rw [List.mem_singleton.mp he]
        exact ⟨by simp, Or.inr ⟨hb, h2⟩⟩), stablePdf_mode brentq quad auxF2 h0 h2.le hb.le hγ hm,
      List.map_cons, List.map_nil, Fl.fin_sub_fin]

/-- A search that returns such a number. -/
example : stableMode (fun _ lo hi => .ok (.fin ((lo + hi) / 2))) brentq quad auxF2 (3 / 2) (1 / 2) =
    .ok (.fin (-(7 / 20))) := by
  have h : (1 : ℝ) / 2 ≤ 1 - 1 / 10 ^ 11 := by norm_num
  unfold stableMode
  rw [stableCheck_ok (by norm_num) (by norm_num) (by rw [abs_of_pos] <;> norm_num) (by simp) (by omega), max_eq_right h,
    if_neg (by norm_num)]
  simp only [bind, Except.bind]
  rw [sign_pos (by norm_num), SignType.coe_one, one_mul, min_eq_right (by norm_num), max_eq_left (by norm_num)]
  norm_num

end

end Copulae
