import Mathlib.Probability.Distributions.Cauchy
import Verif.Props.StablePdf

/-!
C123: `skew_stable.pdf` is the density of the variates of `skew_stable.rvs`.
-/

namespace Copulae

open MeasureTheory Set Real Topology ProbabilityTheory

theorem mapRun_ok {f : Fl → Option (Except PyErr Fl)} {g : Fl → Fl} :
    ∀ {l : List Fl}, (∀ e ∈ l, f e = some (.ok (g e))) → mapRun f l = some (.ok (l.map g))
  | [], _ => rfl
  | a :: l, h => by
    have := mapRun_ok (l := l) (g := g) fun e he => h e (List.mem_cons_of_mem a he)
    rw [mapRun, h a List.mem_cons_self, this]
    rfl

theorem stableParam_eq {α β γ δ : ℝ} (h0 : 0 < α) (h1 : α ≠ 1) (h2 : α ≤ 2) {pm : ℤ} (hpm : pm = 0 ∨ pm = 1)
    (mode : ℝ → ℝ → Except PyErr Fl) :
    stableParam mode α (.fin δ) (.fin γ) β pm = .ok (.fin (Spec.stableLoc α β γ δ pm), .fin γ) := by
  rcases hpm with rfl | rfl
  · simp [stableParam, Spec.stableLoc]
  · rw [stableParam, if_pos rfl, stableOmega, Spec.stableLoc]
    by_cases ha : α = 2
    · rw [if_neg (not_not.mpr ⟨2, by rw [ha]; norm_num⟩), if_neg h1]
      simp [ha]
    · have hni : ¬ ∃ z : ℤ, (z : ℝ) = α := by
        rintro ⟨z, hz⟩
        have a : 0 < z := by exact_mod_cast hz ▸ h0
        have b : z ≤ 2 := by exact_mod_cast hz ▸ h2
        have c : z ≠ 1 := fun e => h1 (by rw [← hz, e]; norm_num)
        have d : z ≠ 2 := fun e => ha (by rw [← hz, e]; norm_num)
        omega
      rw [if_pos hni, tanpi2_ne_one h0 h1 h2, if_pos ⟨rfl, ha⟩, mul_comm π α]
      simp

theorem stableCheck_ok {α β : ℝ} {γ : Fl} {pm : ℤ} (h0 : 0 < α) (h2 : α ≤ 2) (hβ : |β| ≤ 1) (hγ : .fin 0 ≤ γ)
    (hpm : pm = 0 ∨ pm = 1 ∨ pm = 2) : stableCheck α β γ pm = .ok () := by
  unfold stableCheck
  rw [if_pos hpm, if_pos hβ, if_pos ⟨h0, h2⟩, if_pos hγ]

/-- The list of densities, when the standardised ones are positive numbers. -/
theorem stableFinish_pos {α β γ : ℝ} (hγ : 0 < γ) {g : ℝ → ℝ} {zs : List ℝ} (hg : ∀ z ∈ zs, 0 < g z) :
    stableFinish α β (.fin γ) false (zs.map .fin) (zs.map fun z => .fin (g z)) = zs.map fun z => .fin (g z / γ) := by
  unfold stableFinish
  simp only []
  rw [List.zipWith_map_left, List.zipWith_map_right, List.zipWith_self]
  refine List.map_congr_left fun z hz => ?_
  rw [if_neg fun h => (hg z hz).ne' (Fl.fin_inj.mp h), if_neg (by decide), Fl.fin_div_fin' _ hγ.ne']

/-- The list of log-densities, when none of the standardised ones is zero. -/
theorem stableFinish_log {α β γ : ℝ} (hγ : 0 < γ) {g : ℝ → ℝ} {zs : List ℝ} (hg : ∀ z ∈ zs, 0 < g z ∧ g z ≠ 1) :
    stableFinish α β (.fin γ) true (zs.map .fin) (zs.map fun z => .fin (Real.log (g z))) =
      zs.map fun z => .fin (Real.log (g z / γ)) := by
  unfold stableFinish
  simp only []
  rw [List.zipWith_map_left, List.zipWith_map_right, List.zipWith_self]
  refine List.map_congr_left fun z hz => ?_
  obtain ⟨h1, h2⟩ := hg z hz
  have hne : Real.log (g z) ≠ 0 := Real.log_ne_zero_of_pos_of_ne_one h1 h2
  rw [if_neg fun h => hne (Fl.fin_inj.mp h), if_pos trivial, Fl.log_pos hγ, Fl.fin_sub_fin, Real.log_div h1.ne' hγ.ne']

section
variable {brentq : PyFun → ℝ → ℝ → Except PyErr ℝ} {quad : (ℝ → Fl) → ℝ → ℝ → Fl}
  (auxF2 : Fl → ℝ → Bool → Option (Except PyErr Fl)) (mode : ℝ → ℝ → Except PyErr Fl)

/-- `pdf` and `logpdf` at the points where the method works. -/
theorem stable_pdf_both {α β γ δ : ℝ} (h0 : 1 / 10 ^ 17 ≤ α) (h1 : α < 1 ∨ 1 + 1 / 10 ^ 5 ≤ α) (h2 : α < 2)
    (hβ : |β| ≤ 1) (hγ : 0 < γ) {pm : ℤ} (hpm : pm = 0 ∨ pm = 1) (hB : IsBracketing brentq) (hQ : IsQuad quad)
    {xs : List ℝ} (hx : ∀ x ∈ xs, StablePoint α β ((x - Spec.stableLoc α β γ δ pm) / γ)) :
    ∃ g : ℝ → ℝ,
      (∀ x ∈ xs, 0 < g x ∧ |g x - Spec.stableDensityAt α β γ (Spec.stableLoc α β γ δ pm) x| ≤
        stableErr α β ((x - Spec.stableLoc α β γ δ pm) / γ) / γ) ∧
      stablePdf brentq quad auxF2 mode (xs.map .fin) α β (.fin γ) (.fin δ) pm false =
        some (.ok (xs.map fun x => .fin (g x))) ∧
      ((∀ x ∈ xs, g x * γ ≠ 1) → stablePdf brentq quad auxF2 mode (xs.map .fin) α β (.fin γ) (.fin δ) pm true =
        some (.ok (xs.map fun x => .fin (Real.log (g x))))) := by
  have hp0 : 0 < α := lt_of_lt_of_le (by norm_num) h0
  have hne : α ≠ 1 := by
    rintro rfl
    norm_num at h1
  have hz : ∀ z, StablePoint α β z → ∃ v, 0 < v ∧ |v - Spec.stableDensity α β z| ≤ stableErr α β z ∧
      ∀ log, auxF1 brentq quad (.fin z) α β log = some (.ok (.fin (if log then Real.log v else v))) :=
    fun z hz => auxF1_ok h0 h1 h2.le hβ hB hQ hz
  choose! v hv0 hv1 hv2 using hz
  set d := Spec.stableLoc α β γ δ pm with hd
  have hmap : (xs.map Fl.fin).map (fun e => (e - .fin d) / .fin γ) = (xs.map fun x => (x - d) / γ).map Fl.fin := by
    rw [List.map_map, List.map_map]
    refine List.map_congr_left fun x _ => ?_
    simp [Fl.fin_div_fin' _ hγ.ne']
  have hrun : ∀ log, stablePdf brentq quad auxF2 mode (xs.map .fin) α β (.fin γ) (.fin δ) pm log =
      some (.ok (stableFinish α β (.fin γ) log ((xs.map fun x => (x - d) / γ).map Fl.fin)
        ((xs.map fun x => (x - d) / γ).map fun z => .fin (if log then Real.log (v z) else v z)))) := fun log => by
    unfold stablePdf
    rw [stableCheck_ok hp0 h2.le hβ (by simpa using hγ.le) (by omega), stableParam_eq hp0 hne h2.le hpm]
    simp only [bind, Except.bind]
    rw [← hd, hmap, stableStd, if_neg h2.ne, if_neg fun h => hne h.1, if_neg hne]
    rw [mapRun_ok (g := fun e => match e with | .fin z => .fin (if log then Real.log (v z) else v z) | _ => .nan)]
    · simp only [List.map_map, Function.comp_def]
    · intro e he
      obtain ⟨z, hz, rfl⟩ := List.mem_map.mp he
      obtain ⟨x, hx', rfl⟩ := List.mem_map.mp hz
      rw [hv2 _ (hx x hx') log]
  refine ⟨fun x => v ((x - d) / γ) / γ, fun x hx' => ⟨div_pos (hv0 _ (hx x hx')) hγ, ?_⟩, ?_, fun h => ?_⟩
  · rw [Spec.stableDensityAt, ← sub_div, abs_div, abs_of_pos hγ]
    exact div_le_div_of_nonneg_right (hv1 _ (hx x hx')) hγ.le
  · rw [hrun false]
    have := stableFinish_pos (α := α) (β := β) hγ (g := v) (zs := xs.map fun x => (x - d) / γ) (by
      intro z hz
      obtain ⟨x, hx', rfl⟩ := List.mem_map.mp hz
      exact hv0 _ (hx x hx'))
    simp only [Bool.false_eq_true, if_false]
    rw [this, List.map_map]
    rfl
  · rw [hrun true]
    have := stableFinish_log (α := α) (β := β) hγ (g := v) (zs := xs.map fun x => (x - d) / γ) (by
      intro z hz
      obtain ⟨x, hx', rfl⟩ := List.mem_map.mp hz
      refine ⟨hv0 _ (hx x hx'), ?_⟩
      have := h x hx'
      rwa [div_mul_cancel₀ _ hγ.ne'] at this)
    simp only [if_true]
    rw [this, List.map_map]
    rfl

/-- **C123** For an index other than one `pdf` returns positive numbers, which are the values of the density of the
variates of `rvs` up to the stated error. Missing: the points outside `StablePoint`, where the code can return zero for a
positive density (`stable_pdf_violation`) or raise; the index one with a skewness. -/
theorem stable_pdf_density_partial {α β γ δ : ℝ} (h0 : 1 / 10 ^ 17 ≤ α) (h1 : α < 1 ∨ 1 + 1 / 10 ^ 5 ≤ α) (h2 : α < 2)
    (hβ : |β| ≤ 1) (hγ : 0 < γ) {pm : ℤ} (hpm : pm = 0 ∨ pm = 1) (hB : IsBracketing brentq) (hQ : IsQuad quad)
    {xs : List ℝ} (hx : ∀ x ∈ xs, StablePoint α β ((x - Spec.stableLoc α β γ δ pm) / γ)) :
    ∃ g : ℝ → ℝ,
      (∀ x ∈ xs, 0 < g x ∧ |g x - Spec.stableDensityAt α β γ (Spec.stableLoc α β γ δ pm) x| ≤
        stableErr α β ((x - Spec.stableLoc α β γ δ pm) / γ) / γ) ∧
      stablePdf brentq quad auxF2 mode (xs.map .fin) α β (.fin γ) (.fin δ) pm false =
        some (.ok (xs.map fun x => .fin (g x))) := by
  obtain ⟨g, hg, hp, -⟩ := stable_pdf_both auxF2 mode h0 h1 h2 hβ hγ hpm hB hQ hx
  exact ⟨g, hg, hp⟩

/-- **C126** `logpdf` is the logarithm of `pdf` at these points, unless the density of the standardised variable is
exactly one there. Missing: points at which the density is replaced by its tail (`stable_logpdf_violation`). -/
theorem stable_logpdf_partial {α β γ δ : ℝ} (h0 : 1 / 10 ^ 17 ≤ α) (h1 : α < 1 ∨ 1 + 1 / 10 ^ 5 ≤ α) (h2 : α < 2)
    (hβ : |β| ≤ 1) (hγ : 0 < γ) {pm : ℤ} (hpm : pm = 0 ∨ pm = 1) (hB : IsBracketing brentq) (hQ : IsQuad quad)
    {xs : List ℝ} (hx : ∀ x ∈ xs, StablePoint α β ((x - Spec.stableLoc α β γ δ pm) / γ)) :
    ∃ g : ℝ → ℝ, (∀ x ∈ xs, 0 < g x) ∧
      stablePdf brentq quad auxF2 mode (xs.map .fin) α β (.fin γ) (.fin δ) pm false =
        some (.ok (xs.map fun x => .fin (g x))) ∧
      ((∀ x ∈ xs, g x * γ ≠ 1) → stablePdf brentq quad auxF2 mode (xs.map .fin) α β (.fin γ) (.fin δ) pm true =
        some (.ok (xs.map fun x => .fin (Real.log (g x))))) := by
  obtain ⟨g, hg, hp, hl⟩ := stable_pdf_both auxF2 mode h0 h1 h2 hβ hγ hpm hB hQ hx
  exact ⟨g, fun x hx => (hg x hx).1, hp, hl⟩

/-- The densities before the division by the scale are computed one by one. -/
theorem stableStd_mapRun (brentq : PyFun → ℝ → ℝ → Except PyErr ℝ) (quad : (ℝ → Fl) → ℝ → ℝ → Fl) (α β : ℝ)
    (log : Bool) : ∃ f, ∀ zs, stableStd brentq quad auxF2 α β log zs = mapRun f zs := by
  unfold stableStd
  by_cases h2 : α = 2
  · exact ⟨fun e => some (.ok (if log then Fl.log (normPdfTwo e) else normPdfTwo e)), fun zs => by
      rw [if_pos h2]
      exact (mapRun_ok fun _ _ => rfl).symm⟩
  by_cases h1 : α = 1 ∧ β = 0
  · exact ⟨fun e => some (.ok (if log then Fl.log (cauchyPdf e) else cauchyPdf e)), fun zs => by
      rw [if_neg h2, if_pos h1]
      exact (mapRun_ok fun _ _ => rfl).symm⟩
  by_cases h3 : α = 1
  · exact ⟨_, fun zs => by rw [if_neg h2, if_neg h1, if_pos h3]⟩
  · exact ⟨_, fun zs => by rw [if_neg h2, if_neg h1, if_neg h3]⟩

/-- **C125** If the value for every entry on its own is not zero, the values for the array are these. Missing: arrays
with an entry whose own value is zero (`stable_pdf_array_violation`). -/
theorem stable_pdf_entrywise_partial (brentq : PyFun → ℝ → ℝ → Except PyErr ℝ) (quad : (ℝ → Fl) → ℝ → ℝ → Fl)
    (α β : ℝ) (γ δ : Fl) (pm : ℤ) (log : Bool) (v : Fl → Fl) {xs : List Fl} (hne : xs ≠ [])
    (h : ∀ e ∈ xs, stablePdf brentq quad auxF2 mode [e] α β γ δ pm log = some (.ok [v e]) ∧ v e ≠ .fin 0) :
    stablePdf brentq quad auxF2 mode xs α β γ δ pm log = some (.ok (xs.map v)) := by
  obtain ⟨f, hf⟩ := stableStd_mapRun auxF2 brentq quad α β log
  unfold stablePdf at *
  cases hpar : (do
      stableCheck α β γ pm
      stableParam mode α δ γ β pm : Except PyErr (Fl × Fl)) with
  | error e =>
    obtain ⟨x, hx⟩ := List.exists_mem_of_ne_nil xs hne
    have := (h x hx).1
    rw [hpar] at this
    simp at this
  | ok dg =>
    obtain ⟨d, g⟩ := dg
    have key : ∀ e ∈ xs, ∃ a, f ((e - d) / g) = some (.ok a) ∧ a ≠ .fin 0 ∧
        v e = if log then a - Fl.log g else a / g := by
      intro e he
      obtain ⟨h1, h2⟩ := h e he
      rw [hpar] at h1
      simp only [List.map_cons, List.map_nil, hf, mapRun] at h1
      cases hr : f ((e - d) / g) with
      | none => rw [hr] at h1; simp at h1
      | some r =>
        cases r with
        | error x => rw [hr] at h1; simp at h1
        | ok a =>
          rw [hr] at h1
          simp only [stableFinish, List.zipWith_cons_cons, List.zipWith_nil_left, Option.some.injEq, Except.ok.injEq,
            List.cons.injEq, and_true] at h1
          have hno : a = .fin 0 → ¬ ∃ b ∈ [a], b ≠ Fl.fin 0 := by
            rintro h0 ⟨b, hb, hb'⟩
            exact hb' ((List.mem_singleton.mp hb).trans h0)
          refine ⟨a, rfl, fun h0 => ?_, ?_⟩
          · rw [if_pos h0, if_neg (hno h0)] at h1
            exact h2 (h1 ▸ h0)
          · by_cases h0 : a = .fin 0
            · rw [if_pos h0, if_neg (hno h0)] at h1
              exact absurd (h1 ▸ h0) h2
            · rw [if_neg h0] at h1
              exact h1.symm
    choose! a ha1 ha2 ha3 using key
    have hrun : mapRun f (xs.map fun e => (e - d) / g) = some (.ok (xs.map a)) := by
      clear h hne
      induction xs with
      | nil => rfl
      | cons x xs ih =>
        rw [List.map_cons, mapRun, ha1 x List.mem_cons_self,
          ih (fun e he => ha1 e (List.mem_cons_of_mem x he)) (fun e he => ha2 e (List.mem_cons_of_mem x he))
            (fun e he => ha3 e (List.mem_cons_of_mem x he))]
        rfl
    simp only [hf, hrun]
    refine congrArg some (congrArg Except.ok ?_)
    unfold stableFinish
    simp only []
    rw [List.zipWith_map_left, List.zipWith_map_right, List.zipWith_self]
    refine List.map_congr_left fun e he => ?_
    rw [if_neg (ha2 e he), ha3 e he]

/-- The function that `pdf` approximates is the density of what `rvs` draws. -/
theorem stable_pdf_rvs {α β γ δ : ℝ} (h0 : 1 / 10 ^ 17 ≤ α) (h1 : α < 1 ∨ 1 + 1 / 10 ^ 5 ≤ α) (h2 : α < 2)
    (hβ : |β| ≤ 1) (hc : 1 / 10 ^ 8 + 1 / 10 ^ 5 < |α - 1| ∨ 1 / 10 ^ 8 < |β|) (hγ : 0 < γ) {pm : ℤ}
    (hpm : pm = 0 ∨ pm = 1) (hB : IsBracketing brentq) (hQ : IsQuad quad) :
    ∃ (X : ℝ × ℝ → ℝ) (f : ℝ → ℝ), Measurable X ∧
      frailSpace.map X = volume.withDensity (fun x => ENNReal.ofReal (f x)) ∧
      (∀ (n : ℕ) (ca v w : Fin n → ℝ), (∀ i, v i ∈ Ioo (0 : ℝ) 1) → (∀ i, 0 < w i) →
        stableRvs mode α β (.fin γ) (.fin δ) pm ca v w = .ok fun i => .fin (X (v i, w i))) ∧
      ∀ x, StablePoint α β ((x - Spec.stableLoc α β γ δ pm) / γ) →
        ∃ v, 0 < v ∧ |v - f x| ≤ stableErr α β ((x - Spec.stableLoc α β γ δ pm) / γ) / γ ∧
          stablePdf brentq quad auxF2 mode [.fin x] α β (.fin γ) (.fin δ) pm false = some (.ok [.fin v]) := by
  have hne : α ≠ 1 := by
    rintro rfl
    norm_num at h1
  obtain ⟨X, hm, hl, hr⟩ := stable_rvs_density (δ := δ) (lt_of_lt_of_le (by norm_num) h0) hne h2.le hβ hc hγ pm hpm mode
  refine ⟨X, _, hm, hl, hr, fun x hx => ?_⟩
  obtain ⟨g, hg, hp⟩ := stable_pdf_density_partial (xs := [x]) auxF2 mode h0 h1 h2 hβ hγ hpm hB hQ (by
    intro x' hx'
    rw [List.mem_singleton.mp hx']
    exact hx)
  exact ⟨g x, (hg x List.mem_cons_self).1, (hg x List.mem_cons_self).2, hp⟩

/-- For the index two `pdf` returns the density of the normal law that `rvs` draws from, at every real number. -/
theorem stable_pdf_normal {β γ δ : ℝ} (hβ : |β| ≤ 1) (hγ : 0 < γ) {pm : ℤ} (hpm : pm = 0 ∨ pm = 1) (xs : List ℝ) :
    stablePdf brentq quad auxF2 mode (xs.map .fin) 2 β (.fin γ) (.fin δ) pm false =
      some (.ok (xs.map fun x => .fin (gaussianPDFReal δ (2 * γ.toNNReal ^ 2) x))) := by
  have hloc : Spec.stableLoc 2 β γ δ pm = δ := by simp [Spec.stableLoc]
  unfold stablePdf
  rw [stableCheck_ok (by norm_num) le_rfl hβ (by simpa using hγ.le) (by omega),
    stableParam_eq (by norm_num) (by norm_num) le_rfl hpm, hloc]
  simp only [bind, Except.bind]
  have hmap : (xs.map Fl.fin).map (fun e => (e - .fin δ) / .fin γ) = (xs.map fun x => (x - δ) / γ).map Fl.fin := by
    rw [List.map_map, List.map_map]
    refine List.map_congr_left fun x _ => ?_
    simp [Fl.fin_div_fin' _ hγ.ne']
  have hp := pi_pos
  rw [hmap, stableStd, if_pos rfl]
  simp only [List.map_map]
  have := stableFinish_pos (α := 2) (β := β) hγ (g := fun z => Real.exp (-(z ^ 2 / 4)) / (2 * Real.sqrt Real.pi))
    (zs := xs.map fun x => (x - δ) / γ) (by intro z _; positivity)
  simp only [List.map_map] at this
  simp only [Function.comp_def] at this ⊢
  simp only [Bool.false_eq_true, if_false, normPdfTwo]
  rw [this]
  refine congrArg some (congrArg Except.ok (List.map_congr_left fun x _ => congrArg Fl.fin ?_))
  have e1 : (2 : ℝ) * π * ((2 * γ.toNNReal ^ 2 : NNReal) : ℝ) = (2 * γ) ^ 2 * π := by
    push_cast
    rw [Real.coe_toNNReal _ hγ.le]
    ring
  rw [gaussianPDFReal, e1, sqrt_mul (by positivity), sqrt_sq (by positivity)]
  push_cast
  rw [Real.coe_toNNReal _ hγ.le, show -(((x - δ) / γ) ^ 2 / 4) = -(x - δ) ^ 2 / (2 * (2 * γ ^ 2)) by field_simp; ring]
  field_simp

example (auxF2 : Fl → ℝ → Bool → Option (Except PyErr Fl)) (mode : ℝ → ℝ → Except PyErr Fl) :=
  stable_pdf_normal (brentq := brentq) (quad := quad) auxF2 mode (β := -1) (γ := 2) (δ := 3) (by norm_num) (by norm_num) (pm := 1) (.inr rfl) [0, 5]

/-- Instance for `stable_pdf_entrywise_partial`. -/
example : stablePdf brentq quad auxF2 mode [.fin 0, .fin 5] 2 (1 / 2) (.fin 1) (.fin 0) 0 false =
    some (.ok ([Fl.fin 0, .fin 5].map fun e => match e with
      | .fin x => .fin (gaussianPDFReal 0 (2 * (1 : ℝ).toNNReal ^ 2) x)
      | _ => .nan)) := by
  refine stable_pdf_entrywise_partial auxF2 mode brentq quad 2 (1 / 2) (.fin 1) (.fin 0) 0 false _ (by simp) ?_
  intro e he
  obtain ⟨x, rfl⟩ : ∃ x : ℝ, e = .fin x := by
    simp only [List.mem_cons, List.not_mem_nil, or_false] at he
    rcases he with rfl | rfl <;> exact ⟨_, rfl⟩
  refine ⟨stable_pdf_normal auxF2 mode (by norm_num [abs_of_pos]) one_pos (.inl rfl) [x], ?_⟩
  simp only [ne_eq, Fl.fin.injEq]
  exact (gaussianPDFReal_pos _ _ _ (by simp)).ne'

/-- For the index one without skewness `pdf` returns the density of the Cauchy law. -/
theorem stable_pdf_cauchy {γ δ : ℝ} (hγ : 0 < γ) {pm : ℤ} (hpm : pm = 0 ∨ pm = 1) (xs : List ℝ) :
    stablePdf brentq quad auxF2 mode (xs.map .fin) 1 0 (.fin γ) (.fin δ) pm false =
      some (.ok (xs.map fun x => .fin (cauchyPDFReal δ γ.toNNReal x))) := by
  have hpar : stableParam mode 1 (.fin δ) (.fin γ) 0 pm = .ok (.fin δ, .fin γ) := by
    rcases hpm with rfl | rfl
    · simp [stableParam]
    · rw [stableParam, if_pos rfl, stableOmega, if_neg (not_not.mpr ⟨1, by norm_num⟩), if_pos rfl, Fl.log_pos hγ]
      simp
  unfold stablePdf
  rw [stableCheck_ok (by norm_num) (by norm_num) (by simp) (by simpa using hγ.le) (by omega), hpar]
  simp only [bind, Except.bind]
  have hmap : (xs.map Fl.fin).map (fun e => (e - .fin δ) / .fin γ) = (xs.map fun x => (x - δ) / γ).map Fl.fin := by
    rw [List.map_map, List.map_map]
    refine List.map_congr_left fun x _ => ?_
    simp [Fl.fin_div_fin' _ hγ.ne']
  have hp := pi_pos
  rw [hmap, stableStd, if_neg (by norm_num), if_pos ⟨rfl, rfl⟩]
  simp only [List.map_map]
  have := stableFinish_pos (α := 1) (β := 0) hγ (g := fun z => 1 / (π * (1 + z ^ 2)))
    (zs := xs.map fun x => (x - δ) / γ) (by intro z _; positivity)
  simp only [List.map_map] at this
  simp only [Function.comp_def] at this ⊢
  simp only [Bool.false_eq_true, if_false, cauchyPdf]
  rw [this]
  refine congrArg some (congrArg Except.ok (List.map_congr_left fun x _ => congrArg Fl.fin ?_))
  rw [cauchyPDFReal, Real.coe_toNNReal _ hγ.le]
  have : (x - δ) ^ 2 + γ ^ 2 ≠ 0 := by positivity
  field_simp
  ring

example (auxF2 : Fl → ℝ → Bool → Option (Except PyErr Fl)) (mode : ℝ → ℝ → Except PyErr Fl) :=
  stable_pdf_cauchy (brentq := brentq) (quad := quad) auxF2 mode (γ := 2) (δ := 3) (by norm_num) (pm := 0) (.inl rfl) [0, 5]

end

end Copulae
