import Verif.Lemmas.StableLimits
import Verif.Props.StablePdfLaw
import Verif.Props.StablePdfZero

/-!
C128, C129: the density at `ζ` and the tail approximation of the density of stable laws.
-/

namespace Copulae

open MeasureTheory Set Real Topology Filter

theorem stable_angle_lt {α β : ℝ} (h0 : 0 < α) (h1 : α ≠ 1) (h2 : α ≤ 2) (hβ : |β| < 1) :
    |Spec.stableAngle α β| < π / 2 := by
  have hp := pi_pos
  rw [Spec.stableAngle, abs_div, abs_of_pos h0, div_lt_iff₀ h0]
  rcases lt_or_gt_of_ne h1 with h | h
  · have hT : 0 < tan (α * π / 2) := tan_pos_of_pos_of_lt_pi_div_two (by positivity) (by nlinarith)
    have e : arctan (tan (α * π / 2)) = α * π / 2 := arctan_tan (by nlinarith) (by nlinarith)
    have hb : |β * tan (α * π / 2)| < tan (α * π / 2) := by
      rw [abs_mul, abs_of_pos hT]
      nlinarith
    obtain ⟨b1, b2⟩ := abs_lt.mp hb
    rw [abs_lt]
    have a1 := arctan_strictMono b1
    have a2 := arctan_strictMono b2
    rw [arctan_neg, e] at a1
    rw [e] at a2
    constructor <;> linarith
  · have := stable_arctan_gt h h2 hβ.le
    nlinarith

theorem stableZeta_neg (α β : ℝ) : Spec.stableZeta α (-β) = -Spec.stableZeta α β := by
  simp [Spec.stableZeta]

theorem stableAngle_neg (α β : ℝ) : Spec.stableAngle α (-β) = -Spec.stableAngle α β := by
  simp [Spec.stableAngle, neg_div, arctan_neg]

theorem stableDensity_neg (α β x : ℝ) : Spec.stableDensity α β (-x) = Spec.stableDensity α (-β) x := by
  rcases lt_trichotomy (Spec.stableZeta α β) (-x) with h | h | h
  · rw [Spec.stableDensity, Spec.stableDensity, if_pos h, stableZeta_neg, stableAngle_neg, if_neg (by linarith),
      if_pos (by linarith)]
    congr 1 <;> ring
  · rw [Spec.stableDensity, Spec.stableDensity, if_neg h.not_lt, if_neg h.not_gt, stableZeta_neg, if_neg (by linarith),
      if_neg (by linarith)]
  · rw [Spec.stableDensity, Spec.stableDensity, if_neg (not_lt.mpr h.le), if_pos h, stableZeta_neg, stableAngle_neg,
      if_pos (by linarith)]
    congr 1
    ring

/-- The limit of the density at `ζ`. -/
theorem stableDensity_zeta {α β : ℝ} (h0 : 0 < α) (h1 : α ≠ 1) (h2 : α ≤ 2) (hβ : |β| ≤ 1)
    (ha : |Spec.stableAngle α β| < π / 2) :
    Tendsto (Spec.stableDensity α β) (𝓝[≠] (Spec.stableZeta α β))
      (𝓝 (Gamma (1 + 1 / α) * cos (Spec.stableAngle α β) * cos (α * Spec.stableAngle α β) ^ (1 / α) / π)) := by
  have ok := stable_angleOk h0 h1 h2 hβ
  have hR := stableHalf_zero ok ha
  have hL := stableHalf_zero ok.neg (by rwa [abs_neg])
  rw [cos_neg, mul_neg, cos_neg] at hL
  rw [← Iio_union_Ioi, nhdsWithin_union]
  refine Tendsto.sup ?_ ?_
  · have h : Tendsto (fun x => Spec.stableZeta α β - x) (𝓝[<] (Spec.stableZeta α β)) (𝓝[>] 0) := by
      refine tendsto_nhdsWithin_iff.mpr ⟨?_, ?_⟩
      · have : ContinuousAt (fun x => Spec.stableZeta α β - x) (Spec.stableZeta α β) := by fun_prop
        have := this.tendsto.mono_left (nhdsWithin_le_nhds (s := Iio (Spec.stableZeta α β)))
        simpa using this
      · filter_upwards [self_mem_nhdsWithin] with x (hx : x < _)
        exact sub_pos.mpr hx
    refine (hL.comp h).congr' ?_
    filter_upwards [self_mem_nhdsWithin] with x (hx : x < _)
    rw [Spec.stableDensity, if_neg (not_lt.mpr hx.le), if_pos hx]
    rfl
  · have h : Tendsto (fun x => x - Spec.stableZeta α β) (𝓝[>] (Spec.stableZeta α β)) (𝓝[>] 0) := by
      refine tendsto_nhdsWithin_iff.mpr ⟨?_, ?_⟩
      · have : ContinuousAt (fun x => x - Spec.stableZeta α β) (Spec.stableZeta α β) := by fun_prop
        have := this.tendsto.mono_left (nhdsWithin_le_nhds (s := Ioi (Spec.stableZeta α β)))
        simpa using this
      · filter_upwards [self_mem_nhdsWithin] with x (hx : _ < x)
        exact sub_pos.mpr hx
    refine (hR.comp h).congr' ?_
    filter_upwards [self_mem_nhdsWithin] with x (hx : _ < x)
    rw [Spec.stableDensity, if_pos hx]
    rfl

example := stableDensity_zeta (α := 3 / 2) (β := 0) (by norm_num) (by norm_num) (by norm_num) (by norm_num)
  (by simp [Spec.stableAngle, pi_pos])

/-- The value of the code at `ζ`. -/
theorem auxF1_zeta (brentq : PyFun → ℝ → ℝ → Except PyErr ℝ) (quad : (ℝ → Fl) → ℝ → ℝ → Fl) {α β : ℝ} (h0 : 0 < α)
    (ha : |Spec.stableAngle α β| ≤ pyPI2) (log : Bool) :
    let v := Gamma (1 + 1 / α) * cos (Spec.stableAngle α β) * cos (α * Spec.stableAngle α β) ^ (1 / α) / π
    0 < v ∧ auxF1 brentq quad (.fin (Spec.stableZeta α β)) α β log =
      some (.ok (.fin (if log then Real.log v else v))) := by
  have hp := pi_pos
  have hpi := pyPI2_lt
  obtain ⟨ha1, ha2⟩ := abs_le.mp ha
  have hc : 0 < cos (Spec.stableAngle α β) := cos_pos_of_mem_Ioo ⟨by linarith, by linarith⟩
  have hG : 0 < Gamma (1 + 1 / α) := Gamma_pos_of_pos (by positivity)
  set b := β * tan (α * π / 2) with hb
  have hb1 : 0 < 1 + b ^ 2 := by positivity
  have hcT : cos (α * Spec.stableAngle α β) ^ (1 / α) = ((1 + b ^ 2) ^ (1 / (2 * α)))⁻¹ := by
    rw [stable_cosT α β h0.ne', ← hb, ← sq, ← rpow_mul hb1.le, ← rpow_neg hb1.le]
    congr 1
    field_simp
  have hv : Gamma (1 + 1 / α) * cos (Spec.stableAngle α β) * cos (α * Spec.stableAngle α β) ^ (1 / α) / π =
      Gamma (1 + 1 / α) * cos (Spec.stableAngle α β) / (π * (1 + b ^ 2) ^ (1 / (2 * α))) := by
    rw [hcT]
    field_simp
  intro v
  have hv0 : 0 < v := by
    show 0 < Gamma (1 + 1 / α) * cos (Spec.stableAngle α β) * cos (α * Spec.stableAngle α β) ^ (1 / α) / π
    rw [hv]
    positivity
  refine ⟨hv0, ?_⟩
  have htol := zetaTol_le α β b
  unfold auxF1
  simp only []
  rw [← hb]
  have hcl : min (max (-pyPI2) (arctan b / α)) pyPI2 = Spec.stableAngle α β := by
    rw [show arctan b / α = Spec.stableAngle α β from rfl, max_eq_right ha1, min_eq_left ha2]
  have hz : Spec.stableZeta α β = -b := rfl
  rw [hcl, hz, if_pos]
  · congr 2
    unfold fZeta
    cases log with
    | false =>
      simp only [Bool.false_eq_true, if_false]
      rw [show v = _ from hv, neg_sq]
    | true =>
      simp only [if_true]
      rw [Fl.log_pos hc, Fl.fin_add_fin, Fl.fin_sub_fin, show v = _ from hv, neg_sq,
        Real.log_div (mul_pos hG hc).ne' (by positivity), Real.log_mul hG.ne' hc.ne', Real.log_mul hp.ne' (by positivity),
        Real.log_rpow hb1]
      congr 1
      ring
  · refine ⟨trivial, ?_⟩
    rw [Fl.fin_sub_fin, sub_self, Fl.abs_fin, abs_zero, Fl.abs_fin, Fl.maximum_fin, Fl.fin_add_fin, Fl.fin_mul_fin,
      Fl.fin_le_fin]
    have := abs_nonneg (-b)
    have : 0 ≤ max |-b| |-b| := le_max_of_le_left this
    nlinarith [htol.1]

section
variable {brentq : PyFun → ℝ → ℝ → Except PyErr ℝ} {quad : (ℝ → Fl) → ℝ → ℝ → Fl}
  (auxF2 : Fl → ℝ → Bool → Option (Except PyErr Fl)) (mode : ℝ → ℝ → Except PyErr Fl)

/-- **C128** At the point `ζ`, where the two integrals for the density do not apply, `pdf` returns the limit of the
density and `logpdf` its logarithm. -/
theorem stable_pdf_zeta {α β γ δ : ℝ} (h0 : 0 < α) (h1 : α ≠ 1) (h2 : α < 2) (hβ : |β| ≤ 1) (hγ : 0 < γ) {pm : ℤ}
    (hpm : pm = 0 ∨ pm = 1) (ha : |Spec.stableAngle α β| ≤ pyPI2) {x : ℝ}
    (hx : x = Spec.stableLoc α β γ δ pm + γ * Spec.stableZeta α β) :
    ∃ v, 0 < v ∧ Tendsto (Spec.stableDensityAt α β γ (Spec.stableLoc α β γ δ pm)) (𝓝[≠] x) (𝓝 v) ∧
      stablePdf brentq quad auxF2 mode [.fin x] α β (.fin γ) (.fin δ) pm false = some (.ok [.fin v]) ∧
      (v * γ ≠ 1 → stablePdf brentq quad auxF2 mode [.fin x] α β (.fin γ) (.fin δ) pm true =
        some (.ok [.fin (Real.log v)])) := by
  have hlim := stableDensity_zeta h0 h1 h2.le hβ (lt_of_le_of_lt ha pyPI2_lt)
  have hau := auxF1_zeta brentq quad (β := β) h0 ha
  set w := Gamma (1 + 1 / α) * cos (Spec.stableAngle α β) * cos (α * Spec.stableAngle α β) ^ (1 / α) / π with hw
  simp only [] at hau
  have hw0 := (hau true).1
  set d := Spec.stableLoc α β γ δ pm with hd
  have hz : (x - d) / γ = Spec.stableZeta α β := by rw [hx]; field_simp; ring
  have hrun : ∀ log, stablePdf brentq quad auxF2 mode [.fin x] α β (.fin γ) (.fin δ) pm log =
      some (.ok (stableFinish α β (.fin γ) log ([Spec.stableZeta α β].map .fin)
        ([Spec.stableZeta α β].map fun _ => .fin (if log then Real.log w else w)))) := fun log => by
    unfold stablePdf
    rw [stableCheck_ok h0 h2.le hβ (by simpa using hγ.le) (by omega), stableParam_eq h0 h1 h2.le hpm]
    simp only [Bind.bind, Except.bind, List.map_cons, List.map_nil]
    rw [← hd, Fl.fin_sub_fin, Fl.fin_div_fin' _ hγ.ne', hz, stableStd, if_neg h2.ne, if_neg fun h => h1 h.1, if_neg h1,
      mapRun, (hau log).2]
    rfl
  refine ⟨w / γ, div_pos hw0 hγ, ?_, ?_, fun hne => ?_⟩
  · have hT : Tendsto (fun y => (y - d) / γ) (𝓝[≠] x) (𝓝[≠] (Spec.stableZeta α β)) := by
      refine tendsto_nhdsWithin_iff.mpr ⟨?_, ?_⟩
      · have : ContinuousAt (fun y => (y - d) / γ) x := by fun_prop
        have := this.tendsto.mono_left (nhdsWithin_le_nhds (s := {x}ᶜ))
        rwa [hz] at this
      · filter_upwards [self_mem_nhdsWithin] with y (hy : y ≠ x)
        rw [mem_compl_iff, mem_singleton_iff, ← hz, div_left_inj' hγ.ne', sub_left_inj]
        exact hy
    exact (hlim.comp hT).div_const γ
  · rw [hrun false]
    have := stableFinish_pos (α := α) (β := β) hγ (g := fun _ => w) (zs := [Spec.stableZeta α β]) (by simp [hw0])
    simp only [Bool.false_eq_true, if_false]
    rw [this]
    rfl
  · rw [hrun true]
    have := stableFinish_log (α := α) (β := β) hγ (g := fun _ => w) (zs := [Spec.stableZeta α β]) (by
      simp only [List.mem_singleton, forall_eq]
      exact ⟨hw0, by rwa [div_mul_cancel₀ _ hγ.ne'] at hne⟩)
    simp only [if_true]
    rw [this]
    rfl

/-- For the index 3/2 with skewness 1/2, scale 2, location 3 and `pm = 1` the point is 3. -/
example : ∃ v, 0 < v ∧
    stablePdf brentq quad auxF2 mode [.fin 3] (3 / 2) (1 / 2) (.fin 2) (.fin 3) 1 false = some (.ok [.fin v]) := by
  obtain ⟨v, h, -, hv, -⟩ := stable_pdf_zeta (brentq := brentq) (quad := quad) (α := 3 / 2) (β := 1 / 2) (γ := 2) (δ := 3)
    (x := 3) auxF2 mode (by norm_num) (by norm_num) (by norm_num) (by rw [abs_of_pos] <;> norm_num) (by norm_num)
    (Or.inr rfl) (by
      have := (stable_angle_gt (α := 3 / 2) (β := 1 / 2) (by norm_num) (by norm_num)
        (by rw [abs_of_pos] <;> norm_num)).1
      linarith) (by
      rw [Spec.stableLoc, if_pos ⟨rfl, by norm_num⟩, Spec.stableZeta, mul_comm π]
      ring)
  exact ⟨v, h, hv⟩

/-- The tail of a stable law. -/
noncomputable def Spec.stableTailAt (α β x : ℝ) : ℝ :=
  α * (1 + SignType.sign x * β) * (Gamma α / π * sin (α * pyPI2)) * |x| ^ (-(1 + α))

theorem stablePareto_eq {α β x : ℝ} (h0 : 0 < α) (h2 : α ≠ 2) (hx : x ≠ 0) :
    stablePareto (.fin x) α β false = .fin (Spec.stableTailAt α β x) := by
  have ht : stableTail α false = .fin (Gamma α / π * sin (α * pyPI2)) := by
    simp [stableTail, h0.ne', h2]
  unfold stablePareto
  simp only [Bool.false_eq_true, if_false, ht]
  rcases lt_or_gt_of_ne hx with h | h
  · rw [if_pos (Fl.fin_lt_fin.mpr h), if_pos (Fl.fin_lt_fin.mpr h), Fl.neg_fin, Fl.pow_pos (neg_pos.mpr h), Fl.fin_mul_fin,
      Fl.fin_mul_fin, Spec.stableTailAt, sign_neg h, abs_of_neg h]
    simp
  · have hn : ¬ Fl.fin x < Fl.fin 0 := fun h' => not_lt.mpr h.le (Fl.fin_lt_fin.mp h')
    rw [if_neg hn, if_neg hn, Fl.pow_pos h, Fl.fin_mul_fin, Fl.fin_mul_fin, Spec.stableTailAt, sign_pos h, abs_of_pos h]
    simp

theorem Fl.div_fin_eq_zero {a : Fl} {γ : ℝ} (hγ : 0 < γ) : a / .fin γ = .fin 0 ↔ a = .fin 0 := by
  cases a with
  | nan => simp
  | fin r =>
    rw [Fl.fin_div_fin' _ hγ.ne', Fl.fin_inj, Fl.fin_inj, div_eq_zero_iff]
    simp [hγ.ne']
  | pinf =>
    have e : Fl.pinf / .fin γ = .pinf := if_pos hγ.le
    simp [e]
  | ninf =>
    have e : Fl.ninf / .fin γ = .ninf := if_pos hγ.le
    simp [e]

open Classical in
/-- **C129** What `pdf` returns for an array with an entry whose own value is not zero: the own values, and the tail of
the law for the entries whose own value is zero. -/
theorem stable_pdf_array_tail {α β γ δ : ℝ} (h0 : 0 < α) (h1 : α ≠ 1) (h2 : α < 2) (hβ : |β| ≤ 1) (hγ : 0 < γ) {pm : ℤ}
    (hpm : pm = 0 ∨ pm = 1) (v : ℝ → Fl) {xs : List ℝ}
    (h : ∀ x ∈ xs, stablePdf brentq quad auxF2 mode [.fin x] α β (.fin γ) (.fin δ) pm false = some (.ok [v x]))
    (hne : ∃ x ∈ xs, v x ≠ .fin 0) (hz : ∀ x ∈ xs, v x = .fin 0 → x ≠ Spec.stableLoc α β γ δ pm) :
    stablePdf brentq quad auxF2 mode (xs.map .fin) α β (.fin γ) (.fin δ) pm false =
      some (.ok (xs.map fun x => if v x = .fin 0 then
        .fin (Spec.stableTailAt α β ((x - Spec.stableLoc α β γ δ pm) / γ) / γ) else v x)) := by
  obtain ⟨f, hf⟩ := stableStd_mapRun auxF2 brentq quad α β false
  set d := Spec.stableLoc α β γ δ pm with hd
  have hpar : (do
      stableCheck α β (.fin γ) pm
      stableParam mode α (.fin δ) (.fin γ) β pm : Except PyErr (Fl × Fl)) = .ok (.fin d, .fin γ) := by
    rw [stableCheck_ok h0 h2.le hβ (by simpa using hγ.le) (by omega), stableParam_eq h0 h1 h2.le hpm]
    rfl
  have key : ∀ x ∈ xs, ∃ a, f (.fin ((x - d) / γ)) = some (.ok a) ∧ v x = a / .fin γ := by
    intro x hx
    have h1 := h x hx
    unfold stablePdf at h1
    rw [hpar] at h1
    simp only [List.map_cons, List.map_nil, hf, mapRun] at h1
    rw [Fl.fin_sub_fin, Fl.fin_div_fin' _ hγ.ne'] at h1
    cases hr : f (.fin ((x - d) / γ)) with
    | none => rw [hr] at h1; simp at h1
    | some r =>
      cases r with
      | error x => rw [hr] at h1; simp at h1
      | ok a =>
        rw [hr] at h1
        simp only [stableFinish, List.zipWith_cons_cons, List.zipWith_nil_left, Option.some.injEq, Except.ok.injEq,
          List.cons.injEq, and_true] at h1
        refine ⟨a, rfl, ?_⟩
        by_cases ha0 : a = .fin 0
        · rw [if_pos ha0, if_neg (by
            rintro ⟨b, hb, hb'⟩
            exact hb' ((List.mem_singleton.mp hb).trans ha0))] at h1
          rw [← h1, ha0, (Fl.div_fin_eq_zero hγ).mpr rfl]
        · rw [if_neg ha0, if_neg (by decide)] at h1
          exact h1.symm
  choose! a ha1 ha2 using key
  have hmap : (xs.map Fl.fin).map (fun e => (e - .fin d) / .fin γ) = xs.map fun x => .fin ((x - d) / γ) := by
    rw [List.map_map]
    refine List.map_congr_left fun x _ => ?_
    simp [Fl.fin_div_fin' _ hγ.ne']
  have hrun : mapRun f (xs.map fun x => .fin ((x - d) / γ)) = some (.ok (xs.map a)) := by
    clear h hne hz hmap
    induction xs with
    | nil => rfl
    | cons x xs ih =>
      rw [List.map_cons, mapRun, ha1 x List.mem_cons_self,
        ih (fun e he => ha1 e (List.mem_cons_of_mem x he)) (fun e he => ha2 e (List.mem_cons_of_mem x he))]
      rfl
  have hz0 : ∀ x ∈ xs, (v x = .fin 0 ↔ a x = .fin 0) := fun x hx => by rw [ha2 x hx, Fl.div_fin_eq_zero hγ]
  unfold stablePdf
  rw [hpar]
  simp only [hmap, hf, hrun]
  refine congrArg some (congrArg Except.ok ?_)
  unfold stableFinish
  simp only []
  rw [List.zipWith_map_left, List.zipWith_map_right, List.zipWith_self]
  refine List.map_congr_left fun x hx => ?_
  by_cases ha0 : a x = .fin 0
  · rw [if_pos ha0, if_pos, if_pos ((hz0 x hx).mpr ha0), if_neg (by decide), stablePareto_eq h0 h2.ne
      (div_ne_zero (sub_ne_zero.mpr (hz x hx ((hz0 x hx).mpr ha0))) hγ.ne'), Fl.fin_div_fin' _ hγ.ne']
    obtain ⟨x', hx', hv⟩ := hne
    exact ⟨a x', List.mem_map_of_mem hx', fun h => hv ((hz0 x' hx').mpr h)⟩
  · rw [if_neg ha0, if_neg (by decide), if_neg fun h => ha0 ((hz0 x hx).mp h), ha2 x hx]

end

theorem stable_sin_pos {α : ℝ} (h0 : 0 < α) (h2 : α < 2) : 0 < sin (α * π / 2) :=
  sin_pos_of_pos_of_lt_pi (by have := pi_pos; positivity) (by nlinarith [pi_pos])

theorem stable_tail_constant {α β : ℝ} (h0 : 0 < α) (h1 : α ≠ 1) (h2 : α ≤ 2) (hβ : |β| ≤ 1) :
    sin (α * (π / 2 + Spec.stableAngle α β)) / cos (α * Spec.stableAngle α β) = (1 + β) * sin (α * π / 2) := by
  have hp := pi_pos
  have ok := stable_angleOk h0 h1 h2 hβ
  have hc := ok.cosT
  have ht : tan (α * Spec.stableAngle α β) = β * tan (α * π / 2) := by
    rw [Spec.stableAngle, mul_div_cancel₀ _ h0.ne', tan_arctan]
  have hcα : cos (α * π / 2) ≠ 0 := by
    rcases lt_or_gt_of_ne h1 with h | h
    · exact (cos_pos_of_mem_Ioo ⟨by nlinarith, by nlinarith⟩).ne'
    · exact (cos_neg_of_pi_div_two_lt_of_lt (by nlinarith) (by nlinarith)).ne
  rw [tan_eq_sin_div_cos, tan_eq_sin_div_cos, div_eq_iff hc.ne'] at ht
  rw [mul_add, sin_add, ht, show α * (π / 2) = α * π / 2 by ring]
  field_simp

/-- The tail of the density. -/
theorem stableDensity_tail {α β : ℝ} (h0 : 0 < α) (h1 : α ≠ 1) (h2 : α < 2) (hβ : |β| < 1) :
    Tendsto (fun x => x ^ (1 + α) * Spec.stableDensity α β x) atTop
      (𝓝 (α * Gamma α / π * ((1 + β) * sin (α * π / 2)))) := by
  have hp := pi_pos
  have ok := stable_angleOk h0 h1 h2.le hβ.le
  have ha := stable_angle_lt h0 h1 h2.le hβ
  have hs := stable_sin_pos h0 h2
  have hβ' := abs_lt.mp hβ
  have hc := stable_tail_constant h0 h1 h2.le hβ.le
  have hσ : 0 < sin (α * (π / 2 + Spec.stableAngle α β)) := by
    rw [div_eq_iff ok.cosT.ne'] at hc
    rw [hc]
    exact mul_pos (mul_pos (by linarith) hs) ok.cosT
  have hle : α * (π / 2 + Spec.stableAngle α β) ≤ π := by
    rw [mul_add, show α * Spec.stableAngle α β = arctan (β * tan (α * π / 2)) from mul_div_cancel₀ _ h0.ne']
    rcases lt_or_gt_of_ne h1 with h | h
    · have := abs_le.mp (stable_arctan_lt h0 h hβ.le)
      nlinarith
    · have := abs_le.mp (stable_arctan_gt h h2.le hβ.le)
      nlinarith
  have ht := stableHalf_tail ok ha hσ hle
  rw [hc] at ht
  set ζ := Spec.stableZeta α β with hζ
  have hsub : Tendsto (fun x : ℝ => x - ζ) atTop atTop := tendsto_atTop_add_const_right _ (-ζ) tendsto_id
  have hratio : Tendsto (fun x : ℝ => (x / (x - ζ)) ^ (1 + α)) atTop (𝓝 1) := by
    have e : Tendsto (fun x : ℝ => 1 + ζ * (x - ζ)⁻¹) atTop (𝓝 (1 + ζ * 0)) :=
      ((tendsto_inv_atTop_zero.comp hsub).const_mul ζ).const_add 1
    rw [mul_zero, add_zero] at e
    have e' : Tendsto (fun x : ℝ => x / (x - ζ)) atTop (𝓝 1) := by
      refine e.congr' ?_
      filter_upwards [eventually_gt_atTop ζ] with x hx
      have : x - ζ ≠ 0 := (sub_pos.mpr hx).ne'
      field_simp
      ring
    simpa using e'.rpow_const (p := 1 + α) (Or.inl one_ne_zero)
  have := hratio.mul (ht.comp hsub)
  rw [one_mul] at this
  refine this.congr' ?_
  filter_upwards [eventually_gt_atTop ζ, eventually_gt_atTop 0] with x hx hx0
  have h3 : 0 < x - ζ := sub_pos.mpr hx
  rw [Spec.stableDensity, if_pos hx, Function.comp_apply, div_rpow hx0.le h3.le, ← hζ]
  have := (rpow_pos_of_pos h3 (1 + α)).ne'
  field_simp

example := stableDensity_tail (α := 1 / 2) (β := -1 / 2) (by norm_num) (by norm_num) (by norm_num) (by norm_num [abs_lt])

theorem stable_tail_ratio_pos {α β : ℝ} (h0 : 0 < α) (h1 : α ≠ 1) (h2 : α < 2) (hβ : |β| < 1) :
    Tendsto (fun x => Spec.stableTailAt α β x / Spec.stableDensity α β x) atTop
      (𝓝 (sin (α * pyPI2) / sin (α * π / 2))) := by
  have hp := pi_pos
  have hs := stable_sin_pos h0 h2
  have hβ' := abs_lt.mp hβ
  have hG : 0 < Gamma α := Gamma_pos_of_pos h0
  have hK : 0 < α * Gamma α / π * ((1 + β) * sin (α * π / 2)) :=
    mul_pos (by positivity) (mul_pos (by linarith) hs)
  have := (tendsto_const_nhds (x := α * (1 + β) * (Gamma α / π * sin (α * pyPI2)))).div
    (stableDensity_tail h0 h1 h2 hβ) hK.ne'
  have e : α * (1 + β) * (Gamma α / π * sin (α * pyPI2)) / (α * Gamma α / π * ((1 + β) * sin (α * π / 2))) =
      sin (α * pyPI2) / sin (α * π / 2) := by
    have : (1 + β) ≠ 0 := by linarith
    field_simp
  rw [e] at this
  refine this.congr' ?_
  filter_upwards [eventually_gt_atTop 0] with x hx
  rw [Pi.div_apply, Spec.stableTailAt, sign_pos hx, abs_of_pos hx, rpow_neg hx.le, ← div_div]
  simp only [SignType.coe_one, one_mul]
  rw [div_eq_mul_inv (_ * (_ * _)) (x ^ (1 + α))]

/-- **C129** The tail approximation is the density for large values, up to a factor that differs from one only because
`PI2` is not exactly half of `π`. -/
theorem stable_tail_ratio {α β : ℝ} (h0 : 0 < α) (h1 : α ≠ 1) (h2 : α < 2) (hβ : |β| < 1) :
    ∃ c, |c - 1| ≤ 2 / 10 ^ 16 / sin (α * π / 2) ∧
      Tendsto (fun x => Spec.stableTailAt α β x / Spec.stableDensity α β x) atTop (𝓝 c) ∧
      Tendsto (fun x => Spec.stableTailAt α β x / Spec.stableDensity α β x) atBot (𝓝 c) := by
  have hs := stable_sin_pos h0 h2
  refine ⟨_, ?_, stable_tail_ratio_pos h0 h1 h2 hβ, ?_⟩
  · rw [div_sub_one hs.ne', abs_div, abs_of_pos hs]
    refine div_le_div_of_nonneg_right ?_ hs.le
    have h3 : |sin (α * pyPI2) - sin (α * π / 2)| ≤ |α * pyPI2 - α * π / 2| := by
      have := Real.abs_sin_sub_sin_le (α * pyPI2) (α * π / 2)
      exact this
    refine h3.trans ?_
    have := pyPI2_lt
    have := pi_lt_pyPI2
    rw [show α * pyPI2 - α * π / 2 = -(α * (π / 2 - pyPI2)) by ring, abs_neg, abs_of_nonneg (by nlinarith)]
    nlinarith
  · have h3 := (stable_tail_ratio_pos h0 h1 h2 (β := -β) (by rwa [abs_neg])).comp tendsto_neg_atBot_atTop
    refine h3.congr' ?_
    filter_upwards [eventually_lt_atBot 0] with x hx
    rw [Function.comp_apply, ← stableDensity_neg, neg_neg]
    congr 1
    rw [Spec.stableTailAt, Spec.stableTailAt, sign_pos (neg_pos.mpr hx), sign_neg hx, abs_neg]
    simp

example := stable_tail_ratio (α := 3 / 2) (β := 1 / 2) (by norm_num) (by norm_num) (by norm_num) (by norm_num [abs_lt])

/-- A case of `stable_pdf_array_tail`: the own value at one is zero, that at the point where the halves meet is not. -/
example (brentq : PyFun → ℝ → ℝ → Except PyErr ℝ) (quad : (ℝ → Fl) → ℝ → ℝ → Fl)
    (auxF2 : Fl → ℝ → Bool → Option (Except PyErr Fl)) (mode : ℝ → ℝ → Except PyErr Fl) :
    ∃ a, 0 < a ∧ stablePdf brentq quad auxF2 mode [.fin (-1), .fin 1] (1 / 2) 1 (.fin 1) (.fin 0) 0 false =
      some (.ok [.fin a, .fin (Spec.stableTailAt (1 / 2) 1 1)]) := by
  obtain ⟨a, h1, h2⟩ := auxF1_levy_zeta brentq quad false
  have ha := h2 rfl
  have hv : stablePdf brentq quad auxF2 mode [.fin (-1)] (1 / 2) 1 (.fin 1) (.fin 0) 0 false = some (.ok [.fin a]) := by
    have := stablePdf_default brentq quad auxF2 mode [-1] false
    rw [List.map_cons, List.map_nil] at this
    rw [this]
    simp only [mapRun, h1, stableFinish]
    simp [ha.ne', Fl.fin_div_fin' _ one_ne_zero]
  have hloc : Spec.stableLoc (1 / 2) 1 1 0 0 = 0 := by simp [Spec.stableLoc]
  refine ⟨a, ha, ?_⟩
  have := stable_pdf_array_tail (brentq := brentq) (quad := quad) (auxF2 := auxF2) (mode := mode) (α := 1 / 2) (β := 1) (γ := 1) (δ := 0) (by norm_num)
    (by norm_num) (by norm_num) (by norm_num) one_pos (pm := 0) (.inl rfl)
    (fun x => if x = 1 then .fin 0 else .fin a) (xs := [-1, 1]) (by
      intro x hx
      simp only [List.mem_cons, List.not_mem_nil, or_false] at hx
      rcases hx with rfl | rfl
      · rw [hv, if_neg (by norm_num)]
      · rw [stablePdf_levy brentq quad auxF2 mode (by norm_num), if_pos rfl])
    ⟨-1, by simp, by
      rw [if_neg (by norm_num)]
      simpa using ha.ne'⟩
    (by
      intro x hx h
      rw [hloc]
      simp only [List.mem_cons, List.not_mem_nil, or_false] at hx
      rcases hx with rfl | rfl <;> norm_num)
  rw [hloc] at this
  simp only [List.map_cons, List.map_nil, if_true, sub_zero, div_one] at this
  rw [this, if_neg (show ¬ (-1 : ℝ) = 1 by norm_num), if_neg (by simpa using ha.ne')]

end Copulae
