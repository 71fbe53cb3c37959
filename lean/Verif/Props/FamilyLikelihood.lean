import Verif.Lemmas.FrankMulti
import Verif.Props.GumbelMl
import Verif.Props.FrankMl

/-!
**C162** The greatest likelihood tells the family of the copula, also when the parameters are fitted.
-/

namespace Copulae

open MeasureTheory ProbabilityTheory Spec CopulaMeasure

variable {d : ℕ} {G : Gen} [MeasurableSpace G.S] {R : Measure G.S} {n : ℕ} {P : Measure (Fin d → ℝ)} [IsProbabilityMeasure P]
  {f₀ : (Fin d → ℝ) → ℝ}

/-- No copula of the family gives the data `r` as large a likelihood as the log-density `f₀`. -/
def Beaten (F : Family) (f₀ : (Fin d → ℝ) → ℝ) (r : Fin n → Fin d → ℝ) : Prop :=
  ∀ (θ : ℝ) (v : Fl), Spec.Admissible F d (.fin θ) → (do let w ← archPdf F θ d (fun i j => .fin (r i j)) true; sumLog w) = .ok v →
    ¬ .fin (∑ i, f₀ (r i)) ≤ v

omit [IsProbabilityMeasure P] in
theorem CubeLog.open_pos (h : CubeLog P f₀) {V : Set (Fin d → ℝ)} (hV : IsOpen V) (hne : V.Nonempty) (hsub : ∀ u ∈ V, u ∈ cube d) :
    P V ≠ 0 := by
  obtain ⟨g, hg, hgl⟩ := h.dens
  intro h0
  rw [hg.eq, withDensity_apply_eq_zero' hg.meas.ennreal_ofReal] at h0
  have e : {x | ENNReal.ofReal (g x) ≠ 0} ∩ V = V := Set.inter_eq_right.mpr fun u hu => by
    show ENNReal.ofReal (g u) ≠ 0
    rw [hgl u (hsub u hu)]
    exact (ENNReal.ofReal_pos.mpr (Real.exp_pos _)).ne'
  rw [e, Measure.restrict_apply hV.measurableSet,
    Set.inter_eq_left.mpr (show V ⊆ {u | ∀ j, 0 < u j ∧ u j < 1} from fun u hu => hsub u hu)] at h0
  exact (hV.measure_pos _ hne).ne' h0

theorem corner_pos {P : Measure (Fin 2 → ℝ)} [IsProbabilityMeasure P] {f₀ : (Fin 2 → ℝ) → ℝ} (h : CubeLog P f₀) {c : ℝ} (hc : 0 ≤ c) :
    0 < ∫ u, cornerFn c u ∂P := by
  have hi := ((cornerFn_logLip c).memLp h.margins (measurable_cornerFn c)).integrable one_le_two
  have hnn : 0 ≤ cornerFn c := fun u => le_max_left _ _
  rw [integral_pos_iff_support_of_nonneg hnn hi, pos_iff_ne_zero]
  intro h0
  obtain ⟨V, hV⟩ : ∃ V : Set (Fin 2 → ℝ), V = {u | ∀ j, u j ∈ Set.Ioo 0 (Real.exp (-c))} := ⟨_, rfl⟩
  have hVo : IsOpen V := by
    rw [hV, show {u : Fin 2 → ℝ | ∀ j, u j ∈ Set.Ioo 0 (Real.exp (-c))} = Set.univ.pi fun _ => Set.Ioo 0 (Real.exp (-c)) by
      ext u; simp [Set.mem_pi]]
    exact isOpen_set_pi Set.finite_univ fun _ _ => isOpen_Ioo
  have hVc : ∀ u ∈ V, ∀ j, 0 < u j ∧ u j < 1 := fun u hu j => by
    rw [hV] at hu
    exact ⟨(hu j).1, (hu j).2.trans_le (Real.exp_le_one_iff.mpr (by linarith))⟩
  refine h.open_pos hVo ⟨fun _ => Real.exp (-c) / 2, ?_⟩ hVc (measure_mono_null (fun u hu => ?_) h0)
  · rw [hV]
    exact fun j => ⟨by positivity, half_lt_self (Real.exp_pos _)⟩
  · have key : ∀ j, c < negLog u j := fun j => by
      have h1 := hVc u hu j
      rw [hV] at hu
      have := Real.log_lt_log h1.1 (hu j).2
      rw [Real.log_exp] at this
      rw [negLog]
      linarith
    rw [Function.mem_support, cornerFn]
    have : 0 < min (negLog u 0) (negLog u 1) - c := sub_pos.mpr (lt_min (key 0) (key 1))
    exact (lt_max_of_lt_right this).ne'

/-- Clayton copulas with a negative parameter. -/
theorem clayton_neg_beaten {P : Measure (Fin 2 → ℝ)} [IsProbabilityMeasure P] {f₀ : (Fin 2 → ℝ) → ℝ} (h : LogDensity P f₀) {δ : ℝ}
    (hδ : 0 < δ) : ∃ N : ℕ, ∀ n, N ≤ n → iid n P {y | ¬ (NoTies y ∧ ∀ θ, -1 ≤ θ → θ < 0 →
      ¬ .fin (∑ i, f₀ (unitRanks y i)) ≤ ∑ i, claytonNegRow θ (unitRanks y i))} ≤ ENNReal.ofReal δ := by
  have hm0 := h.mean_pos
  generalize hm : ∫ u, f₀ u ∂P = m at hm0
  obtain ⟨a, ha⟩ : ∃ a : ℝ, a = min (1 / 2) (m / (2 * (3 * 129))) := ⟨_, rfl⟩
  have ha0 : 0 < a := by rw [ha]; positivity
  have ha2 : a ≤ 1 / 2 := ha ▸ min_le_left _ _
  have ham : a * (3 * 129) ≤ m / 2 := by
    have := ha ▸ min_le_right (1 / 2) (m / (2 * (3 * 129)))
    linarith
  have hφ := corner_pos h.toCubeLog (c := Real.log 2 / a) (div_nonneg (Real.log_nonneg (by norm_num)) ha0.le)
  obtain ⟨L₀, hL₀⟩ := h.lip
  obtain ⟨N2, hN2⟩ := logit_mean_likely h.margins h.meas hL₀ (ε := m / 2) (δ := δ / 2) (by positivity) (by positivity)
  obtain ⟨N3, hN3⟩ := rank_mean_likely h.margins (measurable_cornerFn (Real.log 2 / a)) (cornerFn_logLip _) (δ := δ / 2) hφ (by positivity)
  refine ⟨N2 + N3 + 2, fun n hn => ?_⟩
  have hn0 : (0 : ℝ) < n := by exact_mod_cast (by omega : 0 < n)
  refine (measure_mono (fun y hy => ?_)).trans ((measure_union_le _ _).trans ((add_le_add (hN2 n (by omega)) (hN3 n (by omega))).trans
    (le_of_eq (by rw [← ENNReal.ofReal_add (by positivity) (by positivity), add_halves]))))
  by_contra hcon
  simp only [Set.mem_union, not_or] at hcon
  obtain ⟨c2, c3⟩ := hcon
  obtain ⟨t0, t2⟩ := not_not.mp c2
  have t3 := (not_not.mp c3).2
  have hr := unitRanks_mem t0
  rw [hm] at t2
  refine hy ⟨t0, fun θ h1 h0 => clayton_neg_excluded (W := 3 * 129 * n) h1 h0 ha0 ha2 hr ?_ ?_ ?_⟩
  · have hW := logEnv_ranks (by omega : 0 < n) t0
    rw [div_le_iff₀ hn0] at hW
    refine (Finset.sum_le_sum fun i _ => negLog_sum_le (unitRanks y i)).trans ?_
    rw [← Finset.mul_sum]
    push_cast at hW ⊢
    nlinarith
  · have := (abs_lt.mp t2).1
    have h3 : m / 2 < (∑ i, f₀ (unitRanks y i)) / n := by linarith
    rw [lt_div_iff₀ hn0] at h3
    nlinarith
  · by_contra hno
    push Not at hno
    have hz : ∑ i, cornerFn (Real.log 2 / a) (unitRanks y i) = 0 := Finset.sum_eq_zero fun i _ => by
      obtain ⟨j, hj⟩ := hno i
      refine max_eq_left (sub_nonpos.mpr (le_trans ?_ hj.le))
      fin_cases j
      · exact min_le_left _ _
      · exact min_le_right _ _
    rw [hz, zero_div, zero_sub, abs_neg, abs_of_pos hφ] at t3
    exact lt_irrefl _ t3

/-- The pseudo-observations of data from another law. -/
theorem beaten_likely (h2 : 2 ≤ d) (h : LogDensity P f₀) (F : Family)
    (hne : ∀ θ, Copulae.Admissible F θ d → ∀ P', IsLawOf P' (F.copula (d := d) θ) → P ≠ P') {δ : ℝ} (hδ : 0 < δ) :
    ∃ N : ℕ, ∀ n, N ≤ n → iid n P {y | ¬ (NoTies y ∧ Beaten F f₀ (unitRanks y))} ≤ ENNReal.ofReal δ := by
  cases F with
  | gumbel =>
    obtain ⟨N, hN⟩ := gumbel_away h2 h (fun θ hθ => hne θ ⟨h2, hθ.le⟩) hδ
    refine ⟨N + 2, fun n hn => (measure_mono fun y hy => ?_).trans (hN n (by omega))⟩
    rintro ⟨t0, t1⟩
    refine hy ⟨t0, fun θ v ha hv hle => ?_⟩
    have hθ : 1 ≤ θ := by
      have : ¬ Fl.fin θ < .fin 1 := ha
      simpa using this
    rw [archPdf_gumbel_sum hθ h2 (by omega) (unitRanks_mem t0)] at hv
    rw [← Except.ok.inj hv] at hle
    have : ∑ i, f₀ (unitRanks y i) ≤ ∑ i, gumbelLL θ (unitRanks y i) := by simpa using hle
    exact absurd this (not_le.mpr (t1 θ hθ))
  | frank =>
    obtain ⟨N, hN⟩ := (frankDD_worse h2 h fun θ hθ => hne θ ⟨h2, hθ.ne', by linarith, fun _ => hθ⟩).away h hδ
    refine ⟨N + 2, fun n hn => (measure_mono fun y hy => ?_).trans (hN n (by omega))⟩
    rintro ⟨t0, t1⟩
    refine hy ⟨t0, fun θ v _ hv hle => ?_⟩
    rcases le_or_gt θ 0 with h0 | h0
    · rw [archPdf_frankDD_nan h2 h0 (by omega)] at hv
      rw [← Except.ok.inj hv] at hle
      exact absurd hle Fl.not_le_nan
    · rw [archPdf_frankDD_sum h2 h0 (by omega) (unitRanks_mem t0)] at hv
      rw [← Except.ok.inj hv] at hle
      have : ∑ i, f₀ (unitRanks y i) ≤ ∑ i, frankDD θ (unitRanks y i) := by simpa using hle
      exact absurd this (not_le.mpr (t1 θ h0.le))
  | clayton =>
    have hw := clayton_worse h2 h fun θ hθ => hne θ ⟨h2, hθ.ne', by linarith, fun _ => hθ⟩
    have key : ∀ {n : ℕ}, 2 ≤ n → ∀ {y : Fin n → Fin d → ℝ}, NoTies y →
        (∀ θ, 0 ≤ θ → ∑ i, claytonLL θ (unitRanks y i) < ∑ i, f₀ (unitRanks y i)) → ∀ (θ : ℝ) (v : Fl), 0 ≤ θ →
        (do let w ← archPdf .clayton θ d (fun i j => .fin (unitRanks y i j)) true; sumLog w) = .ok v →
        ¬ .fin (∑ i, f₀ (unitRanks y i)) ≤ v := fun hn y t0 t1 θ v h0 hv hle => by
      rw [archPdf_clayton_sum h0 hn (unitRanks_mem t0)] at hv
      rw [← Except.ok.inj hv] at hle
      have : ∑ i, f₀ (unitRanks y i) ≤ ∑ i, claytonLL θ (unitRanks y i) := by simpa using hle
      exact absurd this (not_le.mpr (t1 θ h0))
    by_cases hd : d = 2
    · subst hd
      obtain ⟨N, hN⟩ := hw.away h (half_pos hδ)
      obtain ⟨N', hN'⟩ := clayton_neg_beaten h (half_pos hδ)
      refine ⟨N + N' + 2, fun n hn => (measure_mono fun y hy => ?_).trans ((measure_union_le _ _).trans
        ((add_le_add (hN n (by omega)) (hN' n (by omega))).trans
        (le_of_eq (by rw [← ENNReal.ofReal_add (by positivity) (by positivity), add_halves]))))⟩
      by_contra hcon
      simp only [Set.mem_union, not_or] at hcon
      obtain ⟨c1, c2⟩ := hcon
      obtain ⟨t0, t1⟩ := not_not.mp c1
      have t2 := (not_not.mp c2).2
      refine hy ⟨t0, fun θ v ha hv => ?_⟩
      rcases le_or_gt 0 θ with h0 | h0
      · exact key (by omega) t0 t1 θ v h0 hv
      · rw [archPdf_clayton_neg h0 (by omega) (unitRanks_mem t0)] at hv
        rw [← Except.ok.inj hv]
        refine t2 θ ?_ h0
        have := ha.1 rfl
        simpa using this
    · obtain ⟨N, hN⟩ := hw.away h hδ
      refine ⟨N + 2, fun n hn => (measure_mono fun y hy => ?_).trans (hN n (by omega))⟩
      rintro ⟨t0, t1⟩
      refine hy ⟨t0, fun θ v ha hv => key (by omega) t0 t1 θ v ?_ hv⟩
      have := ha.2 (by omega)
      simpa using this

namespace Spec

/-- The copulas of the data: positive dependence. -/
def PosParam (F : Family) (θ : ℝ) : Prop :=
  match F with
  | .clayton => 0 < θ
  | .frank => 0 < θ
  | .gumbel => 1 < θ

/-- The parameters from which `random` draws the copula itself. -/
def DrawParam (d : ℕ) (F : Family) (θ : ℝ) : Prop :=
  match F with
  | .clayton => 1 / 10 ^ 7 ≤ θ
  | .gumbel => 1 + (1 / 10 ^ 8 + 1 / 10 ^ 5) < θ
  | .frank => d = 2 ∧ 1 / 10 ^ 7 ≤ θ

/-- The summed log-densities of the three families are those of their methods `pdf`. -/
structure ArchLogPdf (env : FitEnv) : Prop where
  clayton : ClaytonLogPdf env
  frank : FrankLogPdf env
  gumbel : GumbelLogPdf env

end Spec

theorem ArchLogPdf.finite {env : FitEnv} (he : ArchLogPdf env) (F : Family) (st : ArchState) (θ : ℝ) (n d : ℕ) (u : Fin n → Fin d → ℚ)
    (ht : st.theta = .fin θ) : env.logPdfSum (.arch F st) n d u =
      (do let v ← archPdf F θ st.dim (fun i j => .fin ((u i j : ℚ) : ℝ)) true; sumLog v) := by
  cases F with
  | clayton => exact he.clayton.finite st θ n d u ht
  | frank => exact he.frank.finite st θ n d u ht
  | gumbel => exact he.gumbel.finite st θ n d u ht

theorem ArchLogPdf.other {env : FitEnv} (he : ArchLogPdf env) (F : Family) (st : ArchState) (n d : ℕ) (u : Fin n → Fin d → ℚ)
    (ht : ∀ θ, st.theta ≠ .fin θ) (hn : 0 < n) {v : Fl} (hv : env.logPdfSum (.arch F st) n d u = .ok v) : v = .nan := by
  cases F with
  | clayton => exact he.clayton.other st n d u ht hn v hv
  | frank => exact he.frank.other st n d u ht hn v hv
  | gumbel =>
    obtain ⟨e, h⟩ := he.gumbel.other st n d u ht
    rw [h] at hv
    cases hv

theorem archPdf_dim {F : Family} {θ : ℝ} {k : ℕ} (hk : d ≠ k) (r : Fin n → Fin d → Fl) (log : Bool) :
    ∃ e, archPdf F θ k r log = .error e := by
  cases F <;> exact ⟨_, if_pos hk⟩

theorem drawParam_pos {F : Family} {θ : ℝ} (h : DrawParam d F θ) : PosParam F θ := by
  cases F with
  | clayton => exact lt_of_lt_of_le (by norm_num) h
  | frank => exact lt_of_lt_of_le (by norm_num) h.2
  | gumbel =>
    have h' : 1 + (1 / 10 ^ 8 + 1 / 10 ^ 5) < θ := h
    show 1 < θ
    linarith [show (0 : ℝ) < 1 / 10 ^ 8 + 1 / 10 ^ 5 by norm_num]

theorem posParam_admissible {F : Family} {θ : ℝ} (h2 : 2 ≤ d) (h : PosParam F θ) : Copulae.Admissible F θ d := by
  cases F with
  | clayton =>
    have h0 : 0 < θ := h
    exact ⟨h2, h0.ne', by linarith, fun _ => h0⟩
  | frank =>
    have h0 : 0 < θ := h
    exact ⟨h2, h0.ne', by linarith, fun _ => h0⟩
  | gumbel => exact ⟨h2, le_of_lt h⟩

/-- The log-densities of the three families. -/
noncomputable def famLL (F : Family) (θ : ℝ) : (Fin d → ℝ) → ℝ :=
  match F with
  | .clayton => claytonLL θ
  | .frank => frankDD θ
  | .gumbel => gumbelLL θ

/-- The laws of the data have a log-density, and `pdf` computes it. -/
theorem logDensity_of_family {F : Family} {θ : ℝ} (h2 : 2 ≤ d) (h : PosParam F θ) (hP : IsLawOf P (F.copula θ)) :
    LogDensity P (famLL F θ) ∧ ∀ n, 2 ≤ n → ∀ r : Fin n → Fin d → ℝ, (∀ i, r i ∈ cube d) →
      (do let w ← archPdf F θ d (fun i j => .fin (r i j)) true; sumLog w) = .ok (.fin (∑ i, famLL F θ (r i))) := by
  have ha := posParam_admissible h2 h
  have hU := arch_uniform ha hP
  have hg1 : Copulae.Admissible .gumbel 1 d := ⟨h2, le_refl (1 : ℝ)⟩
  cases F with
  | clayton =>
    have h0 : 0 < θ := h
    exact ⟨⟨⟨hU, measurable_claytonLL θ, ⟨_, (claytonLL_logLip h0.le).logit (by positivity)⟩, clayton_densityOf h0 h2 hP⟩,
      arch_laws_differ ha hg1 hP (indep_gumbel indep_isLaw) (by simp)⟩, fun n hn r hr => archPdf_clayton_sum h0.le hn hr⟩
  | frank =>
    have h0 : 0 < θ := h
    have hK := frankK_nonneg h2
    exact ⟨⟨⟨hU, measurable_frankDD h2 θ, ⟨_, (frankDD_logLip h2 h0.le).logit (by positivity)⟩, frankDD_densityOf h2 h0 hP⟩,
      arch_laws_differ ha hg1 hP (indep_gumbel indep_isLaw) (by simp)⟩, fun n hn r hr => archPdf_frankDD_sum h2 h0 hn hr⟩
  | gumbel =>
    have h1 : 1 < θ := h
    exact ⟨⟨⟨hU, measurable_gumbelUp _ _ _, gumbelLL_lip (by omega) h1.le, gumbel_densityOf h1.le h2 hP⟩,
      arch_laws_differ ha hg1 hP (indep_gumbel indep_isLaw) (fun e => h1.ne' e.2)⟩, fun n hn r hr => archPdf_gumbel_sum h1.le h2 hn hr⟩

/-- On pseudo-observations: `log_lik` of the copula of the simulation, and of the copulas of the other families. -/
theorem logLik_beaten {env : FitEnv} (he : ArchLogPdf env) {F₀ : Family} {θ₀ : ℝ} {f₀ : (Fin d → ℝ) → ℝ} (hn : 2 ≤ n) (u : Fin n → Fin d → ℚ)
    {r : Fin n → Fin d → ℝ} (hr : ∀ i j, ((u i j : ℚ) : ℝ) = r i j)
    (h₀ : (do let w ← archPdf F₀ θ₀ d (fun i j => .fin (r i j)) true; sumLog w) = .ok (.fin (∑ i, f₀ (r i)))) (ties : String) :
    (∀ st : ArchState, st.dim = d → st.theta = .fin θ₀ → logLik env (.arch F₀ st) u false ties = .ok (.fin (∑ i, f₀ (r i)))) ∧
    ∀ F : Family, Beaten F f₀ r → ∀ (st : ArchState) (v : Fl), Spec.Admissible F st.dim st.theta →
      logLik env (.arch F st) u false ties = .ok v → ¬ .fin (∑ i, f₀ (r i)) ≤ v := by
  have hru : (fun i j => Fl.fin ((u i j : ℚ) : ℝ)) = fun i j => Fl.fin (r i j) := by funext i j; rw [hr]
  have hlik : ∀ (F : Family) (st : ArchState), logLik env (.arch F st) u false ties = env.logPdfSum (.arch F st) n d u := fun F st => by
    simp only [logLik, logLikCut, maybePobs, bind, Except.bind, Bool.false_eq_true, if_false]
  refine ⟨fun st hd ht => ?_, fun F hb st v ha hv hle => ?_⟩
  · rw [hlik, ArchLogPdf.finite he F₀ st θ₀ n d u ht, hru, hd]
    exact h₀
  · rw [hlik] at hv
    by_cases hf : ∃ θ, st.theta = .fin θ
    · obtain ⟨θ, hf⟩ := hf
      rw [ArchLogPdf.finite he F st θ n d u hf, hru] at hv
      have hd : d = st.dim := by
        by_contra hne
        obtain ⟨e, h⟩ := archPdf_dim (F := F) (θ := θ) hne (fun i j => Fl.fin (r i j)) true
        rw [h] at hv
        simp [bind, Except.bind] at hv
      rw [← hd] at hv ha
      rw [hf] at ha
      exact hb θ v ha hv hle
    · push Not at hf
      rw [ArchLogPdf.other he F st n d u hf (by omega) hv] at hle
      exact Fl.not_le_nan hle

/-- The event on which the likelihoods are compared. -/
theorem family_event (hR : IsIdeal G R) {F₀ : Family} {θ₀ : ℝ} (h2 : 2 ≤ d) (hp : PosParam F₀ θ₀) (hP : IsLawOf P (F₀.copula θ₀))
    {c c' : Sampler G d} (hdr : ∀ n, Draws R (c.random n none) matFl (iid n P)) (h : WithMargins c c') {δ : ℝ} (hδ : 0 < δ) :
    ∃ f₀ : (Fin d → ℝ) → ℝ, ∃ N : ℕ, ∀ n, N ≤ n → 2 ≤ n ∧
      (∀ r : Fin n → Fin d → ℝ, (∀ i, r i ∈ cube d) →
        (do let w ← archPdf F₀ θ₀ d (fun i j => .fin (r i j)) true; sumLog w) = .ok (.fin (∑ i, f₀ (r i)))) ∧
      Likely R (c'.random n none) δ fun m => ∃ x : Fin n → Fin d → ℝ, m = matFl x ∧
        ∃ r : Fin n → Fin d → ℝ, (∀ i j, 0 < r i j ∧ r i j < 1) ∧ (∀ F, F ≠ F₀ → Beaten F f₀ r) ∧
          ∀ (ties : String) (t : TieMethod), parseTies ties = .ok t →
            ∃ u, pobsMat x ties = .ok u ∧ ∀ i j, ((u i j : ℚ) : ℝ) = r i j := by
  have ha := posParam_admissible h2 hp
  obtain ⟨hf, hsum⟩ := logDensity_of_family h2 hp hP
  generalize famLL F₀ θ₀ = f₀ at hf hsum
  have hU := hf.margins
  have each : ∀ F : Family, ∃ N : ℕ, ∀ n, N ≤ n → iid n P {y | ¬ (NoTies y ∧ (F ≠ F₀ → Beaten F f₀ (unitRanks y)))} ≤
      ENNReal.ofReal (δ / 3) := fun F => by
    by_cases hF : F ≠ F₀
    · obtain ⟨N, hN⟩ := beaten_likely h2 hf F (fun θ hθ P' hP' => arch_laws_differ ha hθ hP hP' fun e => hF e.1.symm)
        (δ := δ / 3) (by positivity)
      refine ⟨N, fun n hn => le_trans (measure_mono fun y hy => ?_) (hN n hn)⟩
      exact fun hg => hy ⟨hg.1, fun _ => hg.2⟩
    · refine ⟨0, fun n _ => le_trans (measure_mono (t := {y | ¬ NoTies y}) fun y hy hg => hy ⟨hg, fun h1 => absurd h1 hF⟩) ?_⟩
      rw [ae_iff.mp (noTies_ae (n := n) (atomless_of_uniform hU))]
      exact bot_le
  obtain ⟨N1, hN1⟩ := each .clayton
  obtain ⟨N2, hN2⟩ := each .frank
  obtain ⟨N3, hN3⟩ := each .gumbel
  refine ⟨f₀, N1 + N2 + N3 + 2, fun n hn => ⟨by omega, fun r hr => hsum n (by omega) r hr, ?_⟩⟩
  refine pobs_ranks_likely hR hU hdr h (E := fun _ r => ∀ F, F ≠ F₀ → Beaten F f₀ r) ?_
  refine (measure_mono (fun y hy => ?_)).trans ((measure_union_le _ _).trans ((add_le_add (hN1 n (by omega)) ((measure_union_le _ _).trans
    (add_le_add (hN2 n (by omega)) (hN3 n (by omega))))).trans
    (le_of_eq (by rw [← ENNReal.ofReal_add (by positivity) (by positivity), ← ENNReal.ofReal_add (by positivity) (by positivity)]; congr 1; ring))))
  by_contra hcon
  simp only [Set.mem_union, not_or] at hcon
  obtain ⟨c1, c2, c3⟩ := hcon
  refine hy ⟨(not_not.mp c1).1, fun F => ?_⟩
  cases F with
  | clayton => exact (not_not.mp c1).2
  | frank => exact (not_not.mp c2).2
  | gumbel => exact (not_not.mp c3).2

namespace Spec

/-- The true log-likelihood of the data is a finite number that no object of another class reaches, and that no successful fit of another
class, times `scale`, reports. -/
def FamilyWins (env : FitEnv) (F₀ : Family) (st₀ : ArchState) {n d : ℕ} (x : Fin n → Fin d → ℝ) : Prop :=
  ∀ (ties : String) (t : TieMethod), parseTies ties = .ok t →
    ∃ L : ℝ, logLikPobs env (.arch F₀ st₀) x ties = .ok (.fin L) ∧ ∀ F : Family, F ≠ F₀ →
      (∀ (st : ArchState) (v : Fl), Spec.Admissible F st.dim st.theta → logLikPobs env (.arch F st) x ties = .ok v → ¬ .fin L ≤ v) ∧
      ∀ (opt : List Fl → OptTree) (o o' : FitObj) (st : ArchState) (x0 : Option ParamArg) (method : String) (k : ℝ) (sm : FitSummary),
        o.cop = .arch F st → Spec.Admissible F st.dim st.theta → (∀ p, (opt p).Honest []) → pyLower method = "ml".toList → 0 < k →
        o.fitPobs env opt x x0 method ties (.fin k) = (o', .ok ()) → o'.smry = some sm → sm.success = some true →
        ¬ .fin (L * k) ≤ sm.logLik

end Spec

/-- **C162** Data with the law of a Clayton, Frank or Gumbel copula with positive dependence, alone or with any continuous margins: with a
probability that tends to one, `log_lik` of the copula of the data is a finite number that no object of another of the three classes
reaches, whatever its parameter; and every successful `fit(method='ml')` of an object of another class, from every starting value and with
every optimiser that reports values it has seen, reports a log-likelihood that does not reach `scale` times that number. -/
theorem family_likelihood (hR : IsIdeal G R) {env : FitEnv} (he : ArchLogPdf env) {F₀ : Family} {θ₀ : ℝ} (h2 : 2 ≤ d) (hp : PosParam F₀ θ₀)
    (hP : IsLawOf P (F₀.copula θ₀)) {c c' : Sampler G d} (hdr : ∀ n, Draws R (c.random n none) matFl (iid n P)) (h : WithMargins c c')
    {st₀ : ArchState} (hd₀ : st₀.dim = d) (ht₀ : st₀.theta = .fin θ₀) {δ : ℝ} (hδ : 0 < δ) :
    ∃ N : ℕ, ∀ n, N ≤ n → Likely R (c'.random n none) δ fun m => ∃ x : Fin n → Fin d → ℝ, m = matFl x ∧ FamilyWins env F₀ st₀ x := by
  obtain ⟨f₀, N, hN⟩ := family_event hR h2 hp hP hdr h hδ
  refine ⟨N, fun n hn => ?_⟩
  obtain ⟨hn2, hs, hl⟩ := hN n hn
  refine hl.mono ?_
  rintro m ⟨x, rfl, r, hr, hb, hu⟩
  refine ⟨x, rfl, fun ties t ht => ?_⟩
  obtain ⟨u, hpu, hur⟩ := hu ties t ht
  obtain ⟨k1, k2⟩ := logLik_beaten he hn2 u hur (hs r hr) ties
  refine ⟨∑ i, f₀ (r i), by rw [logLikPobs_of_pobs _ hpu, k1 st₀ hd₀ ht₀], fun F hF => ⟨fun st v ha hv => ?_, ?_⟩⟩
  · rw [logLikPobs_of_pobs _ hpu] at hv
    exact k2 F (hb F hF) st v ha hv
  intro opt o o' st x0 method k sm ho hst hopt hml hk hfit hsm hsucc hle
  rw [FitObj.fitPobs, hpu] at hfit
  simp only at hfit
  obtain ⟨sm', q1, -, -, q2⟩ := fit_ml_summary_partial hopt hml hfit
  rw [hsm] at q1
  obtain rfl := Option.some.inj q1
  obtain ⟨-, L, q3, q4, -⟩ := q2 hsucc (fun hc => by rw [hc] at hle; exact absurd hle Fl.not_fin_le_ninf)
  obtain ⟨st', he', hd', ha'⟩ := fit_admissible env opt o u x0 method ties false (.fin k) ho hst
  rw [hfit] at he'
  rw [← hd'] at ha'
  have he'' : o'.cop = .arch F st' := he'
  rw [he''] at q3
  refine k2 F (hb F hF) st' L ha' q3 ?_
  rw [q4] at hle
  cases L with
  | nan => exact absurd hle (by rw [Fl.nan_mul]; exact Fl.not_le_nan)
  | ninf =>
    rw [Fl.ninf_mul_fin, Fl.infSign_neg (by linarith)] at hle
    exact absurd hle Fl.not_fin_le_ninf
  | fin l =>
    rw [Fl.fin_mul_fin] at hle
    have hle' : (∑ i, f₀ (r i)) * k ≤ l * k := by simpa using hle
    simpa using le_of_mul_le_mul_right hle' hk
  | pinf => trivial

/-- **C162**, data from `random`: for Clayton and Gumbel copulas in every dimension and for bivariate Frank copulas, with the parameters
from which `random` draws the copula itself. -/
theorem family_simulated (hR : IsIdeal G R) {env : FitEnv} (he : ArchLogPdf env) {F₀ : Family} {θ₀ : ℝ} (h2 : 2 ≤ d)
    (hp : DrawParam d F₀ θ₀) {c c' : Sampler G d} (hc : SamplesFrom F₀ θ₀ c) (h : WithMargins c c') {st₀ : ArchState} (hd₀ : st₀.dim = d)
    (ht₀ : st₀.theta = .fin θ₀) {δ : ℝ} (hδ : 0 < δ) :
    ∃ N : ℕ, ∀ n, N ≤ n → Likely R (c'.random n none) δ fun m => ∃ x : Fin n → Fin d → ℝ, m = matFl x ∧ FamilyWins env F₀ st₀ x := by
  have ha := posParam_admissible h2 (drawParam_pos hp)
  obtain ⟨P, hP⟩ := arch_law_exists ha
  have := hP.prob
  exact family_likelihood hR he h2 (drawParam_pos hp) hP (fun n => samplesFrom_draws hR ha (fun e => by
    subst e
    have : (1 : ℝ) / 10 ^ 7 ≤ θ₀ := hp
    have : (0 : ℝ) < 1 / 10 ^ 7 := by norm_num
    intro e
    linarith) hP hc n) h hd₀ ht₀ hδ

theorem flLe_trans {a b c : Fl} (h : a ≤ b) (h' : b ≤ c) : a ≤ c := by
  revert h h'
  show Fl.le a b → Fl.le b c → Fl.le a c
  cases a <;> cases b <;> cases c <;> simp only [Fl.le, false_imp_iff, imp_self, true_imp_iff, imp_true_iff]
  exact le_trans

/-- **C162** In words: of two fits by maximum likelihood with the same scale, one of the true class that does at least as well as the
truth, and one of another class, the former has the greater log-likelihood. -/
theorem family_choice {env : FitEnv} {F₀ F : Family} {st₀ : ArchState} {x : Fin n → Fin d → ℝ} (h : FamilyWins env F₀ st₀ x) (hF : F ≠ F₀)
    {ties : String} {t : TieMethod} (ht : parseTies ties = .ok t) {opt : List Fl → OptTree} (hopt : ∀ p, (opt p).Honest [])
    {o o' : FitObj} {st : ArchState} (ho : o.cop = .arch F st) (hst : Spec.Admissible F st.dim st.theta) {x0 : Option ParamArg} {method : String}
    (hml : pyLower method = "ml".toList) {k : ℝ} (hk : 0 < k) (hfit : o.fitPobs env opt x x0 method ties (.fin k) = (o', .ok ()))
    {sm sm₀ : FitSummary} (hsm : o'.smry = some sm) (hs : sm.success = some true)
    (htrue : ∀ L : ℝ, logLikPobs env (.arch F₀ st₀) x ties = .ok (.fin L) → .fin (L * k) ≤ sm₀.logLik) : ¬ sm₀.logLik ≤ sm.logLik := by
  obtain ⟨L, hL, hall⟩ := h ties t ht
  intro hle
  have h1 := htrue L hL
  refine (hall F hF).2 opt o o' st x0 method k sm ho hst hopt hml hk hfit hsm hs ?_
  revert h1 hle
  generalize sm₀.logLik = a, sm.logLik = b
  intro hab hla
  exact flLe_trans hla hab

/-! ### The hypotheses can be met -/

/-- Outside functions with the exact densities of all three families. -/
noncomputable def archMlEnv : FitEnv :=
  { exactFitEnv with
    logPdfSum := fun c _ _ u => match c with
      | .arch F st => match st.theta with
        | .fin θ => do
            let v ← archPdf F θ st.dim (fun i j => .fin ((u i j : ℚ) : ℝ)) true
            sumLog v
        | _ => match F with
          | .gumbel => .error .assertionError
          | _ => .ok .nan
      | _ => .ok (.fin 3) }

theorem archMlEnv_ok : ArchLogPdf archMlEnv where
  clayton := by
    refine ⟨fun st θ n d u h => by simp only [archMlEnv, h], fun st n d u h _ v hv => ?_⟩
    simp only [archMlEnv] at hv
    exact (Except.ok.inj hv).symm
  frank := by
    refine ⟨fun st θ n d u h => by simp only [archMlEnv, h], fun st n d u h _ v hv => ?_⟩
    simp only [archMlEnv] at hv
    exact (Except.ok.inj hv).symm
  gumbel := by
    refine ⟨fun st θ n d u h => by simp only [archMlEnv, h], fun st n d u h => ?_⟩
    simp only [archMlEnv]
    rcases ht : st.theta with _ | _ | θ | _
    · exact ⟨_, rfl⟩
    · exact ⟨_, rfl⟩
    · exact absurd ht (h θ)
    · exact ⟨_, rfl⟩

/-- Clayton data in four dimensions: no Gumbel or Frank copula has as large a likelihood. -/
example (seeded : ℕ → ℕ → Answers) :=
  family_simulated (idealGen_isIdeal seeded) archMlEnv_ok (F₀ := .clayton) (θ₀ := 2) (d := 4) (by norm_num)
    (show (1 : ℝ) / 10 ^ 7 ≤ 2 by norm_num) (c := Sampler.clayton 2) ⟨rfl, by norm_num⟩ (.inl rfl) (st₀ := ⟨4, .fin 2, .fin 0, .pinf⟩) rfl rfl
    (δ := 1 / 1000) (by norm_num)

/-- Gumbel data in two dimensions. -/
example (seeded : ℕ → ℕ → Answers) :=
  family_simulated (idealGen_isIdeal seeded) archMlEnv_ok (F₀ := .gumbel) (θ₀ := 3 / 2) (d := 2) (by norm_num)
    (show 1 + ((1 : ℝ) / 10 ^ 8 + 1 / 10 ^ 5) < 3 / 2 by norm_num) (c := Sampler.gumbel gumbelFrail (3 / 2)) ⟨rfl, by norm_num⟩ (.inl rfl)
    (st₀ := ⟨2, .fin (3 / 2), .fin 1, .pinf⟩) rfl rfl (δ := 1 / 1000) (by norm_num)

/-- Objects of another class have a log-likelihood: the Gumbel object with the parameter two on any pseudo-observations. -/
theorem family_example (hn : 2 ≤ n) (u : Fin n → Fin 2 → ℚ) (hu : ∀ i j, 0 < ((u i j : ℚ) : ℝ) ∧ ((u i j : ℚ) : ℝ) < 1) (ties : String) :
    ∃ v : ℝ, logLik archMlEnv (.arch .gumbel ⟨2, .fin 2, .fin 1, .pinf⟩) u false ties = .ok (.fin v) ∧
      Spec.Admissible .gumbel 2 (.fin 2) := by
  refine ⟨∑ i, gumbelLL 2 (fun j => ((u i j : ℚ) : ℝ)), ?_, ?_⟩
  · exact (logLik_beaten archMlEnv_ok (F₀ := .gumbel) (θ₀ := 2) (f₀ := gumbelLL 2) hn u (r := fun i j => ((u i j : ℚ) : ℝ)) (fun _ _ => rfl)
      (archPdf_gumbel_sum one_le_two (le_refl 2) hn hu) ties).1 _ rfl rfl
  · show ¬ Fl.fin 2 < .fin 1
    simp

end Copulae
