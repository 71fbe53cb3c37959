import Verif.Lemmas.Consistency
import Verif.Props.FitInv
import Verif.Props.Linalg

/-!
Fits by inversion of Kendall's tau to samples without ties: the sample taus are those of the pseudo-observations, and an
estimate computed from taus close to those of a copula is close to its parameter.
-/

namespace Copulae

open Spec

variable {n d : ℕ}

/-! ### Pseudo-observations -/

theorem fitPobs_eq (env : FitEnv) (opt : List Fl → OptTree) (o : FitObj) (data : Fin n → Fin d → ℚ) (x0 : Option ParamArg)
    (method ties : String) (scale : Fl) :
    o.fitPobs env opt data x0 method ties scale = o.fit env opt data x0 method ties true scale := by
  unfold FitObj.fitPobs FitObj.fit maybePobs
  simp only [if_true, Bool.false_eq_true, if_false]

theorem sampleTau_congr {x y x' y' : Fin n → ℝ} (hx : ∀ i k, x' i < x' k ↔ x i < x k) (hy : ∀ i k, y' i < y' k ↔ y i < y k) :
    sampleTau x' y' = sampleTau x y := by
  have hs : ∀ i k, SignType.sign ((x' i - x' k) * (y' i - y' k)) = SignType.sign ((x i - x k) * (y i - y k)) := fun i k => by
    rw [sign_mul, sign_mul, sign_diff (hx i k) (hx k i), sign_diff (hy i k) (hy k i)]
  have h1 : ∀ i k, 0 < (x' i - x' k) * (y' i - y' k) ↔ 0 < (x i - x k) * (y i - y k) := fun i k => by
    rw [← sign_eq_one_iff, ← sign_eq_one_iff, hs]
  have h2 : ∀ i k, (x' i - x' k) * (y' i - y' k) < 0 ↔ (x i - x k) * (y i - y k) < 0 := fun i k => by
    rw [← sign_eq_neg_one_iff, ← sign_eq_neg_one_iff, hs]
  unfold sampleTau
  simp only [h1, h2]

theorem rankdata_lt_iff_of_injective (m : TieMethod) {x : Fin n → ℝ} (hx : Function.Injective x) (i k : Fin n) :
    rankdata m x i < rankdata m x k ↔ x i < x k := by
  constructor
  · intro h
    rcases lt_trichotomy (x i) (x k) with h1 | h1 | h1
    · exact h1
    · rw [hx h1] at h; exact absurd h (lt_irrefl _)
    · exact absurd (rankdata_lt m x h1) h.asymm
  · exact rankdata_lt m x

/-- The pseudo-observations of a sample. -/
noncomputable def pobsOf (m : TieMethod) (x : Fin n → Fin d → ℝ) : Fin n → Fin d → ℚ :=
  fun i j => rankdata m (fun k => x k j) i / ((n : ℚ) + 1)

theorem pobsMat_of {ties : String} {m : TieMethod} (h : parseTies ties = .ok m) (x : Fin n → Fin d → ℝ) :
    pobsMat x ties = .ok (pobsOf m x) := by
  simp only [pobsMat, h, bind, Except.bind, pure, Except.pure]
  rfl

theorem pobsOf_mem (m : TieMethod) (x : Fin n → Fin d → ℝ) (i j) : 0 ≤ pobsOf m x i j ∧ pobsOf m x i j ≤ 1 := by
  have h1 := (rankdata_bounds m (fun k => x k j) i).1
  have h2 := rankdata_le_n m (fun k => x k j) i
  have hn : (0 : ℚ) < (n : ℚ) + 1 := by positivity
  unfold pobsOf
  exact ⟨div_nonneg (by linarith) hn.le, by rw [div_le_one hn]; linarith⟩

theorem pobsOf_lt (m : TieMethod) {x : Fin n → Fin d → ℝ} (hx : NoTies x) (j : Fin d) (i k : Fin n) :
    ((pobsOf m x i j : ℚ) : ℝ) < (pobsOf m x k j : ℚ) ↔ x i j < x k j := by
  have hn : (0 : ℚ) < (n : ℚ) + 1 := by positivity
  rw [Rat.cast_lt]
  unfold pobsOf
  rw [div_lt_div_iff_of_pos_right hn]
  exact rankdata_lt_iff_of_injective m (fun a b h => by_contra fun hne => hx j a b hne h) i k

/-- Ranking does not change Kendall's tau. -/
theorem kendall_pobsOf {f : List Fl → List Fl → Except PyErr Fl} (hf : IsKendall f) (hn : 2 ≤ n) (m : TieMethod)
    {x : Fin n → Fin d → ℝ} (hx : NoTies x) (a b : Fin d) :
    f (col (pobsOf m x) a) (col (pobsOf m x) b) = .ok (.fin (sampleTau (fun i => x i a) fun i => x i b)) := by
  have hinj : ∀ j, Function.Injective fun i => ((pobsOf m x i j : ℚ) : ℝ) := by
    intro j i k h
    by_contra hne
    rcases lt_or_gt_of_ne (hx j i k hne) with h1 | h1
    · exact absurd h ((pobsOf_lt m hx j i k).mpr h1).ne
    · exact absurd h ((pobsOf_lt m hx j k i).mpr h1).ne'
  unfold col
  rw [hf n _ _ hn (hinj a) (hinj b), sampleTau_congr (pobsOf_lt m hx a) (pobsOf_lt m hx b)]

/-! ### Archimedean copulas -/

/-- `itau` of the family at one number. -/
def InvTau (env : FitEnv) (F : Family) (t r : ℝ) : Prop :=
  match F with
  | .clayton => claytonItau (.fin t) = .fin r
  | .gumbel => 0 ≤ t ∧ t < 1 ∧ r = 1 / (1 - t)
  | .frank => frankItau env.brentq env.d1 t = .ok r

/-- All elements are numbers close to `θ`. -/
def AllNear (θ ε : ℝ) (l : List Fl) : Prop := ∀ v ∈ l, ∃ r : ℝ, v = .fin r ∧ |r - θ| < ε

theorem allNear_map {θ ε : ℝ} {l : List Fl} {g : Fl → Fl} (h : ∀ v ∈ l, ∃ r : ℝ, g v = .fin r ∧ |r - θ| < ε) :
    AllNear θ ε (l.map g) := by
  intro v hv
  obtain ⟨w, hw, rfl⟩ := List.mem_map.mp hv
  exact h w hw

theorem squeeze_toVec (l : List Fl) : (squeeze l).toVec = l := by
  match l with
  | [] => rfl
  | [_] => rfl
  | _ :: _ :: _ => rfl

theorem mapM_frank_near {env : FitEnv} {θ ε : ℝ} (l : List Fl)
    (h : ∀ v ∈ l, ∃ t r : ℝ, v = .fin t ∧ InvTau env .frank t r ∧ |r - θ| < ε) :
    ∃ l', l.mapM (frankItauFl env) = .ok l' ∧ AllNear θ ε l' ∧ l'.length = l.length := by
  induction l with
  | nil => exact ⟨[], rfl, fun v hv => by simp at hv, rfl⟩
  | cons a l ih =>
    obtain ⟨l', h1, h2, h3⟩ := ih fun v hv => h v (List.mem_cons_of_mem _ hv)
    obtain ⟨t, r, rfl, hr, hn⟩ := h a List.mem_cons_self
    have hr' : frankItau env.brentq env.d1 t = .ok r := hr
    refine ⟨.fin r :: l', ?_, ?_, by simp [h3]⟩
    · rw [List.mapM_cons, h1]
      simp only [frankItauFl, hr', bind, Except.bind, pure, Except.pure]
    · intro v hv
      rcases List.mem_cons.mp hv with rfl | hv
      · exact ⟨r, rfl, hn⟩
      · exact h2 v hv

open Classical in
theorem copItau_near {env : FitEnv} {F : Family} {st : ArchState} {θ ε : ℝ} {l : List Fl} (hl : l ≠ [])
    (h : ∀ v ∈ l, ∃ t r : ℝ, v = .fin t ∧ InvTau env F t r ∧ |r - θ| < ε) :
    ∃ a, copItau env (.arch F st) l = .ok a ∧ a.toVec ≠ [] ∧ AllNear θ ε a.toVec := by
  cases F with
  | clayton =>
    refine ⟨_, rfl, ?_, ?_⟩
    · rw [squeeze_toVec]; simpa using hl
    · rw [squeeze_toVec]
      refine allNear_map fun v hv => ?_
      obtain ⟨t, r, rfl, hr, hn⟩ := h v hv
      exact ⟨r, hr, hn⟩
  | frank =>
    obtain ⟨l', h1, h2, h3⟩ := mapM_frank_near l h
    refine ⟨squeeze l', ?_, ?_, ?_⟩
    · simp only [copItau, h1, bind, Except.bind, pure, Except.pure]
    · rw [squeeze_toVec]
      rintro rfl
      exact hl (List.length_eq_zero_iff.mp h3.symm)
    · rw [squeeze_toVec]; exact h2
  | gumbel =>
    have hone : ∀ t r : ℝ, InvTau env .gumbel t r →
        (.fin 1 / (.fin 1 - (if (Fl.fin t) < Fl.fin 0 then Fl.fin 0 else .fin t)) : Fl) = .fin r := by
      rintro t r ⟨h0, h1, rfl⟩
      rw [if_neg (by rw [Fl.fin_lt_fin]; linarith), Fl.fin_sub_fin, Fl.fin_div_fin' _ (by linarith)]
    match l, hl with
    | [v], _ =>
      obtain ⟨t, r, rfl, hr, hn⟩ := h v List.mem_cons_self
      have e := hone t r hr
      obtain ⟨h0, h1, -⟩ := hr
      rw [if_neg (by rw [Fl.fin_lt_fin]; linarith)] at e
      refine ⟨.scalar (.fin r), ?_, by simp [ParamArg.toVec], ?_⟩
      · simp only [copItau, gumbelItau, NdArg.toList, bind, Except.bind, pure, Except.pure]
        rw [if_neg (by rw [Fl.fin_lt_fin]; linarith), if_neg (by rw [Fl.fin.injEq]; linarith), e]
      · intro w hw
        simp only [ParamArg.toVec, List.mem_singleton] at hw
        exact ⟨r, hw, hn⟩
    | v :: w :: l, _ =>
      refine ⟨squeeze ((v :: w :: l).map fun t => .fin 1 / (.fin 1 - (if t < Fl.fin 0 then .fin 0 else t))), ?_, ?_, ?_⟩
      · simp only [copItau, gumbelItau, NdArg.toList, bind, Except.bind, pure, Except.pure]
      · rw [squeeze_toVec]; simp
      · rw [squeeze_toVec]
        refine allNear_map fun v hv => ?_
        obtain ⟨t, r, rfl, hr, hn⟩ := h v hv
        exact ⟨r, hone t r hr, hn⟩

theorem sum_allNear {θ ε : ℝ} {l : List Fl} (h : AllNear θ ε l) :
    ∃ s : ℝ, l.sum = .fin s ∧ (l ≠ [] → |s - l.length * θ| < l.length * ε) := by
  induction l with
  | nil => exact ⟨0, rfl, fun h => absurd rfl h⟩
  | cons a l ih =>
    obtain ⟨s, h1, h2⟩ := ih fun v hv => h v (List.mem_cons_of_mem _ hv)
    obtain ⟨r, rfl, hr⟩ := h a List.mem_cons_self
    refine ⟨r + s, by rw [List.sum_cons, h1, Fl.fin_add_fin], fun _ => ?_⟩
    rw [List.length_cons]
    push_cast
    have e : r + s - (l.length + 1) * θ = (r - θ) + (s - l.length * θ) := by ring
    rw [e]
    by_cases hl : l = []
    · subst hl
      have hs : s = 0 := by
        have : (0 : Fl) = .fin s := h1
        exact (Fl.fin.inj this).symm
      rw [hs]
      simpa using hr
    · have := abs_add_le (r - θ) (s - l.length * θ)
      have := h2 hl
      nlinarith

theorem npMean_allNear {θ ε : ℝ} {l : List Fl} (hl : l ≠ []) (h : AllNear θ ε l) :
    ∃ r : ℝ, npMean l = .fin r ∧ |r - θ| < ε := by
  obtain ⟨s, h1, h2⟩ := sum_allNear h
  have hpos : (0 : ℝ) < l.length := by exact_mod_cast List.length_pos_iff.mpr hl
  refine ⟨s / l.length, ?_, ?_⟩
  · unfold npMean
    rw [h1, Fl.fin_div_fin' _ hpos.ne']
  · have e : s / l.length - θ = (s - l.length * θ) / l.length := by field_simp
    rw [e, abs_div, abs_of_pos hpos, div_lt_iff₀ hpos]
    linarith [h2 hl]

variable {env : FitEnv} {opt : List Fl → OptTree} {o : FitObj} {x : Fin n → Fin d → ℝ} {x0 : Option ParamArg}
  {method ties : String} {scale : Fl}

/-- The coefficients computed by a fit, as a list. -/
theorem lowerCorr_mem {c : FitCop} {u : Fin n → Fin d → ℚ} (hd : c.dim = d) {T : Fin d → Fin d → ℝ}
    (hk : ∀ a b : Fin d, a < b → env.fns.kendall (col u a) (col u b) = .ok (.fin (T a b))) :
    ∃ l, lowerCorr env c u "kendall" = .ok l ∧ l.length = d * (d - 1) / 2 ∧ ∀ v ∈ l, ∃ a b : Fin d, a < b ∧ v = .fin (T a b) := by
  obtain ⟨l, hl⟩ := lowerCorr_ok (u := u) hd (corrFunc_kendall env.fns) fun i j hij => ⟨_, hk i j hij⟩
  obtain ⟨f, hf, hlen, hent⟩ := lowerCorr_spec hd hl
  rw [corrFunc_kendall] at hf
  obtain rfl := Except.ok.inj hf
  refine ⟨l, hl, hlen, fun v hv => ?_⟩
  obtain ⟨k, hk', rfl⟩ := List.mem_iff_getElem.mp hv
  obtain ⟨i, j, hij, hj, rfl⟩ := rhoPos_surj (d := d) (hlen ▸ hk')
  obtain ⟨w, hw, hp⟩ := hent ⟨i, by omega⟩ ⟨j, hj⟩ hij
  rw [hk _ _ hij] at hw
  refine ⟨⟨i, by omega⟩, ⟨j, hj⟩, hij, ?_⟩
  rw [Except.ok.inj hw]
  rw [List.getElem?_eq_getElem hk'] at hp
  exact Option.some.inj hp

theorem fitPobs_arch_near (hx : NoTies x) (hk : IsKendall env.fns.kendall)
    (hll : ∀ c (w : Fin n → Fin d → ℚ), ∃ v, env.logPdfSum c n d w = .ok v) (hm : pyLower method = "itau".toList)
    {tm : TieMethod} (ht : parseTies ties = .ok tm) {F : Family} {st : ArchState} (hc : o.cop = .arch F st) (hdim : st.dim = d)
    (h2 : 2 ≤ d) (hn : d ≤ n) {θ ε : ℝ}
    (hinv : ∀ a b, a < b → ∃ r, InvTau env F (sampleTau (fun i => x i a) fun i => x i b) r ∧ |r - θ| < ε)
    (hset : ∀ r, |r - θ| < ε → (F.setParams st (.fin r)).2 = none) :
    (o.fitPobs env opt x x0 method ties scale).2 = .ok () ∧
    ∃ r : ℝ, (o.fitPobs env opt x x0 method ties scale).1.cop = .arch F { st with theta := .fin r } ∧ |r - θ| < ε := by
  set u := pobsOf tm x with hu
  have hd : (FitCop.arch F st).dim = d := hdim
  obtain ⟨l, hl, hlen, hmem⟩ := lowerCorr_mem (env := env) (c := .arch F st) (u := u) hd fun a b _ =>
    kendall_pobsOf hk (h2.trans hn) tm hx a b
  have hne : l ≠ [] := by
    rintro rfl
    obtain ⟨k, rfl⟩ : ∃ k, d = k + 2 := ⟨d - 2, by omega⟩
    have h3 : k + 2 - 1 = k + 1 := rfl
    rw [List.length_nil, h3] at hlen
    have : 1 ≤ (k + 2) * (k + 1) / 2 := by
      rw [Nat.le_div_iff_mul_le (by norm_num)]
      nlinarith
    omega
  obtain ⟨a, h3, h4, h5⟩ := copItau_near (env := env) (F := F) (st := st) hne (θ := θ) (ε := ε) fun v hv => by
    obtain ⟨a, b, hab, rfl⟩ := hmem v hv
    obtain ⟨r, hr, hr'⟩ := hinv a b hab
    exact ⟨_, r, rfl, hr, hr'⟩
  obtain ⟨r, h6, h7⟩ := npMean_allNear h4 h5
  have hset' : (FitCop.arch F st).setParams (.scalar (.fin r)) = (.arch F { st with theta := .fin r }, none) := by
    simp only [FitCop.setParams, FitCop.toFloat, (setParams_effect F st _).2 (hset r h7), hset r h7]
  obtain ⟨v, hv⟩ : ∃ v, logLik env (.arch F { st with theta := .fin r }) u true "average" = .ok v := by
    obtain ⟨w, hw⟩ : ∃ w, maybePobs u true "average" = .ok w := by
      have h7 : parseTies "average" = .ok .average := by decide
      simp only [maybePobs, if_true, pobsMat, h7, bind, Except.bind, pure, Except.pure]
      exact ⟨_, rfl⟩
    obtain ⟨v, hv⟩ := hll (.arch F { st with theta := .fin r }) w
    exact ⟨v, by simp only [logLik, logLikCut, bind, Except.bind, Bool.false_eq_true, if_false, hw, hv]⟩
  have hfit : fitCopula env opt u o.cop x0 method scale
      = (.arch F { st with theta := .fin r }, .ok ⟨[.fin r], v, n, none⟩) := by
    unfold fitCopula
    rw [hc, if_neg (by rw [hd]; omega), if_neg (by rw [hm]; decide), if_pos hm]
    have hcor : fitCor env (.arch F st) u .itau = .ok a := by
      simp only [fitCor, rawTheta, hl, bind, Except.bind, h3, FitCop.isEll, Bool.false_eq_true, if_false,
        pure, Except.pure]
    simp only [estimateCorr, hcor, storeEstimate, h6, hset', hv]
  have : o.fitPobs env opt x x0 method ties scale
      = (⟨.arch F { st with theta := .fin r }, some ⟨[.fin r], v, n, none⟩⟩, .ok ()) := by
    unfold FitObj.fitPobs FitObj.fit
    simp only [pobsMat_of ht, maybePobs, Bool.false_eq_true, if_false]
    rw [if_neg (by rw [hc, hd]; simp), if_neg (by
      push Not
      exact fun i j => pobsOf_mem tm x i j), hfit]
  rw [this]
  exact ⟨rfl, r, rfl, h7⟩

/-! ### The inverse of tau is continuous -/

/-- Kendall's tau of the bivariate copula of the family. -/
noncomputable def tauReal (F : Family) (θ : ℝ) : ℝ :=
  match F with
  | .clayton => θ / (θ + 2)
  | .gumbel => 1 - 1 / θ
  | .frank => frankTauR θ

/-- The parameters that inversion can recover. -/
def Spec.Recoverable (env : FitEnv) (F : Family) (θ : ℝ) : Prop :=
  match F with
  | .clayton => -1 < θ
  | .gumbel => 1 < θ
  | .frank => IsBrentq env.brentq ∧ IsDebye1 env.d1 ∧ 1 / 10 ^ 7 ≤ |θ| ∧ |θ| ≤ 10 ^ 19

theorem abs_frankTauR {θ : ℝ} (h : θ ≠ 0) : |frankTauR θ| = frankTauR |θ| := by
  rcases lt_or_gt_of_ne h with h1 | h1
  · have h2 : 0 < -θ := by linarith
    rw [abs_of_neg h1, frankTauR_neg h, abs_of_nonpos]
    have := frankTauR_nonneg h2
    rw [frankTauR_neg h] at this
    linarith
  · rw [abs_of_pos h1, abs_of_nonneg (frankTauR_nonneg h1)]

theorem frankTauR_range {θ : ℝ} (h1 : 1 / 10 ^ 7 ≤ θ) (h2 : θ ≤ 10 ^ 19) :
    1 / 10 ^ 16 < frankTauR θ ∧ frankTauR θ < 1 - 4 / 10 ^ 20 := by
  have h0 : 0 < θ := lt_of_lt_of_le (by norm_num) h1
  constructor
  · rcases le_total θ (1 / 2) with h | h
    · have := frankTauR_ge h0 h
      have : (1 : ℝ) / 10 ^ 16 < 1 / 10 ^ 7 / 18 := by norm_num
      linarith
    · have h3 : frankTauR (1 / 2) ≤ frankTauR θ := by
        rcases h.eq_or_lt with h | h
        · rw [h]
        · exact (frankTauR_lt (by norm_num) h0.ne' h).le
      have := frankTauR_ge (t := 1 / 2) (by norm_num) le_rfl
      norm_num at this ⊢
      linarith
  · rcases le_total 1 θ with h | h
    · have := frankTauR_gap h
      have h3 : (8 : ℝ) / 9 / 10 ^ 19 ≤ 8 / 9 / θ := div_le_div_of_nonneg_left (by norm_num) h0 h2
      have : (4 : ℝ) / 10 ^ 20 < 8 / 9 / 10 ^ 19 := by norm_num
      linarith
    · have := frankTauR_le h0 h
      have : (4 : ℝ) / 10 ^ 20 < 1 / 2 := by norm_num
      linarith

theorem invTau_near {F : Family} {θ : ℝ} (h : Recoverable env F θ) {ε : ℝ} (hε : 0 < ε) :
    ∃ η, 0 < η ∧ ∀ t, |t - tauReal F θ| < η → ∃ r, InvTau env F t r ∧ |r - θ| < ε := by
  cases F with
  | clayton =>
    have h' : -1 < θ := h
    have h2 : 0 < θ + 2 := by linarith
    have e0 : 1 - θ / (θ + 2) = 2 / (θ + 2) := by field_simp; ring
    have h3 : 0 < 1 - θ / (θ + 2) := by rw [e0]; positivity
    have hc : ContinuousAt (fun t : ℝ => 2 * t / (1 - t)) (θ / (θ + 2)) :=
      ContinuousAt.div (by fun_prop) (by fun_prop) h3.ne'
    obtain ⟨η, hη, hn⟩ := Metric.continuousAt_iff.mp hc ε hε
    refine ⟨min η (1 - θ / (θ + 2)), lt_min hη h3, fun t ht => ?_⟩
    have ht1 := lt_of_lt_of_le ht (min_le_left _ _)
    have ht2 := (abs_lt.mp (lt_of_lt_of_le ht (min_le_right _ _))).2
    simp only [tauReal] at ht1 ht2
    have ht3 : t < 1 := by linarith
    refine ⟨2 * t / (1 - t), ?_, ?_⟩
    · show claytonItau (.fin t) = _
      rw [claytonItau, Fl.fin_mul_fin, Fl.fin_sub_fin, Fl.fin_div_fin' _ (by linarith)]
    · have := hn (x := t) (by rw [Real.dist_eq]; exact ht1)
      rw [Real.dist_eq] at this
      have e : 2 * (θ / (θ + 2)) / (1 - θ / (θ + 2)) = θ := by rw [e0]; field_simp
      rw [e] at this
      exact this
  | gumbel =>
    have h' : 1 < θ := h
    have h2 : 0 < θ := by linarith
    have h3 : 0 < 1 - 1 / θ := by rw [sub_pos, div_lt_one h2]; exact h'
    have h4 : 0 < 1 / θ := by positivity
    have hc : ContinuousAt (fun t : ℝ => 1 / (1 - t)) (1 - 1 / θ) :=
      ContinuousAt.div (by fun_prop) (by fun_prop) (by simp [h2.ne'])
    obtain ⟨η, hη, hn⟩ := Metric.continuousAt_iff.mp hc ε hε
    refine ⟨min η (min (1 - 1 / θ) (1 / θ)), lt_min hη (lt_min h3 h4), fun t ht => ?_⟩
    have ht1 := lt_of_lt_of_le ht (min_le_left _ _)
    have ht2 := (abs_lt.mp (lt_of_lt_of_le ht ((min_le_right _ _).trans (min_le_left _ _)))).1
    have ht3 := (abs_lt.mp (lt_of_lt_of_le ht ((min_le_right _ _).trans (min_le_right _ _)))).2
    simp only [tauReal] at ht1 ht2 ht3
    refine ⟨1 / (1 - t), ⟨by linarith, by linarith, rfl⟩, ?_⟩
    have := hn (x := t) (by rw [Real.dist_eq]; exact ht1)
    rw [Real.dist_eq] at this
    have e : 1 / (1 - (1 - 1 / θ)) = θ := by rw [sub_sub_cancel, one_div_one_div]
    rw [e] at this
    exact this
  | frank =>
    obtain ⟨hB, hD, h1, h2⟩ := h
    have h0 : θ ≠ 0 := by
      rintro rfl
      rw [abs_zero] at h1
      norm_num at h1
    have hp := abs_pos.mpr h0
    set ε' := min ε (|θ| / 2) with hε'
    have hε0 : 0 < ε' := lt_min hε (by linarith)
    have hle : ε' ≤ |θ| / 2 := min_le_right _ _
    have hup : θ + ε' ≠ 0 := by
      intro he
      have : |θ| = ε' := by rw [show θ = -ε' by linarith, abs_neg, abs_of_pos hε0]
      linarith
    have hdn : θ - ε' ≠ 0 := by
      intro he
      have : |θ| = ε' := by rw [show θ = ε' by linarith, abs_of_pos hε0]
      linarith
    have hlt1 : frankTauR θ < frankTauR (θ + ε') := frankTauR_lt h0 hup (by linarith)
    have hlt2 : frankTauR (θ - ε') < frankTauR θ := frankTauR_lt hdn h0 (by linarith)
    obtain ⟨hr1, hr2⟩ := frankTauR_range h1 h2
    rw [← abs_frankTauR h0] at hr1 hr2
    refine ⟨min (min (frankTauR (θ + ε') - frankTauR θ) (frankTauR θ - frankTauR (θ - ε')))
      (min (|frankTauR θ| - 1 / 10 ^ 16) (1 - 4 / 10 ^ 20 - |frankTauR θ|)),
      lt_min (lt_min (by linarith) (by linarith)) (lt_min (by linarith) (by linarith)), fun t ht => ?_⟩
    simp only [tauReal, lt_min_iff] at ht
    obtain ⟨⟨ha, hb⟩, hc, hd⟩ := ht
    have htri1 := abs_sub_abs_le_abs_sub (frankTauR θ) t
    have htri2 := abs_sub_abs_le_abs_sub t (frankTauR θ)
    rw [abs_sub_comm] at htri1
    obtain ⟨r, hr, hrt, htau⟩ := frank_itau hB hD (t := t) (by linarith) (by linarith)
    have hr0 : r ≠ 0 := by
      rintro rfl
      simp at hrt
    have hval : frankTauR r = t := by
      rw [frankTauOf_fin hD hr0] at htau
      exact Fl.fin.inj (Except.ok.inj htau)
    refine ⟨r, hr, lt_of_lt_of_le ?_ (min_le_left ε (|θ| / 2))⟩
    rw [← hε', abs_lt]
    have ha' := (abs_lt.mp ha).2
    have hb' := (abs_lt.mp hb).1
    constructor
    · by_contra hcon
      have : r ≤ θ - ε' := by linarith
      have : frankTauR r ≤ frankTauR (θ - ε') := by
        rcases this.eq_or_lt with h | h
        · rw [h]
        · exact (frankTauR_lt hr0 hdn h).le
      linarith
    · by_contra hcon
      have : θ + ε' ≤ r := by linarith
      have : frankTauR (θ + ε') ≤ frankTauR r := by
        rcases this.eq_or_lt with h | h
        · rw [h]
        · exact (frankTauR_lt hup hr0 h).le
      linarith

/-! ### Elliptical copulas -/

theorem ellTau_eq {ρ t : ℝ} (h : ellTau (.fin ρ) = .fin t) : ρ = Real.sin (Real.pi * t / 2) := by
  have hpi := Real.pi_pos
  by_cases hρ : -1 ≤ ρ ∧ ρ ≤ 1
  · rw [ellTau, arcsin_fin hρ.1 hρ.2, Fl.fin_mul_fin, Fl.fin_div_fin' _ hpi.ne'] at h
    rw [← Fl.fin.inj h, show Real.pi * (2 * Real.arcsin ρ / Real.pi) / 2 = Real.arcsin ρ by field_simp,
      Real.sin_arcsin hρ.1 hρ.2]
  · exfalso
    have : Fl.arcsin (.fin ρ) = .nan := by
      rw [not_and_or, not_le, not_le] at hρ
      simp only [Fl.arcsin]
      rcases hρ with h | h
      · rw [if_neg (by push Not; intro; linarith)]
      · rw [if_neg (by push Not; intro; linarith)]
    rw [ellTau, this] at h
    cases h

/-- Matrices close to a positive semi-definite one pass the test of the library. -/
theorem isPsd_near {S S' : Matrix (Fin d) (Fin d) ℝ} (hS : S.PosSemidef) (hS' : ∀ i j, S' i j = S' j i) {ε : ℝ} (hε : 0 ≤ ε)
    (hd : d * ε ≤ 1e-12) (h : ∀ i j, |S' i j - S i j| ≤ ε) : isPsd fun i j => Fl.fin (S' i j) := by
  refine ⟨fun i j => ?_, S', ⟨fun _ _ _ => rfl, hS'⟩, fun v => ?_⟩
  · simp only [closeTo]
    rw [hS' i j, sub_self, abs_zero]
    positivity
  have hq : 0 ≤ ∑ i, ∑ j, S i j * v i * v j := by
    have := hS.dotProduct_mulVec_nonneg v
    simp only [dotProduct, Matrix.mulVec, star_trivial, Finset.mul_sum] at this
    refine this.trans (le_of_eq ?_)
    exact Finset.sum_congr rfl fun i _ => Finset.sum_congr rfl fun j _ => by ring
  have hdiff : ∑ i, ∑ j, S i j * v i * v j - ∑ i, ∑ j, S' i j * v i * v j ≤ ε * (d * ∑ i, v i ^ 2) := by
    have h1 : ∀ i j, S i j * v i * v j - S' i j * v i * v j ≤ ε * ((v i ^ 2 + v j ^ 2) / 2) := by
      intro i j
      have hb := abs_le.mp (h i j)
      have hv : |v i * v j| ≤ (v i ^ 2 + v j ^ 2) / 2 := by
        rw [abs_le]
        constructor <;> nlinarith [sq_nonneg (v i - v j), sq_nonneg (v i + v j)]
      have e : S i j * v i * v j - S' i j * v i * v j = -((S' i j - S i j) * (v i * v j)) := by ring
      rw [e]
      refine (neg_le_abs _).trans ?_
      rw [abs_mul]
      exact mul_le_mul (h i j) hv (abs_nonneg _) hε
    rw [← Finset.sum_sub_distrib]
    simp_rw [← Finset.sum_sub_distrib]
    refine (Finset.sum_le_sum fun i _ => Finset.sum_le_sum fun j _ => h1 i j).trans (le_of_eq ?_)
    simp_rw [← Finset.mul_sum]
    congr 1
    simp_rw [add_div, Finset.sum_add_distrib, ← Finset.sum_div, Finset.sum_const, Finset.card_univ, Fintype.card_fin,
      nsmul_eq_mul]
    rw [← Finset.mul_sum]
    ring
  have hs : 0 ≤ ∑ i, v i ^ 2 := Finset.sum_nonneg fun i _ => sq_nonneg _
  have : ε * (d * ∑ i, v i ^ 2) ≤ 1e-12 * ∑ i, v i ^ 2 := by
    rw [← mul_assoc, mul_comm ε]
    exact mul_le_mul_of_nonneg_right hd hs
  have hgoal : -1e-12 * ∑ i, v i ^ 2 ≤ ∑ i, ∑ j, S' i j * v i * v j := by linarith
  exact hgoal

theorem fitPobs_ell_near (hx : NoTies x) (hk : IsKendall env.fns.kendall)
    (hll : ∀ c (w : Fin n → Fin d → ℚ), ∃ v, env.logPdfSum c n d w = .ok v) (hm : pyLower method = "itau".toList)
    {tm : TieMethod} (ht : parseTies ties = .ok tm) {e : Ell} (he : e.WF)
    (hc : o.cop = .gaussian e ∨ ∃ df, o.cop = .student df e) (hed : e.dim = d) (hd : 3 ≤ d) (hn : d ≤ n)
    {S : Matrix (Fin d) (Fin d) ℝ} (hS : S.PosSemidef) (h1 : ∀ j, S j j = 1) {ε : ℝ} (hε : 0 < ε) (hdε : d * ε ≤ 1e-12)
    (hnear : ∀ a b, a < b → |Real.sin (Real.pi * sampleTau (fun i => x i a) (fun i => x i b) / 2) - S a b| < ε) :
    (o.fitPobs env opt x x0 method ties scale).2 = .ok () ∧
    ∃ e', (o.cop = .gaussian e → (o.fitPobs env opt x x0 method ties scale).1.cop = .gaussian e') ∧
      (∀ df, o.cop = .student df e → (o.fitPobs env opt x x0 method ties scale).1.cop = .student df e') ∧ e'.dim = d ∧
      ∀ i j : Fin d, ∃ ρ, e'.getItem (ixPair i j) = .ok (.scalar (.fin ρ)) ∧ |ρ - S i j| < ε := by
  set T : Fin d → Fin d → ℝ := fun i j => if i = j then 1 else
    if i < j then sampleTau (fun k => x k i) (fun k => x k j) else sampleTau (fun k => x k j) (fun k => x k i) with hT
  have hTlt : ∀ i j, i < j → T i j = sampleTau (fun k => x k i) (fun k => x k j) := fun i j hij => by
    simp only [hT]; rw [if_neg hij.ne, if_pos hij]
  have hT1 : ∀ i, T i i = 1 := fun i => by simp [hT]
  have hTs : ∀ i j, T i j = T j i := by
    intro i j
    rcases lt_trichotomy i j with h | h | h
    · simp only [hT]; rw [if_neg h.ne, if_pos h, if_neg h.ne', if_neg h.asymm]
    · rw [h]
    · simp only [hT]; rw [if_neg h.ne', if_neg h.asymm, if_neg h.ne, if_pos h]
  have hTmem : ∀ i j, -1 ≤ T i j ∧ T i j ≤ 1 := by
    intro i j
    simp only [hT]
    split_ifs
    · norm_num
    · exact sampleTau_mem _ _ (by omega)
    · exact sampleTau_mem _ _ (by omega)
  have hSs : ∀ i j, S i j = S j i := fun i j => by simpa using (hS.1.apply i j).symm
  have hall : ∀ i j, |Real.sin (Real.pi * T i j / 2) - S i j| < ε := by
    intro i j
    rcases lt_trichotomy i j with h | h | h
    · rw [hTlt i j h]; exact hnear i j h
    · subst h
      rw [hT1, mul_one, Real.sin_pi_div_two, h1, sub_self, abs_zero]
      exact hε
    · rw [hTs, hTlt j i h, hSs]; exact hnear j i h
  have hpsd : isPsd fun i j : Fin d => Fl.fin (Real.sin (Real.pi * T i j / 2)) :=
    isPsd_near (S' := fun i j => Real.sin (Real.pi * T i j / 2)) hS (fun i j => by rw [hTs]) hε.le hdε fun i j => (hall i j).le
  have hkk : ∀ i j : Fin d, i < j → env.fns.kendall (col (pobsOf tm x) i) (col (pobsOf tm x) j) = .ok (.fin (T i j)) :=
    fun i j hij => by rw [hTlt i j hij]; exact kendall_pobsOf hk (by omega) tm hx i j
  have heq : o.fitPobs env opt x x0 method ties scale = o.fit env opt (pobsOf tm x) x0 method ties false scale := by
    unfold FitObj.fitPobs
    simp only [pobsMat_of ht]
  have hmp : maybePobs (pobsOf tm x) false ties = .ok (pobsOf tm x) := rfl
  have hok := fit_itau_ell_succeeds (opt := opt) (x0 := x0) (scale := scale) he hm hc hed hd hn hmp (pobsOf_mem tm x) T hT1 hTs
    hkk hpsd hll
  rw [heq]
  refine ⟨hok, ?_⟩
  obtain ⟨e', k1, k2, k3, k4⟩ := fit_itau_ell he hm hc hmp T hTmem hT1 hTs hkk hpsd (Prod.ext rfl hok)
  refine ⟨e', k1, k2, k3, fun i j => ?_⟩
  obtain ⟨ρ, r1, r2⟩ := k4 i j
  exact ⟨ρ, r1, by rw [ellTau_eq r2]; exact hall i j⟩

end Copulae
