import Verif.Props.MarginalCopula
import Verif.Props.Univariate
import Verif.Props.FitInv

/-!
Properties C85–C88: fitting and the log-likelihood, for copulas and for marginal copulas.
-/

namespace Copulae

open Finset Spec

/-- Two data sets order the observations of every column alike. -/
def SameOrder {n d : ℕ} (x y : Fin n → Fin d → ℚ) : Prop := ∀ j i k, y i j < y k j ↔ x i j < x k j

theorem pobsMat_sameOrder {n d : ℕ} {x y : Fin n → Fin d → ℚ} (h : SameOrder x y) (ties : String) :
    pobsMat y ties = pobsMat x ties := by
  unfold pobsMat
  cases parseTies ties with
  | error e => rfl
  | ok m =>
    simp only [bind, Except.bind, pure, Except.pure]
    refine congrArg Except.ok (funext fun i => funext fun j => ?_)
    rw [rankdata_congr m (fun k => x k j) (fun k => y k j) (fun a b => h j a b) i]

/-! ### C85 -/

/-- **C85** Fitting on pseudo-observations uses the ranks of the data only: data which order the observations
of every column alike, such as strictly increasing transformations of the columns, give the same copula, the
same summary and the same exception. -/
theorem fit_ranks (env : FitEnv) (opt : List Fl → OptTree) (o : FitObj) {n d : ℕ} {x y : Fin n → Fin d → ℚ}
    (h : SameOrder x y) (x0 : Option ParamArg) (method ties : String) (scale : Fl) :
    o.fit env opt y x0 method ties true scale = o.fit env opt x x0 method ties true scale := by
  unfold FitObj.fit maybePobs
  simp only [if_true]
  rw [pobsMat_sameOrder h]

/-- Increasing transformations of the columns. -/
example {n d : ℕ} (x : Fin n → Fin d → ℚ) (g : Fin d → ℚ → ℚ) (hg : ∀ j, StrictMono (g j)) :
    SameOrder x fun i j => g j (x i j) := fun j _ _ => (hg j).lt_iff_lt

/-- **C85** So do log-likelihoods on pseudo-observations. -/
theorem logLik_ranks {d : ℕ} (pdf : {n : ℕ} → (Fin n → Fin d → Fl) → Bool → Except PyErr (Fin n → Fl))
    {n : ℕ} {x y : Fin n → Fin d → ℚ} (h : SameOrder x y) (ties : String) :
    baseLogLik pdf y true ties = baseLogLik pdf x true ties := by
  unfold baseLogLik maybePobs
  simp only [if_true]
  rw [pobsMat_sameOrder h]

example (pdf : {n : ℕ} → (Fin n → Fin 2 → Fl) → Bool → Except PyErr (Fin n → Fl)) :=
  logLik_ranks pdf (x := fun (i : Fin 3) _ => (i.1 : ℚ)) (y := fun i _ => (i.1 : ℚ) ^ 3)
    (fun j i k => pow_lt_pow_iff_left₀ (by positivity) (by positivity) (by norm_num)) "max"

theorem refitMargins_ok {distFit : Dist → List ℚ → Except PyErr (List Fl)} {col : ℕ → List ℚ} {k : ℕ}
    {l ms : List Frozen} (h : refitMargins distFit col k l = (ms, none)) :
    ms.length = l.length ∧ ∀ (i : ℕ) (f : Frozen), l[i]? = some f →
      ∃ a, distFit f.dist (col (k + i)) = .ok a ∧ ms[i]? = some ⟨f.dist, a, []⟩ := by
  induction l generalizing k ms with
  | nil =>
    simp only [refitMargins, Prod.mk.injEq, and_true] at h
    subst h
    simp
  | cons f t ih =>
    unfold refitMargins at h
    cases hf : distFit f.dist (col k) with
    | error e => rw [hf] at h; simp at h
    | ok a =>
      rw [hf] at h
      simp only [Prod.mk.injEq] at h
      obtain ⟨rfl, h2⟩ := h
      obtain ⟨h3, h4⟩ := ih (Prod.ext rfl h2)
      refine ⟨by simp [h3], fun i g hi => ?_⟩
      cases i with
      | zero =>
        simp only [List.getElem?_cons_zero, Option.some.injEq] at hi
        subst hi
        exact ⟨a, hf, rfl⟩
      | succ i =>
        simp only [List.getElem?_cons_succ] at hi ⊢
        have := h4 i g hi
        rwa [show k + 1 + i = k + (i + 1) by omega] at this

/-- **C85** A fit of a marginal copula fits every margin to its own column, keeping its distribution, and the
inner copula to all the data, and reports the summary of the latter. -/
theorem margFit_ok {env : FitEnv} {opt : List Fl → OptTree} {distFit : Dist → List ℚ → Except PyErr (List Fl)}
    {o o' : MargObj} {n d : ℕ} {data : Fin n → Fin d → ℚ} {x0 : Option ParamArg} {method ties : String}
    {toPobs : Bool} {scale : Fl}
    (h : o.fit env opt distFit data x0 method ties toPobs scale = (o', .ok ())) :
    o'.margins.length = o.margins.length ∧
    (∀ (j : Fin d) (f : Frozen), o.margins[j.1]? = some f →
      ∃ a, distFit f.dist (List.ofFn fun i => data i j) = .ok a ∧ o'.margins[j.1]? = some ⟨f.dist, a, []⟩) ∧
    o.inner.fit env opt data x0 method ties toPobs scale = (o'.inner, .ok ()) ∧ o'.smry = o'.inner.smry := by
  unfold MargObj.fit at h
  by_cases h1 : o.inner.cop.dim ≠ d
  · rw [if_pos h1] at h; simp at h
  · rw [if_neg h1] at h
    rcases hr : refitMargins distFit (column data) 0 o.margins with ⟨ms, e | e⟩
    · rw [hr] at h
      simp only at h
      rcases hi : o.inner.fit env opt data x0 method ties toPobs scale with ⟨i', e | ⟨⟩⟩
      · rw [hi] at h; simp at h
      · rw [hi] at h
        simp only [Prod.mk.injEq, and_true] at h
        subst h
        obtain ⟨h2, h3⟩ := refitMargins_ok hr
        refine ⟨h2, fun j f hj => ?_, rfl, rfl⟩
        obtain ⟨a, ha, hm⟩ := h3 j.1 f hj
        rw [Nat.zero_add] at ha
        refine ⟨a, ?_, hm⟩
        rw [← ha]
        unfold column
        rw [dif_pos j.2]
    · rw [hr] at h; simp at h

/-! ### C86 -/

/-- **C86** (partial: Clayton and Frank copulas with positive parameter, Gumbel copulas) The log-likelihood is the sum of the logarithms of its density at the
pseudo-observations, and repeating the transformation to pseudo-observations changes nothing. -/
theorem archLogLik_value_partial {F : Family} {θ : ℝ} (hθ : PdfCovered F θ) {d : ℕ} (hd : 2 ≤ d) :
    ∃ g : (Fin d → ℝ) → ℝ, (∀ u ∈ cube d, 0 < g u) ∧
      (∃ C, Computes F θ d C ∧ IsDensityOn {u | ∀ j, F.lo < u j ∧ u j < 1} C g) ∧
      ∀ {n : ℕ} (data : Fin n → Fin d → ℚ) (ties : String) (m : TieMethod), parseTies ties = .ok m → n ≠ 1 →
        ∃ u : Fin n → Fin d → ℚ, pobsMat data ties = .ok u ∧
          baseLogLik (archInner F θ d).pdf data true ties
            = .ok (.fin (∑ i, Real.log (g fun j => ((u i j : ℚ) : ℝ)))) ∧
          baseLogLik (archInner F θ d).pdf u false ties
            = baseLogLik (archInner F θ d).pdf data true ties ∧
          baseLogLik (archInner F θ d).pdf u true ties
            = baseLogLik (archInner F θ d).pdf data true ties := by
  have key : ∀ (C g : (Fin d → ℝ) → ℝ), Computes F θ d C → PdfComputes F θ d (cube d) g →
      IsDensityOn {u | ∀ j, F.lo < u j ∧ u j < 1} C g → (∀ u ∈ cube d, 0 < g u) →
      ∃ g : (Fin d → ℝ) → ℝ, (∀ u ∈ cube d, 0 < g u) ∧
      (∃ C, Computes F θ d C ∧ IsDensityOn {u | ∀ j, F.lo < u j ∧ u j < 1} C g) ∧
      ∀ {n : ℕ} (data : Fin n → Fin d → ℚ) (ties : String) (m : TieMethod), parseTies ties = .ok m → n ≠ 1 →
        ∃ u : Fin n → Fin d → ℚ, pobsMat data ties = .ok u ∧
          baseLogLik (archInner F θ d).pdf data true ties
            = .ok (.fin (∑ i, Real.log (g fun j => ((u i j : ℚ) : ℝ)))) ∧
          baseLogLik (archInner F θ d).pdf u false ties
            = baseLogLik (archInner F θ d).pdf data true ties ∧
          baseLogLik (archInner F θ d).pdf u true ties
            = baseLogLik (archInner F θ d).pdf data true ties := by
    intro C g hC hp hden hg
    refine ⟨g, hg, ⟨C, hC, hden⟩, fun {n} data ties m hm hn => ?_⟩
    have hu : pobsMat data ties = .ok fun i j => rankdata m (fun k => data k j) i / ((n : ℚ) + 1) := by
      unfold pobsMat
      rw [hm]
      rfl
    refine ⟨_, hu, ?_⟩
    have hb : ∀ i j, 0 < rankdata m (fun k => data k j) i / ((n : ℚ) + 1) ∧
        rankdata m (fun k => data k j) i / ((n : ℚ) + 1) < 1 := by
      obtain ⟨w, hw, hb⟩ := pseudoObs_mem_Ioo data (s := ties) (m := m) hm
      have h1 := pobsMat_eq data ties
      rw [hu, hw] at h1
      simp only [Except.map, Except.ok.injEq, NDArr.mat.injEq, heq_eq_eq, true_and] at h1
      subst h1
      exact hb
    have hv := (hp n (fun i j => ((rankdata m (fun k => data k j) i / ((n : ℚ) + 1) : ℚ) : ℝ)) fun i j =>
      ⟨Rat.cast_pos.mpr (hb i j).1, by
        have := (hb i j).2
        show ((_ : ℚ) : ℝ) < 1
        exact_mod_cast this⟩).2
    have hval : baseLogLik (archInner F θ d).pdf data true ties = .ok (.fin (∑ i, Real.log (g fun j =>
        ((rankdata m (fun k => data k j) i / ((n : ℚ) + 1) : ℚ) : ℝ)))) := by
      unfold baseLogLik maybePobs
      simp only [if_true]
      rw [hu]
      simp only [bind, Except.bind, archInner]
      rw [hv]
      simp only [sumLog]
      rw [if_neg hn]
      congr 1
      rw [← Fl.sum_fin]
      refine sum_congr rfl fun i _ => ?_
      rw [Fl.log_pos (hg _ fun j => ⟨Rat.cast_pos.mpr (hb i j).1, by
        have := (hb i j).2
        show ((_ : ℚ) : ℝ) < 1
        exact_mod_cast this⟩)]
    refine ⟨hval, ?_, ?_⟩
    · unfold baseLogLik maybePobs
      simp only [if_true, Bool.false_eq_true, if_false]
      rw [hu]
    · unfold baseLogLik maybePobs
      simp only [if_true]
      rw [hu]
      simp only [bind, Except.bind]
      rw [pobsMat_idem hu]
  cases F with
  | clayton =>
    obtain ⟨C, g, h1, h2, h3, h4⟩ := clayton_pdf_mixed (θ := θ) hθ hd
    exact key C g h1 h2 h3 h4
  | gumbel =>
    obtain ⟨C, g, h1, h2, h3, h4⟩ := gumbel_pdf_mixed (θ := θ) hθ hd
    exact key C g h1 h2 h3 h4
  | frank =>
    obtain ⟨g, h1, -, h4, C, h2, h3⟩ := frank_pdf_mixed_partial (θ := θ) hθ hd
    exact key C g h2 h1 h3 h4

example := archLogLik_value_partial (F := .frank) (θ := 3) (by norm_num [PdfCovered]) (d := 3) (by norm_num)

/-- **C86**, the violation: the log-likelihood of one observation raises `AttributeError`, whatever the
density. -/
theorem baseLogLik_one_row {d : ℕ} (pdf : {n : ℕ} → (Fin n → Fin d → Fl) → Bool → Except PyErr (Fin n → Fl))
    (data : Fin 1 → Fin d → ℚ) {v : Fin 1 → Fl}
    (hv : pdf (fun i j => .fin ((data i j : ℚ) : ℝ)) true = .ok v) :
    baseLogLik pdf data false "average" = .error .attributeError := by
  unfold baseLogLik maybePobs
  simp only [Bool.false_eq_true, if_false, bind, Except.bind, hv, sumLog, if_true]

example := baseLogLik_one_row (d := 2) (fun _ _ => .ok fun _ => .fin 1) (fun _ _ => 1 / 2) rfl

/-! ### C87 -/

/-- **C87** (partial: the inner copulas and points of `margPdf_density_partial`) With `to_pobs=False` the log-likelihood of a marginal copula is the sum of the logarithms of its
joint density at the observations. -/
theorem margLogLik_value_partial {F : Family} {θ : ℝ} (hθ : PdfCovered F θ) {d : ℕ} (hd : 2 ≤ d) {m : Fin d → Margin}
    {G f : Fin d → ℝ → ℝ} {S : Fin d → Set ℝ} (hm : ∀ j, IsSmooth (m j) (G j) (f j) (S j)) :
    ∃ H h : (Fin d → ℝ) → ℝ,
      (∀ (n : ℕ) (x : Fin n → Fin d → ℝ), (∀ i j, x i j ∈ S j ∧ F.lo < G j (x i j) ∧ G j (x i j) < 1) →
        margCdf (archInner F θ d) m .float (fun i j => .fin (x i j)) false = .ok (fun i => .fin (H (x i)))) ∧
      IsDensityOn {x | ∀ j, x j ∈ S j ∧ F.lo < G j (x j) ∧ G j (x j) < 1} H h ∧
      ∀ (n : ℕ) (data : Fin n → Fin d → ℚ) (ties : String), n ≠ 1 →
        (∀ i j, (data i j : ℝ) ∈ S j ∧ F.lo < G j (data i j) ∧ G j (data i j) < 1) →
        margLogLik (archInner F θ d) m data false ties
          = .ok (∑ i, Fl.log (.fin (h fun j => ((data i j : ℚ) : ℝ)))) := by
  obtain ⟨H, h, h1, h2⟩ := margPdf_density_partial hθ hd hm
  refine ⟨H, h, fun n x hx => (h1 n x hx).1, h2, fun n data ties hn hx => ?_⟩
  unfold margLogLik baseLogLik maybePobs
  simp only [Bool.false_eq_true, if_false, bind, Except.bind]
  rw [(h1 n (fun i j => ((data i j : ℚ) : ℝ)) hx).2.2]
  simp only [sumLog]
  rw [if_neg hn]

example := margLogLik_value_partial (F := .clayton) (θ := 2) (by norm_num [PdfCovered]) (d := 2) le_rfl
  (m := fun _ => uniTwo) fun _ => uniTwo_smooth

/-- **C87**, the violation: by default the log-likelihood of a marginal copula depends on the ranks of the data
only, so it cannot be the likelihood of the margins. -/
theorem margLogLik_ranks {d : ℕ} (inner : Inner d) (m : Fin d → Margin) {n : ℕ} {x y : Fin n → Fin d → ℚ}
    (h : SameOrder x y) (ties : String) :
    margLogLik inner m y true ties = margLogLik inner m x true ties :=
  logLik_ranks _ h ties

example (θ : ℝ) := margLogLik_ranks (archInner .gumbel θ 2) (fun _ => uniTwo) (x := fun (i : Fin 3) _ => (i.1 : ℚ))
  (y := fun i _ => 2 * (i.1 : ℚ) + 1) (fun j i k => by constructor <;> intro h <;> linarith) "average"

/-- **C87**, the violation in numbers: two observations outside the support of the margins have likelihood
zero, but by default the log-likelihood is finite. -/
theorem margLogLik_default_wrong :
    margLogLik (indepInner 2) (fun _ => uniTwo) (n := 2) (fun i _ => 3 + i.1) false "average" = .ok .ninf ∧
    margLogLik (indepInner 2) (fun _ => uniTwo) (n := 2) (fun i _ => 3 + i.1) true "average"
      = .ok (.fin (4 * Real.log (1 / 2))) := by
  have hout : ∀ i : Fin 2, uniTwo.logpdf (.fin (((3 + (i.1 : ℚ) : ℚ)) : ℝ)) = .ninf := by
    intro i
    show Fl.log (Fl.fin _) = _
    rw [if_neg, Fl.log_zero]
    rintro ⟨-, h⟩
    have : (0 : ℝ) ≤ (i.1 : ℝ) := Nat.cast_nonneg _
    push_cast at h
    linarith
  have hpdf : ∀ (x : Fin 2 → Fin 2 → Fl) (a : Fin 2 → Fl), (∀ i j, uniTwo.logpdf (x i j) = a i) →
      margPdf (indepInner 2) (fun _ => uniTwo) .float x true = .ok fun i => .fin 0 + (.fin 0 + a i + a i) := by
    intro x a ha
    unfold margPdf indepInner indepPdf
    simp only
    rw [if_neg (by simp)]
    simp only [bind, Except.bind, pure, Except.pure, if_true]
    refine congrArg Except.ok (funext fun i => ?_)
    have : densityMargin (fun _ : Fin 2 => uniTwo) x true i = .fin 0 + a i + a i := by
      unfold densityMargin
      simp only [List.finRange_succ, List.finRange_zero, List.map_cons, List.map_nil, List.foldl_cons,
        List.foldl_nil, if_true, ha]
    rw [this]
  constructor
  · unfold margLogLik baseLogLik maybePobs
    simp only [Bool.false_eq_true, if_false, bind, Except.bind]
    rw [hpdf _ (fun _ => .ninf) fun i j => hout i]
    simp only [sumLog]
    rw [if_neg (by norm_num), Fin.sum_univ_two]
    rfl
  · obtain ⟨w, hw, hb⟩ := pseudoObs_mem_Ioo (fun (i : Fin 2) (_ : Fin 2) => (3 + (i.1 : ℚ))) (s := "average")
      (m := .average) (by decide)
    have h1 := pobsMat_eq (fun (i : Fin 2) (_ : Fin 2) => (3 + (i.1 : ℚ))) "average"
    rw [hw] at h1
    unfold margLogLik baseLogLik maybePobs
    simp only [if_true]
    cases hu : pobsMat (fun (i : Fin 2) (_ : Fin 2) => (3 + (i.1 : ℚ))) "average" with
    | error e => rw [hu] at h1; simp [Except.map] at h1
    | ok u =>
      rw [hu] at h1
      simp only [Except.map, Except.ok.injEq, NDArr.mat.injEq, heq_eq_eq, true_and] at h1
      subst h1
      simp only [bind, Except.bind]
      rw [hpdf _ (fun _ => .fin (Real.log (1 / 2)))]
      · simp only [sumLog]
        rw [if_neg (by norm_num), Fin.sum_univ_two]
        simp only [Fl.fin_add_fin]
        congr 2
        ring
      · intro i j
        show Fl.log (Fl.fin _) = _
        have := hb i j
        rw [if_pos ⟨by exact_mod_cast this.1.le, by exact_mod_cast (by linarith [this.2])⟩,
          Fl.log_pos (by norm_num)]

/-! ### C88 -/

/-- **C88** (partial: the failure is found before the margins are fitted) Data with the wrong number of
columns change nothing. -/
theorem margFit_refuse_partial (env : FitEnv) (opt : List Fl → OptTree)
    (distFit : Dist → List ℚ → Except PyErr (List Fl)) (o : MargObj) {n d : ℕ} (data : Fin n → Fin d → ℚ)
    (x0 : Option ParamArg) (method ties : String) (toPobs : Bool) (scale : Fl) (h : o.inner.cop.dim ≠ d) :
    o.fit env opt distFit data x0 method ties toPobs scale = (o, .error .inputData) := by
  unfold MargObj.fit
  rw [if_pos h]

example (env : FitEnv) (distFit : Dist → List ℚ → Except PyErr (List Fl)) := margFit_refuse_partial env
  (fun x => .done ⟨true, x, .fin 0⟩) distFit ⟨⟨.gaussian (Ell.init 2), none⟩, [⟨distNorm, [], []⟩, ⟨distNorm, [], []⟩], none⟩
  (fun (i : Fin 4) (_ : Fin 3) => (i.1 : ℚ)) none "ml" "average" true (.fin 1) (by simp [FitCop.dim, Ell.init])

/-- **C88**, the violation: when the inner copula refuses the data (here data outside the unit cube with
`to_pobs=False`), the margins have been replaced already, while inner copula and summary are the old ones. -/
theorem margFit_failure_changes_margins (env : FitEnv) (opt : List Fl → OptTree)
    {distFit : Dist → List ℚ → Except PyErr (List Fl)} {o : MargObj} {n d : ℕ} {data : Fin n → Fin d → ℚ}
    (x0 : Option ParamArg) (method ties : String) (scale : Fl) (hdim : o.inner.cop.dim = d)
    {i : Fin n} {j : Fin d} (hout : data i j < 0 ∨ 1 < data i j)
    {ms : List Frozen} (hms : refitMargins distFit (column data) 0 o.margins = (ms, none)) (hne : ms ≠ o.margins) :
    ∃ o', o.fit env opt distFit data x0 method ties false scale = (o', .error .inputData) ∧
      o'.margins ≠ o.margins ∧ o'.inner = o.inner ∧ o'.smry = o.smry := by
  refine ⟨{ o with margins := ms }, ?_, hne, rfl, rfl⟩
  unfold MargObj.fit
  rw [if_neg (not_not.mpr hdim), hms]
  simp only
  have : o.inner.fit env opt data x0 method ties false scale = (o.inner, .error .inputData) := by
    unfold FitObj.fit maybePobs
    simp only [Bool.false_eq_true, if_false]
    rw [if_neg (not_not.mpr hdim), if_pos ⟨i, j, hout⟩]
  rw [this]

/-- A marginal copula with standard normal margins, whose fit gives other parameters. -/
example : refitMargins (fun _ _ => .ok [.fin 5, .fin 1]) (column fun (i : Fin 3) (_ : Fin 2) => (i.1 : ℚ)) 0
      [⟨distNorm, [], []⟩, ⟨distNorm, [], []⟩]
      = ([⟨distNorm, [.fin 5, .fin 1], []⟩, ⟨distNorm, [.fin 5, .fin 1], []⟩], none) ∧
    ([⟨distNorm, [.fin 5, .fin 1], []⟩, ⟨distNorm, [.fin 5, .fin 1], []⟩] : List Frozen)
      ≠ [⟨distNorm, [], []⟩, ⟨distNorm, [], []⟩] := by
  refine ⟨rfl, by simp⟩

/-- Instance for `margFit_ok`: two normal margins over a Gaussian copula. -/
example := margFit_ok (env := fitExampleEnv) (opt := stayOpt) (distFit := fun _ _ => .ok [.fin 5, .fin 1])
  (o := ⟨⟨.gaussian (Ell.init 2), none⟩, [⟨distNorm, [], []⟩, ⟨distNorm, [], []⟩], none⟩)
  (data := fun (i : Fin 3) (j : Fin 2) => ![1, 2, 2] i / (4 + j)) (x0 := some (.vec [.fin (1 / 2)])) (method := "ml")
  (ties := "average") (toPobs := false) (scale := .fin 1)
  (by
    unfold MargObj.fit
    rw [if_neg (by simp [FitCop.dim, Ell.init])]
    simp only [refitMargins, fit_example fitExampleEnv (fun _ _ _ _ => rfl) 1]
    rfl)

end Copulae
