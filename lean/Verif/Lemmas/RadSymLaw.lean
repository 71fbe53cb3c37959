import Verif.Lemmas.RadSymTest
import Verif.Props.MarginLaw
import Verif.Props.ArchTail
import Verif.Props.EmpConsistency

/-!
Which copulas are radially symmetric (C147).
-/

namespace Copulae

open MeasureTheory ProbabilityTheory Spec CopulaMeasure Set Filter Topology

variable {d : ℕ} {P : Measure (Fin d → ℝ)}

theorem mass_pos {g : (Fin d → ℝ) → ℝ} {V : Set (Fin d → ℝ)} [IsProbabilityMeasure P] (hd : HasCubeDensity P g) (hV : IsOpen V)
    (hne : V.Nonempty) (hsub : ∀ u ∈ V, ∀ j, 0 < u j ∧ u j < 1) (hg : ∀ u ∈ V, 0 < g u) : P V ≠ 0 := by
  obtain ⟨hi, he⟩ := hd V hV.measurableSet
  have hc : V ∩ {u | ∀ j, 0 < u j ∧ u j < 1} = V := inter_eq_left.mpr hsub
  rw [hc] at hi he
  intro h0
  rw [measureReal_def, h0, ENNReal.toReal_zero] at he
  have hpos : 0 < ∫ u in V, g u := by
    rw [setIntegral_pos_iff_support_of_nonneg_ae
      ((ae_restrict_iff' hV.measurableSet).mpr (Eventually.of_forall fun u hu => (hg u hu).le)) hi]
    have : Function.support g ∩ V = V := inter_eq_right.mpr fun u hu => (hg u hu).ne'
    rw [this]
    exact hV.measure_pos _ hne
  linarith

theorem asymmetric_mass [IsProbabilityMeasure P] (hP : Uniform P) {g : (Fin d → ℝ) → ℝ} {V : Set (Fin d → ℝ)}
    (hd : HasCubeDensity P g) (hV : IsOpen V) (hsub : ∀ u ∈ V, ∀ j, 0 < u j ∧ u j < 1) (hg : ∀ u ∈ V, 0 < g u) {w : Fin d → ℝ}
    (hw : w ∈ closure V) (hne : asymmetry P w ≠ 0) : P {w | asymmetry P w ≠ 0} ≠ 0 := by
  have hO : IsOpen {w | asymmetry P w ≠ 0} := isOpen_ne_fun (asymmetry_continuous hP) continuous_const
  obtain ⟨v, hv1, hv2⟩ := mem_closure_iff.mp hw _ hO hne
  have := mass_pos hd (hO.inter hV) ⟨v, hv1, hv2⟩ (fun u hu => hsub u hu.2) fun u hu => hg u hu.2
  exact fun h0 => this (measure_mono_null inter_subset_left h0)

theorem pair_reflect [IsProbabilityMeasure P] (hP : Uniform P) {i j : Fin d} (hij : i ≠ j) {a b : ℝ} (ha : 0 ≤ a) (ha1 : a ≤ 1)
    (hb : 0 ≤ b) (hb1 : b ≤ 1) :
    distFn (reflected P) (pairPoint i j a b) = a + b - 1 + distFn P (pairPoint i j (1 - a) (1 - b)) := by
  have hm : ∀ k : Fin d, Measurable fun x : Fin d → ℝ => x k := fun k => measurable_pi_apply k
  have hA : MeasurableSet {x : Fin d → ℝ | x i ≤ 1 - a} := measurableSet_le (hm i) measurable_const
  have hB : MeasurableSet {x : Fin d → ℝ | x j ≤ 1 - b} := measurableSet_le (hm j) measurable_const
  have h1 := measureReal_union_add_inter (μ := P) (s := {x : Fin d → ℝ | x i ≤ 1 - a}) hB
  have hA' : P.real {x : Fin d → ℝ | x i ≤ 1 - a} = 1 - a := uniform_le hP i (by linarith) (by linarith)
  have hB' : P.real {x : Fin d → ℝ | x j ≤ 1 - b} = 1 - b := uniform_le hP j (by linarith) (by linarith)
  have hin : distFn P (pairPoint i j (1 - a) (1 - b)) = P.real ({x | x i ≤ 1 - a} ∩ {x | x j ≤ 1 - b}) := by
    refine measureReal_congr ?_
    filter_upwards [uniform_ae hP] with x hx
    refine propext ⟨fun h => ⟨?_, ?_⟩, fun h k => ?_⟩
    · have := h i
      rwa [pairPoint, if_pos rfl] at this
    · have := h j
      rwa [pairPoint, if_neg hij.symm, if_pos rfl] at this
    · unfold pairPoint
      split_ifs with e1 e2
      · rw [e1]; exact h.1
      · rw [e2]; exact h.2
      · exact (hx k).2
  have hat := fun (k : Fin d) (y : ℝ) => measure_eq_zero_iff_ae_notMem.mp (atomless_of_uniform hP k y)
  have hout : distFn (reflected P) (pairPoint i j a b) = P.real ({x | x i ≤ 1 - a} ∪ {x | x j ≤ 1 - b})ᶜ := by
    unfold distFn reflected
    rw [map_measureReal_apply measurable_reflect (measurableSet_setOfPred.mpr (by
      have : {x : Fin d → ℝ | ∀ k, x k ≤ pairPoint i j a b k} = ⋂ k, {x | x k ≤ pairPoint i j a b k} := by ext; simp
      exact measurableSet_setOfPred.mp (this ▸ MeasurableSet.iInter fun k => measurableSet_le (hm k) measurable_const)))]
    refine measureReal_congr ?_
    filter_upwards [uniform_ae hP, hat i (1 - a), hat j (1 - b)] with x hx h1 h2
    refine propext ⟨fun h => ?_, fun h k => ?_⟩
    · have e1 := h i
      have e2 := h j
      rw [pairPoint, if_pos rfl] at e1
      rw [pairPoint, if_neg hij.symm, if_pos rfl] at e2
      unfold reflect at e1 e2
      rintro (h | h)
      · exact h1 (le_antisymm h (by linarith))
      · exact h2 (le_antisymm h (by linarith))
    · have h' := not_or.mp h
      have e1 : 1 - a < x i := not_le.mp h'.1
      have e2 : 1 - b < x j := not_le.mp h'.2
      unfold pairPoint reflect
      split_ifs with e3 e4
      · rw [e3]; linarith
      · rw [e4]; linarith
      · have := (hx k).1
        linarith
  rw [hout, hin, probReal_compl_eq_one_sub (hA.union hB)]
  linarith

/-- If the tail dependence coefficients differ, so do the copula and its reflection somewhere on the diagonal. -/
theorem tails_ne {C : (Fin 2 → ℝ) → ℝ} {l m : ℝ} (hl : LowerTail C l) (hm : UpperTail C m) (hne : l ≠ m) :
    ∃ u : ℝ, 0 < u ∧ u < 1 ∧ C ![u, u] ≠ 2 * u - 1 + C ![1 - u, 1 - u] := by
  by_contra hcon
  push Not at hcon
  have ht : Tendsto (fun u : ℝ => 1 - u) (𝓝[>] 0) (𝓝[<] 1) := by
    refine tendsto_nhdsWithin_iff.mpr ⟨?_, ?_⟩
    · have : Tendsto (fun u : ℝ => 1 - u) (𝓝 0) (𝓝 (1 - 0)) := (continuous_const.sub continuous_id).tendsto 0
      rw [sub_zero] at this
      exact this.mono_left nhdsWithin_le_nhds
    · filter_upwards [self_mem_nhdsWithin] with u hu
      have : (0 : ℝ) < u := hu
      exact mem_Iio.mpr (by linarith)
  have h2 : Tendsto (fun u : ℝ => C ![u, u] / u) (𝓝[>] 0) (𝓝 m) := by
    refine (hm.comp ht).congr' ?_
    filter_upwards [eventually_Ioo_right one_pos] with u hu
    rw [Function.comp_apply, hcon u hu.1 hu.2]
    congr 1 <;> ring
  exact hne (tendsto_nhds_unique hl h2)

theorem pairPoint_two (a b : ℝ) : pairPoint (0 : Fin 2) 1 a b = ![a, b] := by
  funext k
  fin_cases k <;> simp [pairPoint]

theorem cube_open (d : ℕ) : IsOpen (cube d) := by
  have : cube d = ⋂ j, {u : Fin d → ℝ | 0 < u j ∧ u j < 1} := by ext; simp [cube]
  rw [this]
  exact isOpen_iInter_of_finite fun j => (isOpen_lt continuous_const (continuous_apply j)).inter
    (isOpen_lt (continuous_apply j) continuous_const)

theorem mem_closure_cube {w : Fin d → ℝ} (hw : ∀ j, 0 ≤ w j ∧ w j ≤ 1) : w ∈ closure (cube d) := by
  have : cube d = Set.pi univ fun _ => Ioo (0 : ℝ) 1 := by ext; simp [cube]
  rw [this, closure_pi_set]
  intro j _
  rw [closure_Ioo zero_ne_one]
  exact hw j

/-- The bivariate margins of the copulas of a family do not depend on the dimension. -/
theorem copula_pair {F : Family} {θ : ℝ} (ha : Admissible F θ d) {i j : Fin d} (hij : i ≠ j) {a b : ℝ} (h0 : 0 < a) (h1 : 0 < b) :
    F.copula θ (pairPoint i j a b) = F.copula θ ![a, b] := by
  rw [← pairPoint_two]
  have h01 : (0 : Fin 2) ≠ 1 := by simp
  cases F with
  | clayton => exact (clayton_pairPoint θ hij a b).trans (clayton_pairPoint θ h01 a b).symm
  | gumbel =>
    have := ha.2
    exact (gumbel_pairPoint (by linarith) hij a b).trans (gumbel_pairPoint (by linarith) h01 a b).symm
  | frank => exact (frank_pairPoint ha.2.1 hij h0 h1).trans (frank_pairPoint ha.2.1 h01 h0 h1).symm

theorem asymmetry_pair {F : Family} {θ : ℝ} (ha : Admissible F θ d) (hP : IsLawOf P (F.copula θ)) {i j : Fin d} (hij : i ≠ j) {u : ℝ}
    (h0 : 0 < u) (h1 : u < 1) : asymmetry P (pairPoint i j u u) =
      F.copula θ ![u, u] - (2 * u - 1 + F.copula θ ![1 - u, 1 - u]) := by
  have := hP.prob
  have hu := uniform_of_law hP fun j v h0 h1 => copula_margin ha j v h0 h1
  have hmem : ∀ a : ℝ, 0 < a → a ≤ 1 → ∀ k, 0 < pairPoint i j a a k ∧ pairPoint i j a a k ≤ 1 := by
    intro a h h' k
    unfold pairPoint
    split_ifs
    · exact ⟨h, h'⟩
    · exact ⟨h, h'⟩
    · exact ⟨one_pos, le_rfl⟩
  rw [asymmetry, pair_reflect hu hij h0.le h1.le h0.le h1.le, hP.dist _ (hmem u h0 h1.le),
    hP.dist _ (hmem (1 - u) (by linarith) (by linarith)), copula_pair ha hij h0 h0, copula_pair ha hij (by linarith) (by linarith)]
  ring

/-- `C` agrees with the copula of the family inside the unit square. -/
theorem computes_copula {F : Family} {θ : ℝ} (ha : Admissible F θ 2) (hF : F ≠ .frank) {C : (Fin 2 → ℝ) → ℝ} (hC : Computes F θ 2 C)
    {u : ℝ} (h0 : 0 < u) (h1 : u ≤ 1) : C ![u, u] = F.copula θ ![u, u] := by
  have hD : ∀ j, CdfDomain F (![u, u] j) := by
    intro j
    have : ![u, u] j = u := by fin_cases j <;> rfl
    rw [this]
    cases F with
    | frank => exact absurd rfl hF
    | clayton => exact ⟨h0.le, h1⟩
    | gumbel => exact ⟨h0.le, h1⟩
  have hm : ∀ j, 0 < ![u, u] j ∧ ![u, u] j ≤ 1 := by
    intro j
    have : ![u, u] j = u := by fin_cases j <;> rfl
    rw [this]
    exact ⟨h0, h1⟩
  rw [← copula_genC ha _ hD hm]
  have e1 := hC 1 (fun _ => ![u, u]) fun _ => hD
  have e2 := computes_genC ha 1 (fun _ => ![u, u]) fun _ => hD
  rw [e1] at e2
  simp only [Except.ok.injEq] at e2
  exact Fl.fin.inj (congrFun e2 0)

theorem asymmetric_of_tails {F : Family} {θ : ℝ} (ha : Admissible F θ d) (ha2 : Admissible F θ 2) (hF : F ≠ .frank)
    (hP : IsLawOf P (F.copula θ)) {C : (Fin 2 → ℝ) → ℝ} (hC : Computes F θ 2 C) {l m : ℝ} (hl : LowerTail C l)
    (hm : UpperTail C m) (hne : l ≠ m) {g : (Fin d → ℝ) → ℝ} (hd : HasCubeDensity P g) (hg : ∀ u ∈ cube d, 0 < g u) :
    P {w | asymmetry P w ≠ 0} ≠ 0 := by
  have := hP.prob
  have hu := uniform_of_law hP fun j v h0 h1 => copula_margin ha j v h0 h1
  have h2 := ha.1
  obtain ⟨u, h0, h1, hu2⟩ := tails_ne hl hm hne
  have hij : (⟨0, by omega⟩ : Fin d) ≠ ⟨1, by omega⟩ := by simp
  refine asymmetric_mass hu hd (cube_open d) (fun u h j => h j) hg (mem_closure_cube (w := pairPoint ⟨0, by omega⟩ ⟨1, by omega⟩ u u) ?_) ?_
  · intro k
    unfold pairPoint
    split_ifs
    · exact ⟨h0.le, h1.le⟩
    · exact ⟨h0.le, h1.le⟩
    · exact ⟨zero_le_one, le_rfl⟩
  · rw [asymmetry_pair ha hP hij h0 h1, ← computes_copula ha2 hF hC h0 h1.le,
      ← computes_copula ha2 hF hC (by linarith : 0 < 1 - u) (by linarith)]
    exact sub_ne_zero.mpr hu2

theorem pdf_eq_pos {F : Family} {θ : ℝ} {g g' : (Fin d → ℝ) → ℝ} (h1 : PdfComputes F θ d (cube d) g)
    (h2 : PdfComputes F θ d (cube d) g') (h3 : ∀ u ∈ cube d, 0 < g' u) : ∀ u ∈ cube d, 0 < g u := by
  intro u hu
  have a := (h1 1 (fun _ => u) fun _ => hu).1
  have b := (h2 1 (fun _ => u) fun _ => hu).1
  rw [a] at b
  simp only [Except.ok.injEq] at b
  rw [Fl.fin.inj (congrFun b 0)]
  exact h3 u hu

theorem clayton_asymmetric {θ : ℝ} (h : 0 < θ) (hd : 2 ≤ d) (hP : IsLawOf P (Family.copula .clayton θ)) :
    P {w | asymmetry P w ≠ 0} ≠ 0 := by
  obtain ⟨C, hC, hl, hm, -⟩ := clayton_tail h.ne' (by linarith)
  obtain ⟨g, a, b⟩ := clayton_pdf_density h hd
  obtain ⟨_, g', -, e, -, e'⟩ := clayton_pdf_mixed h hd
  refine asymmetric_of_tails (F := .clayton) (θ := θ) ⟨hd, h.ne', by linarith, fun _ => h⟩ ⟨le_rfl, h.ne', by linarith, fun _ => h⟩ (by simp) hP hC hl hm ?_
    (b P hP) (pdf_eq_pos a e e')
  simp only [claytonLambda, if_pos h]
  exact (Real.rpow_pos_of_pos (by norm_num) _).ne'

theorem gumbel_asymmetric {θ : ℝ} (h : 1 < θ) (hd : 2 ≤ d) (hP : IsLawOf P (Family.copula .gumbel θ)) :
    P {w | asymmetry P w ≠ 0} ≠ 0 := by
  obtain ⟨C, hC, hl, hm, -⟩ := gumbel_tail_partial h.le
  obtain ⟨g, a, b⟩ := gumbel_pdf_density h.le hd
  obtain ⟨_, g', -, e, -, e'⟩ := gumbel_pdf_mixed h.le hd
  refine asymmetric_of_tails (F := .gumbel) (θ := θ) ⟨hd, h.le⟩ ⟨le_rfl, h.le⟩ (by simp) hP hC hl hm ?_ (b P hP) (pdf_eq_pos a e e')
  have h2 : (2 : ℝ) ^ (1 / θ) < 2 := by
    have : (2 : ℝ) ^ (1 / θ) < 2 ^ (1 : ℝ) :=
      Real.rpow_lt_rpow_of_exponent_lt (by norm_num) ((div_lt_one (by linarith)).mpr h)
    rwa [Real.rpow_one] at this
  have : (gumbelLambda θ).1 = 0 := rfl
  rw [this]
  linarith

/-- Clayton copulas with a negative parameter, in two dimensions. -/
theorem clayton_neg_asymmetric {P : Measure (Fin 2 → ℝ)} {θ : ℝ} (h1 : -1 < θ) (h : θ < 0) (hP : IsLawOf P (Family.copula .clayton θ)) :
    P {w | asymmetry P w ≠ 0} ≠ 0 := by
  have ha : Admissible .clayton θ 2 := ⟨le_rfl, h.ne, h1.le, fun h => absurd rfl h⟩
  have := hP.prob
  have hu := uniform_of_law hP fun j v h0 h1 => copula_margin ha j v h0 h1
  set a := -θ with hadef
  have ha0 : 0 < a := by linarith
  have ha1 : a < 1 := by linarith
  have hinv : -1 / θ = 1 / a := by rw [hadef, div_neg, neg_div]
  obtain ⟨u, hu0, hu12, hua⟩ : ∃ u : ℝ, 0 < u ∧ u < 1 / 2 ∧ u ^ a = 1 / 2 := by
    refine ⟨(1 / 2 : ℝ) ^ (1 / a), by positivity, ?_, ?_⟩
    · have : (1 / 2 : ℝ) ^ (1 / a) < (1 / 2 : ℝ) ^ (1 : ℝ) :=
        Real.rpow_lt_rpow_of_exponent_gt (by norm_num) (by norm_num) ((lt_div_iff₀ ha0).mpr (by linarith))
      rwa [Real.rpow_one] at this
    · rw [← Real.rpow_mul (by norm_num), one_div_mul_cancel ha0.ne', Real.rpow_one]
  set v := 1 - u with hv
  have hva : 1 / 2 < v ^ a := by
    rw [← hua]
    exact Real.rpow_lt_rpow hu0.le (by linarith) ha0
  have hcv : (2 * v - 1) ^ a < 2 * v ^ a - 1 := by
    have hsc := (Real.strictConcaveOn_rpow ha0 ha1).2
    have := hsc (mem_Ici.mpr zero_le_one) (mem_Ici.mpr (by linarith : 0 ≤ 2 * v - 1)) (by linarith)
      (by norm_num : (0 : ℝ) < 1 / 2) (by norm_num : (0 : ℝ) < 1 / 2) (by norm_num)
    simp only [smul_eq_mul, Real.one_rpow] at this
    rw [show (1 / 2 : ℝ) * 1 + 1 / 2 * (2 * v - 1) = v by ring] at this
    linarith
  obtain ⟨g, hg, hden⟩ := clayton_pdf_density_neg h1 h
  have hVo : IsOpen (cube 2 ∩ {x : Fin 2 → ℝ | 1 < x 0 ^ a + x 1 ^ a}) := by
    refine (cube_open 2).inter (isOpen_lt continuous_const (Continuous.add ?_ ?_))
    · exact (Real.continuous_rpow_const ha0.le).comp (continuous_apply 0)
    · exact (Real.continuous_rpow_const ha0.le).comp (continuous_apply 1)
  have hpos : ∀ x ∈ cube 2 ∩ {x : Fin 2 → ℝ | 1 < x 0 ^ a + x 1 ^ a}, 0 < g x := by
    rintro x ⟨hx, hx2⟩
    have hx2' : 1 < x 0 ^ a + x 1 ^ a := hx2
    have c := (hg 1 (fun _ => x) fun _ => hx).1
    have hs : ∑ j, (1 - x j ^ (-θ)) < 1 := by
      rw [Fin.sum_univ_two]
      linarith
    simp only [archPdf] at c
    rw [claytonPdf_neg h _ fun _ => hx] at c
    simp only [Bool.false_eq_true, if_false, Except.ok.injEq] at c
    have c0 := congrFun c 0
    rw [if_neg (not_not.mpr hs), claytonLogNeg_fin h1 h hx hs, Fl.exp_fin] at c0
    rw [← Fl.fin.inj c0]
    exact Real.exp_pos _
  refine asymmetric_mass hu (hden P hP) hVo (fun x hx j => hx.1 j) hpos (w := ![v, v]) (subset_closure ⟨?_, ?_⟩) ?_
  · intro j
    have : ![v, v] j = v := by fin_cases j <;> rfl
    rw [this]
    exact ⟨by linarith, by linarith⟩
  · show 1 < v ^ a + v ^ a
    linarith
  · have hC : ∀ t : ℝ, Family.copula .clayton θ ![t, t] = (max (t ^ a + t ^ a - 1) 0) ^ (1 / a) := by
      intro t
      rw [← pairPoint_two, ← hinv]
      exact clayton_pairPoint θ (by simp) t t
    rw [← pairPoint_two, asymmetry_pair ha hP (by simp) (by linarith) (by linarith), hC, hC, show 1 - v = u by rw [hv]; ring, hua]
    norm_num only [max_self]
    rw [Real.zero_rpow (by positivity), max_eq_left (by linarith)]
    have h3 : 2 * v - 1 < (v ^ a + v ^ a - 1) ^ (1 / a) := by
      have h4 : ((2 * v - 1) ^ a) ^ (1 / a) < (v ^ a + v ^ a - 1) ^ (1 / a) :=
        Real.rpow_lt_rpow (Real.rpow_nonneg (by linarith) _) (by linarith) (by positivity)
      rwa [← Real.rpow_mul (by linarith), mul_one_div_cancel ha0.ne', Real.rpow_one] at h4
    have : 0 < (v ^ a + v ^ a - 1) ^ (1 / a) - (2 * v - 1 + 0) := by linarith
    exact this.ne'

/-! ### Radially symmetric copulas -/

theorem frankC2_reflect {θ a b : ℝ} (hθ : θ ≠ 0) (ha : 0 ≤ a) (ha1 : a ≤ 1) (hb : 0 ≤ b) (hb1 : b ≤ 1) :
    frankC2 θ a b = a + b - 1 + frankC2 θ (1 - a) (1 - b) := by
  have d1 := frank_den hθ ha ha1 hb hb1
  have d2 := frank_den (u := 1 - a) (b := 1 - b) hθ (by linarith) (by linarith) (by linarith) (by linarith)
  have hE : Real.exp (-θ) - 1 ≠ 0 := by
    intro h
    have : Real.exp (-θ) = Real.exp 0 := by rw [Real.exp_zero]; linarith
    have := Real.exp_injective this
    exact hθ (by linarith)
  unfold frankC2
  have key : 1 + (Real.exp (-θ * a) - 1) * (Real.exp (-θ * b) - 1) / (Real.exp (-θ) - 1) =
      Real.exp (-θ * (a + b - 1)) * (1 + (Real.exp (-θ * (1 - a)) - 1) * (Real.exp (-θ * (1 - b)) - 1) / (Real.exp (-θ) - 1)) := by
    have e1 : Real.exp (-θ * (a + b - 1)) * Real.exp (-θ) = Real.exp (-θ * a) * Real.exp (-θ * b) := by
      rw [← Real.exp_add, ← Real.exp_add]; ring_nf
    have e2 : Real.exp (-θ * (a + b - 1)) * Real.exp (-θ * (1 - a)) = Real.exp (-θ * b) := by
      rw [← Real.exp_add]; ring_nf
    have e3 : Real.exp (-θ * (a + b - 1)) * Real.exp (-θ * (1 - b)) = Real.exp (-θ * a) := by
      rw [← Real.exp_add]; ring_nf
    have e5 : Real.exp (-θ * (a + b - 1)) * (Real.exp (-θ * (1 - a)) * Real.exp (-θ * (1 - b))) = Real.exp (-θ) := by
      rw [← Real.exp_add, ← Real.exp_add]; ring_nf
    have alg : ∀ A B E D A' B' : ℝ, E - 1 ≠ 0 → D * E = A * B → D * A' = B → D * B' = A → D * (A' * B') = E →
        1 + (A - 1) * (B - 1) / (E - 1) = D * (1 + (A' - 1) * (B' - 1) / (E - 1)) := by
      intro A B E D A' B' hE e1 e2 e3 e5
      field_simp
      linear_combination (-1 : ℝ) * e1 + e2 + e3 - e5
    exact alg _ _ _ _ _ _ hE e1 e2 e3 e5
  rw [key, Real.log_mul (Real.exp_ne_zero _) d2.ne', Real.log_exp]
  field_simp
  ring

theorem frank_reflected {P : Measure (Fin 2 → ℝ)} {θ : ℝ} (ha : Admissible .frank θ 2) (hP : IsLawOf P (Family.copula .frank θ)) :
    reflected P = P := by
  have := hP.prob
  have hu := uniform_of_law hP fun j v h0 h1 => copula_margin ha j v h0 h1
  refine IsLawOf.unique (C := Family.copula .frank θ) ⟨?_, ?_, fun b hb => ?_⟩ hP
  · exact Measure.isProbabilityMeasure_map measurable_reflect.aemeasurable
  · rw [reflected, ae_map_iff measurable_reflect.aemeasurable (by
      have : {x : Fin 2 → ℝ | ∀ j, 0 < x j ∧ x j < 1} = ⋂ j, {x | 0 < x j ∧ x j < 1} := by ext; simp
      exact this ▸ MeasurableSet.iInter fun j => (measurableSet_lt measurable_const (measurable_pi_apply j)).inter
        (measurableSet_lt (measurable_pi_apply j) measurable_const))]
    filter_upwards [hP.mem] with x hx j
    have := hx j
    exact ⟨by unfold reflect; linarith, by unfold reflect; linarith⟩
  · have h01 : (0 : Fin 2) ≠ 1 := by simp
    have hbe : b = pairPoint 0 1 (b 0) (b 1) := by rw [pairPoint_two]; funext k; fin_cases k <;> rfl
    have hd : ∀ a c : ℝ, 0 ≤ a → a ≤ 1 → 0 ≤ c → c ≤ 1 → distFn P (pairPoint 0 1 a c) = frankC2 θ a c := by
      intro a c a0 a1 c0 c1
      have hz : ∀ k : Fin 2, pairPoint (0 : Fin 2) 1 a c k = 0 → distFn P (pairPoint 0 1 a c) = 0 := by
        intro k hk
        have := uniform_le hu k (v := 0) le_rfl zero_le_one
        refine le_antisymm ?_ measureReal_nonneg
        rw [← this, ← hk]
        exact measureReal_mono fun x hx => hx k
      rcases a0.eq_or_lt with e | e
      · rw [hz 0 (by simp [pairPoint, ← e]), ← e]
        simp [frankC2]
      rcases c0.eq_or_lt with e' | e'
      · rw [hz 1 (by simp [pairPoint, ← e']), ← e']
        simp [frankC2]
      rw [hP.dist, ← frank_pairPoint ha.2.1 h01 e e']
      · rfl
      · intro k
        fin_cases k
        · exact ⟨e, a1⟩
        · exact ⟨e', c1⟩
    rw [hbe, pair_reflect hu h01 (hb 0).1.le (hb 0).2 (hb 1).1.le (hb 1).2, hd _ _ (by linarith [(hb 0).2]) (by linarith [(hb 0).1])
      (by linarith [(hb 1).2]) (by linarith [(hb 1).1]), ← frankC2_reflect ha.2.1 (hb 0).1.le (hb 0).2 (hb 1).1.le (hb 1).2]
    exact (frank_pairPoint ha.2.1 h01 (hb 0).1 (hb 1).1).symm

theorem gaussian_neg {S : Matrix (Fin d) (Fin d) ℝ} (hS : S.PosSemidef) :
    (multivariateGaussian 0 S).map (fun z => -z) = multivariateGaussian 0 S := by
  refine Measure.ext_of_charFun ?_
  funext t
  have e : (fun z : EuclideanSpace ℝ (Fin d) => -z) = fun z => (-1 : ℝ) • z := by funext z; simp
  rw [e, charFun_map_smul, charFun_multivariateGaussian hS, charFun_multivariateGaussian hS]
  simp [Matrix.mulVec_neg]

theorem cdf_neg {μ : Measure ℝ} [IsProbabilityMeasure μ] (hs : μ.map (fun x => -x) = μ) (hat : ∀ x, μ {x} = 0) (x : ℝ) :
    cdf μ (-x) = 1 - cdf μ x := by
  have hatom : NullSingletonClass μ := ⟨hat⟩
  have h2 : μ.real (Set.Iic (-x)) = μ.real (Set.Ici x) := by
    conv_lhs => rw [← hs]
    rw [map_measureReal_apply measurable_neg measurableSet_Iic]
    congr 1
    ext x; simp
  rw [cdf_eq_real, cdf_eq_real, h2, measureReal_congr Ioi_ae_eq_Ici.symm, ← Set.compl_Iic,
    probReal_compl_eq_one_sub measurableSet_Iic]

theorem gaussLaw_reflected {S : Matrix (Fin d) (Fin d) ℝ} (hS : S.PosSemidef) : reflected (gaussLaw S) = gaussLaw S := by
  have hg : (gaussianReal 0 1).map (fun x => -x) = gaussianReal 0 1 := by
    have := gaussianReal_map_neg (μ := 0) (v := 1)
    rw [this]; simp
  have hm : Measurable fun (z : EuclideanSpace ℝ (Fin d)) j => cdf (gaussianReal 0 1) (z j) :=
    measurable_pi_lambda _ fun j => (monotone_cdf _).measurable.comp (by fun_prop)
  have hatom : NullSingletonClass (gaussianReal 0 1) := nullSingletonClass_gaussianReal one_ne_zero
  rw [reflected, gaussLaw, Measure.map_map measurable_reflect hm]
  conv_rhs => rw [← gaussian_neg hS, Measure.map_map hm measurable_neg]
  congr 1
  funext z j
  exact (cdf_neg hg (fun x => measure_singleton x) (z j)).symm

theorem studentLaw_reflected {S : Matrix (Fin d) (Fin d) ℝ} (hS : S.PosSemidef) {ν : ℝ} (hν : 0 < ν) :
    reflected (studentLaw S ν) = studentLaw S ν := by
  have := tLine_prob hν
  have := chi_prob hν
  have hac : Spec.tLine ν ≪ MeasureTheory.volume := by rw [tLine_density hν]; exact withDensity_absolutelyContinuous _ _
  have hsym : (Spec.tLine ν).map (fun x => -x) = Spec.tLine ν := by
    have hl : Measurable fun p : ℝ × ℝ => p.1 / √(p.2 / ν) := by fun_prop
    have hg : (gaussianReal 0 1).map (fun x => -x) = gaussianReal 0 1 := by
      have := gaussianReal_map_neg (μ := 0) (v := 1)
      rw [this]; simp
    rw [Spec.tLine, Measure.map_map measurable_neg hl]
    conv_rhs => rw [← hg, ← Measure.map_id (μ := gammaMeasure (ν / 2) (1 / 2))]
    rw [Measure.map_prod_map _ _ measurable_neg measurable_id, Measure.map_map hl (by fun_prop)]
    congr 1
    funext p
    simp [neg_div]
  have hm : Measurable fun (x : Fin d → ℝ) j => cdf (Spec.tLine ν) (x j) :=
    measurable_pi_lambda _ fun j => (monotone_cdf _).measurable.comp (by fun_prop)
  have hv : Measurable fun (p : EuclideanSpace ℝ (Fin d) × ℝ) j => p.1 j / √(p.2 / ν) := by
    refine measurable_pi_lambda _ fun j => ?_
    fun_prop
  have hneg : (tVector S ν).map (fun x => -x) = tVector S ν := by
    rw [tVector, Measure.map_map measurable_neg hv]
    conv_rhs => rw [← gaussian_neg hS, ← Measure.map_id (μ := gammaMeasure (ν / 2) (1 / 2))]
    rw [Measure.map_prod_map _ _ measurable_neg measurable_id, Measure.map_map hv (by fun_prop)]
    congr 1
    funext p j
    simp [neg_div]
  rw [reflected, studentLaw, Measure.map_map measurable_reflect hm]
  conv_rhs => rw [← hneg, Measure.map_map hm measurable_neg]
  congr 1
  funext z j
  exact (cdf_neg hsym (fun x => hac (measure_singleton x)) (z j)).symm

theorem indep_reflected : reflected (iid d unif) = iid d unif := by
  have h := Measure.pi_map_pi (μ := fun _ : Fin d => unif) (f := fun _ (x : ℝ) => 1 - x) fun _ => (by fun_prop)
  have hu : unif.map (fun x => 1 - x) = unif := by
    have hp := Measure.measurePreserving_sub_left (MeasureTheory.volume : Measure ℝ) 1
    have := hp.restrict_preimage (s := Ioo (0 : ℝ) 1) measurableSet_Ioo
    have e : (fun x : ℝ => 1 - x) ⁻¹' Ioo 0 1 = Ioo 0 1 := by
      ext x
      simp only [mem_preimage, mem_Ioo]
      constructor <;> rintro ⟨_, _⟩ <;> constructor <;> linarith
    rw [e] at this
    exact this.map_eq
  rw [hu] at h
  exact h

end Copulae
