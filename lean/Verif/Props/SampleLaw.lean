import Verif.Lemmas.SampleLaw
import Verif.Lemmas.IdealGen
import Mathlib.Probability.Moments.Variance

/-!
C120: with an ideal random generator, the rows returned by `random(n)` are independent and every one of them has the law of
the copula.
-/

namespace Copulae

open MeasureTheory ProbabilityTheory Set Spec CopulaMeasure

variable {G : Gen} [MeasurableSpace G.S] {P : Measure G.S}

/-- **C120**, independence copula. -/
theorem indep_random_iid (h : IsIdeal G P) (d : ℕ) :
    ∃ L, IsLawOf L (fun u : Fin d → ℝ => ∏ j, u j) ∧
      ∀ n, Draws P ((Sampler.indep : Sampler G d).random n none) matFl (iid n L) := by
  refine ⟨iid d unif, ⟨inferInstance, iid_ae unif_ae, fun b hb => ?_⟩, fun n => randomUniform_draws h n d⟩
  unfold distFn
  rw [measureReal_def, iid_unif, Measure.restrict_apply (by
    have : {x : Fin d → ℝ | ∀ j, x j ≤ b j} = ⋂ j, {x | x j ≤ b j} := by ext; simp
    rw [this]
    exact MeasurableSet.iInter fun j => measurable_pi_apply j measurableSet_Iic)]
  have e : {x : Fin d → ℝ | ∀ j, x j ≤ b j} ∩ {x | ∀ j, x j ∈ Ioo (0 : ℝ) 1} =
      {q | (∀ j, q j ∈ Ioo (0 : ℝ) 1) ∧ ∀ j, q j ≤ b j} := by
    ext x
    exact and_comm
  rw [e, cube_le_volume hb, ENNReal.toReal_ofReal (Finset.prod_nonneg fun j _ => (hb j).1.le)]

/-- **C120**, Clayton copula in two dimensions, parameters above -1 not within 1e-7 of zero. -/
theorem clayton_pair_iid (h : IsIdeal G P) {θ : ℝ} (h1 : -1 < θ) (h0 : 1 / 10 ^ 7 ≤ |θ|) :
    ∃ L, IsLawOf L (Spec.clayton (d := 2) θ) ∧
      ∀ n, Draws P ((Sampler.clayton θ : Sampler G 2).random n none) matFl (iid n L) := by
  have := h.prob
  obtain ⟨V, hV, hrun⟩ := clayton_random_pair h1 h0
  refine ⟨pairSampleLaw V, pairSampleLaw_isLaw hV fun b _ => Real.rpow_nonneg (le_max_right _ _) _, fun n => ?_⟩
  have hd := (randomUniform_draws h n 2).map (fun r => claytonRandom θ r fun _ => .nan)
    (g := fun r i => ![r i 0, V (r i 0) (r i 1)]) (e' := matFl)
    (by
      refine measurable_pi_lambda _ fun i => measurable_pi_lambda _ fun j => ?_
      have m0 : Measurable fun r : Fin n → Fin 2 → ℝ => r i 0 := by fun_prop
      have m1 : Measurable fun r : Fin n → Fin 2 → ℝ => (r i 0, r i 1) := by fun_prop
      fin_cases j
      · exact m0
      · exact hV.meas.comp m1)
    ((iid_unif_ae n 2).mono fun r hr => by
      rw [show matFl r = fun i j => Fl.fin (r i j) from rfl, hrun n r _ hr]
      refine congrArg Except.ok (funext fun i => funext fun j => ?_)
      fin_cases j <;> rfl)
  rw [pair_rows hV.meas] at hd
  refine hd.congr fun s => ?_
  show (claytonRandomG θ n 2 none : Rnd G _).exec s = _
  unfold claytonRandomG
  rw [if_neg (not_lt.mpr h0)]
  rfl

/-- **C120**, Clayton copula in three or more dimensions, parameters from 1e-7. -/
theorem clayton_frailty_iid (h : IsIdeal G P) {θ : ℝ} (hθ : 1 / 10 ^ 7 ≤ θ) {d : ℕ} (hd : 2 < d) :
    ∃ L, IsLawOf L (Spec.clayton (d := d) θ) ∧
      ∀ n, Draws P ((Sampler.clayton θ : Sampler G d).random n none) matFl (iid n L) := by
  have := h.prob
  have h0 : 0 < θ := lt_of_lt_of_le (by norm_num) hθ
  have : IsProbabilityMeasure (gammaMeasure (1 / θ) 1) := isProbabilityMeasure_gammaMeasure (by positivity) one_pos
  obtain ⟨U, hU, hrun⟩ := clayton_random_frailty hθ (d := d) (by omega)
  refine ⟨frailtyLaw (gammaMeasure (1 / θ) 1) d U, frailtyLaw_isLaw _ hU.meas (gamma_pos.mono fun x hx r hr => hU.mem r hr x hx)
    (clayton_ones θ d) (fun b _ => Real.rpow_nonneg (le_max_right _ _) _) hU.dist, fun n => ?_⟩
  have hs := ((randomUniform_draws h n d).seq (h.gamma (1 / θ) (by positivity) n)).map
    (fun p => claytonRandom θ p.1 p.2) (g := fun p i j => U (p.1 i j) (p.2 i)) (e' := matFl)
    (by
      refine measurable_pi_lambda _ fun i => measurable_pi_lambda _ fun j => ?_
      have h2 : Measurable fun p : (Fin n → Fin d → ℝ) × (Fin n → ℝ) => (p.1 i j, p.2 i) := by fun_prop
      exact hU.meas.comp h2)
    ((ae_prod_of (iid_unif_ae n d) (iid_ae gamma_pos)).mono fun p hp => hrun n p.1 p.2 hp.1 hp.2)
  rw [frail_rows _ hU.meas] at hs
  refine hs.congr fun s => ?_
  show (claytonRandomG θ n d none : Rnd G _).exec s = _
  unfold claytonRandomG
  rw [if_neg (by rw [abs_of_pos h0]; exact not_lt.mpr hθ)]
  simp only [if_neg (show ¬ d = 2 by omega)]
  rfl

/-- **C120**, Gumbel copula, parameters above `1 + 1e-5 + 1e-8`. -/
theorem gumbel_random_iid (h : IsIdeal G P) {θ : ℝ} (hθ : 1 + (1 / 10 ^ 8 + 1 / 10 ^ 5) < θ) (d : ℕ) :
    ∃ L, IsLawOf L (Spec.gumbel (d := d) θ) ∧
      ∀ n, Draws P ((Sampler.gumbel gumbelFrail θ : Sampler G d).random n none) matFl (iid n L) := by
  have := h.prob
  have hθ1 : 1 < θ := lt_trans (by norm_num) hθ
  obtain ⟨U, hm, hmem, hdist, hrun⟩ := gumbel_random_law_partial hθ (d := d) fun _ _ => .ok .nan
  have hfs : IsProbabilityMeasure frailSpace := by
    unfold frailSpace
    infer_instance
  refine ⟨frailtyLaw frailSpace d U, frailtyLaw_isLaw _ hm (frailSpace_ae.mono fun p hp r hr => hmem r hr p hp.1 hp.2)
    (gumbel_ones (by linarith) d) (fun b _ => (Real.exp_pos _).le) hdist, fun n => ?_⟩
  have htw := ((h.uniform1 n).seq (h.expo n)).map_pure (fun p => p) (g := fun p i => (p.1 i, p.2 i))
    (e' := fun x => (fun i => (x i).1, fun i => (x i).2)) (by fun_prop) (Filter.Eventually.of_forall fun p => rfl)
  have hz : ((iid n unif).prod (iid n (expMeasure 1))).map (fun p i => (p.1 i, p.2 i)) = iid n frailSpace := by
    have := iid_zip (n := n) (L := unif) (M := expMeasure 1) measurable_id
    rw [Measure.map_id] at this
    exact this
  rw [hz] at htw
  have hψ := gumbelPsi_ok (show θ ≠ 0 by linarith)
  have hs := ((randomUniform_draws h n d).seq htw).map
    (fun p => gumbelRandom (fun _ _ => .ok .nan) θ p.1 (fun _ _ => .fin 0) (fun _ => 0) p.2.1 p.2.2)
    (g := fun p i j => U (p.1 i j) (p.2 i)) (e' := matFl)
    (by
      refine measurable_pi_lambda _ fun i => measurable_pi_lambda _ fun j => ?_
      have h2 : Measurable fun p : (Fin n → Fin d → ℝ) × (Fin n → ℝ × ℝ) => (p.1 i j, p.2 i) := by fun_prop
      exact hm.comp h2)
    ((ae_prod_of (iid_unif_ae n d) (iid_ae frailSpace_ae)).mono fun p hp =>
      hrun n p.1 (fun _ _ => 0) _ _ _ hp.1 (fun i => (hp.2 i).1) (fun i => (hp.2 i).2))
  rw [frail_rows _ hm] at hs
  refine hs.congr fun s => ?_
  simp only [gumbelRandom_eq_frail hθ _ _ _ _ _ _ hψ]
  show (gumbelRandomG gumbelFrail θ n d none : Rnd G _).exec s = _
  unfold gumbelRandomG
  simp only [if_neg (show ¬ θ - 1 < 1 / 10 ^ 7 by linarith),
    if_neg (show ¬ |θ - 1| ≤ 1 / 10 ^ 8 + 1 / 10 ^ 5 by rw [abs_of_pos (by linarith)]; linarith), hψ]
  rfl

/-- **C120**, Frank copula in two dimensions, parameters not within 1e-7 of zero. In other dimensions the rows have another
law, see `frank_random_frailty_partial`. -/
theorem frank_pair_iid_partial (h : IsIdeal G P) (ls : ℝ → (n : ℕ) → Rnd G (Fin n → Fl)) {θ : ℝ} (h0 : 1 / 10 ^ 7 ≤ |θ|) :
    ∃ L, IsLawOf L (Spec.frank (d := 2) θ) ∧
      ∀ n, Draws P ((Sampler.frank ls θ : Sampler G 2).random n none) matFl (iid n L) := by
  have := h.prob
  have hθ : θ ≠ 0 := by
    rintro rfl
    rw [abs_zero] at h0
    norm_num at h0
  obtain ⟨V, hV, hrun⟩ := frank_random_pair h0
  have hL : IsLawOf (pairSampleLaw V) (Spec.frank θ) := by
    refine pairSampleLaw_isLaw hV fun b hb => ?_
    have := (frank_pairLaw hθ).dist (b 0) (b 1) (hb 0).1 (hb 0).2 (hb 1).1 (hb 1).2
    have e : Spec.frank θ b = frankC2 θ (b 0) (b 1) := by simp [Spec.frank, Fin.prod_univ_two, frankC2]
    rw [e, ← this]
    exact measureReal_nonneg
  refine ⟨pairSampleLaw V, hL, fun n => ?_⟩
  have hd := (randomUniform_draws h n 2).map_pure (fun r => frankRandom θ r fun _ => .nan)
    (g := fun r i => ![r i 0, V (r i 0) (r i 1)]) (e' := matFl)
    (by
      refine measurable_pi_lambda _ fun i => measurable_pi_lambda _ fun j => ?_
      have m0 : Measurable fun r : Fin n → Fin 2 → ℝ => r i 0 := by fun_prop
      have m1 : Measurable fun r : Fin n → Fin 2 → ℝ => (r i 0, r i 1) := by fun_prop
      fin_cases j
      · exact m0
      · exact hV.meas.comp m1)
    ((iid_unif_ae n 2).mono fun r hr => by
      rw [show matFl r = fun i j => Fl.fin (r i j) from rfl, hrun n r _ hr]
      refine funext fun i => funext fun j => ?_
      fin_cases j <;> rfl)
  rw [pair_rows hV.meas] at hd
  refine hd.congr fun s => ?_
  show (frankRandomG ls θ n 2 none : Rnd G _).exec s = _
  unfold frankRandomG
  simp only [if_neg (not_lt.mpr h0), if_true]

theorem normalLaw_zero {d : ℕ} (S : Matrix (Fin d) (Fin d) ℝ) : normalLaw (fun _ => 0) S = gauss S := by
  unfold normalLaw gauss
  congr 1
  funext z j
  exact zero_add _

/-- **C120**, Gaussian copula with a positive semidefinite matrix. -/
theorem gaussian_random_iid (h : IsIdeal G P) {d : ℕ} {S : Matrix (Fin d) (Fin d) ℝ} (hS : S.PosSemidef) (n : ℕ) :
    Draws P ((Sampler.gaussian (fun x => .fin (normCdf x)) S : Sampler G d).random n none) matFl (iid n (gaussLaw S)) := by
  have := h.prob
  have hm := measurable_pointwise (d := d) normMargin.measurable
  have hd := (h.mvn n d (fun _ => 0) S hS).map_pure (fun r i j => Fl.fin (normCdf (r i j)))
    (g := fun r i j => normCdf (r i j)) (e' := matFl)
    (measurable_pi_lambda _ fun i => hm.comp (measurable_pi_apply i)) (Filter.Eventually.of_forall fun r => rfl)
  rw [iid_map hm, normalLaw_zero, ← cubeLaw, ← gaussLaw_eq] at hd
  exact hd.congr fun s => rfl

/-- **C120**, Student copula with a positive semidefinite matrix and at most 10000 degrees of freedom (above, see
`studentRandom_large`). -/
theorem student_random_iid_partial (h : IsIdeal G P) {d : ℕ} {S : Matrix (Fin d) (Fin d) ℝ} (hS : S.PosSemidef) {ν : ℝ} (hν : 0 < ν)
    (hν' : ν ≤ 10000) (n : ℕ) :
    Draws P ((Sampler.student (fun x => .fin ((Spec.tLine ν).real (Iic x))) S ν : Sampler G d).random n none) matFl
      (iid n (studentLaw S ν)) := by
  have := h.prob
  have hmT : Measurable (tCdfR ν) := (tMargin hν).measurable
  have hchi := chi_prob hν
  have hsc : Measurable (fun p : (Fin d → ℝ) × ℝ => tScale ν p.2 • p.1) := measurable_scale (measurable_tScale ν)
  have hf : Measurable fun p : ℝ × (Fin d → ℝ) => fun j => tCdfR ν (p.2 j / √(p.1 / ν)) := by
    refine measurable_pi_lambda _ fun j => hmT.comp ?_
    fun_prop
  have hd := ((h.chisq ν hν n).seq (h.mvn n d (fun _ => 0) S hS)).map_pure
    (fun p i j => Fl.fin (tCdfR ν (p.2 i j / √(p.1 i / ν))))
    (g := fun p i j => tCdfR ν (p.2 i j / √(p.1 i / ν))) (e' := matFl)
    (measurable_pi_lambda _ fun i => by
      have h2 : Measurable fun p : (Fin n → ℝ) × (Fin n → Fin d → ℝ) => (p.1 i, p.2 i) := by fun_prop
      exact hf.comp h2) (Filter.Eventually.of_forall fun r => rfl)
  have hz := iid_zip (n := n) (L := gammaMeasure (ν / 2) (1 / 2)) (M := normalLaw (fun _ => 0) S) hf
  rw [hz] at hd
  have e : ((gammaMeasure (ν / 2) (1 / 2)).prod (normalLaw (fun _ => 0) S)).map
      (fun p j => tCdfR ν (p.2 j / √(p.1 / ν))) = studentLaw S ν := by
    rw [normalLaw_zero, studentLaw_eq S hν, cubeLaw, tVector_eq S hν, scaleMix, Measure.map_map (measurable_pointwise hmT) hsc,
      ← Measure.prod_swap, Measure.map_map hf measurable_swap]
    congr 1
    funext p
    simp [tScale, div_eq_inv_mul]
  rw [e] at hd
  refine hd.congr fun s => ?_
  show (studentRandomG _ n d S ν none : Rnd G _).exec s = _
  unfold studentRandomG mvtRvs
  rw [if_neg (not_le.mpr hν), if_neg (not_lt.mpr hν')]
  rfl

/-- **C120**, empirical copula: independent rows, each a row of the data chosen with equal probabilities. -/
theorem empirical_random_iid (h : IsIdeal G P) {m d : ℕ} (hm : 0 < m) (data : Fin m → Fin d → ℝ) (n : ℕ) :
    Draws P ((Sampler.empirical m data : Sampler G d).random n none) matFl
      (iid n (∑ k, ENNReal.ofReal (1 / m) • Measure.dirac (data k))) := by
  have := h.prob
  have hp : IsProbabilityMeasure (pick fun _ : Fin m => (1 : ℝ) / m) :=
    pick_prob (fun _ => by positivity) (by simp; field_simp)
  have hmd : Measurable data := measurable_of_countable data
  have hd := (h.randint m n hm).map
    (fun k => if h : ∀ i, k i < m then .ok fun i j => Fl.fin (data ⟨k i, h i⟩ j) else .error .indexError)
    (g := fun k i => data (k i)) (e' := matFl)
    (measurable_pi_lambda _ fun i => hmd.comp (measurable_pi_apply i))
    (Filter.Eventually.of_forall fun k => by rw [dif_pos fun i => (k i).2]; rfl)
  have e : (pick fun _ : Fin m => (1 : ℝ) / m).map data = ∑ k, ENNReal.ofReal (1 / m) • Measure.dirac (data k) := by
    unfold pick
    rw [Measure.map_finset_sum hmd.aemeasurable]
    refine Finset.sum_congr rfl fun k _ => ?_
    rw [Measure.map_smul, Measure.map_dirac]
  rw [iid_map hmd, e] at hd
  refine hd.congr fun s => ?_
  show (empiricalRandomG data n none : Rnd G _).exec s = _
  unfold empiricalRandomG
  rw [exec_bind, exec_seed_none]
  simp only
  rw [exec_bind, exec_bind, exec_draw]
  simp only
  split_ifs <;> rfl

/-- **C120**, the latent rows of a Gaussian mixture copula have the law of the normal mixture. -/
theorem gmm_random_iid (h : IsIdeal G P) {k d : ℕ} {p : Fin k → ℝ} {S : Fin k → Matrix (Fin d) (Fin d) ℝ}
    (hp : Spec.IsMixture p S) (μ : Fin k → Fin d → ℝ) (n : ℕ) :
    Draws P (randomGmm (⟨p, μ, S⟩ : Mixture k d) n : Rnd G _) id (iid n (gmmLaw p μ S)) := by
  have := h.prob
  have hpick := pick_prob hp.nonneg hp.sum
  have hk : ∀ o : Fin n → Fin k, Draws P ((List.finRange k).foldlM
      (gmmCluster (⟨p, μ, S⟩ : Mixture k d) fun i => (o i : ℕ)) (fun _ _ => 0) : Rnd G _) id
      (Measure.pi fun i => normalLaw (μ (o i)) (S (o i))) := by
    intro o
    obtain ⟨Y, nx, hY, hn, hrun, hmap⟩ := loop_draws h (⟨p, μ, S⟩ : Mixture k d) (fun c => hp.psd c) o (List.finRange k)
    refine ⟨Y, nx, hY, hn, hrun.mono fun s hs => ?_, ?_⟩
    · rw [hs]
      simp
    · rw [hmap]
      simp only [List.mem_finRange, if_true]
      rfl
  have hb := (h.choice k n p hp.nonneg hp.sum).bind
    (fun o => (List.finRange k).foldlM (gmmCluster (⟨p, μ, S⟩ : Mixture k d) o) (fun _ _ => 0)) hk
  rw [mixture_rows hp.nonneg hp.sum fun c => normalLaw (μ c) (S c)] at hb
  exact hb.congr fun s => rfl

/-- **C120**, Gaussian mixture copula: independent rows inside the cube; their distribution function differs from that of the
copula by at most 1.25e-5 per coordinate. -/
theorem gmc_random_iid (h : IsIdeal G P) {k d : ℕ} {p : Fin k → ℝ} {S : Fin k → Matrix (Fin d) (Fin d) ℝ}
    (hp : Spec.IsMixture p S) (μ : Fin k → Fin d → ℝ) :
    ∃ L, IsProbabilityMeasure L ∧ (∀ᵐ u ∂L, ∀ j, u j ∈ Ioo (0 : ℝ) 1) ∧
      (∀ u : Fin d → ℝ, (∀ j, 0 ≤ u j ∧ u j ≤ 1) → |distFn L u - distFn (gmcLaw p μ S) u| ≤ d * 1.25e-5) ∧
      ∀ n, Draws P ((Sampler.gmc k (fun q j x => gmmMarginalCdf (flParam q.prob q.mean fun c => Matrix.of (q.cov c)) j (.fin x))
        ⟨p, μ, S⟩ : Sampler G d).random n none) matFl (iid n L) := by
  have := h.prob
  have hpr := hp.isProb μ
  obtain ⟨U, hU, hmem, hval, hdist⟩ := gmc_random_law (μ := μ) hp
  refine ⟨(gmmLaw p μ S).map U, Measure.isProbabilityMeasure_map hU.aemeasurable, ?_, hdist, fun n => ?_⟩
  · rw [ae_map_iff hU.aemeasurable (by
      have : {u : Fin d → ℝ | ∀ j, u j ∈ Ioo (0 : ℝ) 1} = ⋂ j, {u | u j ∈ Ioo (0 : ℝ) 1} := by ext; simp
      rw [this]
      exact MeasurableSet.iInter fun j => measurable_pi_apply j measurableSet_Ioo)]
    exact Filter.Eventually.of_forall hmem
  · have hd := (gmm_random_iid h hp μ n).map_pure
      (fun z i j => gmmMarginalCdf (flParam p μ S) j (.fin (z i j))) (g := fun z i => U (z i)) (e' := matFl)
      (measurable_pi_lambda _ fun i => hU.comp (measurable_pi_apply i))
      (Filter.Eventually.of_forall fun z => funext fun i => funext fun j => hval (z i) j)
    rw [iid_map hU] at hd
    exact hd.congr fun s => rfl

/-- **C120**, copula with margins: if `random` of the copula draws independent rows with law `L` and the quantile functions
return numbers almost everywhere, the rows are independent with the image law. -/
theorem marginal_random_iid (h : IsIdeal G P) {d : ℕ} (c : Sampler G d) {L : Measure (Fin d → ℝ)} [IsProbabilityMeasure L]
    (hc : ∀ n, Draws P (c.random n none) matFl (iid n L)) (ppf : Fin d → Fl → Fl) {q : Fin d → ℝ → ℝ}
    (hq : ∀ j, Measurable (q j)) (hppf : ∀ᵐ u ∂L, ∀ j, ppf j (.fin (u j)) = .fin (q j (u j))) (n : ℕ) :
    Draws P ((Sampler.marginal c ppf).random n none) matFl (iid n (L.map fun u j => q j (u j))) := by
  have := h.prob
  have hm : Measurable fun (u : Fin d → ℝ) j => q j (u j) :=
    measurable_pi_lambda _ fun j => (hq j).comp (measurable_pi_apply j)
  have hd := (hc n).map_pure (fun u i j => ppf j (u i j)) (g := fun u i j => q j (u i j)) (e' := matFl)
    (measurable_pi_lambda _ fun i => hm.comp (measurable_pi_apply i))
    ((iid_ae hppf).mono fun u hu => funext fun i => funext fun j => hu i j)
  rw [iid_map hm] at hd
  exact hd.congr fun s => rfl

/-- **C120** Successive calls are independent. -/
theorem random_calls_independent (h : IsIdeal G P) {d d' n n' : ℕ} (c : Sampler G d) (c' : Sampler G d')
    {L : Measure (Fin n → Fin d → ℝ)} {L' : Measure (Fin n' → Fin d' → ℝ)} [SFinite L] [SFinite L']
    (hc : Draws P (c.random n none) matFl L) (hc' : Draws P (c'.random n' none) matFl L') :
    Draws P (do let x ← c.random n none; let y ← c'.random n' none; return (x, y)) (Prod.map matFl matFl) (L.prod L') := by
  have := h.prob
  exact hc.seq hc'

/-- The fraction of independent rows that fall into a set. -/
theorem iid_frequency {n d : ℕ} {L : Measure (Fin d → ℝ)} [IsProbabilityMeasure L] (hn : 0 < n) {B : Set (Fin d → ℝ)}
    (hB : MeasurableSet B) {ε : ℝ} (hε : 0 < ε) :
    MeasurableSet {x : Fin n → Fin d → ℝ | ε ≤ |(Nat.card {i // x i ∈ B} : ℝ) / n - L.real B|} ∧
      iid n L {x | ε ≤ |(Nat.card {i // x i ∈ B} : ℝ) / n - L.real B|} ≤ ENNReal.ofReal (1 / (4 * n * ε ^ 2)) := by
  classical
  let f : (Fin d → ℝ) → ℝ := B.indicator fun _ => 1
  have hf : Measurable f := measurable_const.indicator hB
  have hf01 : ∀ x, f x ∈ Icc (0 : ℝ) 1 := fun x => by
    simp only [f, indicator]
    split_ifs <;> simp
  have hfL : MemLp f 2 L := memLp_of_bounded (ae_of_all _ hf01) hf.aestronglyMeasurable 2
  let F : (Fin n → Fin d → ℝ) → ℝ := ∑ i, fun x => f (x i)
  have hFm : Measurable F := by
    have : F = fun x => ∑ i, f (x i) := by funext x; simp [F]
    rw [this]
    exact Finset.measurable_sum _ fun i _ => hf.comp (measurable_pi_apply i)
  have hcard : ∀ x : Fin n → Fin d → ℝ, (Nat.card {i // x i ∈ B} : ℝ) = F x := by
    intro x
    rw [Nat.card_eq_fintype_card, Fintype.card_subtype]
    simp [F, f, indicator]
  have hev : ∀ i : Fin n, ∫ x, f (x i) ∂(iid n L) = L.real B := by
    intro i
    have e := integral_map (μ := iid n L) (φ := Function.eval i) (f := f) (measurable_pi_apply i).aemeasurable
      hf.aestronglyMeasurable
    rw [iid, (measurePreserving_eval (fun _ : Fin n => L) i).map_eq] at e
    rw [iid]
    refine e.symm.trans ?_
    rw [integral_indicator_const _ hB, smul_eq_mul, mul_one]
  have hint : ∀ i : Fin n, Integrable (fun x => f (x i)) (iid n L) := fun i =>
    (memLp_of_bounded (ae_of_all _ fun x : Fin n → Fin d → ℝ => hf01 (x i)) (hf.comp (measurable_pi_apply i)).aestronglyMeasurable 1).integrable
      le_rfl
  have hmean : ∫ x, F x ∂(iid n L) = n * L.real B := by
    have : F = fun x => ∑ i, f (x i) := by funext x; simp [F]
    rw [this, integral_finsetSum _ fun i _ => hint i]
    simp [hev]
  have hvar : variance F (iid n L) ≤ n * (1 / 4) := by
    have e : variance F (iid n L) = ∑ _i : Fin n, variance f L := variance_sum_pi (μ := fun _ : Fin n => L) fun _ => hfL
    rw [e, Finset.sum_const, Finset.card_univ, Fintype.card_fin, nsmul_eq_mul]
    refine mul_le_mul_of_nonneg_left ?_ (Nat.cast_nonneg n)
    have := variance_le_sq_of_bounded (μ := L) (ae_of_all _ hf01) hf.aemeasurable
    norm_num at this ⊢
    exact this
  have hF2 : MemLp F 2 (iid n L) := by
    refine memLp_finsetSum' _ fun i _ => ?_
    exact memLp_of_bounded (ae_of_all _ fun x : Fin n → Fin d → ℝ => hf01 (x i)) (hf.comp (measurable_pi_apply i)).aestronglyMeasurable 2
  have hn' : (0 : ℝ) < n := by exact_mod_cast hn
  have hch := meas_ge_le_variance_div_sq hF2 (c := n * ε) (by positivity)
  rw [hmean] at hch
  have hset : {x : Fin n → Fin d → ℝ | ε ≤ |(Nat.card {i // x i ∈ B} : ℝ) / n - L.real B|} = {x | n * ε ≤ |F x - n * L.real B|} := by
    ext x
    simp only [mem_ofPred_eq, hcard]
    rw [show F x - n * L.real B = n * (F x / n - L.real B) by field_simp, abs_mul, abs_of_pos hn',
      mul_le_mul_iff_right₀ hn']
  rw [hset]
  refine ⟨measurableSet_le measurable_const (by fun_prop), hch.trans (ENNReal.ofReal_le_ofReal ?_)⟩
  calc variance F (iid n L) / (n * ε) ^ 2 ≤ n * (1 / 4) / (n * ε) ^ 2 :=
        div_le_div_of_nonneg_right hvar (by positivity)
    _ = 1 / (4 * n * ε ^ 2) := by field_simp

/-- **C120** The fraction of the rows of a sample that fall into a set estimates the probability of the set: it is off by `ε` or
more with probability at most `1 / (4 n ε²)`. -/
theorem sample_frequency (h : IsIdeal G P) {n d : ℕ} {c : Rnd G (Fin n → Fin d → Fl)} {L : Measure (Fin d → ℝ)}
    [IsProbabilityMeasure L] (hc : Draws P c matFl (iid n L)) (hn : 0 < n) {B : Set (Fin d → ℝ)} (hB : MeasurableSet B)
    {ε : ℝ} (hε : 0 < ε) :
    ∃ X : G.S → Fin n → Fin d → ℝ, (∀ᵐ s ∂P, (c.exec s).1 = .ok (matFl (X s))) ∧
      P {s | ε ≤ |(Nat.card {i // X s i ∈ B} : ℝ) / n - L.real B|} ≤ ENNReal.ofReal (1 / (4 * n * ε ^ 2)) := by
  have := h.prob
  obtain ⟨X, nx, hX, hnx, hrun, hmap⟩ := hc
  refine ⟨X, hrun.mono fun s hs => by rw [hs], ?_⟩
  have hlaw : P.map X = iid n L := Draws.law_fst hX hnx hmap
  obtain ⟨hm, hle⟩ := iid_frequency (L := L) hn hB hε
  have hset : {s | ε ≤ |(Nat.card {i // X s i ∈ B} : ℝ) / n - L.real B|} =
      X ⁻¹' {x | ε ≤ |(Nat.card {i // x i ∈ B} : ℝ) / n - L.real B|} := rfl
  rw [hset, ← Measure.map_apply hX hm, hlaw]
  exact hle

/-- Ideal generators exist; with one, 500 rows of a five-dimensional Clayton copula with parameter 2 and 300 pairs of a
Gaussian copula drawn after them. -/
example (seeded : ℕ → ℕ → Answers) : ∃ L, IsLawOf L (Spec.clayton (d := 5) 2) ∧
    Draws (G := idealGen seeded) streamLaw (do
      let x ← (Sampler.clayton 2 : Sampler (idealGen seeded) 5).random 500 none
      let y ← (Sampler.gaussian (fun x => .fin (normCdf x)) (1 : Matrix (Fin 2) (Fin 2) ℝ)).random 300 none
      return (x, y)) (Prod.map matFl matFl) ((iid 500 L).prod (iid 300 (gaussLaw 1))) := by
  have hI := idealGen_isIdeal seeded
  obtain ⟨L, hL, hd⟩ := clayton_frailty_iid hI (θ := 2) (by norm_num) (d := 5) (by norm_num)
  have := hL.prob
  have hp : IsProbabilityMeasure (gaussLaw (1 : Matrix (Fin 2) (Fin 2) ℝ)) := by
    rw [gaussLaw_eq]
    exact Measure.isProbabilityMeasure_map (measurable_pointwise normMargin.measurable).aemeasurable
  exact ⟨L, hL, random_calls_independent hI _ _ (hd 500) (gaussian_random_iid hI Matrix.PosSemidef.one 300)⟩

example (seeded : ℕ → ℕ → Answers) := indep_random_iid (idealGen_isIdeal seeded) 4

example (seeded : ℕ → ℕ → Answers) := clayton_pair_iid (idealGen_isIdeal seeded) (θ := -1 / 2) (by norm_num)
  (by norm_num [abs_of_pos])

example (seeded : ℕ → ℕ → Answers) := gumbel_random_iid (idealGen_isIdeal seeded) (θ := 3 / 2) (by norm_num) 4

example (seeded : ℕ → ℕ → Answers) (ls : ℝ → (n : ℕ) → Rnd (idealGen seeded) (Fin n → Fl)) :=
  frank_pair_iid_partial (idealGen_isIdeal seeded) ls (θ := -5) (by norm_num [abs_of_pos])

example (seeded : ℕ → ℕ → Answers) := student_random_iid_partial (idealGen_isIdeal seeded) (d := 3) Matrix.PosSemidef.one
  (ν := 4) (by norm_num) (by norm_num) 500

example (seeded : ℕ → ℕ → Answers) := empirical_random_iid (idealGen_isIdeal seeded) (m := 3) (d := 2) (by norm_num)
  (fun i j => (i.val + 1) / (4 + j.val)) 500

/-- Two components with weights 1/3 and 2/3 and unit covariances. -/
theorem isMixture_example : Spec.IsMixture ![1 / 3, 2 / 3] (fun _ : Fin 2 => (1 : Matrix (Fin 3) (Fin 3) ℝ)) where
  nonneg c := by fin_cases c <;> norm_num
  sum := by norm_num [Fin.sum_univ_two]
  psd _ := Matrix.PosSemidef.one
  var _ j := by simp

example (seeded : ℕ → ℕ → Answers) := gmm_random_iid (idealGen_isIdeal seeded) isMixture_example (fun i _ => i.val) 500

example (seeded : ℕ → ℕ → Answers) := gmc_random_iid (idealGen_isIdeal seeded) isMixture_example (fun i _ => i.val)

/-- The independence copula with uniform margins on the interval from 0 to 2. -/
example (seeded : ℕ → ℕ → Answers) : ∃ L : Measure (Fin 3 → ℝ), ∀ n,
    Draws streamLaw ((Sampler.marginal (Sampler.indep : Sampler (idealGen seeded) 3) fun _ x => .fin 2 * x).random n none) matFl
      (iid n L) := by
  obtain ⟨L, hL, hd⟩ := indep_random_iid (idealGen_isIdeal seeded) 3
  have := hL.prob
  exact ⟨_, marginal_random_iid (idealGen_isIdeal seeded) _ hd _ (q := fun _ x => 2 * x) (fun _ => by fun_prop)
    (Filter.Eventually.of_forall fun u j => Fl.fin_mul_fin _ _)⟩

end Copulae
