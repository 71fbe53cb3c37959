import Verif.Lemmas.Draws
import Verif.Props.ArchLaw
import Verif.Props.SampleRows
import Verif.Props.GmmMargin
import Verif.Props.StudentCopula
import Verif.Props.GaussianCopula

/-!
Helpers for the laws of samples: frailties, clusters of mixtures.
-/

namespace Copulae

open MeasureTheory ProbabilityTheory Set Spec

variable {G : Gen} [MeasurableSpace G.S] {P : Measure G.S}

theorem randomUniform_draws (h : IsIdeal G P) (n d : ℕ) :
    Draws P (randomUniform n d none : Rnd G _) matFl (iid n (iid d unif)) :=
  (h.uniform n d).congr fun _ => rfl

theorem iid_unif (d : ℕ) : iid d unif = (volume : Measure (Fin d → ℝ)).restrict {x | ∀ j, x j ∈ Ioo (0 : ℝ) 1} := by
  have e : {x : Fin d → ℝ | ∀ j, x j ∈ Ioo (0 : ℝ) 1} = Set.pi univ fun _ => Ioo (0 : ℝ) 1 := by
    ext x
    simp
  rw [e, volume_pi, Measure.restrict_pi_pi]
  rfl

/-- The law of rows built from uniforms and a frailty. -/
theorem frail_rows {Ω : Type} [MeasurableSpace Ω] (μ : Measure Ω) [IsProbabilityMeasure μ] {U : ℝ → Ω → ℝ}
    (hU : Measurable fun p : ℝ × Ω => U p.1 p.2) (n d : ℕ) :
    ((iid n (iid d unif)).prod (iid n μ)).map (fun p i j => U (p.1 i j) (p.2 i)) = iid n (frailtyLaw μ d U) := by
  have hT : Measurable fun (p : (Fin d → ℝ) × Ω) (j : Fin d) => U (p.1 j) p.2 :=
    measurable_pi_lambda _ fun j => by
      have h2 : Measurable fun p : (Fin d → ℝ) × Ω => (p.1 j, p.2) := by fun_prop
      exact hU.comp h2
  have e := iid_zip (n := n) (L := iid d unif) (M := μ) hT
  refine e.trans (congrArg (iid n) ?_)
  have e2 : (μ.prod (volume : Measure (Fin d → ℝ))).restrict {p | ∀ j, p.2 j ∈ Ioo (0 : ℝ) 1} = μ.prod (iid d unif) := by
    rw [iid_unif]
    conv_rhs => rw [← Measure.restrict_univ (μ := μ)]
    rw [Measure.prod_restrict]
    congr 1
    ext p
    simp
  rw [frailtyLaw, e2, ← Measure.prod_swap, Measure.map_map hT measurable_swap]
  rfl

theorem iid_unif_ae (n d : ℕ) : ∀ᵐ r ∂(iid n (iid d unif)), ∀ i j, r i j ∈ Ioo (0 : ℝ) 1 :=
  iid_ae (iid_ae unif_ae)

theorem ae_prod_of {β β' : Type} [MeasurableSpace β] [MeasurableSpace β'] {L : Measure β} {M : Measure β'} [SFinite L]
    [SFinite M] {p : β → Prop} {q : β' → Prop} (hp : ∀ᵐ x ∂L, p x) (hq : ∀ᵐ y ∂M, q y) :
    ∀ᵐ z ∂(L.prod M), p z.1 ∧ q z.2 :=
  (Measure.quasiMeasurePreserving_fst.ae hp).and (Measure.quasiMeasurePreserving_snd.ae hq)

/-- Pairs built from two uniforms. -/
theorem pair_rows {V : ℝ → ℝ → ℝ} (hV : Measurable fun p : ℝ × ℝ => V p.1 p.2) (n : ℕ) :
    (iid n (iid 2 unif)).map (fun r i => ![r i 0, V (r i 0) (r i 1)]) = iid n (pairSampleLaw V) := by
  have m1 : Measurable fun x : Fin 2 → ℝ => (x 0, x 1) := by fun_prop
  have m2 : Measurable fun p : ℝ × ℝ => (p.1, V p.1 p.2) := measurable_fst.prodMk hV
  have m3 : Measurable fun p : ℝ × ℝ => ![p.1, p.2] := by
    refine measurable_pi_lambda _ fun j => ?_
    fin_cases j
    · exact measurable_fst
    · exact measurable_snd
  have hm : Measurable fun x : Fin 2 → ℝ => ![x 0, V (x 0) (x 1)] := m3.comp (m2.comp m1)
  refine (iid_map (L := iid 2 unif) hm).trans (congrArg (iid n) ?_)
  have e : unitSquare = (iid 2 unif).map fun x => (x 0, x 1) := by
    have := (measurePreserving_piFinTwo (fun _ : Fin 2 => unif)).map_eq
    exact this.symm
  rw [pairSampleLaw, e, Measure.map_map m2 m1, Measure.map_map m3 (m2.comp m1)]
  rfl

/-! ### Gumbel -/

theorem gumbelRandom_eq_frail {θ : ℝ} (hθ : 1 + (1 / 10 ^ 8 + 1 / 10 ^ 5) < θ) (mode : ℝ → ℝ → Except PyErr Fl) {n d : ℕ}
    (r r2 : Fin n → Fin d → Fl) (ca v w : Fin n → ℝ) {ψ : Fl → Fl} (hψ : gumbelPsi θ = .ok ψ) :
    gumbelRandom mode θ r r2 ca v w = .ok fun i j => ψ (-(Fl.log (r i j)) / gumbelFrail θ (v i) (w i)) := by
  have hθ1 : 1 < θ := lt_trans (by norm_num) hθ
  have hθ0 : 0 < θ := by linarith
  have h0 : 0 < 1 / θ := by positivity
  have h1 : 1 / θ < 1 := by rw [div_lt_one hθ0]; exact hθ1
  have hcos := stable_cos_pos h0 h1
  have hg : ∃ g : ℝ, 0 ≤ g ∧ Fl.fin (cospi2 (1 / θ)) ^ Fl.fin θ = .fin g :=
    ⟨_, (Real.rpow_pos_of_pos hcos θ).le, Fl.pow_pos hcos θ⟩
  obtain ⟨g, hg0, hg⟩ := hg
  unfold gumbelRandom
  rw [if_neg (by linarith), if_neg (by rw [abs_of_pos (by linarith)]; linarith), hψ]
  unfold stableRvs stableCheck stableParam gumbelFrail
  simp only [bind, Except.bind, pure, Except.pure]
  rw [hg, if_pos (by norm_num), if_pos (by norm_num), if_pos ⟨h0, by linarith⟩, if_pos (by simpa using hg0)]
  simp only [if_true]
  rw [if_neg (by norm_num)]

/-! ### Mixtures -/

theorem normalLaw_gmm {m d : ℕ} (p : Fin m → ℝ) (μ : Fin m → Fin d → ℝ) (S : Fin m → Matrix (Fin d) (Fin d) ℝ) :
    gmmLaw p μ S = ∑ c, ENNReal.ofReal (p c) • normalLaw (μ c) (S c) := rfl

/-- The rows of one cluster. -/
theorem cluster_law {E : Type} [MeasurableSpace E] (z : E) {n : ℕ} (q : Fin n → Prop) [DecidablePred q] (N : Measure E)
    [IsProbabilityMeasure N] {m : ℕ} (hm : (Finset.univ.filter q).card = m) :
    (iid m N).map (fun r i => if q i then (if h : earlier q i < m then r ⟨earlier q i, h⟩ else z) else z) =
      Measure.pi fun i => if q i then N else Measure.dirac z := by
  have hlt : ∀ i, q i → earlier q i < m := fun i hi => hm ▸ earlier_lt q hi
  have hmeas : Measurable fun (r : Fin m → E) (i : Fin n) =>
      if q i then (if h : earlier q i < m then r ⟨earlier q i, h⟩ else z) else z := by
    refine measurable_pi_lambda _ fun i => ?_
    split_ifs
    · exact measurable_pi_apply _
    · exact measurable_const
    · exact measurable_const
  have hp : ∀ i, IsProbabilityMeasure (if q i then N else Measure.dirac z) := fun i => by split_ifs <;> infer_instance
  -- ranks are a bijection
  let f : {i // q i} → Fin m := fun i => ⟨earlier q i.1, hlt i.1 i.2⟩
  have hf : Function.Bijective f := by
    rw [Fintype.bijective_iff_injective_and_card]
    constructor
    · intro a b hab
      have hab' : earlier q a.1 = earlier q b.1 := congrArg Fin.val hab
      rcases lt_trichotomy a.1 b.1 with h | h | h
      · exact absurd hab' (earlier_strictMono q a.2 h).ne
      · exact Subtype.ext h
      · exact absurd hab' (earlier_strictMono q b.2 h).ne'
    · rw [Fintype.card_fin, ← hm, Fintype.card_subtype]
  let g : {i // q i} ≃ Fin m := Equiv.ofBijective f hf
  refine (Measure.pi_eq fun s hs => ?_).symm
  rw [Measure.map_apply hmeas (MeasurableSet.univ_pi hs)]
  have hset : (fun (r : Fin m → E) (i : Fin n) =>
      if q i then (if h : earlier q i < m then r ⟨earlier q i, h⟩ else z) else z) ⁻¹' Set.pi univ s =
      {r | (∀ k, r k ∈ s (g.symm k).1) ∧ ∀ i, ¬ q i → z ∈ s i} := by
    ext r
    simp only [mem_preimage, mem_pi, mem_univ, true_imp_iff, mem_ofPred_eq]
    constructor
    · intro h
      refine ⟨fun k => ?_, fun i hi => by have := h i; rwa [if_neg hi] at this⟩
      have := h (g.symm k).1
      rw [if_pos (g.symm k).2, dif_pos (hlt _ (g.symm k).2)] at this
      have e : (⟨earlier q (g.symm k).1, hlt _ (g.symm k).2⟩ : Fin m) = k := g.apply_symm_apply k
      rwa [e] at this
    · rintro ⟨h1, h2⟩ i
      by_cases hi : q i
      · rw [if_pos hi, dif_pos (hlt i hi)]
        have := h1 (g ⟨i, hi⟩)
        rw [g.symm_apply_apply] at this
        exact this
      · rw [if_neg hi]
        exact h2 i hi
  rw [hset]
  by_cases hz : ∀ i, ¬ q i → z ∈ s i
  · have e1 : {r : Fin m → E | (∀ k, r k ∈ s (g.symm k).1) ∧ ∀ i, ¬ q i → z ∈ s i} =
        Set.pi univ fun k => s (g.symm k).1 := by
      ext r
      simp only [mem_ofPred_eq, mem_pi, mem_univ, true_imp_iff]
      exact ⟨fun h => h.1, fun h => ⟨h, hz⟩⟩
    rw [e1, iid, Measure.pi_pi]
    have e2 : ∏ i, (if q i then N else Measure.dirac z) (s i) = ∏ i ∈ Finset.univ.filter q, N (s i) := by
      rw [Finset.prod_filter]
      refine Finset.prod_congr rfl fun i _ => ?_
      split_ifs with hi
      · rfl
      · rw [Measure.dirac_apply' _ (hs i), indicator_of_mem (hz i hi)]
        rfl
    have e3 : ∏ k, N (s (g.symm k).1) = ∏ a : {i // q i}, N (s a.1) :=
      Fintype.prod_equiv g.symm _ _ fun _ => rfl
    rw [e2, e3]
    exact (Finset.prod_subtype (Finset.univ.filter q) (by simp) fun i => N (s i)).symm
  · have hempty : {r : Fin m → E | (∀ k, r k ∈ s (g.symm k).1) ∧ ∀ i, ¬ q i → z ∈ s i} = ∅ := by
      ext r
      simp only [mem_ofPred_eq, mem_empty_iff_false, iff_false]
      exact fun h => hz h.2
    push Not at hz
    obtain ⟨i, hi, hzi⟩ := hz
    rw [hempty, measure_empty]
    refine (Finset.prod_eq_zero (Finset.mem_univ i) ?_).symm
    rw [if_neg hi, Measure.dirac_apply' _ (hs i), indicator_of_notMem hzi]

/-- The loop over the clusters `l`: the rows whose cluster is in `l` are independent with the law of their cluster. -/
theorem loop_draws {k d n : ℕ} (h : IsIdeal G P) (p : Mixture k d) (hS : ∀ c, Matrix.PosSemidef (Matrix.of (p.cov c)))
    (order : Fin n → Fin k) (l : List (Fin k)) :
    ∃ (Y : G.S → Fin n → Fin d → ℝ) (nx : G.S → G.S), Measurable Y ∧ Measurable nx ∧
      (∀ᵐ s ∂P, ∀ out : Fin n → Fin d → ℝ, (l.foldlM (gmmCluster p fun i => (order i : ℕ)) out : Rnd G _).exec s =
        (.ok fun i => if order i ∈ l then Y s i else out i, nx s)) ∧
      P.map (fun s => (Y s, nx s)) = (Measure.pi fun i => if order i ∈ l then
        normalLaw (p.mean (order i)) (Matrix.of (p.cov (order i))) else Measure.dirac 0).prod P := by
  have := h.prob
  induction l with
  | nil =>
    refine ⟨fun _ => 0, id, measurable_const, measurable_id, Filter.Eventually.of_forall fun s out => ?_, ?_⟩
    · simp only [List.foldlM_nil, List.not_mem_nil, if_false]
      rfl
    · have e : (Measure.pi fun i : Fin n => if order i ∈ ([] : List (Fin k)) then
          normalLaw (p.mean (order i)) (Matrix.of (p.cov (order i))) else Measure.dirac (0 : Fin d → ℝ)) =
          Measure.dirac 0 := by
        simp only [List.not_mem_nil, if_false]
        refine Measure.pi_eq fun s hs => ?_
        rw [Measure.dirac_apply' _ (MeasurableSet.univ_pi hs)]
        simp only [Measure.dirac_apply' _ (hs _)]
        by_cases h0 : ∀ i, (0 : Fin d → ℝ) ∈ s i
        · rw [indicator_of_mem (by simpa using h0), Finset.prod_congr rfl fun i _ => indicator_of_mem (h0 i) _]
          simp
        · rw [indicator_of_notMem (by simpa using h0)]
          push Not at h0
          obtain ⟨i, hi⟩ := h0
          exact (Finset.prod_eq_zero (Finset.mem_univ i) (indicator_of_notMem hi _)).symm
      rw [e, Measure.dirac_prod]
      rfl
  | cons a l ih =>
    obtain ⟨Y, nx, hY, hn, hrun, hmap⟩ := ih
    let m := (Finset.univ.filter fun j => ((order j : ℕ)) = (a : ℕ)).card
    obtain ⟨X, nx', hX, hn', hrun', hmap'⟩ := h.mvn m d (p.mean a) (Matrix.of (p.cov a)) (hS a)
    let F : (Fin m → Fin d → ℝ) → Fin n → Fin d → ℝ := fun r i => if (order i : ℕ) = a then
      (if h : earlier (fun i => (order i : ℕ) = a) i < m then r ⟨earlier (fun i => (order i : ℕ) = a) i, h⟩ else 0) else 0
    have hF : Measurable F := by
      refine measurable_pi_lambda _ fun i => ?_
      simp only [F]
      split_ifs
      · exact measurable_pi_apply _
      · exact measurable_const
      · exact measurable_const
    have hlawF : (iid m (normalLaw (p.mean a) (Matrix.of (p.cov a)))).map F =
        Measure.pi fun i => if (order i : ℕ) = a then normalLaw (p.mean a) (Matrix.of (p.cov a)) else
          Measure.dirac 0 := cluster_law 0 (fun i => (order i : ℕ) = a) _ rfl
    have hp1 : ∀ i, IsProbabilityMeasure (if (order i : ℕ) = a then normalLaw (p.mean a) (Matrix.of (p.cov a)) else
          Measure.dirac 0) := fun i => by split_ifs <;> infer_instance
    have hp2 : ∀ i, IsProbabilityMeasure (if order i ∈ l then
        normalLaw (p.mean (order i)) (Matrix.of (p.cov (order i))) else Measure.dirac 0) := fun i => by
      split_ifs <;> infer_instance
    let W : Fin n → (Fin d → ℝ) × (Fin d → ℝ) → Fin d → ℝ := fun i q => if order i ∈ l then q.2 else q.1
    have hW : ∀ i, Measurable (W i) := fun i => by
      simp only [W]
      split_ifs
      · exact measurable_snd
      · exact measurable_fst
    have hWm : Measurable fun (q : (Fin n → Fin d → ℝ) × (Fin n → Fin d → ℝ)) (i : Fin n) => W i (q.1 i, q.2 i) :=
      measurable_pi_lambda _ fun i => (hW i).comp (((measurable_pi_apply i).comp measurable_fst).prodMk
        ((measurable_pi_apply i).comp measurable_snd))
    refine ⟨fun s i => W i (F (X s) i, Y (nx' s) i), fun s => nx (nx' s), ?_, hn.comp hn', ?_, ?_⟩
    · exact hWm.comp ((hF.comp hX).prodMk (hY.comp hn'))
    · have h2 : ∀ᵐ s ∂P, ∀ out : Fin n → Fin d → ℝ,
          (l.foldlM (gmmCluster p fun i => (order i : ℕ)) out : Rnd G _).exec (nx' s) =
            (.ok fun i => if order i ∈ l then Y (nx' s) i else out i, nx (nx' s)) := by
        have hP : P.map nx' = P := Draws.law_snd hX hn' hmap'
        rw [← hP] at hrun
        exact ae_of_ae_map hn'.aemeasurable hrun
      filter_upwards [hrun', h2] with s h1 h2 out
      rw [List.foldlM_cons, exec_bind]
      have e1 : (gmmCluster p (fun i => (order i : ℕ)) out a : Rnd G _).exec s =
          (.ok (gmmFill (fun i => (order i : ℕ)) a (fun i => if h : i < m then X s ⟨i, h⟩ else 0) out), nx' s) := by
        unfold gmmCluster mvnRvs
        rw [exec_bind]
        have : (Rnd.draw (G.mvn m d (p.mean a) (p.cov a))).exec s = (.ok (X s), nx' s) := h1
        simp only [m] at this
        rw [this]
        rfl
      rw [e1]
      simp only
      rw [h2]
      refine congrArg (fun x => (Except.ok x, nx (nx' s))) (funext fun i => ?_)
      by_cases hl : order i ∈ l
      · simp [W, hl]
      · by_cases ha : order i = a
        · simp only [W, ha, List.mem_cons, true_or, if_true, gmmFill, F]
          rfl
        · have ha' : ¬ ((order i : ℕ) = a) := fun h => ha (Fin.ext h)
          simp [W, hl, ha, ha', gmmFill]
    · have hpair : P.map (fun s => ((F (X s), Y (nx' s)), nx (nx' s))) =
          ((Measure.pi fun i => if (order i : ℕ) = a then normalLaw (p.mean a) (Matrix.of (p.cov a)) else
            Measure.dirac 0).prod (Measure.pi fun i => if order i ∈ l then
              normalLaw (p.mean (order i)) (Matrix.of (p.cov (order i))) else Measure.dirac 0)).prod P := by
        have a1 : P.map (fun s => (F (X s), nx' s)) = ((iid m (normalLaw (p.mean a) (Matrix.of (p.cov a)))).map F).prod P := by
          have : (P.map fun s => (X s, nx' s)).map (Prod.map F id) = P.map fun s => (F (X s), nx' s) :=
            Measure.map_map (hF.prodMap measurable_id) (hX.prodMk hn')
          rw [← this, hmap', ← Measure.map_prod_map _ _ hF measurable_id, Measure.map_id]
        rw [hlawF] at a1
        have a2 : (P.map fun s => (F (X s), nx' s)).map (Prod.map id fun s => (Y s, nx s)) =
            P.map fun s => (F (X s), Y (nx' s), nx (nx' s)) :=
          Measure.map_map (measurable_id.prodMap (hY.prodMk hn)) ((hF.comp hX).prodMk hn')
        have a3 : P.map (fun s => ((F (X s), Y (nx' s)), nx (nx' s))) =
            (P.map fun s => (F (X s), Y (nx' s), nx (nx' s))).map MeasurableEquiv.prodAssoc.symm :=
          (Measure.map_map MeasurableEquiv.prodAssoc.symm.measurable
            ((hF.comp hX).prodMk ((hY.comp hn').prodMk (hn.comp hn')))).symm
        rw [a3, ← a2, a1, ← Measure.map_prod_map _ _ measurable_id (hY.prodMk hn), Measure.map_id, hmap,
          ← Measure.prodAssoc_prod, MeasurableEquiv.map_symm_map]
      have hfin : (P.map fun s => ((F (X s), Y (nx' s)), nx (nx' s))).map
          (Prod.map (fun q i => W i (q.1 i, q.2 i)) id) = P.map fun s => (fun i => W i (F (X s) i, Y (nx' s) i), nx (nx' s)) :=
        Measure.map_map (hWm.prodMap measurable_id) (((hF.comp hX).prodMk (hY.comp hn')).prodMk (hn.comp hn'))
      rw [← hfin, hpair, ← Measure.map_prod_map _ _ hWm measurable_id, Measure.map_id, pi_zip hW]
      congr 2
      funext i
      by_cases hl : order i ∈ l
      · have : W i = Prod.snd := by funext q; simp [W, hl]
        rw [this, ← Measure.snd, Measure.snd_prod]
        simp [hl]
      · have : W i = Prod.fst := by funext q; simp [W, hl]
        rw [this, ← Measure.fst, Measure.fst_prod]
        by_cases ha : order i = a
        · simp [ha]
        · have ha' : ¬ ((order i : ℕ) = a) := fun h => ha (Fin.ext h)
          simp [hl, ha, ha']

theorem lintegral_pick {k : ℕ} (p : Fin k → ℝ) (f : Fin k → ENNReal) :
    ∫⁻ c, f c ∂(pick p) = ∑ c, ENNReal.ofReal (p c) * f c := by
  unfold pick
  rw [lintegral_finsetSum_measure]
  refine Finset.sum_congr rfl fun c _ => ?_
  rw [lintegral_smul_measure, lintegral_dirac, smul_eq_mul]

/-- Rows whose laws are picked independently are independent with the mixed law. -/
theorem mixture_rows {k n : ℕ} {E : Type} [MeasurableSpace E] {p : Fin k → ℝ} (h0 : ∀ c, 0 ≤ p c) (h1 : ∑ c, p c = 1)
    (N : Fin k → Measure E) [∀ c, IsProbabilityMeasure (N c)] :
    (iid n (pick p)).bind (fun o => Measure.pi fun i => N (o i)) = iid n (∑ c, ENNReal.ofReal (p c) • N c) := by
  have := pick_prob h0 h1
  have hprob : IsProbabilityMeasure (∑ c, ENNReal.ofReal (p c) • N c) := ⟨by
    rw [Measure.finsetSum_apply]
    simp only [Measure.smul_apply, measure_univ, smul_eq_mul, mul_one]
    rw [← ENNReal.ofReal_sum_of_nonneg fun c _ => h0 c, h1, ENNReal.ofReal_one]⟩
  refine (Measure.pi_eq fun s hs => ?_).symm
  rw [Measure.bind_apply (MeasurableSet.univ_pi hs) (measurable_of_countable _).aemeasurable]
  simp only [Measure.pi_pi]
  have e : ∫⁻ o, ∏ i, N (o i) (s i) ∂(iid n (pick p)) = ∏ i, ∫⁻ c, N c (s i) ∂(pick p) := by
    have hind : iIndepFun (fun (i : Fin n) (o : Fin n → Fin k) => N (o i) (s i)) (iid n (pick p)) := by
      have := iIndepFun_pi (μ := fun _ : Fin n => pick p) (X := fun i c => N c (s i))
        fun i => (measurable_of_countable _).aemeasurable
      exact this
    rw [lintegral_prod_eq_prod_lintegral_of_indepFun _ _ hind fun i => measurable_of_countable _]
    refine Finset.prod_congr rfl fun i _ => ?_
    have := lintegral_map (μ := iid n (pick p)) (f := fun c => N c (s i)) (g := Function.eval i)
      (measurable_of_countable _) (measurable_pi_apply i)
    rw [iid, (measurePreserving_eval (fun _ : Fin n => pick p) i).map_eq] at this
    exact this.symm
  rw [e]
  refine Finset.prod_congr rfl fun i _ => ?_
  rw [lintegral_pick, Measure.finsetSum_apply]
  rfl

end Copulae
