import Verif.Spec.Sampling
import Mathlib.MeasureTheory.Measure.Prod
import Mathlib.MeasureTheory.Measure.GiryMonad

/-!
Calculus for `Spec.Draws`: images, independent draws, draws that depend on a discrete value, and rows.
-/

namespace Copulae

open MeasureTheory Set Spec

section calculus
variable {G : Gen} [MeasurableSpace G.S] {α α' γ β β' : Type} [MeasurableSpace β] [MeasurableSpace β'] {P : Measure G.S}
  {c : Rnd G α} {e : β → α} {L : Measure β}

theorem Spec.Draws.prob [IsProbabilityMeasure P] (h : Draws P c e L) [SFinite L] : IsProbabilityMeasure L := by
  obtain ⟨X, nx, hX, hn, -, hmap⟩ := h
  have : (P.map fun s => (X s, nx s)) univ = 1 := by
    rw [Measure.map_apply (hX.prodMk hn) MeasurableSet.univ, preimage_univ, measure_univ]
  rw [hmap, ← univ_prod_univ, Measure.prod_prod, measure_univ (μ := P), mul_one] at this
  exact ⟨this⟩

theorem Spec.Draws.congr {c' : Rnd G α} (h : Draws P c e L) (hc : ∀ s, c'.exec s = c.exec s) : Draws P c' e L := by
  obtain ⟨X, nx, hX, hn, hrun, hmap⟩ := h
  exact ⟨X, nx, hX, hn, hrun.mono fun s hs => (hc s).trans hs, hmap⟩

theorem Spec.Draws.law_fst [IsProbabilityMeasure P] {X : G.S → β} {nx : G.S → G.S} (hX : Measurable X) (hn : Measurable nx)
    (hmap : P.map (fun s => (X s, nx s)) = L.prod P) : P.map X = L := by
  have : (P.map fun s => (X s, nx s)).map Prod.fst = P.map X := Measure.map_map measurable_fst (hX.prodMk hn)
  rw [← this, hmap, ← Measure.fst, Measure.fst_prod]

theorem Spec.Draws.law_snd [IsProbabilityMeasure P] [IsProbabilityMeasure L] {X : G.S → β} {nx : G.S → G.S} (hX : Measurable X)
    (hn : Measurable nx) (hmap : P.map (fun s => (X s, nx s)) = L.prod P) : P.map nx = P := by
  have : (P.map fun s => (X s, nx s)).map Prod.snd = P.map nx := Measure.map_map measurable_snd (hX.prodMk hn)
  rw [← this, hmap, ← Measure.snd, Measure.snd_prod]

/-- The image of a draw. -/
theorem Spec.Draws.map [IsProbabilityMeasure P] [SFinite L] (h : Draws P c e L) (F : α → Except PyErr γ) {g : β → β'}
    {e' : β' → γ} (hg : Measurable g) (hF : ∀ᵐ b ∂L, F (e b) = .ok (e' (g b))) :
    Draws P (c >>= fun a => Rnd.ofExcept (F a)) e' (L.map g) := by
  have := h.prob
  obtain ⟨X, nx, hX, hn, hrun, hmap⟩ := h
  refine ⟨fun s => g (X s), nx, hg.comp hX, hn, ?_, ?_⟩
  · have hXL : ∀ᵐ s ∂P, F (e (X s)) = .ok (e' (g (X s))) := by
      rw [← Draws.law_fst hX hn hmap] at hF
      exact ae_of_ae_map hX.aemeasurable hF
    filter_upwards [hrun, hXL] with s h1 h2
    rw [exec_bind, h1]
    simp only
    rw [exec_ofExcept, h2]
  · have e1 : (P.map fun s => (X s, nx s)).map (Prod.map g id) = P.map fun s => (g (X s), nx s) :=
      Measure.map_map (hg.prodMap measurable_id) (hX.prodMk hn)
    rw [← e1, hmap, ← Measure.map_prod_map _ _ hg measurable_id, Measure.map_id]

theorem Spec.Draws.map_pure [IsProbabilityMeasure P] [SFinite L] (h : Draws P c e L) (F : α → γ) {g : β → β'}
    {e' : β' → γ} (hg : Measurable g) (hF : ∀ᵐ b ∂L, F (e b) = e' (g b)) :
    Draws P (c >>= fun a => pure (F a)) e' (L.map g) :=
  h.map (fun a => .ok (F a)) hg (hF.mono fun _ hb => congrArg Except.ok hb)

/-- Two draws in succession are independent. -/
theorem Spec.Draws.seq [IsProbabilityMeasure P] [SFinite L] {K : Rnd G α'} {e' : β' → α'} {M : Measure β'} [SFinite M]
    (h : Draws P c e L) (h' : Draws P K e' M) :
    Draws P (c >>= fun a => K >>= fun a' => pure (a, a')) (Prod.map e e') (L.prod M) := by
  have hL := h.prob
  have hM := h'.prob
  obtain ⟨X, nx, hX, hn, hrun, hmap⟩ := h
  obtain ⟨X', nx', hX', hn', hrun', hmap'⟩ := h'
  refine ⟨fun s => (X s, X' (nx s)), fun s => nx' (nx s), hX.prodMk (hX'.comp hn), hn'.comp hn, ?_, ?_⟩
  · have h2 : ∀ᵐ s ∂P, K.exec (nx s) = (.ok (e' (X' (nx s))), nx' (nx s)) := by
      have : ∀ᵐ s ∂(P.map nx), K.exec s = (.ok (e' (X' s)), nx' s) := by rwa [Draws.law_snd hX hn hmap]
      exact ae_of_ae_map hn.aemeasurable this
    filter_upwards [hrun, h2] with s h1 h2
    rw [exec_bind, h1]
    simp only
    rw [exec_bind, h2]
    rfl
  · have e1 : (P.map fun s => (X s, nx s)).map (Prod.map id fun s => (X' s, nx' s)) =
        P.map fun s => (X s, X' (nx s), nx' (nx s)) :=
      Measure.map_map (measurable_id.prodMap (hX'.prodMk hn')) (hX.prodMk hn)
    have e2 : P.map (fun s => (X s, X' (nx s), nx' (nx s))) = L.prod (M.prod P) := by
      rw [← e1, hmap, ← Measure.map_prod_map _ _ measurable_id (hX'.prodMk hn'), Measure.map_id, hmap']
    have e3 : P.map (fun s => ((X s, X' (nx s)), nx' (nx s))) =
        (P.map fun s => (X s, X' (nx s), nx' (nx s))).map MeasurableEquiv.prodAssoc.symm :=
      (Measure.map_map MeasurableEquiv.prodAssoc.symm.measurable
        (hX.prodMk ((hX'.comp hn).prodMk (hn'.comp hn)))).symm
    rw [e3, e2, ← Measure.prodAssoc_prod, MeasurableEquiv.map_symm_map]

/-- A draw that depends on a discrete value drawn before. -/
theorem Spec.Draws.bind [IsProbabilityMeasure P] [SFinite L] [Countable β] [MeasurableSingletonClass β] (h : Draws P c e L)
    (k : α → Rnd G γ) {e' : β' → γ} {M : β → Measure β'} [∀ b, SFinite (M b)] (hk : ∀ b, Draws P (k (e b)) e' (M b)) :
    Draws P (c >>= k) e' (L.bind M) := by
  have hL := h.prob
  have hM : ∀ b, IsProbabilityMeasure (M b) := fun b => (hk b).prob
  obtain ⟨X, nx, hX, hn, hrun, hmap⟩ := h
  choose X' nx' hX' hn' hrun' hmap' using hk
  have mX : Measurable fun p : β × G.S => X' p.1 p.2 := measurable_from_prod_countable_right fun b => hX' b
  have mn : Measurable fun p : β × G.S => nx' p.1 p.2 := measurable_from_prod_countable_right fun b => hn' b
  have mM : Measurable M := measurable_of_countable M
  have : IsProbabilityMeasure (L.bind M) := ⟨by
    rw [Measure.bind_apply MeasurableSet.univ mM.aemeasurable]
    simp⟩
  refine ⟨fun s => X' (X s) (nx s), fun s => nx' (X s) (nx s), mX.comp (hX.prodMk hn), mn.comp (hX.prodMk hn), ?_, ?_⟩
  · have h2 : ∀ᵐ s ∂P, ∀ b, (k (e b)).exec (nx s) = (.ok (e' (X' b (nx s))), nx' b (nx s)) := by
      have : ∀ᵐ s ∂(P.map nx), ∀ b, (k (e b)).exec s = (.ok (e' (X' b s)), nx' b s) := by
        rw [Draws.law_snd hX hn hmap]
        exact ae_all_iff.mpr hrun'
      exact ae_of_ae_map hn.aemeasurable this
    filter_upwards [hrun, h2] with s h1 h2
    rw [exec_bind, h1]
    exact h2 (X s)
  · have e1 : (P.map fun s => (X s, nx s)).map (fun p => (X' p.1 p.2, nx' p.1 p.2)) =
        P.map fun s => (X' (X s) (nx s), nx' (X s) (nx s)) := Measure.map_map (mX.prodMk mn) (hX.prodMk hn)
    rw [← e1, hmap]
    ext A hA
    rw [Measure.map_apply (mX.prodMk mn) hA, Measure.prod_apply (mX.prodMk mn hA), Measure.prod_apply hA,
      Measure.lintegral_bind mM.aemeasurable (measurable_measure_prodMk_left hA).aemeasurable]
    refine lintegral_congr fun b => ?_
    rw [← Measure.prod_apply hA, ← hmap' b, Measure.map_apply ((hX' b).prodMk (hn' b)) hA]
    rfl

end calculus

/-! ### Rows -/

section rows
variable {β β' γ : Type} [MeasurableSpace β] [MeasurableSpace β'] [MeasurableSpace γ]

instance iid_prob {n : ℕ} {L : Measure β} [IsProbabilityMeasure L] : IsProbabilityMeasure (iid n L) := by
  unfold iid
  infer_instance

instance iid_sfinite {n : ℕ} {L : Measure β} [SigmaFinite L] : SFinite (iid n L) := by
  unfold iid
  infer_instance

theorem iid_map {n : ℕ} {L : Measure β} [IsProbabilityMeasure L] {f : β → γ} (hf : Measurable f) :
    (iid n L).map (fun x i => f (x i)) = iid n (L.map f) := by
  have : IsProbabilityMeasure (L.map f) := Measure.isProbabilityMeasure_map hf.aemeasurable
  exact Measure.pi_map_pi fun _ => hf.aemeasurable

theorem pi_zip {ι : Type} [Fintype ι] {L : ι → Measure β} {M : ι → Measure β'} [∀ i, IsProbabilityMeasure (L i)]
    [∀ i, IsProbabilityMeasure (M i)] {f : ι → β × β' → γ} (hf : ∀ i, Measurable (f i)) :
    ((Measure.pi L).prod (Measure.pi M)).map (fun p i => f i (p.1 i, p.2 i)) =
      Measure.pi fun i => ((L i).prod (M i)).map (f i) := by
  have h := (measurePreserving_arrowProdEquivProdArrow β β' ι L M).symm
  have hp : ∀ i, IsProbabilityMeasure (((L i).prod (M i)).map (f i)) := fun i =>
    Measure.isProbabilityMeasure_map (hf i).aemeasurable
  rw [← Measure.pi_map_pi fun i => (hf i).aemeasurable, ← h.map_eq, Measure.map_map _ h.measurable]
  · rfl
  · exact measurable_pi_lambda _ fun i => (hf i).comp (measurable_pi_apply i)

theorem iid_zip {n : ℕ} {L : Measure β} {M : Measure β'} [IsProbabilityMeasure L] [IsProbabilityMeasure M]
    {f : β × β' → γ} (hf : Measurable f) :
    ((iid n L).prod (iid n M)).map (fun p i => f (p.1 i, p.2 i)) = iid n ((L.prod M).map f) :=
  pi_zip fun _ => hf

theorem iid_ae {n : ℕ} {L : Measure β} [IsProbabilityMeasure L] {p : β → Prop} (h : ∀ᵐ b ∂L, p b) :
    ∀ᵐ x ∂(iid n L), ∀ i, p (x i) := by
  rw [ae_all_iff]
  intro i
  exact (Measure.quasiMeasurePreserving_eval (fun _ : Fin n => L) i).ae h

end rows

instance unif_prob : IsProbabilityMeasure unif := ⟨by
  rw [unif, Measure.restrict_apply_univ, Real.volume_Ioo]
  simp⟩

theorem unif_ae : ∀ᵐ x ∂unif, x ∈ Ioo (0 : ℝ) 1 := by
  unfold unif
  exact ae_restrict_mem measurableSet_Ioo

instance normalLaw_prob {d : ℕ} (mean : Fin d → ℝ) (S : Matrix (Fin d) (Fin d) ℝ) :
    IsProbabilityMeasure (normalLaw mean S) :=
  Measure.isProbabilityMeasure_map (by fun_prop)

theorem pick_prob {k : ℕ} {p : Fin k → ℝ} (h0 : ∀ c, 0 ≤ p c) (h1 : ∑ c, p c = 1) : IsProbabilityMeasure (pick p) := by
  refine ⟨?_⟩
  unfold pick
  rw [Measure.finsetSum_apply]
  simp only [Measure.smul_apply, measure_univ, smul_eq_mul, mul_one]
  rw [← ENNReal.ofReal_sum_of_nonneg fun c _ => h0 c, h1, ENNReal.ofReal_one]

end Copulae
