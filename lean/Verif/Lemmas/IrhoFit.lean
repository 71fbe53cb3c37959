import Verif.Lemmas.ItauFit
import Verif.Spec.Spearman

/-!
Fits of Gaussian copulas by inversion of Spearman's rho.
-/

namespace Copulae

open Spec

variable {n d : ℕ} {env : FitEnv} {opt : List Fl → OptTree} {o : FitObj} {x0 : Option ParamArg}
  {method ties : String} {scale : Fl}

theorem ellIrho_fin (r : ℝ) : ellIrho (.fin r) = .fin (Real.sin (r * Real.pi / 6) * 2) := by
  rw [ellIrho, Fl.fin_mul_fin, Fl.fin_div_fin' _ (by norm_num)]
  rfl

theorem fit_irho_core {data u : Fin n → Fin d → ℚ} {toPobs : Bool} {e : Ell} (he : e.WF) (hm : pyLower method = "irho".toList)
    (hc : o.cop = .gaussian e) (hed : e.dim = d) (hd : 3 ≤ d) (hn : d ≤ n)
    (hu : maybePobs data toPobs ties = .ok u) (hr : ∀ i j, 0 ≤ u i j ∧ u i j ≤ 1)
    (T : Fin d → Fin d → ℝ) (hT1 : ∀ i, T i i = 1) (hTs : ∀ i j, T i j = T j i)
    (hk : ∀ i j : Fin d, i < j → env.fns.spearman (Spec.col u i) (Spec.col u j) = .ok (.fin (T i j)))
    (hpsd : isPsd fun i j : Fin d => Fl.fin (Real.sin (T i j * Real.pi / 6) * 2))
    (hll : ∀ c (w : Fin n → Fin d → ℚ), ∃ v, env.logPdfSum c n d w = .ok v) :
    ∃ e' s, o.fit env opt data x0 method ties toPobs scale = (⟨.gaussian e', some s⟩, .ok ()) ∧ e'.dim = d ∧
      ∀ i j : Fin d, e'.getItem (ixPair i j) = .ok (.scalar (.fin (Real.sin (T i j * Real.pi / 6) * 2))) := by
  have hod : o.cop.dim = d := by rw [hc]; exact hed
  obtain ⟨tau, htau⟩ := lowerCorr_ok (u := u) hod (corrFunc_spearman env.fns) fun i j hij => ⟨_, hk i j hij⟩
  obtain ⟨f, hf', hlen, hent⟩ := lowerCorr_spec hod htau
  rw [corrFunc_spearman] at hf'
  obtain rfl := Except.ok.inj hf'
  obtain ⟨M, hM, hM1, hM2⟩ := createCovMatrix_ok (d := d) (by omega) (tau.map ellIrho) (by simpa using hlen)
  have hent' : ∀ i j : Fin d, i < j →
      (tau.map ellIrho)[rhoPos d i j]? = some (.fin (Real.sin (T i j * Real.pi / 6) * 2)) := by
    intro i j hij
    obtain ⟨v, hv, hp⟩ := hent i j hij
    rw [hk i j hij] at hv
    obtain rfl := Except.ok.inj hv
    rw [List.getElem?_map, hp, Option.map_some, ellIrho_fin]
  have hMe : M = fun i j : Fin d => Fl.fin (Real.sin (T i j * Real.pi / 6) * 2) := by
    funext i j
    rcases lt_trichotomy i j with hij | rfl | hij
    · have := (hM2 i j hij).1
      rw [hent' i j hij] at this
      exact (Option.some.inj this).symm
    · rw [hM1, hT1, one_mul, Real.sin_pi_div_six]
      norm_num
      rfl
    · have := (hM2 j i hij).2
      rw [hent' j i hij] at this
      rw [hTs i j]
      exact (Option.some.inj this).symm
  obtain ⟨l, h4, h5, h6⟩ := readLower_ok M
  have hl3 : 3 ≤ d * (d - 1) / 2 := by
    obtain ⟨k, rfl⟩ : ∃ k, d = k + 3 := ⟨d - 3, by omega⟩
    rw [Nat.le_div_iff_mul_le (by norm_num)]
    have : k + 3 - 1 = k + 2 := rfl
    rw [this]
    nlinarith
  have hsq : squeeze (tau.map ellIrho) = .vec (tau.map ellIrho) := by
    match tau, hlen with
    | [], h => simp at h; omega
    | [_], h => simp at h; omega
    | _ :: _ :: _, _ => rfl
  have hll' : l = tau.map ellIrho := by
    refine list_ext_rho h5 (by simpa using hlen) fun i j hij hj => ?_
    rw [h6 ⟨i, by omega⟩ ⟨j, hj⟩ hij, (hM2 ⟨i, by omega⟩ ⟨j, hj⟩ hij).2]
  have hraw : rawTheta env o.cop u .irho = .ok (.vec (tau.map ellIrho)) := by
    simp only [rawTheta, htau, bind, Except.bind]
    rw [hc]
    simp only [copIrho, hsq]
  have hfc : fitCor env o.cop u .irho = .ok (.vec l) := by
    have hell : o.cop.isEll = true := by rw [hc]; rfl
    simp only [fitCor, hraw, hell, if_true, bind, Except.bind, psdLower, covOfArg, hM, nearPsd_psd (hMe ▸ hpsd)]
    rw [hod]
    rw [show (do fancyRead M (← triIndices d 1 "lower")) = Except.bind (triIndices d 1 "lower") fun i => fancyRead M i from rfl]
      at h4
    simp only [Except.bind] at h4
    simp only [h4, pure, Except.pure]
  have hlM : createCovMatrix l = .ok ⟨d, M⟩ := by rw [hll', hM]
  have hst : storeEstimate o.cop (.vec l) = (.gaussian { e with rhos := l }, .ok l) := by
    have hle : (ParamArg.vec l).toVec.length = e.rhos.length := by
      rw [show (ParamArg.vec l).toVec = l from rfl, h5, he.2, hed]
    rw [hc]
    simp only [storeEstimate]
    rw [if_pos hle]
    rfl
  obtain ⟨b, hb⟩ : ∃ b, logLikCut (.gaussian { e with rhos := l }) = .ok b :=
    ⟨_, by simp only [logLikCut, Ell.sigma, hlM, bind, Except.bind, pure, Except.pure]; rfl⟩
  obtain ⟨v, hv⟩ : ∃ v, logLik env (.gaussian { e with rhos := l }) u true "average" = .ok v := by
    obtain ⟨w, hw⟩ : ∃ w, maybePobs u true "average" = .ok w := ⟨_, rfl⟩
    obtain ⟨x, hx⟩ := hll (.gaussian { e with rhos := l }) w
    cases b with
    | true => exact ⟨.ninf, by simp only [logLik, hb, bind, Except.bind, if_true]; rfl⟩
    | false => exact ⟨x, by simp only [logLik, hb, bind, Except.bind, Bool.false_eq_true, if_false, hw, hx]⟩
  refine ⟨{ e with rhos := l }, ⟨l, v, n, none⟩, ?_, hed, fun i j => ?_⟩
  · unfold FitObj.fit fitCopula
    simp only [hu]
    rw [if_neg (by simp [hod]), if_neg, if_neg (by omega), if_neg (by rw [hm]; decide), if_neg (by rw [hm]; decide), if_pos hm]
    · simp only [estimateCorr, hfc, hst, hv]
    · rintro ⟨i, j, h | h⟩
      · exact absurd (hr i j).1 (not_le.2 h)
      · exact absurd (hr i j).2 (not_le.2 h)
  · subst hed
    have hsig : Ell.sigma { e with rhos := l } = .ok ⟨e.dim, M⟩ := by
      simp only [Ell.sigma, hlM]
    rw [getItem_pair (s := { e with rhos := l }) hsig, hMe]

theorem rankOf_congr {x x' : Fin n → ℝ} (hx : ∀ i k, x' i < x' k ↔ x i < x k) : rankOf x' = rankOf x := by
  funext i
  unfold rankOf
  have : ∀ k, x' k ≤ x' i ↔ x k ≤ x i := fun k => by rw [← not_lt, ← not_lt, hx]
  simp only [this]

/-- Ranking does not change Spearman's rho. -/
theorem spearman_pobsOf {f : List Fl → List Fl → Except PyErr Fl} (hf : IsSpearman f) (hn : 2 ≤ n) (m : TieMethod)
    {x : Fin n → Fin d → ℝ} (hx : NoTies x) (a b : Fin d) :
    f (col (pobsOf m x) a) (col (pobsOf m x) b) = .ok (.fin (sampleRho (fun i => x i a) fun i => x i b)) := by
  have hinj : ∀ j, Function.Injective fun i => ((pobsOf m x i j : ℚ) : ℝ) := by
    intro j i k h
    by_contra hne
    rcases lt_or_gt_of_ne (hx j i k hne) with h1 | h1
    · exact absurd h ((pobsOf_lt m hx j i k).mpr h1).ne
    · exact absurd h ((pobsOf_lt m hx j k i).mpr h1).ne'
  unfold col
  rw [hf n _ _ hn (hinj a) (hinj b)]
  unfold sampleRho
  rw [rankOf_congr (pobsOf_lt m hx a), rankOf_congr (pobsOf_lt m hx b)]

theorem fitPobs_irho_near {x : Fin n → Fin d → ℝ} (hx : NoTies x) (hk : IsSpearman env.fns.spearman)
    (hll : ∀ c (w : Fin n → Fin d → ℚ), ∃ v, env.logPdfSum c n d w = .ok v) (hm : pyLower method = "irho".toList)
    {tm : TieMethod} (ht : parseTies ties = .ok tm) {e : Ell} (he : e.WF)
    (hc : o.cop = .gaussian e) (hed : e.dim = d) (hd : 3 ≤ d) (hn : d ≤ n)
    {S : Matrix (Fin d) (Fin d) ℝ} (hS : S.PosSemidef) (h1 : ∀ j, S j j = 1) {ε : ℝ} (hε : 0 < ε) (hdε : d * ε ≤ 1e-12)
    (hnear : ∀ a b, a < b → |Real.sin (sampleRho (fun i => x i a) (fun i => x i b) * Real.pi / 6) * 2 - S a b| < ε) :
    (o.fitPobs env opt x x0 method ties scale).2 = .ok () ∧
    ∃ e', (o.fitPobs env opt x x0 method ties scale).1.cop = .gaussian e' ∧ e'.dim = d ∧
      ∀ i j : Fin d, ∃ ρ, e'.getItem (ixPair i j) = .ok (.scalar (.fin ρ)) ∧ |ρ - S i j| < ε := by
  set T : Fin d → Fin d → ℝ := fun i j => if i = j then 1 else
    if i < j then sampleRho (fun k => x k i) (fun k => x k j) else sampleRho (fun k => x k j) (fun k => x k i) with hT
  have hTlt : ∀ i j, i < j → T i j = sampleRho (fun k => x k i) (fun k => x k j) := fun i j hij => by
    simp only [hT]; rw [if_neg hij.ne, if_pos hij]
  have hT1 : ∀ i, T i i = 1 := fun i => by simp [hT]
  have hTs : ∀ i j, T i j = T j i := by
    intro i j
    rcases lt_trichotomy i j with h | h | h
    · simp only [hT]; rw [if_neg h.ne, if_pos h, if_neg h.ne', if_neg h.asymm]
    · rw [h]
    · simp only [hT]; rw [if_neg h.ne', if_neg h.asymm, if_neg h.ne, if_pos h]
  have hSs : ∀ i j, S i j = S j i := fun i j => by simpa using (hS.1.apply i j).symm
  have hall : ∀ i j, |Real.sin (T i j * Real.pi / 6) * 2 - S i j| < ε := by
    intro i j
    rcases lt_trichotomy i j with h | h | h
    · rw [hTlt i j h]; exact hnear i j h
    · subst h
      rw [hT1, one_mul, Real.sin_pi_div_six, h1]
      norm_num
      exact hε
    · rw [hTs, hTlt j i h, hSs]; exact hnear j i h
  have hpsd : isPsd fun i j : Fin d => Fl.fin (Real.sin (T i j * Real.pi / 6) * 2) :=
    isPsd_near (S' := fun i j => Real.sin (T i j * Real.pi / 6) * 2) hS (fun i j => by rw [hTs]) hε.le hdε fun i j => (hall i j).le
  have hkk : ∀ i j : Fin d, i < j → env.fns.spearman (col (pobsOf tm x) i) (col (pobsOf tm x) j) = .ok (.fin (T i j)) :=
    fun i j hij => by rw [hTlt i j hij]; exact spearman_pobsOf hk (by omega) tm hx i j
  have heq : o.fitPobs env opt x x0 method ties scale = o.fit env opt (pobsOf tm x) x0 method ties false scale := by
    unfold FitObj.fitPobs
    simp only [pobsMat_of ht]
  obtain ⟨e', s, k1, k2, k3⟩ := fit_irho_core (opt := opt) (x0 := x0) (scale := scale) (toPobs := false) (ties := ties) he hm hc hed
    hd hn rfl (pobsOf_mem tm x) T hT1 hTs hkk hpsd hll
  rw [heq, k1]
  exact ⟨rfl, e', rfl, k2, fun i j => ⟨_, k3 i j, hall i j⟩⟩

end Copulae
