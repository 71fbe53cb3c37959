import Verif.Props.GofPar
import Verif.Props.GofPower

/-!
**C166** What remains of the goodness-of-fit test with worker processes.
-/

namespace Copulae

open MeasureTheory Spec CopulaMeasure

variable {G : Gen} {σ : Type} {n d : ℕ}

section run

variable {fit : (Fin n → Fin d → ℝ) → Except PyErr σ} {cdf : σ → (Fin n → Fin d → ℝ) → Fin n → Fl}
  {random : σ → Rnd G (Fin n → Fin d → Fl)} {data : Fin n → Fin d → ℝ} {reps : ℤ} {ties fitTies : String} {who : ℕ → ℕ}
  {c : σ} {t : Fl} {p : ℝ} {s s' : G.S}

/-- **C166** If the test with one process returns, so does the test with worker processes, with the same copula and statistic, and all its
replicates are among those of the test with one process. -/
theorem gofPar_among (who : ℕ → ℕ) (h : (gofRun fit cdf random data reps ties fitTies).exec s = (.ok (c, t, p), s')) :
    ∃ ts us : List Fl, ts.length = reps.toNat ∧ us.length = reps.toNat ∧ (∀ u ∈ us, u ∈ ts) ∧ p = gofPValue ts t reps ∧
      (gofRunPar who fit cdf random data reps ties fitTies).exec s = (.ok (c, t, gofPValue us t reps), s) := by
  have h1 : (gofRunPar (fun _ => 0) fit cdf random data reps ties fitTies).exec s = (.ok (c, t, p), s) := by
    refine Prod.ext ?_ gofRunPar_state
    rw [gofPar_serial_partial, h]
  obtain ⟨-, hfit, hr, ts, hp, hts⟩ := gofRunPar_ok h1
  have hl : ts.length = reps.toNat := by
    have := congrArg List.length hts
    simpa using this
  have hout : ∀ i (hi : i < ts.length), outcome (gofTask fit cdf random data ties fitTies c) s i = .ok ts[i] := fun i hi => by
    have h2 := congrArg (fun l => l[i]?) hts
    simp only [List.getElem?_map, List.getElem?_range (hl ▸ hi), List.getElem?_eq_getElem hi, Option.map_some] at h2
    have h3 : taken (fun _ => 0) 0 i = i := by simp [taken]
    rw [h3] at h2
    exact (Option.some.inj h2).symm
  have hlt : ∀ i < reps.toNat, taken who (who i) i < ts.length := fun i hi => by
    rw [hl]
    exact lt_of_le_of_lt (Nat.count_le _) hi
  refine ⟨ts, (List.range reps.toNat).map fun i => ts.getD (taken who (who i) i) .nan, hl, by simp, fun u hu => ?_, hp,
    gofRunPar_run hfit hr _ fun i hi => ?_⟩
  · obtain ⟨i, hi, rfl⟩ := List.mem_map.mp hu
    have := hlt i (List.mem_range.mp hi)
    rw [List.getD_eq_getElem _ _ this]
    exact List.getElem_mem this
  · rw [hout _ (hlt i hi), List.getD_eq_getElem _ _ (hlt i hi)]

/-- **C166** If no replicate of the test with one process reaches the statistic, the result with worker processes is the same. -/
theorem gofPar_least (who : ℕ → ℕ) (hr : 0 ≤ reps)
    (h : (gofRun fit cdf random data reps ties fitTies).exec s = (.ok (c, t, 0.5 / (reps + 1)), s')) :
    (gofRunPar who fit cdf random data reps ties fitTies).exec s = (.ok (c, t, 0.5 / (reps + 1)), s) := by
  obtain ⟨ts, us, -, -, hsub, hp, hrun⟩ := gofPar_among who h
  have hpos : (0 : ℝ) < reps + 1 := by
    have : (0 : ℝ) ≤ reps := by exact_mod_cast hr
    linarith
  unfold gofPValue at hp hrun
  rw [div_left_inj' hpos.ne'] at hp
  have h0 : ts.countP (fun r => @decide (Fl.abs r ≥ Fl.abs t) (Classical.propDecidable _)) = 0 := by
    have : ((ts.countP fun r => @decide (Fl.abs r ≥ Fl.abs t) (Classical.propDecidable _) : ℕ) : ℝ) = 0 := by linarith
    exact_mod_cast this
  have h1 : us.countP (fun r => @decide (Fl.abs r ≥ Fl.abs t) (Classical.propDecidable _)) = 0 :=
    List.countP_eq_zero.mpr fun u hu => List.countP_eq_zero.mp h0 u (hsub u hu)
  rw [hrun, h1]
  norm_num

/-- **C166** If all replicates of the test with one process reach the statistic, the result with worker processes is the same. -/
theorem gofPar_greatest (who : ℕ → ℕ) (hr : 0 ≤ reps)
    (h : (gofRun fit cdf random data reps ties fitTies).exec s = (.ok (c, t, (reps + 0.5) / (reps + 1)), s')) :
    (gofRunPar who fit cdf random data reps ties fitTies).exec s = (.ok (c, t, (reps + 0.5) / (reps + 1)), s) := by
  obtain ⟨ts, us, hl, hl', hsub, hp, hrun⟩ := gofPar_among who h
  have hpos : (0 : ℝ) < reps + 1 := by
    have : (0 : ℝ) ≤ reps := by exact_mod_cast hr
    linarith
  have hcast : ((reps.toNat : ℕ) : ℝ) = (reps : ℝ) := by
    have : ((reps.toNat : ℕ) : ℤ) = reps := Int.toNat_of_nonneg hr
    exact_mod_cast congrArg (Int.cast : ℤ → ℝ) this
  unfold gofPValue at hp hrun
  rw [div_left_inj' hpos.ne'] at hp
  have h0 : ts.countP (fun r => @decide (Fl.abs r ≥ Fl.abs t) (Classical.propDecidable _)) = ts.length := by
    have : ((ts.countP fun r => @decide (Fl.abs r ≥ Fl.abs t) (Classical.propDecidable _) : ℕ) : ℝ) = ts.length := by
      rw [hl, hcast]
      linarith
    exact_mod_cast this
  have h1 : us.countP (fun r => @decide (Fl.abs r ≥ Fl.abs t) (Classical.propDecidable _)) = us.length :=
    List.countP_eq_length.mpr fun u hu => List.countP_eq_length.mp h0 u (hsub u hu)
  rw [hrun, h1, hl', hcast]

end run

/-! ### Cases -/

/-- A test in which no replicate reaches the statistic. -/
theorem disc_run (s : G.S) : ((gofRun zeroFit zeroCdf (fun _ => (Rnd.draw fun s => (matFl discRows, s) : Rnd G _)) concRows 3 "max"
    "max").exec s).1 = .ok ((), .fin (5 / 4), 0.5 / ((3 : ℤ) + 1)) := by
  classical
  have htask : ∀ s : G.S, (gofTask zeroFit zeroCdf (fun _ => (Rnd.draw fun s => (matFl discRows, s) : Rnd G _)) concRows "max" "max"
      ()).exec s = (.ok (.fin (1 / 2)), s) := fun s => by
    unfold gofTask
    rw [exec_bind, exec_draw]
    simp only
    rw [exec_bind, realRows_matFl, exec_ofExcept]
    simp [exec_ofExcept, gofReplicate, conc_noTies, disc_stat, bind, Except.bind, pure, Except.pure]
  have hlt : ¬ Fl.abs (.fin (1 / 2)) ≥ Fl.abs (.fin (5 / 4)) := by
    simp only [Fl.abs, ge_iff_le, Fl.fin_le_fin]
    rw [abs_of_pos (by norm_num), abs_of_pos (by norm_num)]
    norm_num
  rw [← gofPar_serial_partial 0, gofRunPar_run conc_stat (by norm_num) (fun _ => .fin (1 / 2)) fun i _ => by rw [outcome, htask]]
  have hrange : List.range (3 : ℤ).toNat = [0, 1, 2] := rfl
  simp only [hrange, gofPValue, List.map_cons, List.map_nil, List.countP_cons, List.countP_nil, hlt, decide_false]
  norm_num

/-- A test in which all replicates reach the statistic. -/
theorem conc_run (s : G.S) : ((gofRun zeroFit zeroCdf (fun _ => (Rnd.draw fun s => (matFl concRows, s) : Rnd G _)) concRows 3 "max"
    "max").exec s).1 = .ok ((), .fin (5 / 4), ((3 : ℤ) + 0.5) / ((3 : ℤ) + 1)) := by
  classical
  have htask : ∀ s : G.S, (gofTask zeroFit zeroCdf (fun _ => (Rnd.draw fun s => (matFl concRows, s) : Rnd G _)) concRows "max" "max"
      ()).exec s = (.ok (.fin (5 / 4)), s) := fun s => by
    unfold gofTask
    rw [exec_bind, exec_draw]
    simp only
    rw [exec_bind, realRows_matFl, exec_ofExcept]
    simp [exec_ofExcept, gofReplicate, conc_noTies, conc_stat, bind, Except.bind, pure, Except.pure]
  have hge : Fl.abs (.fin (5 / 4)) ≥ Fl.abs (.fin (5 / 4)) := by
    simp only [Fl.abs, ge_iff_le, Fl.fin_le_fin, le_refl]
  rw [← gofPar_serial_partial 0, gofRunPar_run conc_stat (by norm_num) (fun _ => .fin (5 / 4)) fun i _ => by rw [outcome, htask]]
  have hrange : List.range (3 : ℤ).toNat = [0, 1, 2] := rfl
  simp only [hrange, gofPValue, List.map_cons, List.map_nil, List.countP_cons, List.countP_nil, hge, decide_true]
  norm_num

example := gofPar_among id (Prod.ext (gofPar_differs_violation concThenDisc_count).1 rfl)

example (s : G.S) := gofPar_least (fun i => i % 2) (by norm_num) (Prod.ext (disc_run s) rfl)

example (s : G.S) := gofPar_greatest (fun i => i % 2) (by norm_num) (Prod.ext (conc_run s) rfl)

variable [MeasurableSpace G.S] {R : Measure G.S}

/-- **C166** `gof_copula(multiprocess=True)` for a Clayton or Gumbel family with `method='itau'` on data of any other copula of the library
whose taus are those of the family at the parameter `θ`, with any continuous margins, whichever worker takes which replication: the p-value
is the least there is. -/
theorem gofPar_rejects_others {f : EllFns} (hn : f.Normal) (ht : f.Student) (hR : IsIdeal G R) {env : FitEnv} (hk : IsKendall env.fns.kendall)
    (hll : ∀ c n (w : Fin n → Fin d → ℚ), ∃ v, env.logPdfSum c n d w = .ok v) (opt : List Fl → OptTree) {F : Family}
    {θ : ℝ} (ha : (Choice.arch (d := d) F θ).Ok) (hdr : Drawable F θ) {o : FitObj} {st : ArchState} (ho : o.cop = .arch F st)
    (hdim : st.dim = d) (m : Choice d) (hm : m.Ok) (hne : ¬ m.Same (.arch F θ)) {Q P : Measure (Fin d → ℝ)}
    [IsProbabilityMeasure Q] (hP : m.HasLaw P) (hQ : Atomless Q) (hc : HasCopula Q P)
    (hτ : ∀ a b, a < b → kendallTau P a b = tauReal F θ) {reps : ℤ} (hr : 1 ≤ reps) {ε δ : ℝ} (hε : 0 < ε) (hδ : 0 < δ) :
    ∃ κ : ℝ, 0 < κ ∧ ∃ N : ℕ, ∀ n, N ≤ n → ∀ (k : ItauOptions) (ties fitTies : String) (t t' : TieMethod), parseTies ties = .ok t →
      parseTies fitTies = .ok t' → iid n Q {x | ¬ R {s | ¬ ∀ who : ℕ → ℕ, ∃ r, (gofRunPar who (fun u => k.fit env opt o u)
        (fun c u => gofCdfOf c u) (fun c => (objSampler c : Sampler G d).random n none) x reps ties fitTies).exec s = (.ok r, s) ∧
          ThetaNear F st θ ε r.1 ∧ (∃ s : ℝ, r.2.1 = .fin s ∧ κ * n ≤ s) ∧ r.2.2 = 0.5 / (reps + 1)} ≤ ENNReal.ofReal δ} ≤
            ENNReal.ofReal δ := by
  obtain ⟨κ, hκ, N, hN⟩ := gof_rejects_others hn ht hR hk hll opt ha hdr ho hdim m hm hne hP hQ hc hτ hr hε hδ
  refine ⟨κ, hκ, N, fun n hnN k ties fitTies t t' h1 h2 => le_trans (measure_mono ?_) (hN n hnN k ties fitTies t t' h1 h2)⟩
  intro x hx hg
  refine hx (le_trans (measure_mono ?_) hg)
  rintro s hs ⟨⟨c, v, p⟩, s', hrun, hth, hv, hp⟩
  refine hs fun who => ⟨(c, v, p), ?_, hth, hv, hp⟩
  obtain rfl : p = 0.5 / (reps + 1) := hp
  exact gofPar_least who (by omega) hrun

/-- Data of a Gumbel copula in three dimensions with the parameter 2, tested for the Clayton family: tau is 1/2 for the parameter 2. -/
example (seeded : ℕ → ℕ → Answers) (opt : List Fl → OptTree) {P : Measure (Fin 3 → ℝ)} (hP : IsLawOf P (Family.copula .gumbel 2))
    {δ : ℝ} (hδ : 0 < δ) := by
  have := hP.prob
  have ha : Copulae.Admissible .gumbel 2 3 := ⟨by norm_num, (by norm_num : (1 : ℝ) ≤ 2)⟩
  have hu := arch_uniform ha hP
  exact gofPar_rejects_others exactEll_ok.1 exactEll_ok.2 (idealGen_isIdeal seeded) (env := exactFitEnv) exactKendall_ok
    (fun _ _ _ => ⟨_, rfl⟩) opt (d := 3) (F := .clayton) (θ := 2)
    ⟨⟨by norm_num, by norm_num, by norm_num, fun _ => by norm_num⟩, Or.inl (by norm_num)⟩ (show 1 / 10 ^ 7 < |(2 : ℝ)| by norm_num)
    (o := ⟨.arch .clayton ⟨3, .fin 7, .fin 0, .pinf⟩, none⟩) rfl rfl (.arch .gumbel 2) ⟨ha, (by norm_num : (1 : ℝ) ≤ 2)⟩
    (by simp [Choice.Same]) hP (atomless_of_uniform hu) (hasCopula_self _) (fun a b hab => by
      rw [arch_tau_eq ha hP hab.ne]
      norm_num [archTau, tauReal]) (reps := 1000) (by norm_num) one_pos hδ

end Copulae
