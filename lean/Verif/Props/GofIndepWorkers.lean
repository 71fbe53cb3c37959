import Verif.Props.GofIndepPar

/-!
C170: how far worker processes can raise the level of the test of independence.
-/

namespace Copulae

open MeasureTheory ProbabilityTheory Finset Spec CopulaMeasure

variable {d n : ℕ} {G : Gen}

/-- Every worker repeats the first tasks of the serial program, as many as it takes. -/
theorem workers_count (b : ℕ → Bool) (who : ℕ → ℕ) (w N : ℕ) :
    ∑ v ∈ range w, (List.range (taken who v N)).countP b ≤ (List.range N).countP fun i => b (taken who (who i) i) := by
  induction N with
  | zero => simp [taken]
  | succ N ih =>
    have h1 : ∀ v, (List.range (taken who v (N + 1))).countP b = (List.range (taken who v N)).countP b +
        if who N = v then (if b (taken who (who N) N) then 1 else 0) else 0 := fun v => by
      rw [taken_succ]
      by_cases hv : who N = v
      · rw [if_pos hv, if_pos hv, List.range_succ, List.countP_append, List.countP_singleton, hv]
      · rw [if_neg hv, if_neg hv, add_zero, add_zero]
    rw [sum_congr rfl fun v _ => h1 v, sum_add_distrib, sum_ite_eq, List.range_succ, List.countP_append, List.countP_singleton]
    refine add_le_add ih ?_
    split_ifs <;> simp

section run

variable {σ : Type} {fit : (Fin n → Fin d → ℝ) → Except PyErr σ} {cdf : σ → (Fin n → Fin d → ℝ) → Fin n → Fl}
  {random : σ → Rnd G (Fin n → Fin d → Fl)} {data : Fin n → Fin d → ℝ} {reps : ℤ} {ties fitTies : String} {who : ℕ → ℕ}
  {c : σ} {t : Fl} {p : ℝ} {s s' : G.S}

open Classical in
/-- **C170** Where each of `w` workers takes at least `m` tasks, every replicate of a serial test with `m` replications that reaches the
statistic is counted at least `w` times. -/
theorem gofPar_workers {w m : ℕ} (h0 : 0 < w) (hw : ∀ v < w, m ≤ taken who v reps.toNat) (hr : 0 ≤ reps)
    (h : (gofRun fit cdf random data reps ties fitTies).exec s = (.ok (c, t, p), s')) :
    ∃ k : ℕ, (∃ s₁, (gofRun fit cdf random data m ties fitTies).exec s = (.ok (c, t, (k + 0.5) / (m + 1)), s₁)) ∧
      ∃ p', (gofRunPar who fit cdf random data reps ties fitTies).exec s = (.ok (c, t, p'), s) ∧ (w * k + 0.5) / (reps + 1) ≤ p' := by
  have h1 : (gofRunPar (fun _ => 0) fit cdf random data reps ties fitTies).exec s = (.ok (c, t, p), s) := by
    refine Prod.ext ?_ gofRunPar_state
    rw [gofPar_serial_partial, h]
  obtain ⟨-, hfit, hr', ts, hp, hts⟩ := gofRunPar_ok h1
  have hl : ts.length = reps.toNat := by
    have := congrArg List.length hts
    simpa using this
  have hz : ∀ i, taken (fun _ => 0) 0 i = i := fun i => by simp [taken]
  have hout : ∀ i, i < reps.toNat → outcome (gofTask fit cdf random data ties fitTies c) s i = .ok (ts.getD i .nan) := fun i hi => by
    have h2 := congrArg (fun l => l[i]?) hts
    simp only [List.getElem?_map, List.getElem?_range hi, List.getElem?_eq_getElem (hl ▸ hi), Option.map_some] at h2
    rw [hz] at h2
    rw [List.getD_eq_getElem _ _ (hl ▸ hi)]
    exact (Option.some.inj h2).symm
  have hm : m ≤ reps.toNat := (hw 0 h0).trans (Nat.count_le _)
  set b : ℕ → Bool := fun k => decide (Fl.abs (ts.getD k .nan) ≥ Fl.abs t) with hb
  have hser := gofRunPar_run (who := fun _ => 0) (reps := (m : ℤ)) (random := random) hfit (by omega) (fun k => ts.getD k .nan) fun i hi => by
    rw [hz]
    exact hout i (lt_of_lt_of_le (by simpa using hi) hm)
  have hpar := gofRunPar_run (who := who) (random := random) hfit hr' (fun i => ts.getD (taken who (who i) i) .nan) fun i hi =>
    hout _ (lt_of_le_of_lt (Nat.count_le _) hi)
  have e : ∀ (f : ℕ → ℕ) (N : ℕ), (((List.range N).map fun i => ts.getD (f i) .nan).countP fun r => decide (Fl.abs r ≥ Fl.abs t)) =
      (List.range N).countP fun i => b (f i) := fun f N => by rw [List.countP_map]; rfl
  refine ⟨(List.range m).countP b, ⟨((gofRun fit cdf random data m ties fitTies).exec s).2, Prod.ext ?_ rfl⟩, _, hpar, ?_⟩
  · rw [← gofPar_serial_partial 0, hser]
    simp only [gofPValue, Int.toNat_natCast]
    rw [show (((List.range m).map fun k => ts.getD k .nan).countP fun r => decide (Fl.abs r ≥ Fl.abs t)) = (List.range m).countP b from
      e id m, Int.cast_natCast]
  · have hR : (0 : ℝ) < reps + 1 := by
      have : (0 : ℝ) ≤ reps := by exact_mod_cast hr
      linarith
    rw [gofPValue, e, div_le_div_iff_of_pos_right hR]
    have h2 : w * (List.range m).countP b ≤ (List.range reps.toNat).countP fun i => b (taken who (who i) i) := by
      refine le_trans ?_ (workers_count b who w _)
      refine le_of_eq_of_le (by rw [sum_const, card_range, smul_eq_mul]) (sum_le_sum (f := fun _ => (List.range m).countP b) ?_)
      exact fun v hv => (List.range_sublist.mpr (hw v (mem_range.mp hv))).countP_le
    have h3 : ((w * (List.range m).countP b : ℕ) : ℝ) ≤ ((List.range reps.toNat).countP fun i => b (taken who (who i) i) : ℕ) := by
      exact_mod_cast h2
    push_cast at h3
    linarith

end run

variable [MeasurableSpace G.S] {R : Measure G.S}

/-- **C170**, where each of `w` workers takes at least `m` tasks: the level is raised to that of a test with `m` replications at most. -/
theorem gof_indep_par_workers_partial (hR : IsIdeal G R) {Q : Measure (Fin d → ℝ)} [IsProbabilityMeasure Q] (hQ : Atomless Q)
    (hc : HasCopula Q (iid d unif)) {reps : ℤ} (hr : 0 ≤ reps) {ties fitTies : String} {t t' : TieMethod} (ht : parseTies ties = .ok t)
    (ht' : parseTies fitTies = .ok t') {who : ℕ → ℕ} {w m : ℕ} (h0 : 0 < w) (hw : ∀ v < w, m ≤ taken who v reps.toNat) (α : ℝ) :
    ((iid n Q).prod R) {q | ¬ ∃ r s', (gofRunPar who indepGofFit indepGofCdf (fun _ => indepRandomG n d none) q.1 reps ties
      fitTies).exec q.2 = (.ok r, s') ∧ α < r.2.2} ≤ ENNReal.ofReal ((⌊(α * (reps + 1) - 1 / 2) / w⌋ + 1) / (m + 1)) := by
  have hRr : (0 : ℝ) < reps + 1 := by
    have : (0 : ℝ) ≤ reps := by exact_mod_cast hr
    linarith
  obtain ⟨M, rfl⟩ := Int.eq_ofNat_of_zero_le hr
  obtain ⟨Y, hY, hlaw, hae⟩ := gof_indep_rank (n := n) hR hQ hc m
  obtain ⟨Z, -, -, hae'⟩ := gof_indep_rank (n := n) hR hQ hc M
  set J := ⌊(α * ((M : ℤ) + 1) - 1 / 2) / w⌋ + 1 with hJ
  have hT := high_measurable (m := m + 1) (indepStat_measurable (n := n) (d := d)) 0 J.toNat
  have hb : ((iid n Q).prod R) (Y ⁻¹' {z | #{k | indepStat (z 0) ≤ indepStat (z k)} ≤ J.toNat}) ≤ ENNReal.ofReal (J / (m + 1)) := by
    rw [← Measure.map_apply hY hT, hlaw]
    refine (iid_level indepStat_measurable J.toNat).trans ?_
    rcases le_total 0 J with h0 | h0
    · have : ((J.toNat : ℕ) : ℝ) = J := by exact_mod_cast congrArg (Int.cast : ℤ → ℝ) (Int.toNat_of_nonneg h0)
      rw [this]
    · rw [Int.toNat_of_nonpos h0]
      simp
  have hnull := ae_iff.mp (hae.and hae')
  have hJr : ((⌊(α * (((M : ℤ) : ℝ) + 1) - 1 / 2) / w⌋ : ℝ) + 1) = (J : ℝ) := by rw [hJ]; push_cast; rfl
  rw [hJr]
  refine (measure_mono (t := Y ⁻¹' {z | #{k | indepStat (z 0) ≤ indepStat (z k)} ≤ J.toNat} ∪ _) fun q hq => ?_).trans
    ((measure_union_le _ _).trans (le_of_eq_of_le (by rw [hnull, add_zero]) hb))
  by_contra hcon
  rw [Set.mem_union, not_or] at hcon
  have hq2 := not_not.mp hcon.2
  obtain ⟨s₁, hrun⟩ := hq2.1 ties fitTies t t' ht ht'
  obtain ⟨s₂, hrun'⟩ := hq2.2 ties fitTies t t' ht ht'
  obtain ⟨k, ⟨s₃, hk⟩, p', hp', hle⟩ := gofPar_workers (random := fun _ => indepRandomG n d none) (who := who) h0 hw hr hrun'
  refine hq ⟨_, _, hp', lt_of_lt_of_le ?_ hle⟩
  have h1 : ¬ #{k | indepStat (Y q 0) ≤ indepStat (Y q k)} ≤ J.toNat := hcon.1
  have h2 : J < (#{k | indepStat (Y q 0) ≤ indepStat (Y q k)} : ℤ) := by omega
  have h3 := congrArg Prod.fst (hk.symm.trans hrun)
  simp only [Except.ok.injEq, Prod.mk.injEq] at h3
  have hm : (0 : ℝ) < m + 1 := by positivity
  have h4 : (k : ℝ) + 0.5 = #{k | indepStat (Y q 0) ≤ indepStat (Y q k)} - 0.5 := by
    have := h3.2.2
    rwa [div_left_inj' hm.ne'] at this
  have h5 : (k : ℝ) + 1 = #{k | indepStat (Y q 0) ≤ indepStat (Y q k)} := by
    norm_num at h4 ⊢
    linarith
  have h6 : ⌊(α * (((M : ℤ) : ℝ) + 1) - 1 / 2) / w⌋ < (k : ℤ) := by
    have h7 : (k : ℤ) + 1 = #{k | indepStat (Y q 0) ≤ indepStat (Y q k)} := by exact_mod_cast h5
    omega
  rw [Int.floor_lt, div_lt_iff₀ (by exact_mod_cast h0)] at h6
  rw [lt_div_iff₀ hRr]
  push_cast at h6 ⊢
  norm_num at h6 ⊢
  linarith

/-! ### Cases -/

/-- Four workers that take turns with 1000 replications: the p-value is at most 0.05 with a probability of at most 13/251 = 0.0518. -/
example (seeded : ℕ → ℕ → Answers) := gof_indep_par_workers_partial (n := 50) (idealGen_isIdeal seeded) (iid_unif_atomless 3) (hasCopula_self _)
  (reps := 1000) (by norm_num) (ties := "average") (fitTies := "average") rfl rfl (who := fun i => i % 4) (w := 4) (m := 250) (by norm_num)
  (fun v hv => by
    have := Nat.count_modEq_card 1000 (show 0 < 4 by norm_num) v
    unfold taken
    have e : (fun i => i % 4 = v) = fun i => i ≡ v [MOD 4] := by
      funext i
      rw [Nat.ModEq, Nat.mod_eq_of_lt hv]
    simp only [e]
    refine le_of_le_of_eq ?_ this.symm
    omega) 0.05

example : (⌊((0.05 : ℝ) * (1000 + 1) - 1 / 2) / 4⌋ + 1) / ((250 : ℝ) + 1) = 13 / 251 := by
  rw [show ⌊((0.05 : ℝ) * (1000 + 1) - 1 / 2) / 4⌋ = 12 by rw [Int.floor_eq_iff]; norm_num]
  norm_num

end Copulae
