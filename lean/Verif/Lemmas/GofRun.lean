import Verif.Lemmas.GofTest
import Verif.Model.GofRun
import Verif.Props.Seeding
import Verif.Spec.Consistency

/-!
The goodness-of-fit test with the replicates drawn from the generator.
-/

namespace Copulae

open MeasureTheory ProbabilityTheory Finset Spec CopulaMeasure

variable {d n : ℕ} {σ ι : Type} {G : Gen}

theorem realRows_matFl (x : Fin n → Fin d → ℝ) : realRows (matFl x) = .ok x := by
  have h : ∃ y : Fin n → Fin d → ℝ, matFl x = fun i j => .fin (y i j) := ⟨x, rfl⟩
  unfold realRows
  rw [dif_pos h]
  congr 1
  funext i j
  have := congrFun (congrFun h.choose_spec i) j
  exact (Fl.fin.inj this).symm

theorem exec_mapM {α β : Type} (f : α → Rnd G β) (b : α → β) (st : ℕ → G.S) : ∀ (l : List α) (k : ℕ),
    (∀ j (h : j < l.length), (f l[j]).exec (st (k + j)) = (.ok (b l[j]), st (k + j + 1))) →
    (l.mapM f).exec (st k) = (.ok (l.map b), st (k + l.length)) := by
  intro l
  induction l with
  | nil => intro k _; rfl
  | cons a l ih =>
    intro k h
    have h0 : (f a).exec (st k) = (.ok (b a), st (k + 1)) := h 0 (Nat.succ_pos _)
    rw [List.mapM_cons, exec_bind, h0]
    have h2 := ih (k + 1) fun j hj => by
      have := h (j + 1) (by simpa using hj)
      simpa [add_assoc, add_comm 1 j] using this
    simp only
    rw [exec_bind, h2]
    simp only [exec_pure, List.map_cons, List.length_cons]
    rw [show k + 1 + l.length = k + (l.length + 1) by omega]

/-- A run of the test in which every replicate can be computed. -/
theorem gofRun_exec {fit : (Fin n → Fin d → ℝ) → Except PyErr σ} {cdf : σ → (Fin n → Fin d → ℝ) → Fin n → Fl}
    {random : σ → Rnd G (Fin n → Fin d → Fl)} {data : Fin n → Fin d → ℝ} {reps : ℤ} {ties fitTies : String}
    {rnd : σ → ℕ → Fin n → Fin d → ℝ} {c : σ} {t : Fl} {p : ℝ} (st : ℕ → G.S)
    (hrun : gofCopula fit cdf rnd data reps ties fitTies = .ok (c, t, p))
    (hst : ∀ j, (random c).exec (st j) = (.ok (matFl (rnd c j)), st (j + 1))) :
    (gofRun fit cdf random data reps ties fitTies).exec (st 0) = (.ok (c, t, p), st reps.toNat) := by
  unfold gofCopula at hrun
  cases h1 : gofFit fit cdf data ties fitTies with
  | error e => simp [h1, bind, Except.bind] at hrun
  | ok r =>
    simp only [h1, bind, Except.bind, pure, Except.pure] at hrun
    cases h2 : (List.range reps.toNat).mapM fun k => gofReplicate fit cdf data (rnd r.1 k) ties fitTies with
    | error e => simp [h2] at hrun
    | ok ts =>
      simp only [h2] at hrun
      by_cases h3 : reps + 1 = 0
      · simp [h3] at hrun
      · simp only [if_neg h3, Except.ok.injEq, Prod.mk.injEq] at hrun
        obtain ⟨rfl, rfl, rfl⟩ := hrun
        have hall : ∀ k ∈ List.range reps.toNat, ∃ b, gofReplicate fit cdf data (rnd r.1 k) ties fitTies = .ok b :=
          (mapM_ok_length h2).2
        have hb : ∀ k, ∃ b, k ∈ List.range reps.toNat → gofReplicate fit cdf data (rnd r.1 k) ties fitTies = .ok b := fun k => by
          by_cases hk : k ∈ List.range reps.toNat
          · obtain ⟨b, hb⟩ := hall k hk
            exact ⟨b, fun _ => hb⟩
          · exact ⟨.nan, fun h => absurd h hk⟩
        choose b hb using hb
        rw [mapM_ok _ b _ hb] at h2
        have e := Except.ok.inj h2
        unfold gofRun
        rw [exec_bind, exec_ofExcept, h1]
        simp only
        have h4 := exec_mapM (G := G) (fun _ : ℕ => do
          let a ← random r.1
          let u ← Rnd.ofExcept (realRows a)
          Rnd.ofExcept (gofReplicate fit cdf data u ties fitTies)) b st (List.range reps.toNat) 0 fun j hj => by
            have hj' : j < reps.toNat := by simpa using hj
            simp only [zero_add, List.getElem_range]
            rw [exec_bind, hst j]
            simp only
            rw [exec_bind, realRows_matFl, exec_ofExcept]
            simp only
            rw [exec_ofExcept, hb j (List.mem_range.mpr hj')]
        rw [exec_bind, h4]
        simp only [List.length_range, zero_add, e, if_neg h3]
        rfl

section
variable [MeasurableSpace G.S] {R : Measure G.S} {fit : ι → ∀ {n : ℕ}, (Fin n → Fin d → ℝ) → Except PyErr σ}
  {cdf : σ → ∀ {n : ℕ}, (Fin n → Fin d → ℝ) → Fin n → Fl} {lawOf : σ → Measure (Fin d → ℝ)} {τ : Fin d → Fin d → ℝ}
  {H : Measure (Fin d → ℝ)} {near : ℝ → σ → Prop}

/-- The states of a generator that is asked again and again have the law of the first. -/
theorem iterate_law {next : G.S → G.S} (hm : Measurable next) (h : R.map next = R) (j : ℕ) : R.map next^[j] = R := by
  induction j with
  | zero => exact Measure.map_id
  | succ j ih =>
    rw [Function.iterate_succ, ← Measure.map_map (hm.iterate j) hm, h, ih]

/-- What repeated draws do. -/
theorem draws_run [IsProbabilityMeasure R] {β α : Type} [MeasurableSpace β] {c : Rnd G α} {e : β → α} {L : Measure β}
    [IsProbabilityMeasure L] (h : Draws R c e L) : ∃ (X : G.S → β) (next : G.S → G.S), (∀ j, R.map (fun s => X (next^[j] s)) = L) ∧
      ∀ᵐ s ∂R, ∀ j, c.exec (next^[j] s) = (.ok (e (X (next^[j] s))), next^[j + 1] s) := by
  obtain ⟨X, next, hX, hn, hex, hl⟩ := h
  have h1 : R.map X = L := by
    have := congrArg (Measure.map Prod.fst) hl
    rwa [Measure.map_map measurable_fst (hX.prodMk hn), Measure.map_fst_prod, measure_univ, one_smul] at this
  have h2 : R.map next = R := by
    have := congrArg (Measure.map Prod.snd) hl
    rwa [Measure.map_map measurable_snd (hX.prodMk hn), Measure.map_snd_prod, measure_univ, one_smul] at this
  refine ⟨X, next, fun j => ?_, ae_all_iff.mpr fun j => ?_⟩
  · have := Measure.map_map hX (hn.iterate j) (μ := R)
    rw [iterate_law hn h2 j, h1] at this
    exact this.symm
  · have h3 : ∀ᵐ s ∂(R.map next^[j]), c.exec s = (.ok (e (X s)), next s) := by rwa [iterate_law hn h2 j]
    filter_upwards [ae_of_ae_map (hn.iterate j).aemeasurable h3] with s hs
    rw [hs, Function.iterate_succ_apply']

/-- The test rejects: with the replicates drawn from the generator. -/
theorem gof_run_rejects (hR : IsProbabilityMeasure R) {Q P : Measure (Fin d → ℝ)} [IsProbabilityMeasure Q] [IsProbabilityMeasure P]
    [IsProbabilityMeasure H] (hP : Uniform P) (hH : Uniform H) (hQ : Atomless Q) (hc : HasCopula Q P)
    (hf : TauFit fit cdf lawOf τ H near) (hp : FitsAt fit near (kendallTau P)) (hM : 0 < misfit P H) {ρ : ℝ} (hρ : 0 < ρ)
    {random : σ → (n : ℕ) → Rnd G (Fin n → Fin d → Fl)} (hlaw : ∀ c, near ρ c → IsProbabilityMeasure (lawOf c))
    (hrnd : ∀ c, near ρ c → ∀ n, Draws R (random c n) matFl (iid n (lawOf c))) {reps : ℤ} (hr : 1 ≤ reps) {ε δ : ℝ} (hε : 0 < ε)
    (hδ : 0 < δ) : ∃ N : ℕ, ∀ n, N ≤ n → ∀ (k : ι) (ties fitTies : String) (t t' : TieMethod),
    parseTies ties = .ok t → parseTies fitTies = .ok t' →
      iid n Q {x | ¬ Likely R (gofRun (fit k) (fun c => cdf c) (fun c => random c n) x reps ties fitTies) δ fun r =>
        near ε r.1 ∧ (∃ s : ℝ, r.2.1 = .fin s ∧ misfit P H / 2 * n ≤ s) ∧ r.2.2 = 0.5 / (reps + 1)} ≤ ENNReal.ofReal δ := by
  classical
  obtain ⟨N, hN⟩ := gof_rejects_law hP hH hQ hc hf hp hM hr (ε := min ε ρ) (lt_min hε hρ) hδ hρ
  refine ⟨N, fun n hn k ties fitTies t t' ht ht' => ?_⟩
  have hex : ∀ c, near ρ c → ∃ (X : G.S → Fin n → Fin d → ℝ) (next : G.S → G.S), (∀ j, R.map (fun s => X (next^[j] s)) =
      iid n (lawOf c)) ∧ ∀ᵐ s ∂R, ∀ j, (random c n).exec (next^[j] s) = (.ok (matFl (X (next^[j] s))), next^[j + 1] s) := fun c hc => by
    have := hlaw c hc
    have : IsProbabilityMeasure (iid n (lawOf c)) := by unfold iid; infer_instance
    exact draws_run (hrnd c hc n)
  have hex' : ∀ c, ∃ (X : G.S → Fin n → Fin d → ℝ) (next : G.S → G.S), near ρ c → (∀ j, R.map (fun s => X (next^[j] s)) =
      iid n (lawOf c)) ∧ ∀ᵐ s ∂R, ∀ j, (random c n).exec (next^[j] s) = (.ok (matFl (X (next^[j] s))), next^[j + 1] s) := fun c => by
    by_cases hc : near ρ c
    · obtain ⟨X, next, h⟩ := hex c hc
      exact ⟨X, next, fun _ => h⟩
    · exact ⟨fun _ _ _ => 0, id, fun h => absurd h hc⟩
  choose X next hX using hex'
  refine (measure_mono fun x hx => ?_).trans (hN n hn k ties fitTies t t' ht ht' G.S inferInstance R
    (fun s c j => X c ((next c)^[j] s)) fun c hc j => (hX c hc).1 j)
  intro hz
  refine hx ?_
  -- the copula fitted to the data
  cases hfit : gofFit (fit k) (fun c => cdf c) x ties fitTies with
  | error e =>
    refine (measure_mono fun s _ => ?_).trans hz
    rintro ⟨c, v, hrun, -⟩
    unfold gofCopula at hrun
    simp [hfit, bind, Except.bind] at hrun
  | ok r =>
    by_cases hr1 : near ρ r.1
    · have hnull := ae_iff.mp (hX r.1 hr1).2
      refine (measure_mono (t := {s | ¬ ∃ c v, gofCopula (fit k) (fun c => cdf c) (fun c j => X c ((next c)^[j] s)) x reps ties fitTies =
        .ok (c, .fin v, 0.5 / (reps + 1)) ∧ near (min ε ρ) c ∧ misfit P H / 2 * n ≤ v} ∪ {s | ¬ ∀ j, (random r.1 n).exec
          ((next r.1)^[j] s) = (.ok (matFl (X r.1 ((next r.1)^[j] s))), (next r.1)^[j + 1] s)}) fun s hs => ?_).trans
        ((measure_union_le _ _).trans ?_)
      · by_contra hcon
        rw [Set.mem_union, not_or] at hcon
        obtain ⟨c, v, hrun, hcn, hv⟩ := not_not.mp hcon.1
        have hcr : c = r.1 := by
          unfold gofCopula at hrun
          simp only [hfit, bind, Except.bind, pure, Except.pure] at hrun
          split at hrun
          · cases hrun
          · split_ifs at hrun with h3
            exact (congrArg Prod.fst (Except.ok.inj hrun)).symm
        subst hcr
        refine hs ⟨_, _, gofRun_exec (fun j => (next r.1)^[j] s) hrun fun j => ?_, hf.mono (min_le_left _ _) hcn, ⟨v, rfl, hv⟩, rfl⟩
        exact not_not.mp hcon.2 j
      · rw [hnull, add_zero]
        exact hz
    · refine (measure_mono fun s _ => ?_).trans hz
      rintro ⟨c, v, hrun, hcn, -⟩
      have hcr : c = r.1 := by
        unfold gofCopula at hrun
        simp only [hfit, bind, Except.bind, pure, Except.pure] at hrun
        split at hrun
        · cases hrun
        · split_ifs at hrun with h3
          exact (congrArg Prod.fst (Except.ok.inj hrun)).symm
      rw [hcr] at hcn
      exact hr1 (hf.mono (min_le_right _ _) hcn)

end

end Copulae
