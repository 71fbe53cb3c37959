import Mathlib.Data.Int.CardIntervalMod
import Verif.Lemmas.GofRun
import Verif.Lemmas.RadSymTest
import Verif.Model.GofPar
import Verif.Props.GofReplicates

/-!
**C165** The replications of `gof_copula(multiprocess=True)`.
-/

namespace Copulae

variable {G : Gen} {α σ : Type} {n d : ℕ}

namespace Spec

/-- The state in which the serial program starts replication `k`. -/
def stateAt (task : Rnd G α) (s : G.S) : ℕ → G.S
  | 0 => s
  | k + 1 => (task.exec (stateAt task s k)).2

/-- The outcome of replication `k` of the serial program. -/
def outcome (task : Rnd G α) (s : G.S) (k : ℕ) : Except PyErr α := (task.exec (stateAt task s k)).1

/-- How many of the first `k` tasks worker `w` takes. -/
def taken (who : ℕ → ℕ) (w : ℕ) (k : ℕ) : ℕ := Nat.count (fun i => who i = w) k

end Spec

open Spec

theorem taken_succ (who : ℕ → ℕ) (w k : ℕ) : taken who w (k + 1) = taken who w k + if who k = w then 1 else 0 := by
  exact Nat.count_succ _ _

theorem poolRun_states (task : Rnd G α) (who : ℕ → ℕ) (s : G.S) (k w : ℕ) :
    (poolRun task who s k).2 w = stateAt task s (taken who w k) := by
  induction k generalizing w with
  | zero => rfl
  | succ k ih =>
    rw [taken_succ]
    by_cases h : who k = w
    · subst h
      simp only [poolRun, Function.update_self, if_true]
      rw [stateAt, ih]
      rfl
    · simp only [poolRun]
      rw [Function.update_of_ne (Ne.symm h), ih, if_neg h, add_zero]

/-- **C165** Whatever worker takes which task: task `i` has the outcome of replication `k` of the serial program, where `k` is the number of
earlier tasks of the same worker. -/
theorem pool_outcomes (task : Rnd G α) (who : ℕ → ℕ) (s : G.S) (k : ℕ) :
    (poolRun task who s k).1 = (List.range k).map fun i => outcome task s (taken who (who i) i) := by
  induction k with
  | zero => rfl
  | succ k ih =>
    rw [List.range_succ, List.map_append, ← ih]
    simp only [poolRun, List.map_cons, List.map_nil, outcome]
    rw [poolRun_states]
    rfl

theorem mapM_id_ok {β : Type} {l : List (Except PyErr β)} {ts : List β} (h : l.mapM id = .ok ts) : l = ts.map .ok := by
  induction l generalizing ts with
  | nil =>
    have : (Except.ok [] : Except PyErr (List β)) = .ok ts := h
    rw [← Except.ok.inj this]
    rfl
  | cons a l ih =>
    rw [List.mapM_cons] at h
    cases a with
    | error e => simp [bind, Except.bind] at h
    | ok a =>
      cases h1 : l.mapM id with
      | error e => simp [h1, bind, Except.bind] at h
      | ok us =>
        simp only [h1, bind, Except.bind, pure, Except.pure, id] at h
        rw [← Except.ok.inj h, List.map_cons, ← ih h1]

/-- The serial list of replications, from its outcomes. -/
theorem serial_outcomes (task : Rnd G α) (s : G.S) (k m : ℕ) :
    ((List.range k).map fun i => outcome task s (m + i)).mapM id =
      (((List.range k).mapM fun _ => task).exec (stateAt task s m)).1 := by
  induction k generalizing m with
  | zero => rfl
  | succ k ih =>
    have h1 := ih (m + 1)
    have h2 : ((List.range k).map Nat.succ).mapM (fun _ => task) = (List.range k).mapM fun _ => task := by
      rw [List.mapM_map]
      rfl
    rw [List.range_succ_eq_map, List.map_cons, List.mapM_cons, List.mapM_cons, List.map_map, h2, exec_bind]
    have h3 : (fun i => outcome task s (m + i)) ∘ Nat.succ = fun i => outcome task s (m + 1 + i) := by
      funext i
      simp only [Function.comp]
      rw [show m + i.succ = m + 1 + i by omega]
    rw [h3, h1]
    simp only [id, add_zero, outcome, stateAt]
    rcases task.exec (stateAt task s m) with ⟨x, s'⟩
    cases x with
    | error e => rfl
    | ok a =>
      simp only
      rw [exec_bind]
      rcases ((List.range k).mapM fun _ => task).exec s' with ⟨y, s''⟩
      cases y <;> rfl

section run

variable {fit : (Fin n → Fin d → ℝ) → Except PyErr σ} {cdf : σ → (Fin n → Fin d → ℝ) → Fin n → Fl}
  {random : σ → Rnd G (Fin n → Fin d → Fl)} {data : Fin n → Fin d → ℝ} {reps : ℤ} {ties fitTies : String} {who : ℕ → ℕ}
  {c : σ} {t : Fl} {p : ℝ} {s s' : G.S}

/-- What a run that returns has computed. -/
theorem gofRunPar_ok (h : (gofRunPar who fit cdf random data reps ties fitTies).exec s = (.ok (c, t, p), s')) :
    s' = s ∧ gofFit fit cdf data ties fitTies = .ok (c, t) ∧ reps + 1 ≠ 0 ∧
      ∃ ts : List Fl, p = gofPValue ts t reps ∧ ts.map .ok = (List.range reps.toNat).map fun i =>
        outcome (gofTask fit cdf random data ties fitTies c) s (taken who (who i) i) := by
  unfold gofRunPar at h
  rw [exec_bind, exec_ofExcept] at h
  cases h1 : gofFit fit cdf data ties fitTies with
  | error e => simp [h1] at h
  | ok r =>
    rw [h1] at h
    simp only [exec_bind, exec_draw, exec_ofExcept] at h
    cases h2 : (poolRun (gofTask fit cdf random data ties fitTies r.1) who s reps.toNat).1.mapM id with
    | error e => simp [h2] at h
    | ok ts =>
      simp only [h2] at h
      by_cases h3 : reps + 1 = 0
      · rw [if_pos h3, exec_throw] at h
        simp at h
      · rw [if_neg h3, exec_pure] at h
        simp only [Prod.mk.injEq, Except.ok.injEq] at h
        obtain ⟨⟨rfl, rfl, rfl⟩, rfl⟩ := h
        refine ⟨rfl, rfl, h3, ts, rfl, ?_⟩
        rw [← pool_outcomes, mapM_id_ok h2]

/-- The state of the generator afterwards, also after an exception. -/
theorem gofRunPar_state : ((gofRunPar who fit cdf random data reps ties fitTies).exec s).2 = s := by
  unfold gofRunPar
  rw [exec_bind, exec_ofExcept]
  cases gofFit fit cdf data ties fitTies with
  | error e => rfl
  | ok r =>
    simp only [exec_bind, exec_draw, exec_ofExcept]
    cases (poolRun (gofTask fit cdf random data ties fitTies r.1) who s reps.toNat).1.mapM id with
    | error e => rfl
    | ok ts =>
      simp only
      by_cases h3 : reps + 1 = 0
      · rw [if_pos h3, exec_throw]
      · rw [if_neg h3, exec_pure]

/-- **C165**, violated: the generator of the calling process does not advance, so a second test in the same session with the same
distribution of the tasks repeats the first one. -/
theorem gofPar_repeats_violation :
    ((gofRunPar who fit cdf random data reps ties fitTies >>= fun a =>
      gofRunPar who fit cdf random data reps ties fitTies >>= fun b => pure (a, b)).exec s).1 =
    ((gofRunPar who fit cdf random data reps ties fitTies).exec s).1.map fun a => (a, a) := by
  have hs := gofRunPar_state (who := who) (fit := fit) (cdf := cdf) (random := random) (data := data) (reps := reps) (ties := ties)
    (fitTies := fitTies) (s := s)
  rcases h : (gofRunPar who fit cdf random data reps ties fitTies).exec s with ⟨r, s'⟩
  rw [h] at hs
  obtain rfl : s' = s := hs
  rw [exec_bind, h]
  cases r with
  | error e => rfl
  | ok a =>
    simp only [exec_bind, h, exec_pure]
    rfl

/-- **C165** The full statement: a test with several processes returns what the test with one process returns. It holds where one worker takes
all tasks. -/
theorem gofPar_serial_partial (w : ℕ) :
    ((gofRunPar (fun _ => w) fit cdf random data reps ties fitTies).exec s).1 = ((gofRun fit cdf random data reps ties fitTies).exec s).1 := by
  unfold gofRunPar gofRun
  rw [exec_bind, exec_bind, exec_ofExcept]
  cases gofFit fit cdf data ties fitTies with
  | error e => rfl
  | ok r =>
    simp only [exec_bind, exec_draw, exec_ofExcept]
    rw [pool_outcomes]
    have h1 : ∀ i, taken (fun _ => w) w i = i := fun i => by
      unfold taken
      simp
    simp only [h1]
    have h2 := serial_outcomes (gofTask fit cdf random data ties fitTies r.1) s reps.toNat 0
    simp only [zero_add, stateAt] at h2
    have h3 : ((List.range reps.toNat).mapM fun _ => (do
        let a ← random r.1
        let u ← Rnd.ofExcept (realRows a)
        Rnd.ofExcept (gofReplicate fit cdf data u ties fitTies) : Rnd G Fl)) =
      (List.range reps.toNat).mapM fun _ => gofTask fit cdf random data ties fitTies r.1 := rfl
    rw [h3, h2]
    rcases ((List.range reps.toNat).mapM fun _ => gofTask fit cdf random data ties fitTies r.1).exec s with ⟨x, s'⟩
    cases x with
    | error e => rfl
    | ok ts =>
      simp only
      by_cases h4 : reps + 1 = 0
      · rw [if_pos h4, exec_throw, exec_throw]
      · rw [if_neg h4, exec_pure, exec_pure]

/-- **C165**, violated: where `w` workers take turns, replication `i` is replication `i / w` of the serial program: every replicate is
counted `w` times. -/
theorem gofPar_turns_violation (w : ℕ) (hw : 0 < w)
    (h : (gofRunPar (fun i => i % w) fit cdf random data reps ties fitTies).exec s = (.ok (c, t, p), s')) :
    ∃ ts : List Fl, p = gofPValue ts t reps ∧ ts.length = reps.toNat ∧ ∀ i (hi : i < ts.length),
      outcome (gofTask fit cdf random data ties fitTies c) s (i / w) = .ok ts[i] := by
  obtain ⟨-, -, -, ts, hp, hts⟩ := gofRunPar_ok h
  have hl : ts.length = reps.toNat := by
    have := congrArg List.length hts
    simpa using this
  refine ⟨ts, hp, hl, fun i hi => ?_⟩
  have h1 : taken (fun i => i % w) (i % w) i = i / w := by
    have := Nat.count_modEq_card i hw i
    rw [if_neg (lt_irrefl _), add_zero] at this
    rw [← this]
    unfold taken
    congr 1
  have h2 := congrArg (fun l => l[i]?) hts
  simp only [List.getElem?_map, List.getElem?_range (hl ▸ hi), List.getElem?_eq_getElem hi, Option.map_some] at h2
  rw [← h1]
  exact (Option.some.inj h2).symm

/-- **C165**, violated: where no worker takes two tasks, the `reps` replicates are one and the same, and the p-value has two possible values
whatever `reps`: it is small as soon as one replicate falls below the statistic. -/
theorem gofPar_spread_violation (hwho : ∀ i j, i < reps.toNat → j < reps.toNat → who i = who j → i = j) (hr : 1 ≤ reps)
    (h : (gofRunPar who fit cdf random data reps ties fitTies).exec s = (.ok (c, t, p), s')) :
    ∃ t₁ : Fl, outcome (gofTask fit cdf random data ties fitTies c) s 0 = .ok t₁ ∧
      ((Fl.abs t₁ ≥ Fl.abs t ∧ p = (reps + 0.5) / (reps + 1)) ∨ (¬ Fl.abs t₁ ≥ Fl.abs t ∧ p = 0.5 / (reps + 1))) := by
  obtain ⟨-, -, -, ts, hp, hts⟩ := gofRunPar_ok h
  have h0 : ∀ i ∈ List.range reps.toNat, outcome (gofTask fit cdf random data ties fitTies c) s (taken who (who i) i) =
      outcome (gofTask fit cdf random data ties fitTies c) s 0 := fun i hi => by
    have hi' := List.mem_range.mp hi
    congr 1
    refine Nat.count_of_forall_not fun j hj hji => ?_
    exact hj.ne (hwho j i (hj.trans hi') hi' hji)
  rw [List.map_congr_left h0] at hts
  have hpos : 0 < reps.toNat := by omega
  have hl : ts.length = reps.toNat := by
    have := congrArg List.length hts
    simpa using this
  have hall : ∀ x ∈ ts, outcome (gofTask fit cdf random data ties fitTies c) s 0 = .ok x := fun x hx => by
    have : Except.ok x ∈ ts.map (Except.ok : Fl → Except PyErr Fl) := List.mem_map_of_mem hx
    rw [hts] at this
    obtain ⟨_, -, h⟩ := List.mem_map.mp this
    exact h
  obtain ⟨t₁, ht₁⟩ : ∃ x, x ∈ ts := List.exists_mem_of_length_pos (by omega)
  have hsame : ∀ x ∈ ts, x = t₁ := fun x hx => Except.ok.inj ((hall x hx).symm.trans (hall t₁ ht₁))
  have hcast : ((reps.toNat : ℕ) : ℝ) = (reps : ℝ) := by
    have : ((reps.toNat : ℕ) : ℤ) = reps := Int.toNat_of_nonneg (by omega)
    exact_mod_cast congrArg (Int.cast : ℤ → ℝ) this
  refine ⟨t₁, hall t₁ ht₁, ?_⟩
  by_cases hge : Fl.abs t₁ ≥ Fl.abs t
  · refine Or.inl ⟨hge, ?_⟩
    rw [hp, gofPValue, List.countP_eq_length.mpr fun x hx => by rw [hsame x hx]; simpa using hge, hl, hcast]
  · refine Or.inr ⟨hge, ?_⟩
    rw [hp, gofPValue, List.countP_eq_zero.mpr fun x hx => by rw [hsame x hx]; simpa using hge]
    norm_num

/-- A run in which every task succeeds. -/
theorem gofRunPar_run (hfit : gofFit fit cdf data ties fitTies = .ok (c, t)) (hr : reps + 1 ≠ 0) (ts : ℕ → Fl)
    (hts : ∀ i < reps.toNat, outcome (gofTask fit cdf random data ties fitTies c) s (taken who (who i) i) = .ok (ts i)) :
    (gofRunPar who fit cdf random data reps ties fitTies).exec s =
      (.ok (c, t, gofPValue ((List.range reps.toNat).map ts) t reps), s) := by
  unfold gofRunPar
  rw [exec_bind, exec_ofExcept, hfit]
  simp only [exec_bind, exec_draw, exec_ofExcept]
  have h1 : ((List.range reps.toNat).map fun i => outcome (gofTask fit cdf random data ties fitTies c) s (taken who (who i) i)).mapM id =
      .ok ((List.range reps.toNat).map ts) := by
    rw [List.mapM_map]
    exact mapM_ok _ ts _ fun i hi => hts i (List.mem_range.mp hi)
  rw [pool_outcomes, h1]
  simp only [if_neg hr]
  rfl

end run

/-! ### A test whose p-value depends on the number of processes -/

/-- Two rows in which both columns increase. -/
def concRows : Fin 2 → Fin 2 → ℝ := fun i _ => ![1, 2] i

/-- Two rows in which one column increases and the other decreases. -/
def discRows : Fin 2 → Fin 2 → ℝ := fun i j => ![![1, 2], ![2, 1]] i j

/-- A copula class without parameters. -/
def zeroFit (_ : Fin 2 → Fin 2 → ℝ) : Except PyErr Unit := .ok ()

/-- Its distribution function. -/
def zeroCdf (_ : Unit) (_ : Fin 2 → Fin 2 → ℝ) (_ : Fin 2) : Fl := .fin 0

theorem conc_stat : gofFit zeroFit zeroCdf concRows "max" "max" = .ok ((), .fin (5 / 4)) := by
  rw [gofFit_spec _ _ _ (t := .max) (t' := .max) (by decide) (by decide)]
  simp only [gofStat_emp (n := 2) (by norm_num), zeroFit, zeroCdf, concRows]
  simp [-Finset.sum_boole, Except.map, Fin.sum_univ_two, rankdata, cntLt, cntEq, Finset.card_filter]
  norm_num

theorem disc_stat : gofFit zeroFit zeroCdf discRows "max" "max" = .ok ((), .fin (1 / 2)) := by
  rw [gofFit_spec _ _ _ (t := .max) (t' := .max) (by decide) (by decide)]
  simp only [gofStat_emp (n := 2) (by norm_num), zeroFit, zeroCdf, discRows]
  simp [-Finset.sum_boole, Except.map, Fin.sum_univ_two, rankdata, cntLt, cntEq, Finset.card_filter, Fin.forall_fin_two]
  norm_num

theorem conc_noTies : anyTies concRows = false := anyTies_false fun j a b hab => by
  revert hab
  fin_cases a <;> fin_cases b <;> simp [concRows]

section witness

variable {random : Unit → Rnd G (Fin 2 → Fin 2 → Fl)} {st : ℕ → G.S}

/-- From state `st 0` on, the samples are increasing at first, then not. -/
def ConcThenDisc (random : Unit → Rnd G (Fin 2 → Fin 2 → Fl)) (st : ℕ → G.S) : Prop :=
  ∀ k, (random ()).exec (st k) = (.ok (matFl (if k = 0 then concRows else discRows)), st (k + 1))

theorem zero_task (h : ConcThenDisc random st) (k : ℕ) :
    (gofTask zeroFit zeroCdf random concRows "max" "max" ()).exec (st k) =
      (.ok (if k = 0 then .fin (5 / 4) else .fin (1 / 2)), st (k + 1)) := by
  unfold gofTask
  rw [exec_bind, h k]
  simp only
  rw [exec_bind, realRows_matFl, exec_ofExcept]
  simp only [exec_ofExcept]
  by_cases hk : k = 0
  · simp [hk, gofReplicate, conc_noTies, conc_stat, bind, Except.bind, pure, Except.pure]
  · simp [hk, gofReplicate, conc_noTies, disc_stat, bind, Except.bind, pure, Except.pure]

theorem zero_outcome (h : ConcThenDisc random st) (k : ℕ) :
    outcome (gofTask zeroFit zeroCdf random concRows "max" "max" ()) (st 0) k =
      .ok (if k = 0 then .fin (5 / 4) else .fin (1 / 2)) := by
  have hst : ∀ k, stateAt (gofTask zeroFit zeroCdf random concRows "max" "max" ()) (st 0) k = st k := fun k => by
    induction k with
    | zero => rfl
    | succ k ih => rw [stateAt, ih, zero_task h]
  rw [outcome, hst, zero_task h]

/-- **C165**, violated: the same test from the same state of the generator returns 1/2 with one process and 5/6 with two. -/
theorem gofPar_differs_violation (h : ConcThenDisc random st) :
    ((gofRun zeroFit zeroCdf random concRows 2 "max" "max").exec (st 0)).1 = .ok ((), .fin (5 / 4), 1 / 2) ∧
      (gofRunPar id zeroFit zeroCdf random concRows 2 "max" "max").exec (st 0) = (.ok ((), .fin (5 / 4), 5 / 6), st 0) := by
  classical
  have hge : Fl.abs (.fin (5 / 4)) ≥ Fl.abs (.fin (5 / 4)) := by
    simp only [Fl.abs, ge_iff_le, Fl.fin_le_fin, le_refl]
  have hlt : ¬ Fl.abs (.fin (1 / 2)) ≥ Fl.abs (.fin (5 / 4)) := by
    simp only [Fl.abs, ge_iff_le, Fl.fin_le_fin]
    rw [abs_of_pos (by norm_num), abs_of_pos (by norm_num)]
    norm_num
  have hrange : List.range (2 : ℤ).toNat = [0, 1] := rfl
  constructor
  · rw [← gofPar_serial_partial 0, gofRunPar_run conc_stat (by norm_num) (fun i => if i = 0 then .fin (5 / 4) else .fin (1 / 2))
      fun i _ => by rw [zero_outcome h]; simp [taken]]
    simp only [hrange, gofPValue, List.map_cons, List.map_nil, if_true, if_neg one_ne_zero, List.countP_cons, List.countP_nil,
      hge, hlt, decide_true, decide_false]
    norm_num
  · rw [gofRunPar_run conc_stat (by norm_num) (fun _ => .fin (5 / 4)) fun i _ => by
      have : taken id (id i) i = 0 := Nat.count_of_forall_not fun j hj => hj.ne
      rw [zero_outcome h, this, if_pos rfl]]
    simp only [hrange, gofPValue, List.map_cons, List.map_nil, List.countP_cons, List.countP_nil, hge, decide_true]
    norm_num

end witness

/-- The samples as a function of the number of earlier draws. -/
def countRows (k : ℕ) : (Fin 2 → Fin 2 → Fl) × ℕ := (matFl (if k = 0 then concRows else discRows), k + 1)

/-- A generator whose samples do that. -/
theorem concThenDisc_count : ConcThenDisc (G := countGen) (fun _ => Rnd.draw countRows) fun k : ℕ => k := fun _ => rfl

example := gofPar_differs_violation concThenDisc_count

example := gofPar_spread_violation (who := id) (fun _ _ _ _ h => h) (by norm_num) (gofPar_differs_violation concThenDisc_count).2

example := gofPar_turns_violation 2 (by norm_num) (gofRunPar_run (who := fun i => i % 2) (reps := 4) conc_stat (by norm_num) _
  fun _ _ => zero_outcome concThenDisc_count _)

end Copulae
