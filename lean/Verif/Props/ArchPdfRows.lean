import Verif.Props.ArchPdf

/-!
Properties C19, C20 and C14 for densities: validity of rows, independence of rows, `log=True` and
exchangeability.
-/

namespace Copulae

open Finset

/-- A row that is a point of the closed unit cube. -/
def InCube {d : ℕ} (u : Fin d → Fl) : Prop := ∀ j, ∃ v : ℝ, u j = .fin v ∧ 0 ≤ v ∧ v ≤ 1

theorem validRow_iff {d : ℕ} (u : Fin d → Fl) : validRow u ↔ InCube u := by
  unfold validRow InCube
  refine forall_congr' fun j => ?_
  cases u j with
  | nan => simp
  | ninf =>
    simp only [ne_eq, reduceCtorEq, not_false_eq_true, true_and, false_and, exists_false, iff_false]
    rintro ⟨h, -⟩
    exact h
  | pinf =>
    simp only [ne_eq, reduceCtorEq, not_false_eq_true, true_and, false_and, exists_false, iff_false]
    rintro ⟨-, h⟩
    exact h
  | fin v =>
    simp only [ne_eq, reduceCtorEq, not_false_eq_true, Fl.fin_le_fin, true_and, Fl.fin.injEq]
    constructor
    · intro h; exact ⟨v, rfl, h⟩
    · rintro ⟨w, rfl, h⟩; exact h

theorem exp_eq_nan {v : Fl} (h : v = .nan) : Fl.exp v = .nan := by rw [h]; rfl

/-- **C19** (partial: without Clayton at positive parameters, see `clayton_pdf_rows_partial` and
`clayton_pdf_invalid_row`) There is a function of one row that gives the result of `pdf` row by row,
whatever the batch, and it reports rows outside the closed cube as NaN. -/
theorem pdf_row_local_partial {F : Family} {θ : ℝ} {d : ℕ} (hd : 2 ≤ d)
    (h : match F with | .clayton => θ ≤ 0 | .frank => True | .gumbel => 1 ≤ θ) (log : Bool) :
    ∃ row : (Fin d → Fl) → Fl, (∀ u, ¬ InCube u → row u = .nan) ∧
      ∀ (n : ℕ) (x : Fin n → Fin d → Fl), archPdf F θ d x log = .ok fun i => row (x i) := by
  classical
  cases F with
  | clayton =>
    simp only at h
    rcases h.eq_or_lt with h0 | h0
    · subst h0
      refine ⟨fun u => if validRow u then .fin 0 else .nan, fun u hu => ?_, fun n x => ?_⟩
      · exact if_neg (by rwa [validRow_iff])
      · simp only [archPdf, claytonPdf]
        rw [if_neg (by simp)]
        by_cases hn : ∃ i, validRow (x i)
        · rw [if_neg (not_not.mpr hn), if_pos trivial]
        · rw [if_pos hn]
          refine congrArg Except.ok (funext fun i => ?_)
          rw [if_neg fun hv => hn ⟨i, hv⟩]
    · refine ⟨fun u => (if log then (if ¬ validRow u then .nan
          else if ¬ (∑ j, claytonIpsi θ (u j)) < Fl.fin 1 then .ninf else claytonLogNeg θ u) else
        Fl.exp (if ¬ validRow u then .nan
          else if ¬ (∑ j, claytonIpsi θ (u j)) < Fl.fin 1 then .ninf else claytonLogNeg θ u)),
        fun u hu => ?_, fun n x => ?_⟩
      · have hv : ¬ validRow u := by rwa [validRow_iff]
        simp only [hv, not_false_eq_true, if_true]
        cases log <;> rfl
      · simp only [archPdf, claytonPdf]
        rw [if_neg (by simp)]
        by_cases hn : ∃ i, validRow (x i)
        · rw [if_neg (not_not.mpr hn), if_neg h0.ne, if_pos h0]
        · rw [if_pos hn]
          refine congrArg Except.ok (funext fun i => ?_)
          rw [if_pos fun hv => hn ⟨i, hv⟩]
          cases log <;> rfl
  | frank =>
    have hrow : ∀ u : Fin d → Fl, ∃ v, frankRow θ u = .ok v := by
      intro u
      unfold frankRow
      by_cases hv : validRow u
      · rw [if_pos hv]
        obtain ⟨v, hv, -⟩ := frankLogRow_ok θ (by omega : 1 ≤ d) u
        exact ⟨v, hv⟩
      · rw [if_neg hv]; exact ⟨_, rfl⟩
    choose r hr using hrow
    refine ⟨fun u => if log then r u else Fl.exp (r u), fun u hu => ?_, fun n x => ?_⟩
    · have : r u = .nan := by
        have h1 := hr u
        unfold frankRow at h1
        rw [if_neg (by rwa [validRow_iff])] at h1
        simpa using h1.symm
      simp only [this]
      cases log <;> rfl
    · simp only [archPdf]
      rw [frankPdf_ok (v := fun i => r (x i)) (fun i => hr (x i))]
  | gumbel =>
    simp only at h
    rcases h.eq_or_lt with h0 | h0
    · subst h0
      refine ⟨fun u => if validRow u then (if log then .fin 0 else .fin 1) else .nan,
        fun u hu => ?_, fun n x => ?_⟩
      · exact if_neg (by rwa [validRow_iff])
      · simp only [archPdf, gumbelPdf]
        rw [if_neg (by simp), if_pos trivial]
    · have hθ : 0 < θ := by linarith
      have hα : 0 < 1 / θ ∧ 1 / θ ≤ 1 := ⟨by positivity, by rw [div_le_one hθ]; exact h⟩
      choose r hr using fun u : Fin d → Fl => gumbelLogRow_ok h0 hd u
      refine ⟨fun u => if log then r u else Fl.exp (r u), fun u hu => ?_, fun n x => ?_⟩
      · have : r u = .nan := by
          have h1 := hr u
          rw [gumbelLogRow_invalid h0 hd (by rwa [validRow_iff])] at h1
          simpa using h1.symm
        simp only [this]
        cases log <;> rfl
      · simp only [archPdf, gumbelPdf]
        rw [if_neg (by simp), if_neg h0.ne', if_neg hθ.ne', if_neg (not_not.mpr hα),
          rowsM_ok (v := fun i => r (x i)) (fun i => hr (x i))]
        rfl

example := pdf_row_local_partial (F := .gumbel) (θ := 2) (d := 3) (by norm_num) (by norm_num) true

/-- **C19** Clayton, positive parameter (partial): rows do not influence each other as long as one
row of the batch is in the closed cube. -/
theorem clayton_pdf_rows_partial {θ : ℝ} (h : 0 < θ) {d : ℕ} (log : Bool) :
    ∃ row : (Fin d → Fl) → Fl, ∀ (n : ℕ) (x : Fin n → Fin d → Fl), (∃ i, InCube (x i)) →
      archPdf .clayton θ d x log = .ok fun i => row (x i) := by
  refine ⟨fun u => if log then claytonLogPos θ u else Fl.exp (claytonLogPos θ u), fun n x hx => ?_⟩
  simp only [archPdf, claytonPdf]
  obtain ⟨i, hi⟩ := hx
  rw [if_neg (by simp), if_neg (not_not.mpr ⟨i, (validRow_iff _).mpr hi⟩), if_neg h.ne',
    if_neg (not_lt.mpr h.le)]

example := clayton_pdf_rows_partial (θ := 2) (by norm_num) (d := 3) false

/-- **C19**, violation: for every positive parameter the Clayton density of the row (2, 1), outside
the unit square, is a positive number when a valid row is in the same batch, and NaN when it is
alone. -/
theorem clayton_pdf_invalid_row {θ : ℝ} (h : 0 < θ) :
    (∃ v w : ℝ, 0 < v ∧ archPdf .clayton θ 2 ![![.fin 2, .fin 1], ![.fin (1 / 2), .fin (1 / 2)]] false
      = .ok ![.fin v, .fin w]) ∧
    archPdf .clayton θ 2 ![![.fin 2, .fin 1]] false = .ok ![.nan] := by
  have hval : ∀ a b : ℝ, 0 < a → 0 < b → 0 < 1 + (a ^ (-θ) - 1 + (b ^ (-θ) - 1)) →
      ∃ v : ℝ, claytonLogPos θ ![.fin a, .fin b] = .fin v := by
    intro a b ha hb hp
    unfold claytonLogPos
    have h2 : ∀ c : ℝ, 0 < c → claytonIpsi θ (Fl.fin c) = .fin (c ^ (-θ) - 1) := by
      intro c hc
      rw [claytonIpsi_fin hc, claytonPhi_pos_eq h]
    have h3 : Fl.log1p (.fin (θ * ((0 : ℕ) + 1 : ℝ))) = .fin (Real.log (1 + θ)) := by
      rw [Fl.log1p_pos (by push_cast; linarith)]
      push_cast
      ring_nf
    simp only [Nat.add_one_sub_one, sum_range_one, Fin.sum_univ_two, Matrix.cons_val_zero,
      Matrix.cons_val_one, h2 a ha, h2 b hb, Fl.log_pos ha, Fl.log_pos hb, h3, Fl.fin_add_fin]
    rw [Fl.log1p_pos (by linarith)]
    simp
  have hvalid : validRow (![.fin (1 / 2), .fin (1 / 2)] : Fin 2 → Fl) := by
    rw [validRow_iff]
    intro j
    refine ⟨1 / 2, ?_, by norm_num, by norm_num⟩
    fin_cases j <;> rfl
  have hinvalid : ¬ validRow (![.fin 2, .fin 1] : Fin 2 → Fl) := by
    rw [validRow_iff]
    intro hv
    obtain ⟨v, h1, -, h3⟩ := hv 0
    simp only [Matrix.cons_val_zero, Fl.fin.injEq] at h1
    linarith
  constructor
  · obtain ⟨v, hv⟩ := hval 2 1 (by norm_num) (by norm_num) (by
      rw [Real.one_rpow]
      have := Real.rpow_pos_of_pos (by norm_num : (0 : ℝ) < 2) (-θ)
      linarith)
    obtain ⟨w, hw⟩ := hval (1 / 2) (1 / 2) (by norm_num) (by norm_num) (by
      have := Real.one_le_rpow_of_pos_of_le_one_of_nonpos (by norm_num : (0 : ℝ) < 1 / 2)
        (by norm_num) (by linarith : -θ ≤ 0)
      linarith)
    refine ⟨Real.exp v, Real.exp w, Real.exp_pos _, ?_⟩
    simp only [archPdf, claytonPdf]
    rw [if_neg (by simp), if_neg (not_not.mpr ⟨1, hvalid⟩), if_neg h.ne', if_neg (not_lt.mpr h.le)]
    refine congrArg Except.ok (funext fun i => ?_)
    fin_cases i
    · simp [hv]
    · simpa using congrArg Fl.exp hw
  · simp only [archPdf, claytonPdf]
    rw [if_neg (by simp), if_pos]
    · refine congrArg Except.ok (funext fun i => ?_)
      fin_cases i
      rfl
    · rintro ⟨i, hi⟩
      fin_cases i
      exact hinvalid hi

/-- The hypothesis of the positive theorem is met by a row with a NaN, and the result is NaN. -/
example : ∃ row : (Fin 2 → Fl) → Fl, row ![.nan, .fin (1 / 2)] = .nan ∧
    ∀ (n : ℕ) (x : Fin n → Fin 2 → Fl), archPdf .gumbel 2 2 x false = .ok fun i => row (x i) := by
  obtain ⟨row, h1, h2⟩ := pdf_row_local_partial (F := .gumbel) (θ := 2) (d := 2) le_rfl
    (by norm_num) false
  refine ⟨row, h1 _ fun hc => ?_, h2⟩
  obtain ⟨v, hv, -⟩ := hc 0
  simp at hv

/-! ### C20 -/

theorem log_exp (v : Fl) : Fl.log (Fl.exp v) = v := by
  cases v with
  | fin a => rw [Fl.exp_fin, Fl.log_pos (Real.exp_pos a), Real.log_exp]
  | _ => simp

/-- **C20** (pdf; partial: without Clayton at parameter zero, see `clayton_pdf_zero_log`) `log=True`
returns the logarithm of the plain result, for any input, including exceptions. -/
theorem archPdf_log_partial {F : Family} {θ : ℝ} (h : F = .clayton → θ ≠ 0) (dim : ℕ) {n k : ℕ}
    (x : Fin n → Fin k → Fl) :
    archPdf F θ dim x true = (archPdf F θ dim x false).map fun c i => Fl.log (c i) := by
  cases F with
  | clayton =>
    simp only [archPdf, claytonPdf]
    by_cases hk : k ≠ dim
    · rw [if_pos hk, if_pos hk]; rfl
    rw [if_neg hk, if_neg hk]
    by_cases hn : ¬ ∃ i, validRow (x i)
    · rw [if_pos hn, if_pos hn]
      simp [Except.map]
    rw [if_neg hn, if_neg hn, if_neg (h rfl), if_neg (h rfl)]
    by_cases hneg : θ < 0
    · rw [if_pos hneg, if_pos hneg]
      simp [Except.map, log_exp]
    · rw [if_neg hneg, if_neg hneg]
      simp [Except.map, log_exp]
  | frank =>
    simp only [archPdf, frankPdf]
    by_cases hk : k ≠ dim
    · rw [if_pos hk, if_pos hk]; rfl
    rw [if_neg hk, if_neg hk]
    cases rowsM (frankRow θ) x with
    | error e => rfl
    | ok r => simp [Except.map, log_exp, bind, Except.bind, pure, Except.pure]
  | gumbel =>
    simp only [archPdf, gumbelPdf]
    by_cases hk : k ≠ dim
    · rw [if_pos hk, if_pos hk]; rfl
    rw [if_neg hk, if_neg hk]
    by_cases h1 : θ = 1
    · rw [if_pos h1, if_pos h1]
      simp only [Except.map]
      refine congrArg Except.ok (funext fun i => ?_)
      by_cases hv : validRow (x i)
      · simp [hv, Fl.log_pos]
      · simp [hv]
    rw [if_neg h1, if_neg h1]
    by_cases h0 : θ = 0
    · rw [if_pos h0, if_pos h0]; rfl
    rw [if_neg h0, if_neg h0]
    by_cases hα : ¬ (0 < 1 / θ ∧ 1 / θ ≤ 1)
    · rw [if_pos hα, if_pos hα]; rfl
    rw [if_neg hα, if_neg hα]
    cases rowsM (gumbelLogRow θ) x with
    | error e => rfl
    | ok r => simp [Except.map, log_exp, bind, Except.bind, pure, Except.pure]

example := archPdf_log_partial (F := .clayton) (θ := 2) (by norm_num) 2 (n := 1) (k := 2) (fun _ _ => .fin (1 / 2))

/-- **C20**, violation: at parameter zero, accepted by the constructor, the Clayton density is
returned as 0 at every point of the cube, with and without `log`; the plain result should be 1. -/
theorem clayton_pdf_zero_log {d n : ℕ} (x : Fin n → Fin d → ℝ) (hx : ∀ i, x i ∈ cube d) (log : Bool) :
    archPdf .clayton 0 d (fun i j => .fin (x i j)) log = .ok fun _ => .fin 0 := by
  simp only [archPdf, claytonPdf]
  rw [if_neg (by simp)]
  have hv : ∀ i, validRow fun j => Fl.fin (x i j) := fun i =>
    validRow_fin fun j => ⟨(hx i j).1.le, (hx i j).2.le⟩
  by_cases hn : ¬ ∃ i, validRow fun j => Fl.fin (x i j)
  · rw [if_pos hn]
    refine congrArg Except.ok (funext fun i => ?_)
    exact absurd ⟨i, hv i⟩ hn
  · rw [if_neg hn, if_pos trivial]
    refine congrArg Except.ok (funext fun i => ?_)
    rw [if_pos (hv i)]

example : Family.new .clayton (.fin 0) 2 = .ok ⟨2, .fin 0, .fin (-1 + machEps), .pinf⟩ := by
  simp [Family.new]

/-! ### C14 -/

theorem maximum_comm (a b : Fl) : Fl.maximum a b = Fl.maximum b a := by
  cases a <;> cases b <;> simp [Fl.maximum, max_comm]

theorem maximum_assoc (a b c : Fl) :
    Fl.maximum (Fl.maximum a b) c = Fl.maximum a (Fl.maximum b c) := by
  cases a <;> cases b <;> cases c <;> simp [Fl.maximum, max_assoc]

theorem npMax_perm {l l' : List Fl} (h : l.Perm l') : npMax l = npMax l' := by
  have hc : ∀ a b c : Fl, Fl.maximum (Fl.maximum a b) c = Fl.maximum (Fl.maximum a c) b := by
    intro a b c
    rw [maximum_assoc, maximum_comm b c, ← maximum_assoc]
  induction h with
  | nil => rfl
  | cons a hp _ =>
    simp only [npMax]
    rw [hp.foldl_eq' fun b _ c _ z => hc z b c]
  | swap a b l => simp only [npMax, List.foldl_cons]; rw [maximum_comm]
  | trans _ _ h1 h2 => rw [h1, h2]

theorem validRow_perm {d : ℕ} (u : Fin d → Fl) (σ : Equiv.Perm (Fin d)) :
    validRow (fun j => u (σ j)) = validRow u := by
  unfold validRow
  exact propext (σ.forall_congr_left.trans (by simp))

theorem claytonLog_perm (θ : ℝ) {d : ℕ} (u : Fin d → Fl) (σ : Equiv.Perm (Fin d)) :
    claytonLogNeg θ (fun j => u (σ j)) = claytonLogNeg θ u ∧
    claytonLogPos θ (fun j => u (σ j)) = claytonLogPos θ u ∧
    ∑ j, claytonIpsi θ (u (σ j)) = ∑ j, claytonIpsi θ (u j) := by
  unfold claytonLogNeg claytonLogPos
  rw [Equiv.sum_comp σ fun j => Fl.log (u j), Equiv.sum_comp σ fun j => claytonIpsi θ (u j)]
  exact ⟨rfl, rfl, rfl⟩

theorem frankRow_perm (θ : ℝ) {d : ℕ} (u : Fin d → Fl) (σ : Equiv.Perm (Fin d)) :
    frankRow θ (fun j => u (σ j)) = frankRow θ u := by
  have h : frankLogRow θ (fun j => u (σ j)) = frankLogRow θ u := by
    unfold frankLogRow
    simp only
    rw [Equiv.sum_comp σ fun j => log1mexp (.fin θ * u j), Equiv.sum_comp σ u,
      Equiv.sum_comp σ fun j => log1mexp (.fin θ * u j) - log1mexp (.fin θ)]
  unfold frankRow
  rw [h]
  by_cases hv : validRow u
  · rw [if_pos hv, if_pos (by rwa [validRow_perm])]
  · rw [if_neg hv, if_neg (by rwa [validRow_perm])]

theorem gumbelLogRow_perm (θ : ℝ) {d : ℕ} (u : Fin d → Fl) (σ : Equiv.Perm (Fin d)) :
    gumbelLogRow θ (fun j => u (σ j)) = gumbelLogRow θ u := by
  have hm : npMax (List.ofFn fun j => u (σ j)) = npMax (List.ofFn u) :=
    npMax_perm (Equiv.Perm.ofFn_comp_perm σ u)
  have hs : ∀ o, gumbelLogSum θ (fun j => u (σ j)) o = gumbelLogSum θ u o := by
    intro o
    unfold gumbelLogSum
    rw [Equiv.sum_comp σ fun j => Fl.exp (Fl.log (gumbelIpsi θ (u j)) - o)]
  unfold gumbelLogRow
  simp only [hm, hs]
  rw [Equiv.sum_comp σ fun j => .fin (θ - 1) * Fl.log (-(Fl.log (u j))) + -(Fl.log (u j))]

/-- **C14** (pdf) Permuting the columns of a batch does not change the densities, whatever the
family, the parameter and the values in the batch. -/
theorem archPdf_exchangeable (F : Family) (θ : ℝ) (dim : ℕ) {n k : ℕ} (x : Fin n → Fin k → Fl)
    (σ : Equiv.Perm (Fin k)) (log : Bool) :
    archPdf F θ dim (fun i j => x i (σ j)) log = archPdf F θ dim x log := by
  classical
  cases F with
  | clayton =>
    simp only [archPdf, claytonPdf]
    simp only [validRow_perm, claytonLog_perm]
  | frank =>
    simp only [archPdf, frankPdf]
    have : rowsM (frankRow θ) (fun i j => x i (σ j)) = rowsM (frankRow θ) x := by
      unfold rowsM
      have e : ∀ y : Fin n → Fin k → Fl, (List.ofFn y).mapM (frankRow θ) =
          (List.ofFn fun i => frankRow θ (y i)).mapM id := by
        intro y
        rw [show (List.ofFn fun i => frankRow θ (y i)) = (List.ofFn y).map (frankRow θ) by
          rw [List.map_ofFn]; rfl, List.mapM_map]
        rfl
      rw [e, e]
      simp only [frankRow_perm]
    rw [this]
  | gumbel =>
    simp only [archPdf, gumbelPdf]
    have : rowsM (gumbelLogRow θ) (fun i j => x i (σ j)) = rowsM (gumbelLogRow θ) x := by
      unfold rowsM
      have e : ∀ y : Fin n → Fin k → Fl, (List.ofFn y).mapM (gumbelLogRow θ) =
          (List.ofFn fun i => gumbelLogRow θ (y i)).mapM id := by
        intro y
        rw [show (List.ofFn fun i => gumbelLogRow θ (y i)) = (List.ofFn y).map (gumbelLogRow θ) by
          rw [List.map_ofFn]; rfl, List.mapM_map]
        rfl
      rw [e, e]
      simp only [gumbelLogRow_perm]
    rw [this]
    simp only [validRow_perm]

/-- **C14** (independence copula, density) -/
theorem indepPdf_exchangeable (dim : ℕ) {n k : ℕ} (x : Fin n → Fin k → Fl)
    (σ : Equiv.Perm (Fin k)) (log : Bool) :
    indepPdf dim (fun i j => x i (σ j)) log = indepPdf dim x log := rfl

/-- Batches of the wrong width are rejected. -/
theorem archPdf_wrong_dim (F : Family) (θ : ℝ) (dim : ℕ) {n k : ℕ} (h : k ≠ dim)
    (x : Fin n → Fin k → Fl) (log : Bool) : archPdf F θ dim x log = .error .valueError := by
  cases F
  · rw [archPdf, claytonPdf, if_pos h]
  · rw [archPdf, frankPdf, if_pos h]
  · rw [archPdf, gumbelPdf, if_pos h]

end Copulae
