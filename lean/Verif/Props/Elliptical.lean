import Mathlib.Data.Fin.VecNotation
import Verif.Lemmas.Elliptical

/-!
Properties C09, C10 and C56: indexed access to the correlations of a Gaussian or Student copula
(`copulae/elliptical/abstract.py`).
-/

namespace Copulae

open Classical

/-- `cop[i, j]` with two integers. -/
abbrev ixPair (i j : ℤ) : Ix := .tuple [.int i, .int j]

/-- **C09** Assigning a correlation in `[-1, 1]` through `cop[i, j]` succeeds, is read back
through `cop[i, j]` and `cop[j, i]`, and leaves every other pair unchanged, provided that the
matrix obtained by overwriting the two cells passes the library's test (so that no repair is
needed). `M` is the matrix of values read through `cop[a, b]` before the assignment. -/
theorem setItem_getItem (ext : CovNearest) {s : Ell} (hs : s.WF) {i j : ℕ} (hi : i < s.dim)
    (hj : j < s.dim) (hij : i ≠ j) {v : ℝ} (hv : -1 ≤ v ∧ v ≤ 1)
    (M : SqMat Fl s.dim)
    (hM : ∀ a b : Fin s.dim, s.getItem (ixPair a b) = .ok (.scalar (M a b)))
    (hpsd : isPsd (fun a b : Fin s.dim =>
      if (a.val = i ∧ b.val = j) ∨ (a.val = j ∧ b.val = i) then Fl.fin v else M a b)) :
    (s.setItem ext (ixPair i j) (.scalar (.fin v))).2 = .ok () ∧
    (s.setItem ext (ixPair i j) (.scalar (.fin v))).1.getItem (ixPair i j)
      = .ok (.scalar (.fin v)) ∧
    (s.setItem ext (ixPair i j) (.scalar (.fin v))).1.getItem (ixPair j i)
      = .ok (.scalar (.fin v)) ∧
    ∀ a b : ℕ, a < s.dim → b < s.dim → ¬ (a = i ∧ b = j) → ¬ (a = j ∧ b = i) →
      (s.setItem ext (ixPair i j) (.scalar (.fin v))).1.getItem (ixPair a b)
        = s.getItem (ixPair a b) := by
  obtain ⟨S, hS, -⟩ := Ell.sigma_ok hs
  have hMS : M = S := by
    funext a b
    have := hM a b
    rw [getItem_pair hS] at this
    simpa using this.symm
  subst hMS
  have hnew := sigma_set hs hS hi hj hij (.fin v)
  have hcell : (fun a b : Fin s.dim =>
      if (a.val = i ∧ b.val = j) ∨ (a.val = j ∧ b.val = i) then Fl.fin v else M a b)
      = setCell (setCell M (i, j) (.fin v)) (j, i) (.fin v) := by
    funext a b
    simp only [setCell, Prod.mk.injEq]
    split_ifs <;> first | rfl | (exfalso; tauto)
  rw [hcell] at hpsd
  have hw : Ell.WF ⟨s.dim, s.rhos.set (rhoPos s.dim (min i j) (max i j)) (.fin v)⟩ :=
    ⟨hs.1, by simpa using hs.2⟩
  have hstep : s.setItem ext (ixPair i j) (.scalar (.fin v))
      = (⟨s.dim, s.rhos.set (rhoPos s.dim (min i j) (max i j)) (.fin v)⟩, .ok ()) := by
    have hr : rangeOk (.scalar (.fin v)) := by
      simp only [rangeOk, Fl.fin_lt_fin, not_or, not_lt]
      exact hv
    simp only [Ell.setItem, hr, not_true_eq_false, if_false, getRhoIndex_ok hi hj hij,
      PyVal.flat]
    exact forcePsd_of_psd hw hnew hpsd
  rw [hstep]
  have hget : ∀ a b : ℕ, (ha : a < s.dim) → (hb : b < s.dim) →
      Ell.getItem ⟨s.dim, s.rhos.set (rhoPos s.dim (min i j) (max i j)) (.fin v)⟩ (ixPair a b)
        = .ok (.scalar (setCell (setCell M (i, j) (.fin v)) (j, i) (.fin v) ⟨a, ha⟩ ⟨b, hb⟩)) := by
    intro a b ha hb
    exact getItem_pair (s := ⟨s.dim, s.rhos.set (rhoPos s.dim (min i j) (max i j)) (.fin v)⟩)
      hnew ⟨a, ha⟩ ⟨b, hb⟩
  refine ⟨rfl, ?_, ?_, ?_⟩
  · simp only [hget i j hi hj]
    simp [setCell]
  · simp only [hget j i hj hi]
    simp [setCell]
  · intro a b ha hb h1 h2
    simp only [hget a b ha hb]
    rw [getItem_pair hS ⟨a, ha⟩ ⟨b, hb⟩]
    simp only [setCell, Prod.mk.injEq, if_neg h1, if_neg h2]

/-- **C09**, rejected indices: diagonal, negative and out-of-range index pairs raise
`IndexError` (for any value in range) and leave the copula unchanged. -/
theorem setItem_badIndex (ext : CovNearest) (s : Ell) {x y : ℤ} {v : PyVal} (hv : rangeOk v)
    (h : x < 0 ∨ y < 0 ∨ (s.dim : ℤ) ≤ x ∨ (s.dim : ℤ) ≤ y ∨ x = y) :
    s.setItem ext (ixPair x y) v = (s, .error .indexError) := by
  simp only [Ell.setItem, hv, not_true_eq_false, if_false, getRhoIndex_error h]

example (ext : CovNearest) (s : Ell) := setItem_badIndex ext s (x := -1) (y := 0) (v := .scalar (.fin (1 / 2)))
  (by simp only [rangeOk, Fl.fin_lt_fin]; norm_num) (by norm_num)

/-- **C09**, rejected values: a scalar outside `[-1, 1]` raises `ValueError` for every index
and leaves the copula unchanged. -/
theorem setItem_badValue (ext : CovNearest) (s : Ell) (ix : Ix) {v : ℝ} (hv : v < -1 ∨ 1 < v) :
    s.setItem ext ix (.scalar (.fin v)) = (s, .error .valueError) := by
  have : ¬ rangeOk (.scalar (.fin v)) := by
    simp only [rangeOk, Fl.fin_lt_fin, not_not]
    exact hv
  simp only [Ell.setItem, this, not_false_eq_true, if_true]

example (ext : CovNearest) (s : Ell) := setItem_badValue ext s (ixPair 0 1) (v := 2) (by norm_num)

/-- The state after a history of assignments; failed ones are caught by the caller. -/
noncomputable def Ell.run (ext : CovNearest) (s : Ell) (ops : List (Ix × PyVal)) : Ell :=
  ops.foldl (fun s op => (s.setItem ext op.1 op.2).1) s

/-- **C10** After any history of assignments, whatever the indices and values and whether or not
they succeed, the correlation matrix exists, is `d × d`, symmetric and has a unit diagonal. -/
theorem history_shape (ext : CovNearest) {d : ℕ} (hd : 2 ≤ d) (ops : List (Ix × PyVal)) :
    ∃ M : SqMat Fl d, ((Ell.init d).run ext ops).sigma = .ok ⟨d, M⟩ ∧
      (∀ i, M i i = .fin 1) ∧ ∀ i j, M i j = M j i := by
  have key : ∀ (ops : List (Ix × PyVal)) (s : Ell), s.WF →
      (s.run ext ops).WF ∧ (s.run ext ops).dim = s.dim := by
    intro ops
    induction ops with
    | nil => intro s hs; exact ⟨hs, rfl⟩
    | cons op t ih =>
      intro s hs
      have h1 := setItem_wf (ext := ext) hs op.1 op.2
      have h2 := ih _ h1.1
      exact ⟨h2.1, h2.2.trans h1.2⟩
  obtain ⟨h1, h2⟩ := key ops _ (Ell.init_wf hd)
  obtain ⟨M, e1, e2, e3, -⟩ := Ell.sigma_ok h1
  have h3 : ((Ell.init d).run ext ops).dim = d := h2
  generalize (Ell.init d).run ext ops = r at *
  subst h3
  exact ⟨M, e1, e2, e3⟩

example (ext : CovNearest) := history_shape ext (d := 3) (by norm_num) [(ixPair 0 1, .scalar (.fin 5)), (.slice, .scalar .nan)]

/-- **C10** Whenever the last assignment of a history succeeded, the correlation matrix passes
the library's own positive semi-definiteness test, provided `cov_nearest` keeps its contract and
assigned matrices have their diagonal in `(0, 1]`. Earlier assignments may have failed, and may
have tried to store NaN. -/
theorem history_success_psd {ext : CovNearest} (hext : RepairOk ext) {d : ℕ} (hd : 2 ≤ d)
    (ops : List (Ix × PyVal)) (last : Ix × PyVal) (hops : ∀ op ∈ ops, diagOk op.2)
    (hlast : diagOk last.2)
    (hok : (((Ell.init d).run ext ops).setItem ext last.1 last.2).2 = .ok ()) :
    ∃ M : SqMat Fl d, ((Ell.init d).run ext (ops ++ [last])).sigma = .ok ⟨d, M⟩ ∧ isPsd M := by
  have key : ∀ (ops : List (Ix × PyVal)) (s : Ell), (∀ op ∈ ops, diagOk op.2) → s.WF →
      NoInf s.rhos → (s.run ext ops).WF ∧ (s.run ext ops).dim = s.dim ∧
        NoInf (s.run ext ops).rhos := by
    intro ops
    induction ops with
    | nil => intro s _ hs hn; exact ⟨hs, rfl, hn⟩
    | cons op t ih =>
      intro s hd hs hn
      have h1 := setItem_wf (ext := ext) hs op.1 op.2
      have h1' := (setItem_spec hext hs hn op.1 op.2 (hd op (by simp))).1
      have h2 := ih _ (fun o ho => hd o (List.mem_cons_of_mem _ ho)) h1.1 h1'
      exact ⟨h2.1, h2.2.1.trans h1.2, h2.2.2⟩
  have hinit : NoInf (Ell.init d).rhos := by
    intro x hx
    simp only [Ell.init, List.mem_replicate] at hx
    rw [hx.2]; simp
  obtain ⟨h1, h2, h3⟩ := key ops _ hops (Ell.init_wf hd) hinit
  have h4 := (setItem_spec hext h1 h3 last.1 last.2 hlast).2 hok
  have hrun : (Ell.init d).run ext (ops ++ [last])
      = (((Ell.init d).run ext ops).setItem ext last.1 last.2).1 := by
    simp [Ell.run, List.foldl_append]
  rw [hrun]
  have h5 : ((Ell.init d).run ext ops).dim = d := h2
  rwa [h5] at h4

/-- **C56** An assignment that raises leaves the copula unchanged, unless the assigned value is
a NaN scalar, in any state whose correlations are finite. -/
theorem setItem_error_unchanged (ext : CovNearest) {s : Ell} (hs : s.WF)
    (hf : ∀ x ∈ s.rhos, ∃ r : ℝ, x = .fin r) (ix : Ix) {v : PyVal} (hv : v ≠ .scalar .nan)
    {e : PyErr} (herr : (s.setItem ext ix v).2 = .error e) : (s.setItem ext ix v).1 = s := by
  unfold Ell.setItem at herr ⊢
  split_ifs at herr ⊢ with hr
  rotate_left
  · rfl
  have hset : ∀ l : List Fl, l.length = s.rhos.length → AllFin l →
      (Ell.forcePsd ext ⟨s.dim, l⟩).2 = .ok () :=
    fun l h1 h2 => forcePsd_ok (s := ⟨s.dim, l⟩) ⟨hs.1, by rw [h1]; exact hs.2⟩ h2
  have hfset : ∀ (p : ℕ) (w : Fl), v.flat = [w] → AllFin (s.rhos.set p w) := by
    intro p w hw x hx
    rcases List.mem_or_eq_of_mem_set hx with h | rfl
    · exact hf x h
    · exact rangeOk_allFin hr hv _ (by rw [hw]; simp)
  split at herr
  · exact setSlice_error herr
  · rename_i k
    split at herr <;> rename_i l hl
    · rfl
    · exfalso
      cases hg : npPos s.rhos.length k with
      | error e => simp [hg, bind, Except.bind] at hl
      | ok p =>
        simp only [hg, bind, Except.bind] at hl
        have hlen := storeCell_length hl
        unfold storeCell at hl
        split at hl
        · rename_i w hw
          simp only [Except.ok.injEq] at hl
          subst hl
          rw [hset _ hlen (hfset _ _ hw)] at herr
          cases herr
        · simp at hl
  · exact setSlice_error herr
  · exact setRow_error hs hf hr hv _ (pair_left s.dim _) herr
  · exact setRow_error hs hf hr hv _ (pair_right s.dim _) herr
  · split at herr <;> rename_i p hp
    · rfl
    · split at herr <;> rename_i w hw
      · exfalso
        rw [hset _ (by simp) (hfset _ _ hw)] at herr
        cases herr
      · rfl
  · rfl

example (ext : CovNearest) := setItem_error_unchanged ext (s := Ell.init 3) (Ell.init_wf (by norm_num))
  (by intro x hx; exact ⟨0, (List.mem_replicate.1 hx).2⟩) (ixPair 0 1) (v := .scalar (.fin 2)) (by simp)
  (congrArg Prod.snd (setItem_badValue ext (Ell.init 3) (ixPair 0 1) (v := 2) (by norm_num)))

/-- **C56**, the exception is real: assigning NaN to a fresh two-dimensional copula raises
`NonSymmetricMatrixError` after the correlation has been overwritten with NaN. -/
theorem setItem_nan_corrupts (ext : CovNearest) :
    (Ell.init 2).setItem ext (ixPair 0 1) (.scalar .nan) = (⟨2, [.nan]⟩, .error .nonSymmetric) := by
  have hr : rangeOk (.scalar .nan) := by simp [rangeOk]
  have hw : Ell.WF ⟨2, [.nan]⟩ := ⟨le_rfl, rfl⟩
  obtain ⟨M, h1, -, -, h4⟩ := Ell.sigma_ok hw
  have hM : M 0 1 = .nan := by
    have := h4 0 1 (by decide)
    have h0 : rhoPos 2 0 1 = 0 := by decide
    simp only [Fin.val_zero, Fin.val_one, h0] at this
    simpa using this.symm
  have hns : ¬ isSymmetric M 1e-8 := by
    intro h
    have := h 0 1
    rw [hM] at this
    simp [closeTo] at this
  have hidx : getRhoIndex 2 0 1 = .ok 0 := by decide
  simp only [Ell.setItem, hr, not_true_eq_false, if_false, PyVal.flat]
  have : getRhoIndex (Ell.init 2).dim 0 1 = .ok 0 := hidx
  simp only [this]
  have hst : (⟨(Ell.init 2).dim, (Ell.init 2).rhos.set 0 .nan⟩ : Ell) = ⟨2, [.nan]⟩ := rfl
  rw [hst]
  unfold Ell.forcePsd
  rw [h1]
  simp only [nearPsd_square, if_neg hns]

/-- Instance for C09: three dimensions, setting the pair (0, 2) of a fresh copula to 1/2. -/
theorem setItem_init_example (ext : CovNearest) :
    ((Ell.init 3).setItem ext (ixPair 0 2) (.scalar (.fin (1 / 2)))).2 = .ok () := by
  have hs : (Ell.init 3).WF := Ell.init_wf (by norm_num)
  obtain ⟨M, h1, h2, h3, h4⟩ : ∃ M : SqMat Fl 3, (Ell.init 3).sigma = .ok ⟨3, M⟩ ∧
      (∀ i, M i i = .fin 1) ∧ (∀ i j, M i j = M j i) ∧
      ∀ i j : Fin 3, i < j → (Ell.init 3).rhos[rhoPos 3 i j]? = some (M i j) := Ell.sigma_ok hs
  have h0 : ∀ i j : Fin 3, i < j → M i j = .fin 0 := by
    intro i j hij
    have := List.mem_of_getElem? (h4 i j hij)
    simp only [Ell.init, List.mem_replicate] at this
    exact this.2
  have hR : ∀ a b : Fin 3,
      (if (a.val = 0 ∧ b.val = 2) ∨ (a.val = 2 ∧ b.val = 0) then Fl.fin (1 / 2) else M a b)
        = .fin ((![![1, 0, 1 / 2], ![0, 1, 0], ![1 / 2, 0, 1]] : Fin 3 → Fin 3 → ℝ) a b) := by
    intro a b
    have h01 := h0 0 1 (by decide)
    have h12 := h0 1 2 (by decide)
    have h10 := (h3 1 0).trans h01
    have h21 := (h3 2 1).trans h12
    have d0 := h2 0
    have d1 := h2 1
    have d2 := h2 2
    fin_cases a <;> fin_cases b <;> simp [h01, h12, h10, h21, d0, d1, d2]
  have hpsd : isPsd (fun a b : Fin 3 =>
      if (a.val = 0 ∧ b.val = 2) ∨ (a.val = 2 ∧ b.val = 0) then Fl.fin (1 / 2) else M a b) := by
    refine ⟨?_, ![![1, 0, 1 / 2], ![0, 1, 0], ![1 / 2, 0, 1]], ⟨fun i j _ => hR i j, ?_⟩, ?_⟩
    · intro a b
      simp only [hR]
      fin_cases a <;> fin_cases b <;> simp [closeTo] <;> norm_num
    · intro i j
      fin_cases i <;> fin_cases j <;> rfl
    · intro v
      simp only [Fin.sum_univ_three]
      simp
      nlinarith [sq_nonneg (v 0 + v 2), sq_nonneg (v 0), sq_nonneg (v 1), sq_nonneg (v 2)]
  exact (setItem_getItem ext hs (i := 0) (j := 2) (by decide) (by decide) (by decide)
    (by norm_num) M (fun a b => getItem_pair h1 a b) hpsd).1

/-- A repair that keeps the diagonal only. -/
def diagRepair : CovNearest := fun _ M i j => if i = j then M i i else .fin 0

/-- The contract assumed of `cov_nearest` can be met. -/
theorem diagRepair_ok : RepairOk diagRepair := by
  intro d M _ _ hfin hpos
  choose R hR using hfin
  refine ⟨⟨fun i j => if i = j then R i i else 0, ⟨?_, ?_⟩, ?_⟩, ?_⟩
  · intro i j _
    by_cases h : i = j
    · subst h; simp [diagRepair, hR]
    · simp [diagRepair, h]
  · intro i j
    by_cases h : i = j
    · subst h; simp
    · simp [h, Ne.symm h]
  · intro v
    have : 0 ≤ ∑ i, ∑ j, (if i = j then R i i else 0) * v i * v j := by
      apply Finset.sum_nonneg; intro i _
      apply Finset.sum_nonneg; intro j _
      by_cases h : i = j
      · subst h
        have := hpos i
        rw [hR, Fl.fin_lt_fin] at this
        simp only [if_true, mul_assoc]
        exact mul_nonneg this.le (mul_self_nonneg _)
      · simp [h]
    have h2 : 0 ≤ ∑ i, v i ^ 2 := Finset.sum_nonneg fun i _ => sq_nonneg _
    nlinarith
  · intro i; simp [diagRepair]

/-- An assignment that is refused, then one that succeeds. -/
example := history_success_psd diagRepair_ok (d := 3) (by norm_num) [(ixPair 0 1, .scalar (.fin 5))]
  (ixPair 0 2, .scalar (.fin (1 / 2))) (by simp [diagOk]) trivial (by
    simp only [Ell.run, List.foldl, setItem_badValue diagRepair (Ell.init 3) (ixPair 0 1) (v := 5) (by norm_num)]
    exact setItem_init_example diagRepair)

end Copulae
